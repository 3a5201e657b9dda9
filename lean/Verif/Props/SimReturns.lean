import Verif.Props.SimStars

/-!
# When `sim_varpsf` returns (C73, C103)
-/

namespace PI

variable {σ : Type}

/-- No field of stars convolved with `p` is negative throughout: what the normal generator needs of the rotated PSF, whose
pixels may be slightly negative after an interpolation. -/
def NeverDark (N : ℕ) (p : Img ℝ) : Prop :=
  ∀ m : Img ℝ, m.h = N → m.w = N → (∀ i < N, ∀ j < N, 0 ≤ m.px i j) → ∃ i < N, ∃ j < N, 0 ≤ (convSame m p).px i j

/-- A PSF without negative pixels is one. -/
theorem neverDark_of_nonneg {N : ℕ} (hN : N ≠ 0) {p : Img ℝ} (hp : ∀ i < p.h, ∀ j < p.w, 0 ≤ p.px i j) :
    NeverDark N p := by
  intro m mh mw hm
  refine ⟨0, by omega, 0, by omega, ?_⟩
  unfold convSame
  simp only []
  refine Finset.sum_nonneg (N := ℝ) fun k hk => Finset.sum_nonneg (N := ℝ) fun l hl => ?_
  rw [Finset.mem_range] at hk hl
  split
  · rename_i hc
    rw [mh, mw] at hc
    exact mul_nonneg (hm _ (by omega) _ (by omega)) (hp _ hk _ hl)
  · exact le_refl _

/-- C103: every quadrant can be made, whatever its angle above -180 degrees, if there are fewer than four stars or the
frame has room between its margins, and if the rotated PSF is not negative on the whole; it is NaN throughout if the pixels of
the rotated PSF sum to zero. -/
theorem varFrame_made (R : Rng σ) (hR : IntsOk R) (rot) (nstars : ℕ) (SN : ℝ) (N : ℕ) (seed : Option ℕ) (theta : ℚ)
    (g : σ) (hN : N ≠ 0) (hS : 0 ≤ SN) (ht : -180 < theta)
    (room : nstars < 4 ∨ pyInt (3 * max (5 + 5 * theta / 180) 5) < pyInt ((N : ℚ) - 3 * max (5 + 5 * theta / 180) 5))
    (hp : ∀ p, psfTheta rot (5 * max (5 + 5 * theta / 180) 5) (5 + 5 * theta / 180) 5 theta = .ok (some p) →
      NeverDark N p) :
    ∃ o g', varFrame R rot nstars SN N seed theta g = (.ok o, g') ∧
      (o = none ↔ psfTheta rot (5 * max (5 + 5 * theta / 180) 5) (5 + 5 * theta / 180) 5 theta = .ok none) := by
  have hdraw : ∀ g, ∃ l g', drawInts R (3 * max (xFwhm theta) 5) ((N : ℚ) - 3 * max (xFwhm theta) 5) (nstars / 4) g =
      (.ok l, g') := by
    intro g
    unfold drawInts
    by_cases hn : nstars / 4 = 0
    · rw [if_pos hn]; exact ⟨_, _, rfl⟩
    · rw [if_neg hn, if_neg]
      · exact ⟨_, _, rfl⟩
      · exact not_le.2 (room.resolve_left (by omega))
  obtain ⟨x, g1, hx⟩ := hdraw g
  obtain ⟨y, g2, hy⟩ := hdraw g1
  obtain ⟨lx, inx⟩ := draw_in_frame R hR theta N _ _ _ _ hx
  obtain ⟨ly, iny⟩ := draw_in_frame R hR theta N _ _ _ _ hy
  obtain ⟨m, hm, hf⟩ := stars_placed N x y (lx.trans ly.symm) (fun v hv => by have := inx v hv; omega)
    (fun v hv => by have := iny v hv; omega)
  obtain ⟨mh, mw, _⟩ := id hf
  have hX : 0 < xFwhm theta := by unfold xFwhm; linarith
  obtain ⟨o, ho⟩ := psfTheta_ok rot (5 * max (xFwhm theta) 5) (xFwhm theta) 5 theta
    (by have := le_max_right (xFwhm theta) 5; linarith) hX
  have step : ∀ q g3, simImage R rot (realFrame m) N 1 (xFwhm theta) SN 5 theta .gaussian none seed 100 g2 = (.ok q, g3) →
      varFrame R rot nstars SN N seed theta g =
        (.ok (q.map fun a : Img ℝ => (⟨a.h, a.w, fun i j => a.px i j + 100⟩ : Img ℝ)), g3) := by
    intro q g3 h
    unfold varFrame
    refine (PyS.bind_ok _ _ _ _ _ hx).trans ?_
    refine (PyS.bind_ok _ _ _ _ _ hy).trans ?_
    refine (PyS.bind_ok _ _ g2 g2 m (by rw [PyS.lift_app, hm])).trans ?_
    exact (PyS.bind_ok _ _ g2 _ _ h).trans rfl
  cases o with
  | none =>
    have e : ∃ g3, simImage R rot (realFrame m) N 1 (xFwhm theta) SN 5 theta .gaussian none seed 100 g2 = (.ok none, g3) := by
      have h1 : (realFrame m).h = N := mh
      have h2 : (realFrame m).w = N := mw
      unfold simImage
      rw [ho]
      cases seed <;>
      · simp only [h1, h2, mul_eq_zero, hN, or_self, if_false, Option.map_none, noise, addUp, addBc, imDim, if_true]
        exact ⟨_, rfl⟩
    obtain ⟨g3, e⟩ := e
    exact ⟨none, g3, step none g3 e, ⟨fun _ => ho, fun _ => rfl⟩⟩
  | some p =>
    obtain ⟨b, ⟨hmax, -⟩, hg⟩ := image_gaussian R rot (realFrame m) N 1 (xFwhm theta) SN 5 theta none seed 100 p ho hN mh mw
    obtain ⟨i, hi, j, hj, h0⟩ := hp p ho (realFrame m) mh mw fun i hi j hj => by
      change 0 ≤ ((m.px i j : ℚ) : ℝ)
      exact_mod_cast hf.nonneg i j hi hj
    have hb0 : 0 ≤ b := h0.trans (hmax i (by change i < m.h; omega) j (by change j < m.w; omega))
    obtain ⟨a, ha, -⟩ := (hg g2).2 (div_nonneg hb0 hS)
    refine ⟨_, _, step (some a) _ (Prod.ext ha rfl), ⟨fun h => (by cases h), fun h => ?_⟩⟩
    change psfTheta rot (5 * max (xFwhm theta) 5) (xFwhm theta) 5 theta = .ok none at h
    rw [ho] at h
    cases h

/-- C73: `sim_varpsf` returns a frame whenever at least four angles are given and every quadrant can be made. -/
theorem sim_varpsf_returns (R : Rng σ) (hR : IntsOk R) (rot) (nstars : ℕ) (SN : ℝ) (thetas : List ℚ) (N : ℕ)
    (seed : Option ℕ) (g : σ) (hN : N ≠ 0) (hS : 0 ≤ SN) (h4 : 4 ≤ thetas.length) (ht : ∀ t ∈ thetas, -180 < t)
    (room : nstars < 4 ∨ ∀ t ∈ thetas, pyInt (3 * max (5 + 5 * t / 180) 5) < pyInt ((N : ℚ) - 3 * max (5 + 5 * t / 180) 5))
    (hp : ∀ t ∈ thetas, ∀ p, psfTheta rot (5 * max (5 + 5 * t / 180) 5) (5 + 5 * t / 180) 5 t = .ok (some p) →
      NeverDark N p) :
    ∃ f, (simVarpsf R rot nstars SN thetas N seed g).1 = .ok f ∧ f.h = 2 * N ∧ f.w = 2 * N := by
  have all : ∀ (l : List ℚ), (∀ t ∈ l, t ∈ thetas) → ∀ g, ∃ fs g', varFrames R rot nstars SN N seed l g = (.ok fs, g') := by
    intro l
    induction l with
    | nil => exact fun _ g => ⟨[], g, rfl⟩
    | cons t l ih =>
      intro hl g
      have hm := hl t (List.mem_cons_self ..)
      obtain ⟨o, g1, e1, -⟩ := varFrame_made R hR rot nstars SN N seed t g hN hS (ht t hm) (room.imp_right fun r => r t hm) (hp t hm)
      obtain ⟨fs, g2, e2⟩ := ih (fun t h => hl t (List.mem_cons_of_mem _ h)) g1
      refine ⟨o :: fs, g2, ?_⟩
      unfold varFrames
      exact (PyS.bind_ok _ _ _ _ _ e1).trans ((PyS.bind_ok _ _ _ _ _ e2).trans rfl)
  have four : ∀ (fs : List (Option (Img ℝ))), fs.length = thetas.length → ∃ f, tile N fs = .ok f ∧ f.h = 2 * N ∧ f.w = 2 * N := by
    intro fs hl
    match fs, hl with
    | f0 :: f1 :: f2 :: f3 :: rest, _ =>
      obtain ⟨f, e, h1, h2, -⟩ := tile_px N f0 f1 f2 f3 rest
      exact ⟨f, e, h1, h2⟩
    | [], hl => simp at hl; omega
    | [_], hl => simp at hl; omega
    | [_, _], hl => simp at hl; omega
    | [_, _, _], hl => simp at hl; omega
  unfold simVarpsf
  cases seed with
  | none =>
    obtain ⟨fs, g', e⟩ := all thetas (fun _ h => h) g
    simp only [e]
    exact four fs (varFrames_length R rot nstars SN N _ thetas _ _ _ e)
  | some s =>
    obtain ⟨fs, g', e⟩ := all thetas (fun _ h => h) (R.seed s)
    simp only [e]
    exact four fs (varFrames_length R rot nstars SN N _ thetas _ _ _ e)

/-- The angles of the default call on frames of 512 pixels, for a rotation that leaves every pixel as it is. -/
example (nstars : ℕ) (seed : Option ℕ) :
    ∃ f, (simVarpsf zeroRng (fun a _ => a) nstars 30 [0, 45, 105, 150] 512 seed ()).1 = .ok f ∧ f.h = 1024 ∧ f.w = 1024 := by
  have hR : IntsOk zeroRng := by
    intro g lo hi n h
    refine ⟨by simp [zeroRng], fun x hx => ?_⟩
    simp only [zeroRng, List.mem_replicate] at hx
    omega
  refine sim_varpsf_returns zeroRng hR _ nstars 30 _ 512 seed () (by norm_num) (by norm_num) (by simp) (by simp; norm_num)
    (.inr fun t ht => ?_) fun t ht p h => ?_
  · simp only [List.mem_cons, List.not_mem_nil, or_false] at ht
    rcases ht with rfl | rfl | rfl | rfl <;> decide +kernel
  · refine neverDark_of_nonneg (by norm_num) fun i hi j hj => ?_
    have h5 : (5 : ℚ) ≤ max (5 + 5 * t / 180) 5 := le_max_right _ _
    have ht0 : 0 ≤ t := by
      simp only [List.mem_cons, List.not_mem_nil, or_false] at ht
      rcases ht with rfl | rfl | rfl | rfl <;> norm_num
    have e : psfTheta (fun a _ => a) (5 * max (5 + 5 * t / 180) 5) (5 + 5 * t / 180) 5 t =
        simPsf (5 * max (5 + 5 * t / 180) 5) (5 + 5 * t / 180) 5 := by
      unfold psfTheta simPsf
      simp only [ite_self]
    obtain ⟨o, ho, -, hq⟩ := psf_ok (5 * max (5 + 5 * t / 180) 5) (5 + 5 * t / 180) 5 (by linarith) (by linarith) (by norm_num)
    rw [e, ho] at h
    cases h
    obtain ⟨q1, q2, -, q3, -⟩ := hq p rfl
    exact q3 i (q1 ▸ hi) j (q2 ▸ hj)

end PI
