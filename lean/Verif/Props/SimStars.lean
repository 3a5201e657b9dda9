import Verif.Props.SimImage

/-!
# The stars of the simulated variable-PSF frame (C103)
-/

namespace PI

variable {σ : Type}

/-- Flux of star number `k` of `n`, in order of drawing. -/
def starFlux (n k : ℕ) : ℚ := if n = 1 then 100 else 10000 - 9900 * k / (n - 1)

/-- `m` is an `N`×`N` frame with a star of flux `starFlux` at each position; where positions coincide the
star drawn last counts, and all other pixels are zero. -/
def StarField (N : ℕ) (x y : List ℤ) (m : Img ℚ) : Prop :=
  m.h = N ∧ m.w = N ∧ x.length = y.length ∧ ∀ r < N, ∀ c < N,
    ((∀ k : ℕ, x[k]? = some (r : ℤ) → y[k]? ≠ some (c : ℤ)) → m.px r c = 0) ∧
    ∀ k : ℕ, x[k]? = some (r : ℤ) → y[k]? = some (c : ℤ) →
      (∀ k' : ℕ, k < k' → x[k']? = some (r : ℤ) → y[k']? ≠ some (c : ℤ)) → m.px r c = starFlux x.length k

theorem linspace_star (n k : ℕ) (h : k < n) : (linspaceW n).getD ((linspaceW n).length - 1 - k) 0 = starFlux n k := by
  have hl : (linspaceW n).length = n := by unfold linspaceW; simp
  rw [hl]
  unfold linspaceW starFlux
  rw [List.getD_eq_getElem?_getD, List.getElem?_map, List.getElem?_range (by omega)]
  simp only [Option.map_some, Option.getD_some]
  by_cases h1 : n = 1
  · rw [if_pos h1, if_pos h1]
  · rw [if_neg h1, if_neg h1]
    have h2 : (n : ℚ) - 1 ≠ 0 := by
      intro hc
      have : (n : ℚ) = 1 := by linarith
      exact h1 (by exact_mod_cast this)
    have h3 : ((n - 1 - k : ℕ) : ℚ) = (n : ℚ) - 1 - k := by
      rw [Nat.cast_sub (by omega), Nat.cast_sub (by omega)]
      push_cast
      ring
    rw [h3]
    field_simp
    ring

/-- Placing stars at drawn positions inside of the frame. -/
theorem stars_placed (N : ℕ) (x y : List ℤ) (hl : x.length = y.length) (hx : ∀ v ∈ x, 0 ≤ v ∧ v < N)
    (hy : ∀ v ∈ y, 0 ≤ v ∧ v < N) :
    ∃ m, deltaPoint N false (some (.iter ((x.zip y).map fun p => ((p.1 : ℚ), (p.2 : ℚ)))))
      (some (linspaceW x.length)) = .ok m ∧ StarField N x y m := by
  have hw : (linspaceW x.length).length = x.length := by unfold linspaceW; simp
  have hpi : ∀ a : ℤ, pyInt (a : ℚ) = a := by
    intro a
    unfold pyInt
    split
    · exact Int.floor_intCast a
    · exact Int.ceil_intCast a
  have hpt : ∀ (k : ℕ) (p : ℚ × ℚ), (XY.iter ((x.zip y).map fun p => ((p.1 : ℚ), (p.2 : ℚ)))).points[k]? = some p ↔
      ∃ a b, x[k]? = some a ∧ y[k]? = some b ∧ p = ((a : ℚ), (b : ℚ)) := by
    intro k p
    change ((x.zip y).map fun p => ((p.1 : ℚ), (p.2 : ℚ)))[k]? = some p ↔ _
    rw [List.getElem?_map, Option.map_eq_some_iff]
    constructor
    · rintro ⟨q, hq, rfl⟩
      rw [List.getElem?_zip_eq_some] at hq
      exact ⟨q.1, q.2, hq.1, hq.2, rfl⟩
    · rintro ⟨a, b, ha, hb, rfl⟩
      exact ⟨(a, b), List.getElem?_zip_eq_some.2 ⟨ha, hb⟩, rfl⟩
  have hin : ∀ p ∈ (XY.iter ((x.zip y).map fun p => ((p.1 : ℚ), (p.2 : ℚ)))).points, inArr N p := by
    intro p hp
    obtain ⟨k, hk⟩ := List.mem_iff_getElem?.1 hp
    obtain ⟨a, b, ha, hb, rfl⟩ := (hpt k p).1 hk
    have h1 := hx a (List.mem_of_getElem? ha)
    have h2 := hy b (List.mem_of_getElem? hb)
    unfold inArr
    rw [hpi, hpi]
    omega
  obtain ⟨m, hm, h1, h2, h3⟩ := delta_point_ok N (.iter ((x.zip y).map fun p => ((p.1 : ℚ), (p.2 : ℚ))))
    (some (linspaceW x.length)) (.inl rfl) (by
      change ((x.zip y).map fun p => ((p.1 : ℚ), (p.2 : ℚ))).length ≤ (linspaceW x.length).length
      rw [hw, List.length_map, List.length_zip]
      omega) hin
  have hhit : ∀ (k : ℕ) (a b : ℤ), x[k]? = some a → y[k]? = some b → ∀ r c : ℕ,
      hits N ((a : ℚ), (b : ℚ)) r c → r < N → c < N → a = r ∧ b = c := by
    intro k a b ha hb r c hh hr hc
    have h1 := hx a (List.mem_of_getElem? ha)
    have h2 := hy b (List.mem_of_getElem? hb)
    unfold hits at hh
    rw [hpi, hpi] at hh
    omega
  refine ⟨m, hm, h1, h2, hl, fun r hr c hc => ⟨fun hno => ?_, fun k hk hk' hlast => ?_⟩⟩
  · refine (h3 r hr c hc).1 fun p hp hh => ?_
    obtain ⟨k, hk⟩ := List.mem_iff_getElem?.1 hp
    obtain ⟨a, b, ha, hb, rfl⟩ := (hpt k p).1 hk
    obtain ⟨rfl, rfl⟩ := hhit k a b ha hb r c hh hr hc
    exact hno k ha hb
  · have hkl : k < x.length := by
      by_contra hc'
      rw [List.getElem?_eq_none (by omega)] at hk
      cases hk
    rw [← linspace_star x.length k hkl]
    refine (h3 r hr c hc).2 k ((r : ℤ), (c : ℤ)) ((hpt k _).2 ⟨r, c, hk, hk', rfl⟩) ?_ fun k' hlt p' hp' hh => ?_
    · unfold hits
      rw [hpi, hpi]
      exact ⟨.inl rfl, .inl rfl⟩
    · obtain ⟨a, b, ha, hb, rfl⟩ := (hpt k' p').1 hp'
      obtain ⟨rfl, rfl⟩ := hhit k' a b ha hb r c hh hr hc
      exact hlast k' hlt ha hb

/-- The frame with real pixels. -/
def realFrame (m : Img ℚ) : Img ℝ := ⟨m.h, m.w, fun i j => ((m.px i j : ℚ) : ℝ)⟩

/-- C103: what a quadrant shows, with and without a seed: the drawn stars with their fluxes, blurred by
the PSF, the noise and the bias twice. -/
theorem varFrame_content (R : Rng σ) (hR : IntsOk R) (rot) (nstars : ℕ) (SN : ℝ) (N : ℕ) (seed : Option ℕ)
    (theta : ℚ) (g g' : σ) (a : Img ℝ) (h : varFrame R rot nstars SN N seed theta g = (.ok (some a), g')) :
    ∃ x y g1 g2 m p b,
      drawInts R (3 * max (5 + 5 * theta / 180) 5) ((N : ℚ) - 3 * max (5 + 5 * theta / 180) 5) (nstars / 4) g = (.ok x, g1) ∧
      drawInts R (3 * max (5 + 5 * theta / 180) 5) ((N : ℚ) - 3 * max (5 + 5 * theta / 180) 5) (nstars / 4) g1 = (.ok y, g2) ∧
      x.length = nstars / 4 ∧ StarField N x y m ∧
      psfTheta rot (5 * max (5 + 5 * theta / 180) 5) (5 + 5 * theta / 180) 5 theta = .ok (some p) ∧
      Brightest (convSame (realFrame m) p) b ∧ 0 ≤ b / SN ∧ a.h = N ∧ a.w = N ∧
      ∀ i < N, ∀ j < N, a.px i j = b / SN * (R.normal (noiseGen R seed g2) (N * N)).1 (i * N + j) +
        (convSame (realFrame m) p).px i j + 200 := by
  unfold varFrame at h
  obtain ⟨x, g1, hx, ha⟩ := (PyS.bind_eq_ok _ _ _ _ _).mp h
  obtain ⟨y, g2, hy, hb⟩ := (PyS.bind_eq_ok _ _ _ _ _).mp ha
  obtain ⟨m, g3, hm, hc⟩ := (PyS.bind_eq_ok _ _ _ _ _).mp hb
  obtain ⟨o, g4, ho, hd⟩ := (PyS.bind_eq_ok _ _ _ _ _).mp hc
  obtain ⟨lx, inx⟩ := draw_in_frame R hR theta N _ _ _ _ hx
  obtain ⟨ly, iny⟩ := draw_in_frame R hR theta N _ _ _ _ hy
  obtain ⟨m', hm', hf⟩ := stars_placed N x y (lx.trans ly.symm) (fun v hv => by have := inx v hv; omega)
    (fun v hv => by have := iny v hv; omega)
  rw [PyS.lift_app, hm'] at hm
  cases hm
  obtain ⟨mh, mw, _⟩ := hf
  have hr : o.map (fun a : Img ℝ => (⟨a.h, a.w, fun i j => a.px i j + 100⟩ : Img ℝ)) = some a := by
    have := congrArg Prod.fst hd
    exact Except.ok.inj this
  cases o with
  | none => cases hr
  | some q =>
    cases hr
    have ho' := congrArg Prod.fst ho
    cases hp : psfTheta rot (5 * max (xFwhm theta) 5) (xFwhm theta) 5 theta with
    | error e =>
      unfold simImage at ho'
      rw [hp] at ho'
      cases ho'
    | ok psf =>
      by_cases hN : N = 0
      · unfold simImage at ho'
        rw [hp] at ho'
        simp only [mh, hN, zero_mul, if_true] at ho'
        cases ho'
      · cases psf with
        | none =>
          exfalso
          unfold simImage at ho'
          rw [hp] at ho'
          cases seed <;>
          · simp only [mh, mw, mul_eq_zero, hN, or_self, if_false, Option.map_none, noise, addUp, addBc, imDim,
              if_true] at ho'
            cases ho'
        | some p =>
          obtain ⟨b, hbr, hg⟩ := image_gaussian R rot (realFrame m) N 1 (xFwhm theta) SN 5
            theta none seed 100 p hp hN mh mw
          change (simImage R rot (realFrame m) N 1 (xFwhm theta) SN 5 theta .gaussian none seed 100 g2).1 = _ at ho'
          rcases lt_or_ge (b / SN) 0 with hneg | hpos
          · rw [(hg g2).1 hneg] at ho'; cases ho'
          · obtain ⟨q', e, h1, h2, h3⟩ := (hg g2).2 hpos
            rw [e] at ho'
            obtain rfl : q' = q := Option.some.inj (Except.ok.inj ho')
            refine ⟨x, y, g1, g2, m, p, b, hx, hy, lx, ⟨mh, mw, by assumption⟩, hp, hbr, hpos, h1, h2,
              fun i hi j hj => ?_⟩
            change q'.px i j + 100 = b / SN * (R.normal (noiseGen R seed g2) (N * N)).1 (i * N + j) +
              (convSame (realFrame m) p).px i j + 200
            rw [h3 i hi j hj]
            ring

theorem starFlux_nonneg (n k : ℕ) (h : k < n) : 0 ≤ starFlux n k := by
  unfold starFlux
  by_cases h1 : n = 1
  · rw [if_pos h1]; norm_num
  · rw [if_neg h1]
    have h2 : (0 : ℚ) < (n : ℚ) - 1 := by
      have : ((2 : ℕ) : ℚ) ≤ n := by exact_mod_cast (by omega : 2 ≤ n)
      push_cast at this
      linarith
    have h3 : (k : ℚ) ≤ (n : ℚ) - 1 := by
      have : ((k + 1 : ℕ) : ℚ) ≤ n := by exact_mod_cast h
      push_cast at this
      linarith
    rw [sub_nonneg, div_le_iff₀ h2]
    linarith

theorem StarField.nonneg {N : ℕ} {x y : List ℤ} {m : Img ℚ} (h : StarField N x y m) (r c : ℕ) (hr : r < N)
    (hc : c < N) : 0 ≤ m.px r c := by
  classical
  obtain ⟨_, _, hl, hp⟩ := h
  obtain ⟨h0, h1⟩ := hp r hr c hc
  by_cases hex : ∃ k : ℕ, x[k]? = some (r : ℤ) ∧ y[k]? = some (c : ℤ)
  · have hlt : ∀ k : ℕ, x[k]? = some (r : ℤ) → k < x.length := fun k hk => (List.getElem?_eq_some_iff.1 hk).1
    have hP := Nat.findGreatest_spec (P := fun k => x[k]? = some (r : ℤ) ∧ y[k]? = some (c : ℤ))
      (n := x.length) (m := hex.choose) (le_of_lt (hlt _ hex.choose_spec.1)) hex.choose_spec
    rw [h1 _ hP.1 hP.2 fun k' hk' hx hy => ?_]
    · exact starFlux_nonneg _ _ (hlt _ hP.1)
    · have := Nat.le_findGreatest (P := fun k => x[k]? = some (r : ℤ) ∧ y[k]? = some (c : ℤ))
        (n := x.length) (le_of_lt (hlt _ hx)) ⟨hx, hy⟩
      omega
  · rw [h0 fun k hx hy => hex ⟨k, hx, hy⟩]

/-- C103: without rotation, every quadrant of more than 30 pixels can be made. -/
theorem varFrame_returns (R : Rng σ) (hR : IntsOk R) (rot) (nstars : ℕ) (SN : ℝ) (N : ℕ) (seed : Option ℕ)
    (g : σ) (hN : 30 < N) (hS : 0 ≤ SN) : ∃ a g', varFrame R rot nstars SN N seed 0 g = (.ok (some a), g') := by
  have hfw : max (xFwhm 0) 5 = 5 := by unfold xFwhm; norm_num
  have hdraw : ∀ g, ∃ l g', drawInts R (3 * max (xFwhm 0) 5) ((N : ℚ) - 3 * max (xFwhm 0) 5) (nstars / 4) g =
      (.ok l, g') := by
    intro g
    unfold drawInts
    by_cases hn : nstars / 4 = 0
    · rw [if_pos hn]; exact ⟨_, _, rfl⟩
    · rw [if_neg hn, if_neg]
      · exact ⟨_, _, rfl⟩
      · rw [hfw]
        have h1 : (3 * 5 : ℚ) = ((15 : ℤ) : ℚ) := by norm_num
        have h2 : (N : ℚ) - 3 * 5 = (((N : ℤ) - 15 : ℤ) : ℚ) := by push_cast; ring
        rw [h2, h1, pyInt_nonneg_eq (by exact_mod_cast (by omega : (0 : ℤ) ≤ (N : ℤ) - 15)),
          pyInt_nonneg_eq (by norm_num), Int.floor_intCast, Int.floor_intCast]
        omega
  obtain ⟨x, g1, hx⟩ := hdraw g
  obtain ⟨y, g2, hy⟩ := hdraw g1
  obtain ⟨lx, inx⟩ := draw_in_frame R hR 0 N _ _ _ _ hx
  obtain ⟨ly, iny⟩ := draw_in_frame R hR 0 N _ _ _ _ hy
  obtain ⟨m, hm, hf⟩ := stars_placed N x y (lx.trans ly.symm) (fun v hv => by have := inx v hv; omega)
    (fun v hv => by have := iny v hv; omega)
  have hp : ∃ p, psfTheta rot (5 * max (xFwhm 0) 5) (xFwhm 0) 5 0 = .ok (some p) ∧ ∀ i < p.h, ∀ j < p.w, 0 ≤ p.px i j := by
    rw [psfTheta_zero, show xFwhm 0 = 5 by unfold xFwhm; norm_num]
    obtain ⟨o, ho, hn, hq⟩ := psf_ok (5 * max 5 5) 5 5 (by norm_num) (by norm_num) (by norm_num)
    cases o with
    | some p =>
      obtain ⟨q1, q2, _, q3, _⟩ := hq p rfl
      exact ⟨p, ho, fun i hi j hj => q3 i (q1 ▸ hi) j (q2 ▸ hj)⟩
    | none =>
      have := hn.mp rfl
      unfold yWidth sigmaOf at this
      norm_num at this
  obtain ⟨p, hp, hp0⟩ := hp
  obtain ⟨mh, mw, _⟩ := id hf
  obtain ⟨b, ⟨-, i, -, j, -, hb⟩, hg⟩ := image_gaussian R rot (realFrame m) N 1 (xFwhm 0) SN 5 0
    none seed 100 p hp (by omega) mh mw
  have hb0 : 0 ≤ b := by
    rw [← hb]
    unfold convSame
    simp only []
    refine Finset.sum_nonneg (N := ℝ) fun k hk => Finset.sum_nonneg (N := ℝ) fun l hl => ?_
    rw [Finset.mem_range] at hk hl
    split
    · rename_i hc
      refine mul_nonneg ?_ (hp0 _ hk _ hl)
      change 0 ≤ ((m.px _ _ : ℚ) : ℝ)
      have h1 : (realFrame m).h = N := mh
      have h2 : (realFrame m).w = N := mw
      rw [h1, h2] at hc
      exact_mod_cast hf.nonneg _ _ (by omega) (by omega)
    · exact le_refl _
  obtain ⟨a, ha, -⟩ := (hg g2).2 (div_nonneg hb0 hS)
  refine ⟨⟨a.h, a.w, fun i j => a.px i j + 100⟩,
    (simImage R rot (realFrame m) N 1 (xFwhm 0) SN 5 0 .gaussian none seed 100 g2).2, ?_⟩
  unfold varFrame
  refine (PyS.bind_ok _ _ _ _ _ hx).trans ?_
  refine (PyS.bind_ok _ _ _ _ _ hy).trans ?_
  refine (PyS.bind_ok _ _ g2 g2 m (by rw [PyS.lift_app, hm])).trans ?_
  refine (PyS.bind_ok _ _ g2 _ (some a) (Prod.ext ha rfl)).trans ?_
  rfl

/-- Three stars: 10000, 5050 and 100. -/
example : (List.range 3).map (starFlux 3) = [10000, 5050, 100] := by decide +kernel

end PI
