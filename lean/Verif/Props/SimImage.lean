import Verif.Model.SimImage
import Verif.Props.SimPsf
import Verif.Props.SimShape

/-!
# Simulated images (C73, C74)
-/

namespace PI

variable {σ : Type}

theorem psfTheta_zero (rot : Img ℝ → ℚ → Img ℝ) (N X Y : ℚ) : psfTheta rot N X Y 0 = simPsf N X Y := by
  unfold psfTheta simPsf
  simp only [if_true]

/-- Sum of all pixels. -/
noncomputable def imgTotal (a : Img ℝ) : ℝ := ∑ i ∈ Finset.range a.h, ∑ j ∈ Finset.range a.w, a.px i j

/-- Building the PSF never raises, rotated or not. -/
theorem psfTheta_ok (rot : Img ℝ → ℚ → Img ℝ) (N X Y theta : ℚ) (hN : 1 ≤ N) (hX : 0 < X) :
    ∃ o, psfTheta rot N X Y theta = .ok o := by
  obtain ⟨b1, b2, b3⟩ := psfRange_bounds N X (if Y = 0 then X else Y) hN hX
  have hfl : 1 ≤ ⌊N⌋ := Int.le_floor.mpr (by push_cast; exact hN)
  unfold psfTheta
  simp only [show pyInt N = ⌊N⌋ from pyInt_nonneg_eq (by linarith)]
  obtain ⟨b, hb, -⟩ := setItems_square (⟨⌊N⌋.toNat, ⌊N⌋.toNat, fun _ _ => (0 : ℝ)⟩ : Img ℝ) _ _
    (fun i j => normPdf i (((N - 1) / 2 : ℚ) : ℝ) (sigmaOf X : ℚ) *
      normPdf j (((N - 1) / 2 : ℚ) : ℝ) (sigmaOf (if Y = 0 then X else Y) : ℚ)) rfl b2 (by simp only []; omega)
    (by simp only []; omega)
  exact ⟨_, by rw [hb]; rfl⟩

/-- C74: the rotated PSF is the image of the unrotated one before normalisation, rotated by the angle as given and
divided by its own sum (`none`: this sum is zero and every pixel is NaN). -/
theorem psfTheta_rotated (N X Y : ℚ) (hN : 1 ≤ N) (hX : 0 < X) :
    ∃ a : Img ℝ, simPsf N X Y = .ok (divSum a) ∧ ∀ (rot : Img ℝ → ℚ → Img ℝ) (theta : ℚ), theta ≠ 0 →
      ∃ o, psfTheta rot N X Y theta = .ok o ∧
        (o = none ↔ imgTotal (rot a theta) = 0) ∧
        ∀ p, o = some p → p.h = (rot a theta).h ∧ p.w = (rot a theta).w ∧
          ∀ i j, p.px i j = (rot a theta).px i j / imgTotal (rot a theta) := by
  obtain ⟨b1, b2, b3⟩ := psfRange_bounds N X (if Y = 0 then X else Y) hN hX
  have hfl : 1 ≤ ⌊N⌋ := Int.le_floor.mpr (by push_cast; exact hN)
  obtain ⟨b, hb, -⟩ := setItems_square (⟨⌊N⌋.toNat, ⌊N⌋.toNat, fun _ _ => (0 : ℝ)⟩ : Img ℝ) _ _
    (fun i j => normPdf i (((N - 1) / 2 : ℚ) : ℝ) (sigmaOf X : ℚ) *
      normPdf j (((N - 1) / 2 : ℚ) : ℝ) (sigmaOf (if Y = 0 then X else Y) : ℚ)) rfl b2 (by simp only []; omega)
    (by simp only []; omega)
  have hpy : pyInt N = ⌊N⌋ := pyInt_nonneg_eq (by linarith)
  refine ⟨b, ?_, ?_⟩
  · rw [← psfTheta_zero fun x _ => x]
    unfold psfTheta
    simp only [hpy]
    rw [hb]
    simp only [if_true]
    rfl
  · intro rot theta ht
    refine ⟨divSum (rot b theta), ?_, ?_, ?_⟩
    · unfold psfTheta
      simp only [hpy]
      rw [hb]
      simp only [if_neg ht]
      rfl
    · unfold divSum imgTotal
      simp only []
      split <;> simp_all
    · intro p hp
      unfold divSum at hp
      simp only [] at hp
      split at hp
      · cases hp
      · cases hp
        exact ⟨rfl, rfl, fun _ _ => rfl⟩

/-- C74: a single source of value `v` at `(x, y)` is replaced by `v` times the PSF, whose pixel
`((h-1)//2, (w-1)//2)` comes to lie on the source. -/
theorem conv_delta (gal p : Img ℝ) (x y : ℕ) (v : ℝ) (hx : x < gal.h) (hy : y < gal.w)
    (hg : ∀ i < gal.h, ∀ j < gal.w, gal.px i j = if i = x ∧ j = y then v else 0) (i j : ℕ) :
    (convSame gal p).px i j =
      if x ≤ i + (p.h - 1) / 2 ∧ i + (p.h - 1) / 2 - x < p.h ∧ y ≤ j + (p.w - 1) / 2 ∧ j + (p.w - 1) / 2 - y < p.w
      then v * p.px (i + (p.h - 1) / 2 - x) (j + (p.w - 1) / 2 - y) else 0 := by
  unfold convSame
  simp only []
  generalize (p.h - 1) / 2 = ch
  generalize (p.w - 1) / 2 = cw
  have hterm : ∀ k l : ℕ, (if k ≤ i + ch ∧ i + ch < k + gal.h ∧ l ≤ j + cw ∧ j + cw < l + gal.w
      then gal.px (i + ch - k) (j + cw - l) * p.px k l else 0) =
      if x ≤ i + ch ∧ y ≤ j + cw ∧ k = i + ch - x ∧ l = j + cw - y then v * p.px k l else 0 := by
    intro k l
    by_cases h1 : k ≤ i + ch ∧ i + ch < k + gal.h ∧ l ≤ j + cw ∧ j + cw < l + gal.w
    · rw [if_pos h1, hg _ (by omega) _ (by omega)]
      by_cases h2 : i + ch - k = x ∧ j + cw - l = y
      · rw [if_pos h2, if_pos (by omega)]
      · rw [if_neg h2, if_neg (by omega), zero_mul]
    · rw [if_neg h1, if_neg (by omega)]
  simp only [hterm]
  by_cases h : x ≤ i + ch ∧ i + ch - x < p.h ∧ y ≤ j + cw ∧ j + cw - y < p.w
  · rw [if_pos h, Finset.sum_eq_single_of_mem (i + ch - x) (Finset.mem_range.mpr h.2.1),
      Finset.sum_eq_single_of_mem (j + cw - y) (Finset.mem_range.mpr h.2.2.2)]
    · rw [if_pos ⟨h.1, h.2.2.1, rfl, rfl⟩]
    · intro l _ hl; rw [if_neg (fun e => hl e.2.2.2)]
    · intro k _ hk
      exact Finset.sum_eq_zero fun l _ => if_neg fun e => hk e.2.2.1
  · rw [if_neg h]
    refine Finset.sum_eq_zero fun k hk => Finset.sum_eq_zero fun l hl => if_neg ?_
    rw [Finset.mem_range] at hk hl
    rintro ⟨e1, e2, rfl, rfl⟩
    exact h ⟨e1, hk, e2, hl⟩

theorem npMax_ok (a : Img ℝ) (h : a.h * a.w ≠ 0) : ∃ b, npMax a = .ok b ∧
    (∀ i < a.h, ∀ j < a.w, a.px i j ≤ b) ∧ ∃ i < a.h, ∃ j < a.w, a.px i j = b := by
  have hne : (Finset.range a.h ×ˢ Finset.range a.w).Nonempty := by
    refine ⟨(0, 0), ?_⟩
    rw [Finset.mem_product, Finset.mem_range, Finset.mem_range]
    exact ⟨Nat.pos_of_ne_zero (fun e => h (by simp [e])), Nat.pos_of_ne_zero (fun e => h (by simp [e]))⟩
  refine ⟨_, dif_pos hne, fun i hi j hj => ?_, ?_⟩
  · exact Finset.le_sup' (fun p : ℕ × ℕ => a.px p.1 p.2)
      (Finset.mem_product.mpr ⟨Finset.mem_range.mpr hi, Finset.mem_range.mpr hj⟩ : (i, j) ∈ _)
  · obtain ⟨q, hq, e⟩ := Finset.exists_mem_eq_sup' hne fun p : ℕ × ℕ => a.px p.1 p.2
    rw [Finset.mem_product, Finset.mem_range, Finset.mem_range] at hq
    exact ⟨q.1, hq.1, q.2, hq.2, e.symm⟩

theorem imIdx_of (n i : ℕ) (h : i < n) : imIdx n i = i := by unfold imIdx; split <;> omega

/-- The brightest pixel of the master convolved with the PSF. -/
def Brightest (im : Img ℝ) (b : ℝ) : Prop :=
  (∀ i < im.h, ∀ j < im.w, im.px i j ≤ b) ∧ ∃ i < im.h, ∃ j < im.w, im.px i j = b

/-- Signal, noise and bias add up. -/
theorem addUp_square (N : ℕ) (C IM : Img ℝ) (hC : C.h = N) (hC' : C.w = N) (hI : IM.h = N) (hI' : IM.w = N)
    (bias : ℝ) : ∃ a, addUp N (some C) (some IM) N N bias = .ok (some a) ∧ a.h = N ∧ a.w = N ∧
      ∀ i < N, ∀ j < N, a.px i j = C.px i j + IM.px i j + bias := by
  refine ⟨_, by simp [addUp, addBc, imDim, hC, hC', hI, hI', Except.map, pure, Except.pure, bind, Except.bind]; rfl,
    rfl, rfl, fun i hi j hj => ?_⟩
  simp only [imIdx_of N i hi, imIdx_of N j hj]

/-- What a successful PSF and a non-empty master lead to: the noise is drawn for the brightest pixel. -/
theorem simImage_of_psf (R : Rng σ) (rot) (MF : Img ℝ) (N : ℕ) (tExp : ℝ) (X : ℚ) (SN : ℝ) (Y theta : ℚ)
    (pdf : BkgPdf) (std : Option ℝ) (seed : Option ℕ) (bias : ℝ) (p : Img ℝ)
    (hp : psfTheta rot (5 * max X Y) X Y theta = .ok (some p)) (hM : MF.h * MF.w ≠ 0) :
    ∃ b, Brightest (convSame MF p) b ∧ ∀ g,
      simImage R rot MF N tExp X SN Y theta pdf std seed bias g =
        match seed with
        | some s =>
          match noise R pdf (some b) SN N (R.seed s) with
          | (.error e, _) => (.error e, g)
          | (.ok C, _) => (addUp N C (some (convSame MF p)) MF.h MF.w bias, g)
        | none =>
          match noise R pdf (some b) SN N g with
          | (.error e, g') => (.error e, g')
          | (.ok C, g') => (addUp N C (some (convSame MF p)) MF.h MF.w bias, g') := by
  obtain ⟨b, hb, h1, h2⟩ := npMax_ok (convSame MF p) hM
  refine ⟨b, ⟨h1, h2⟩, fun g => ?_⟩
  unfold simImage
  rw [hp]
  simp only [if_neg hM, Option.map_some, hb, Except.map]
  rfl

/-- The generator the noise is drawn from. -/
def noiseGen (R : Rng σ) (seed : Option ℕ) (g : σ) : σ := (seed.map R.seed).getD g

/-- C74: Gaussian noise. For an `N`×`N` master the result is, pixel by pixel, `b/SN` times standard normal noise
plus the convolved master plus the bias, `b` being the brightest pixel of the convolved master. -/
theorem image_gaussian (R : Rng σ) (rot) (MF : Img ℝ) (N : ℕ) (tExp : ℝ) (X : ℚ) (SN : ℝ) (Y theta : ℚ)
    (std : Option ℝ) (seed : Option ℕ) (bias : ℝ) (p : Img ℝ)
    (hp : psfTheta rot (5 * max X Y) X Y theta = .ok (some p)) (hN : N ≠ 0) (hh : MF.h = N) (hw : MF.w = N) :
    ∃ b, Brightest (convSame MF p) b ∧ ∀ g,
      (b / SN < 0 → (simImage R rot MF N tExp X SN Y theta .gaussian std seed bias g).1 = .error .ValueError) ∧
      (0 ≤ b / SN → ∃ a, (simImage R rot MF N tExp X SN Y theta .gaussian std seed bias g).1 = .ok (some a) ∧
        a.h = N ∧ a.w = N ∧ ∀ i < N, ∀ j < N, a.px i j =
          b / SN * (R.normal (noiseGen R seed g) (N * N)).1 (i * N + j) + (convSame MF p).px i j + bias) := by
  have hM : MF.h * MF.w ≠ 0 := by rw [hh, hw]; exact Nat.mul_ne_zero hN hN
  obtain ⟨b, hb, h⟩ := simImage_of_psf R rot MF N tExp X SN Y theta .gaussian std seed bias p hp hM
  refine ⟨b, hb, fun g => ⟨fun hneg => ?_, fun hpos => ?_⟩⟩
  · rw [h g]
    cases seed <;> simp only [noise, if_pos hneg]
  · obtain ⟨a, ha, h1, h2, h3⟩ := addUp_square N
      ⟨N, N, fun i j => b / SN * (R.normal (noiseGen R seed g) (N * N)).1 (i * N + j)⟩ (convSame MF p) rfl rfl hh hw bias
    refine ⟨a, ?_, h1, h2, h3⟩
    rw [h g, ← ha, hh, hw]
    cases seed <;> simp only [noise, if_neg (not_lt.mpr hpos)] <;> rfl

/-- C74: Poisson noise of mean `b/SN`. -/
theorem image_poisson (R : Rng σ) (rot) (MF : Img ℝ) (N : ℕ) (tExp : ℝ) (X : ℚ) (SN : ℝ) (Y theta : ℚ)
    (std : Option ℝ) (seed : Option ℕ) (bias : ℝ) (p : Img ℝ)
    (hp : psfTheta rot (5 * max X Y) X Y theta = .ok (some p)) (hN : N ≠ 0) (hh : MF.h = N) (hw : MF.w = N) :
    ∃ b, Brightest (convSame MF p) b ∧ ∀ g,
      (b / SN < 0 → (simImage R rot MF N tExp X SN Y theta .poisson std seed bias g).1 = .error .ValueError) ∧
      (0 ≤ b / SN → ∃ a, (simImage R rot MF N tExp X SN Y theta .poisson std seed bias g).1 = .ok (some a) ∧
        a.h = N ∧ a.w = N ∧ ∀ i < N, ∀ j < N, a.px i j =
          (R.poisson (noiseGen R seed g) (b / SN) (N * N)).1 (i * N + j) + (convSame MF p).px i j + bias) := by
  have hM : MF.h * MF.w ≠ 0 := by rw [hh, hw]; exact Nat.mul_ne_zero hN hN
  obtain ⟨b, hb, h⟩ := simImage_of_psf R rot MF N tExp X SN Y theta .poisson std seed bias p hp hM
  refine ⟨b, hb, fun g => ⟨fun hneg => ?_, fun hpos => ?_⟩⟩
  · rw [h g]
    cases seed <;> simp only [noise, if_pos hneg]
  · obtain ⟨a, ha, h1, h2, h3⟩ := addUp_square N
      ⟨N, N, fun i j => (R.poisson (noiseGen R seed g) (b / SN) (N * N)).1 (i * N + j)⟩ (convSame MF p) rfl rfl hh hw bias
    refine ⟨a, ?_, h1, h2, h3⟩
    rw [h g, ← ha, hh, hw]
    cases seed <;> simp only [noise, if_neg (not_lt.mpr hpos)] <;> rfl

/-- C74: any other noise name raises UnboundLocalError. -/
theorem image_unknown (R : Rng σ) (rot) (MF : Img ℝ) (N : ℕ) (tExp : ℝ) (X : ℚ) (SN : ℝ) (Y theta : ℚ)
    (std : Option ℝ) (seed : Option ℕ) (bias : ℝ) (name : String)
    (hX : 0 < X) (hN : 1 ≤ 5 * max X Y) (hM : MF.h * MF.w ≠ 0) (g : σ) :
    simImage R rot MF N tExp X SN Y theta (.other name) std seed bias g = (.error .UnboundLocalError, g) := by
  obtain ⟨o, ho⟩ := psfTheta_ok rot (5 * max X Y) X Y theta hN hX
  cases o with
  | some p =>
    obtain ⟨b, -, h⟩ := simImage_of_psf R rot MF N tExp X SN Y theta (.other name) std seed bias p ho hM
    rw [h g]
    cases seed <;> rfl
  | none =>
    unfold simImage
    rw [ho]
    simp only [if_neg hM, Option.map_none]
    cases seed <;> rfl

/-- C74: a master of another shape (with no side equal to 1) fails, whatever the noise. -/
theorem image_shape (R : Rng σ) (rot) (MF : Img ℝ) (N : ℕ) (tExp : ℝ) (X : ℚ) (SN : ℝ) (Y theta : ℚ)
    (pdf : BkgPdf) (std : Option ℝ) (seed : Option ℕ) (bias : ℝ)
    (hN1 : N ≠ 1) (h1 : MF.h ≠ 1) (h1' : MF.w ≠ 1) (hne : MF.h ≠ N ∨ MF.w ≠ N) (g : σ) :
    ∃ e, (simImage R rot MF N tExp X SN Y theta pdf std seed bias g).1 = .error e := by
  have hbc : ∀ C IM, ∃ e, addUp N C IM MF.h MF.w bias = .error e ∨
      ∃ c im, C = some c ∧ IM = some im := by
    intro C IM
    cases C with
    | some c =>
      cases IM with
      | some im => exact ⟨.ValueError, .inr ⟨c, im, rfl, rfl⟩⟩
      | none =>
        refine ⟨.ValueError, .inl ?_⟩
        simp only [addUp, addBc, imDim]
        by_cases hh : N = MF.h
        · have hw : N ≠ MF.w := by rcases hne with h | h
                                   · exact absurd hh.symm h
                                   · exact fun e => h e.symm
          simp [← hh, hN1, hw, h1', bind, Except.bind, Except.map]
        · simp [hh, hN1, h1, bind, Except.bind, Except.map]
    | none =>
      refine ⟨.ValueError, .inl ?_⟩
      simp only [addUp, addBc, imDim]
      by_cases hh : N = MF.h
      · have hw : N ≠ MF.w := by rcases hne with h | h
                                 · exact absurd hh.symm h
                                 · exact fun e => h e.symm
        simp [← hh, hN1, hw, h1', bind, Except.bind, Except.map]
      · simp [hh, hN1, h1, bind, Except.bind, Except.map]
  have hsome : ∀ c im : Img ℝ, c.h = N → c.w = N → im.h = MF.h → im.w = MF.w →
      addUp N (some c) (some im) MF.h MF.w bias = .error .ValueError := by
    intro c im a1 a2 a3 a4
    simp only [addUp, addBc, imDim, a1, a2, a3, a4]
    by_cases hh : N = MF.h
    · have hw : N ≠ MF.w := by rcases hne with h | h
                               · exact absurd hh.symm h
                               · exact fun e => h e.symm
      simp [← hh, hN1, hw, h1', bind, Except.bind, Except.map]
    · simp [hh, hN1, h1, bind, Except.bind, Except.map]
  have hnoise : ∀ b g', (∃ e g'', noise R pdf b SN N g' = (.error e, g'')) ∨
      ∃ C g'', noise R pdf b SN N g' = (.ok C, g'') ∧ ∀ c, C = some c → c.h = N ∧ c.w = N := by
    intro b g'
    cases pdf with
    | other n => exact .inl ⟨_, _, rfl⟩
    | poisson =>
      cases b with
      | none => exact .inl ⟨_, _, rfl⟩
      | some b =>
        by_cases hb : b / SN < 0
        · exact .inl ⟨_, _, by simp only [noise, if_pos hb]; rfl⟩
        · refine .inr ⟨_, _, by simp only [noise, if_neg hb]; rfl, ?_⟩
          rintro c ⟨⟩; exact ⟨rfl, rfl⟩
    | gaussian =>
      cases b with
      | none => exact .inr ⟨_, _, rfl, fun c hc => by cases hc⟩
      | some b =>
        by_cases hb : b / SN < 0
        · exact .inl ⟨_, _, by simp only [noise, if_pos hb]; rfl⟩
        · refine .inr ⟨_, _, by simp only [noise, if_neg hb]; rfl, ?_⟩
          rintro c ⟨⟩; exact ⟨rfl, rfl⟩
  have hadd : ∀ C (psf : Option (Img ℝ)), (∀ c, C = some c → c.h = N ∧ c.w = N) →
      ∃ e, addUp N C (psf.map (convSame MF)) MF.h MF.w bias = .error e := by
    intro C psf hC
    obtain ⟨e, h | ⟨c, im, rfl, him⟩⟩ := hbc C (psf.map (convSame MF))
    · exact ⟨e, h⟩
    · cases psf with
      | none => cases him
      | some p => exact ⟨_, hsome c _ (hC c rfl).1 (hC c rfl).2 rfl rfl⟩
  unfold simImage
  cases psfTheta rot (5 * max X Y) X Y theta with
  | error e => exact ⟨e, rfl⟩
  | ok psf =>
    simp only []
    generalize (if MF.h * MF.w = 0 then (.error .ValueError : Py (Option ℝ)) else
        match psf.map (convSame MF) with
        | none => .ok none
        | some im => (npMax im).map some) = B
    cases B with
    | error e => exact ⟨e, rfl⟩
    | ok b =>
      cases seed with
      | some s =>
        rcases hnoise b (R.seed s) with ⟨e, g'', h⟩ | ⟨C, g'', h, hC⟩
        · exact ⟨e, by simp only [h]⟩
        · obtain ⟨e, he⟩ := hadd C psf hC
          exact ⟨e, by simp only [h, he]⟩
      | none =>
        rcases hnoise b g with ⟨e, g'', h⟩ | ⟨C, g'', h, hC⟩
        · exact ⟨e, by simp only [h]⟩
        · obtain ⟨e, he⟩ := hadd C psf hC
          exact ⟨e, by simp only [h, he]⟩

/-- C74: the exposure time and the standard deviation given by the caller have no influence. -/
theorem image_ignores (R : Rng σ) (rot) (MF : Img ℝ) (N : ℕ) (t t' : ℝ) (X : ℚ) (SN : ℝ) (Y theta : ℚ)
    (pdf : BkgPdf) (std std' : Option ℝ) (seed : Option ℕ) (bias : ℝ) :
    simImage R rot MF N t X SN Y theta pdf std seed bias = simImage R rot MF N t' X SN Y theta pdf std' seed bias := rfl

/-- C74: with a seed the result does not depend on the module's generator, which stays as it was. -/
theorem image_seed (R : Rng σ) (rot) (MF : Img ℝ) (N : ℕ) (t : ℝ) (X : ℚ) (SN : ℝ) (Y theta : ℚ)
    (pdf : BkgPdf) (std : Option ℝ) (s : ℕ) (bias : ℝ) (g g' : σ) :
    (simImage R rot MF N t X SN Y theta pdf std (some s) bias g).2 = g ∧
    (simImage R rot MF N t X SN Y theta pdf std (some s) bias g).1 =
      (simImage R rot MF N t X SN Y theta pdf std (some s) bias g').1 := by
  unfold simImage
  cases psfTheta rot (5 * max X Y) X Y theta with
  | error e => exact ⟨rfl, rfl⟩
  | ok psf =>
    simp only []
    generalize (if MF.h * MF.w = 0 then (.error .ValueError : Py (Option ℝ)) else
        match psf.map (convSame MF) with
        | none => .ok none
        | some im => (npMax im).map some) = B
    cases B with
    | error e => exact ⟨rfl, rfl⟩
    | ok b =>
      simp only []
      rcases noise R pdf b SN N (R.seed s) with ⟨e | C, g''⟩ <;> exact ⟨rfl, rfl⟩

/-! ## sim_varpsf -/

/-- C73: the four quadrants in the frame. -/
theorem tile_px (N : ℕ) (f0 f1 f2 f3 : Option (Img ℝ)) (rest : List (Option (Img ℝ))) :
    ∃ f, tile N (f0 :: f1 :: f2 :: f3 :: rest) = .ok f ∧ f.h = 2 * N ∧ f.w = 2 * N ∧
      ∀ r < 2 * N, ∀ c < 2 * N, f.px r c =
        ((f0 :: f1 :: f2 :: f3 :: rest).getD (r / N + 2 * (c / N)) none).map fun a => a.px (r % N) (c % N) := by
  refine ⟨_, rfl, rfl, rfl, fun r hr c hc => ?_⟩
  have hN : 0 < N := by omega
  simp only [setBlock, zero_mul, one_mul, zero_add, zero_le, true_and, Nat.sub_zero]
  have key : ∀ x < 2 * N, (x < N ∧ x / N = 0 ∧ x % N = x) ∨ (N ≤ x ∧ x / N = 1 ∧ x % N = x - N) := by
    intro x hx
    by_cases h : x < N
    · exact .inl ⟨h, Nat.div_eq_of_lt h, Nat.mod_eq_of_lt h⟩
    · refine .inr ⟨by omega, ?_, ?_⟩
      · rw [Nat.div_eq_iff hN]; omega
      · rw [Nat.mod_eq_sub_mod (by omega), Nat.mod_eq_of_lt (by omega)]
  rcases key r hr with ⟨h1, h2, h3⟩ | ⟨h1, h2, h3⟩ <;> rcases key c hc with ⟨h4, h5, h6⟩ | ⟨h4, h5, h6⟩ <;>
    rw [h2, h3, h5, h6]
  · rw [if_neg (by omega), if_neg (by omega), if_neg (by omega), if_pos (by omega)]; rfl
  · rw [if_neg (by omega), if_pos (by omega)]; rfl
  · rw [if_neg (by omega), if_neg (by omega), if_pos (by omega)]; rfl
  · rw [if_pos (by omega)]; rfl

/-- C73: fewer than four quadrants raise IndexError. -/
theorem tile_few (N : ℕ) (frames : List (Option (Img ℝ))) (h : frames.length < 4) :
    tile N frames = .error .IndexError := by
  match frames, h with
  | [], _ => rfl
  | [_], _ => rfl
  | [_, _], _ => rfl
  | [_, _, _], _ => rfl

theorem varFrames_length (R : Rng σ) (rot) (nstars : ℕ) (SN : ℝ) (N : ℕ) (seed : Option ℕ) (thetas : List ℚ) :
    ∀ g fs g', varFrames R rot nstars SN N seed thetas g = (.ok fs, g') → fs.length = thetas.length := by
  induction thetas with
  | nil => intro g fs g' h; cases h; rfl
  | cons t ts ih =>
    intro g fs g' h
    unfold varFrames at h
    obtain ⟨f, g1, -, h2⟩ := (PyS.bind_eq_ok _ _ _ _ _).mp h
    obtain ⟨fs', g2, h3, h4⟩ := (PyS.bind_eq_ok _ _ _ _ _).mp h2
    cases h4
    simp [ih _ _ _ h3]

/-- C73: with fewer than four angles `sim_varpsf` always raises. -/
theorem sim_varpsf_few (R : Rng σ) (rot) (nstars : ℕ) (SN : ℝ) (thetas : List ℚ) (N : ℕ) (seed : Option ℕ)
    (g : σ) (h : thetas.length < 4) : ∃ e, (simVarpsf R rot nstars SN thetas N seed g).1 = .error e := by
  unfold simVarpsf
  cases seed with
  | some s =>
    simp only []
    rcases hv : varFrames R rot nstars SN N (some s) thetas (R.seed s) with ⟨e | fs, g'⟩
    · exact ⟨e, rfl⟩
    · exact ⟨.IndexError, tile_few N fs (by rw [varFrames_length R rot nstars SN N _ thetas _ _ _ hv]; exact h)⟩
  | none =>
    simp only []
    rcases hv : varFrames R rot nstars SN N none thetas g with ⟨e | fs, g'⟩
    · exact ⟨e, rfl⟩
    · exact ⟨.IndexError, tile_few N fs (by rw [varFrames_length R rot nstars SN N _ thetas _ _ _ hv]; exact h)⟩

/-- What numpy documents about `integers`: as many as asked for, at least `low`, less than `high`. -/
def IntsOk (R : Rng σ) : Prop := ∀ g lo hi n, lo < hi → (R.integers g lo hi n).1.length = n ∧
  ∀ x ∈ (R.integers g lo hi n).1, lo ≤ x ∧ x < hi

/-- C73: the drawn stars always lie inside the frame, so placing them never fails. -/
theorem draw_in_frame (R : Rng σ) (hR : IntsOk R) (theta : ℚ) (N n : ℕ) (g g' : σ) (l : List ℤ)
    (h : drawInts R (3 * max (xFwhm theta) 5) ((N : ℚ) - 3 * max (xFwhm theta) 5) n g = (.ok l, g')) :
    l.length = n ∧ ∀ x ∈ l, 15 ≤ x ∧ x + 15 ≤ N := by
  have h5 : (5 : ℚ) ≤ max (xFwhm theta) 5 := le_max_right _ _
  generalize max (xFwhm theta) 5 = f at *
  unfold drawInts at h
  by_cases hn : n = 0
  · rw [if_pos hn] at h; cases h; exact ⟨hn.symm, fun x hx => by cases hx⟩
  · rw [if_neg hn] at h
    by_cases hb : pyInt ((N : ℚ) - 3 * f) ≤ pyInt (3 * f)
    · rw [if_pos hb] at h; cases h
    · rw [if_neg hb] at h
      cases h
      refine ⟨(hR _ _ _ _ (not_le.mp hb)).1, fun x hx => ?_⟩
      obtain ⟨h1, h2⟩ := (hR _ _ _ _ (not_le.mp hb)).2 x hx
      have h15 : 15 ≤ pyInt (3 * f) := by
        rw [pyInt_nonneg_eq (by linarith), Int.le_floor]; push_cast; linarith
      refine ⟨by omega, ?_⟩
      by_cases h0 : 0 ≤ (N : ℚ) - 3 * f
      · rw [pyInt_nonneg_eq h0] at h2
        have h3 : ((⌊(N : ℚ) - 3 * f⌋ : ℤ) : ℚ) ≤ (N : ℚ) - 3 * f := Int.floor_le _
        have h4 : ((x + 1 : ℤ) : ℚ) ≤ ((⌊(N : ℚ) - 3 * f⌋ : ℤ) : ℚ) := by exact_mod_cast h2
        have h6 : ((x + 15 : ℤ) : ℚ) ≤ ((N : ℤ) : ℚ) := by push_cast at *; linarith
        exact_mod_cast h6
      · rw [pyInt_neg_eq (not_le.mp h0)] at h2
        have : ⌈(N : ℚ) - 3 * f⌉ ≤ 0 := Int.ceil_le.mpr (by push_cast; linarith)
        omega

/-- C73: with four stars or more, a frame too small for its margins raises ValueError. -/
theorem varFrame_small (R : Rng σ) (rot) (nstars : ℕ) (SN : ℝ) (N : ℕ) (seed : Option ℕ) (theta : ℚ) (g : σ)
    (hn : 4 ≤ nstars) (hN : (N : ℚ) ≤ 6 * max (xFwhm theta) 5) :
    varFrame R rot nstars SN N seed theta g = (.error .ValueError, g) := by
  have h5 : (5 : ℚ) ≤ max (xFwhm theta) 5 := le_max_right _ _
  unfold varFrame
  refine PyS.bind_err _ _ _ _ _ ?_
  unfold drawInts
  rw [if_neg (by omega), if_pos]
  generalize max (xFwhm theta) 5 = f at *
  rw [pyInt_nonneg_eq (show 0 ≤ 3 * f by linarith)]
  by_cases h0 : 0 ≤ (N : ℚ) - 3 * f
  · rw [pyInt_nonneg_eq h0]; exact Int.floor_mono (by linarith)
  · rw [pyInt_neg_eq (not_le.mp h0)]
    have : ⌈(N : ℚ) - 3 * f⌉ ≤ 0 := Int.ceil_le.mpr (by push_cast; linarith)
    have : 0 ≤ ⌊3 * f⌋ := Int.floor_nonneg.mpr (by linarith)
    omega

theorem setItem_dims {α : Type} (a b : Img α) (i j : ℤ) (v : α) (h : setItem a i j v = .ok b) :
    b.h = a.h ∧ b.w = a.w := by
  unfold setItem at h
  cases h1 : pyIdx a.h i with
  | none => rw [h1] at h; cases h
  | some p =>
    cases h2 : pyIdx a.w j with
    | none => rw [h1, h2] at h; cases h
    | some q => rw [h1, h2] at h; cases h; exact ⟨rfl, rfl⟩

theorem deltaLoop_dims (w : List ℚ) (l : List (ℚ × ℚ)) :
    ∀ m j m', deltaLoop w m j l = .ok m' → m'.h = m.h ∧ m'.w = m.w := by
  induction l with
  | nil => intro m j m' h; cases h; exact ⟨rfl, rfl⟩
  | cons q l ih =>
    intro m j m' h
    unfold deltaLoop at h
    cases hk : pyIdx w.length j with
    | none => rw [hk] at h; cases h
    | some k =>
      rw [hk] at h
      simp only [] at h
      cases hs : setItem m (pyInt q.1) (pyInt q.2) (w.getD k 0) with
      | error e => rw [hs] at h; cases h
      | ok m1 =>
        rw [hs] at h
        obtain ⟨a1, a2⟩ := ih m1 _ m' h
        obtain ⟨b1, b2⟩ := setItem_dims _ _ _ _ _ hs
        exact ⟨a1.trans b1, a2.trans b2⟩

/-- The common noise pattern of seeded frames. -/
def seedNoise (R : Rng σ) (s N : ℕ) (i j : ℕ) : ℝ := (R.normal (R.seed s) (N * N)).1 (i * N + j)

/-- C73: a quadrant made with seed `s` is the pattern of standard normal noise that belongs to the seed, scaled by
its own brightest pixel over `SN`, plus its stars, plus the bias twice. -/
theorem varFrame_seeded (R : Rng σ) (rot) (nstars : ℕ) (SN : ℝ) (N : ℕ) (s : ℕ) (theta : ℚ) (g g' : σ) (a : Img ℝ)
    (h : varFrame R rot nstars SN N (some s) theta g = (.ok (some a), g')) :
    ∃ im b, im.h = N ∧ im.w = N ∧ Brightest im b ∧ a.h = N ∧ a.w = N ∧ ∀ i < N, ∀ j < N,
      a.px i j = b / SN * seedNoise R s N i j + im.px i j + 200 := by
  unfold varFrame at h
  obtain ⟨x, g1, -, h⟩ := (PyS.bind_eq_ok _ _ _ _ _).mp h
  obtain ⟨y, g2, -, h⟩ := (PyS.bind_eq_ok _ _ _ _ _).mp h
  obtain ⟨m, g3, hm, h⟩ := (PyS.bind_eq_ok _ _ _ _ _).mp h
  obtain ⟨o, g4, ho, h⟩ := (PyS.bind_eq_ok _ _ _ _ _).mp h
  rw [PyS.lift_app] at hm
  have hm' := congrArg Prod.fst hm
  simp only [] at hm'
  rw [deltaPoint_usable N _ _ (.inl rfl)] at hm'
  obtain ⟨mh, mw⟩ := deltaLoop_dims _ _ _ _ _ hm'
  change m.h = N at mh
  change m.w = N at mw
  have hr : o.map (fun a : Img ℝ => (⟨a.h, a.w, fun i j => a.px i j + 100⟩ : Img ℝ)) = some a := by
    have := congrArg Prod.fst h
    exact Except.ok.inj this
  cases o with
  | none => cases hr
  | some q =>
    cases hr
    have ho' := congrArg Prod.fst ho
    cases hp : psfTheta rot (5 * max (xFwhm theta) 5) (xFwhm theta) 5 theta with
    | error e =>
      unfold simImage at ho'
      rw [hp] at ho'
      cases ho'
    | ok psf =>
      by_cases hN : N = 0
      · unfold simImage at ho'
        rw [hp] at ho'
        simp only [mh, hN, zero_mul, if_true] at ho'
        cases ho'
      · cases psf with
        | none =>
          unfold simImage at ho'
          rw [hp] at ho'
          simp only [mh, mw, mul_eq_zero, hN, or_self, if_false, Option.map_none, noise, addUp, addBc, imDim,
            if_true] at ho'
          cases ho'
        | some p =>
          obtain ⟨b, hb, hg⟩ := image_gaussian R rot ⟨m.h, m.w, fun i j => ((m.px i j : ℚ) : ℝ)⟩ N 1 (xFwhm theta) SN 5
            theta none (some s) 100 p hp hN mh mw
          rcases lt_or_ge (b / SN) 0 with hneg | hpos
          · rw [(hg g3).1 hneg] at ho'; cases ho'
          · obtain ⟨q', e, h1, h2, h3⟩ := (hg g3).2 hpos
            rw [e] at ho'
            obtain rfl : q' = q := Option.some.inj (Except.ok.inj ho')
            refine ⟨_, b, mh, mw, hb, h1, h2, fun i hi j hj => ?_⟩
            show q'.px i j + 100 = _
            rw [h3 i hi j hj]
            simp only [noiseGen, Option.map_some, Option.getD_some, seedNoise]
            ring

theorem varFrames_mem (R : Rng σ) (rot) (nstars : ℕ) (SN : ℝ) (N : ℕ) (seed : Option ℕ) (thetas : List ℚ) :
    ∀ g fs g', varFrames R rot nstars SN N seed thetas g = (.ok fs, g') →
      ∀ f ∈ fs, ∃ t ∈ thetas, ∃ g1 g2, varFrame R rot nstars SN N seed t g1 = (.ok f, g2) := by
  induction thetas with
  | nil => intro g fs g' h f hf; cases h; cases hf
  | cons t ts ih =>
    intro g fs g' h f hf
    unfold varFrames at h
    obtain ⟨f0, g1, h1, h2⟩ := (PyS.bind_eq_ok _ _ _ _ _).mp h
    obtain ⟨fs', g2, h3, h4⟩ := (PyS.bind_eq_ok _ _ _ _ _).mp h2
    cases h4
    rcases List.mem_cons.mp hf with rfl | hf
    · exact ⟨t, List.mem_cons_self, _, _, h1⟩
    · obtain ⟨t', ht', g3, g4, e⟩ := ih _ _ _ h3 f hf
      exact ⟨t', List.mem_cons_of_mem _ ht', g3, g4, e⟩

/-- C73: the frame that a seeded `sim_varpsf` returns. All four quadrants, unless NaN, carry the same noise pattern,
and the bias is in every pixel twice. -/
theorem sim_varpsf_seeded (R : Rng σ) (rot) (nstars : ℕ) (SN : ℝ) (thetas : List ℚ) (N : ℕ) (s : ℕ) (g g' : σ)
    (f : Img (Option ℝ)) (h : simVarpsf R rot nstars SN thetas N (some s) g = (.ok f, g')) :
    g' = g ∧ 4 ≤ thetas.length ∧ f.h = 2 * N ∧ f.w = 2 * N ∧
    ∀ ki < 2, ∀ kj < 2, (∀ i < N, ∀ j < N, f.px (ki * N + i) (kj * N + j) = none) ∨
      ∃ im b, im.h = N ∧ im.w = N ∧ Brightest im b ∧ ∀ i < N, ∀ j < N,
        f.px (ki * N + i) (kj * N + j) = some (b / SN * seedNoise R s N i j + im.px i j + 200) := by
  have hlen : 4 ≤ thetas.length := by
    by_contra hc
    obtain ⟨e, he⟩ := sim_varpsf_few R rot nstars SN thetas N (some s) g (by omega)
    rw [h] at he
    cases he
  unfold simVarpsf at h
  simp only [] at h
  rcases hv : varFrames R rot nstars SN N (some s) thetas (R.seed s) with ⟨e | fs, g1⟩
  · rw [hv] at h; cases h
  · rw [hv] at h
    simp only [] at h
    have hf := congrArg Prod.fst h
    have hg := congrArg Prod.snd h
    simp only [] at hf hg
    have hl := varFrames_length R rot nstars SN N _ thetas _ _ _ hv
    have hmem := varFrames_mem R rot nstars SN N _ thetas _ _ _ hv
    match fs, hl, hmem, hf with
    | f0 :: f1 :: f2 :: f3 :: rest, hl, hmem, hf =>
      obtain ⟨f', e, h1, h2, hpx⟩ := tile_px N f0 f1 f2 f3 rest
      rw [e] at hf
      cases hf
      refine ⟨hg.symm, hlen, h1, h2, fun ki hki kj hkj => ?_⟩
      have hidx : ∀ i < N, ∀ j < N, f.px (ki * N + i) (kj * N + j) =
          ((f0 :: f1 :: f2 :: f3 :: rest).getD (ki + 2 * kj) none).map fun a => a.px i j := by
        intro i hi j hj
        have b1 : ki * N + i < 2 * N := by nlinarith
        have b2 : kj * N + j < 2 * N := by nlinarith
        rw [hpx _ b1 _ b2]
        have q : ∀ k x, x < N → (k * N + x) / N = k ∧ (k * N + x) % N = x := by
          intro k x hx
          rw [Nat.mul_comm, Nat.mul_add_div (by omega), Nat.div_eq_of_lt hx, Nat.mul_add_mod, Nat.mod_eq_of_lt hx]
          exact ⟨by omega, rfl⟩
        rw [(q ki i hi).1, (q ki i hi).2, (q kj j hj).1, (q kj j hj).2]
      have hm : (f0 :: f1 :: f2 :: f3 :: rest).getD (ki + 2 * kj) none ∈ f0 :: f1 :: f2 :: f3 :: rest := by
        rw [List.getD_eq_getElem _ _ (by simp only [List.length_cons]; omega)]
        exact List.getElem_mem _
      cases hq : (f0 :: f1 :: f2 :: f3 :: rest).getD (ki + 2 * kj) none with
      | none => left; intro i hi j hj; rw [hidx i hi j hj, hq]; rfl
      | some a =>
        right
        rw [hq] at hm
        obtain ⟨t, -, g2, g3, hvf⟩ := hmem _ hm
        obtain ⟨im, b, c1, c2, c3, -, -, c6⟩ := varFrame_seeded R rot nstars SN N s t g2 g3 a hvf
        refine ⟨im, b, c1, c2, c3, fun i hi j hj => ?_⟩
        rw [hidx i hi j hj, hq, Option.map_some, c6 i hi j hj]
    | [], hl, _, _ => simp at hl; omega
    | [_], hl, _, _ => simp at hl; omega
    | [_, _], hl, _, _ => simp at hl; omega
    | [_, _, _], hl, _, _ => simp at hl; omega

/-- C73: without a seed the frame comes from the module's generator, and later calls continue where it stopped. -/
theorem sim_varpsf_unseeded (R : Rng σ) (rot) (nstars : ℕ) (SN : ℝ) (thetas : List ℚ) (N : ℕ) (g g' : σ)
    (f : Img (Option ℝ)) (h : simVarpsf R rot nstars SN thetas N none g = (.ok f, g')) :
    ∃ fs, varFrames R rot nstars SN N none thetas g = (.ok fs, g') ∧ tile N fs = .ok f := by
  unfold simVarpsf at h
  simp only [] at h
  rcases hv : varFrames R rot nstars SN N none thetas g with ⟨e | fs, g1⟩
  · rw [hv] at h; cases h
  · rw [hv] at h
    simp only [] at h
    have hf := congrArg Prod.fst h
    have hg := congrArg Prod.snd h
    simp only [] at hf hg
    exact ⟨fs, by rw [hg], hf⟩

/-- A generator that always returns zeros or the lower bound; a run of `sim_varpsf` without stars then succeeds, and
with stars on a frame of 30 pixels it fails. -/
def zeroRng : Rng Unit where
  seed _ := ()
  normal _ _ := (fun _ => 0, ())
  poisson _ _ _ := (fun _ => 0, ())
  integers _ lo _ n := (List.replicate n lo, ())

example : IntsOk zeroRng := by
  intro g lo hi n h
  refine ⟨by simp [zeroRng], fun x hx => ?_⟩
  simp only [zeroRng, List.mem_replicate] at hx
  omega

theorem zeroRng_frame (rot) (N : ℕ) (hN : N ≠ 0) :
    ∃ a, varFrame zeroRng rot 0 30 N (some 1) 0 () = (.ok (some a), ()) := by
  have hx : xFwhm 0 = 5 := by unfold xFwhm; norm_num
  have hp : ∃ p, psfTheta rot (5 * max (xFwhm 0) 5) (xFwhm 0) 5 0 = .ok (some p) := by
    rw [psfTheta_zero, hx]
    obtain ⟨o, ho, hn, -⟩ := psf_ok (5 * max 5 5) 5 5 (by norm_num) (by norm_num) (by norm_num)
    cases o with
    | some p => exact ⟨p, ho⟩
    | none =>
      have := hn.mp rfl
      unfold yWidth sigmaOf at this
      norm_num at this
  obtain ⟨p, hp⟩ := hp
  obtain ⟨b, ⟨-, i, -, j, -, hb⟩, hg⟩ := image_gaussian zeroRng rot ⟨N, N, fun _ _ => ((0 : ℚ) : ℝ)⟩ N 1 (xFwhm 0) 30 5 0
    none (some 1) 100 p hp hN rfl rfl
  have hb0 : b = 0 := by rw [← hb]; simp [convSame]
  obtain ⟨a, ha, -⟩ := (hg ()).2 (by rw [hb0]; norm_num)
  refine ⟨⟨a.h, a.w, fun i j => a.px i j + 100⟩, ?_⟩
  unfold varFrame
  refine (PyS.bind_ok _ _ () () [] (by simp [drawInts])).trans ?_
  refine (PyS.bind_ok _ _ () () [] (by simp [drawInts])).trans ?_
  refine (PyS.bind_ok _ _ () () (⟨N, N, fun _ _ => (0 : ℚ)⟩ : Img ℚ) rfl).trans ?_
  refine (PyS.bind_ok _ _ () () (some a) (Prod.ext ha rfl)).trans ?_
  rfl

/-- A seeded run with four angles that succeeds. -/
example (rot) : ∃ f, simVarpsf zeroRng rot 0 30 [0, 0, 0, 0] 8 (some 1) () = (.ok f, ()) := by
  obtain ⟨a, ha⟩ := zeroRng_frame rot 8 (by norm_num)
  have step : ∀ ts fs, varFrames zeroRng rot 0 30 8 (some 1) ts () = (.ok fs, ()) →
      varFrames zeroRng rot 0 30 8 (some 1) (0 :: ts) () = (.ok (some a :: fs), ()) := by
    intro ts fs h
    unfold varFrames
    rw [PyS.bind_ok _ _ () () _ ha, PyS.bind_ok _ _ () () _ h]
    rfl
  have h4 := step _ _ (step _ _ (step _ _ (step [] [] rfl)))
  obtain ⟨f, hf, -⟩ := tile_px 8 (some a) (some a) (some a) (some a) []
  refine ⟨f, ?_⟩
  unfold simVarpsf
  simp only [show zeroRng.seed 1 = () from rfl, h4, hf]

example (rot) : varFrame zeroRng rot 8 30 30 (some 1) 0 () = (.error .ValueError, ()) := by
  refine varFrame_small _ _ _ _ _ _ _ _ (by norm_num) ?_
  unfold xFwhm; norm_num

end PI
