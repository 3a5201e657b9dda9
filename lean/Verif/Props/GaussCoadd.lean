import Verif.Model.GaussCoadd
import Verif.Props.ScoreNoise
import Verif.Props.VarPsfNorm

/-!
# Property C120: coadd of images with Gaussian PSFs

The filter is built from the Gaussian and its normalisation from the Karhunen-Loeve basis.
-/

namespace PI

open Complex Finset

/-! ## Specification -/

/-- Weighted power of the Gaussians at a frequency: `Σ F²/σ² |G|²`. -/
noncomputable def gaussPower {n : ℕ} (d : Fin n → GaussCo) (h w k l : ℕ) : ℝ :=
  ∑ m, (d m).zp ^ 2 / (d m).var ^ 2 * normSq ((fftOrtho (padTo h w (toC (d m).render))).px k l)

/-- Weighted power of the Karhunen-Loeve bases at a frequency: `Σ F²/σ² Σ |Q|²`. -/
noncomputable def klPower {n : ℕ} (d : Fin n → GaussCo) (h w k l : ℕ) : ℝ :=
  ∑ m, (d m).zp ^ 2 / (d m).var ^ 2 *
    ((d m).basis.map fun q => normSq ((fftOrtho (padTo h w (toC q))).px k l)).sum

/-- R as a function of the images' pixels (`0 × 0` if `coadd` raises). -/
noncomputable def gaussCoaddOf (lt : List CoImg → List CoImg → Option Bool) {n : ℕ} (d : Fin n → GaussCo)
    (psfShape : ℕ) (procs : ℤ) (x : Fin n → Img ℝ) : Img ℂ :=
  match coaddCore lt ((List.ofFn fun m => { d m with interped := x m }).map GaussCo.toCoImg) psfShape procs with
  | .ok out => out.R
  | .error _ => ⟨0, 0, fun _ _ => 0⟩

/-- Change of `R[i, j]` when pixel `(x, y)` of image `m` is one larger. -/
noncomputable def respGauss (lt : List CoImg → List CoImg → Option Bool) {n : ℕ} (d : Fin n → GaussCo)
    (psfShape : ℕ) (procs : ℤ) (m : Fin n) (i j x y : ℕ) : ℂ :=
  (gaussCoaddOf lt d psfShape procs fun m' =>
      if m' = m then bump (d m').interped x y 1 else (d m').interped).px i j -
    (gaussCoaddOf lt d psfShape procs fun m' => (d m').interped).px i j

/-- Covariance of two pixels of R when the pixels of image `m` are independent with standard deviation `var m`. -/
noncomputable def gaussCov (lt : List CoImg → List CoImg → Option Bool) {n : ℕ} (d : Fin n → GaussCo)
    (h w psfShape : ℕ) (procs : ℤ) (i j i' j' : ℕ) : ℂ :=
  ∑ m, (((d m).var ^ 2 : ℝ) : ℂ) * ∑ x ∈ range h, ∑ y ∈ range w,
    respGauss lt d psfShape procs m i j x y * (starRingEnd ℂ) (respGauss lt d psfShape procs m i' j' x y)

/-! ## The transfer functions -/

/-- Transfer function from the pixels of image `m` to R. -/
noncomputable def gainGauss {n : ℕ} (d : Fin n → GaussCo) (h w : ℕ) (m : Fin n) (k l : ℕ) : ℂ :=
  ((d m).zp / (d m).var ^ 2 : ℝ) * (starRingEnd ℂ) ((fftOrtho (padTo h w (toC (d m).render))).px k l) *
    shiftPhase h w (psfCentroid (d m).render) k l /
    (Real.sqrt (klPower d h w k l) * Real.sqrt ((h * w : ℕ) : ℝ) : ℂ)

theorem klPower_nonneg {n : ℕ} (d : Fin n → GaussCo) (h w k l : ℕ) : 0 ≤ klPower d h w k l :=
  Finset.sum_nonneg fun m _ => mul_nonneg (by positivity)
    (List.sum_nonneg fun x hx => by
      obtain ⟨q, _, rfl⟩ := List.mem_map.1 hx
      exact normSq_nonneg _)

theorem gauss_specP {n : ℕ} (d : Fin n → GaussCo) (h w : ℕ) (hs : ∀ m, (d m).interped.h = h ∧ (d m).interped.w = w)
    (k l : ℕ) : specP ((List.ofFn d).map GaussCo.toCoImg) k l = ((klPower d h w k l : ℝ) : ℂ) := by
  unfold specP klPower
  rw [List.map_map, List.map_ofFn, List.sum_ofFn, ofReal_sum]
  refine Finset.sum_congr rfl fun m _ => ?_
  change (((((d m).zp / (d m).var) ^ 2 : ℝ)) : ℂ) * ((d m).basis.map fun q =>
    (fftOrtho (padTo (d m).interped.h (d m).interped.w (toC q))).px k l *
      (starRingEnd ℂ) ((fftOrtho (padTo (d m).interped.h (d m).interped.w (toC q))).px k l)).sum = _
  rw [ofReal_mul, div_pow, (hs m).1, (hs m).2]
  congr 1
  induction (d m).basis with
  | nil => simp
  | cons q t ih => rw [List.map_cons, List.map_cons, List.sum_cons, List.sum_cons, ofReal_add, ih, mul_conj]

/-- The phases between two pixels add up to zero unless the pixels are the same. -/
theorem phase_sum (h w i j i' j' : ℕ) (c : ℂ) (hi : i < h) (hj : j < w) (hi' : i' < h) (hj' : j' < w) :
    ∑ k ∈ range h, ∑ l ∈ range w, c *
        (tw h ((k : ℝ) * (((i' : ℤ) - i : ℤ) : ℝ)) * tw w ((l : ℝ) * (((j' : ℤ) - j : ℤ) : ℝ))) =
      if i = i' ∧ j = j' then c * ((h * w : ℕ) : ℂ) else 0 := by
  have hh : h ≠ 0 := by omega
  have hw : w ≠ 0 := by omega
  have f : ∑ k ∈ range h, ∑ l ∈ range w, c *
        (tw h ((k : ℝ) * (((i' : ℤ) - i : ℤ) : ℝ)) * tw w ((l : ℝ) * (((j' : ℤ) - j : ℤ) : ℝ))) =
      c * ((∑ k ∈ range h, tw h ((k : ℝ) * (((i' : ℤ) - i : ℤ) : ℝ))) *
        ∑ l ∈ range w, tw w ((l : ℝ) * (((j' : ℤ) - j : ℤ) : ℝ))) := by
    rw [Finset.sum_mul_sum, Finset.mul_sum]
    refine Finset.sum_congr rfl fun k _ => ?_
    rw [Finset.mul_sum]
  rw [f, sum_tw h hh, sum_tw w hw]
  have d1 : ((h : ℤ) ∣ (i' : ℤ) - i) ↔ i = i' := by
    rw [sub_eq_add_neg, natCast_dvd_sub_iff h i' i hi' hi]; exact eq_comm
  have d2 : ((w : ℤ) ∣ (j' : ℤ) - j) ↔ j = j' := by
    rw [sub_eq_add_neg, natCast_dvd_sub_iff w j' j hj' hj]; exact eq_comm
  by_cases h1 : i = i'
  · by_cases h2 : j = j'
    · rw [if_pos (d1.2 h1), if_pos (d2.2 h2), if_pos ⟨h1, h2⟩]
      push_cast
      rfl
    · have h3 : ¬ (i = i' ∧ j = j') := fun h => h2 h.2
      rw [if_neg (mt d2.1 h2), if_neg h3]
      simp
  · have h3 : ¬ (i = i' ∧ j = j') := fun h => h1 h.1
    rw [if_neg (mt d1.1 h1), if_neg h3]
    simp

section
variable (lt : List CoImg → List CoImg → Option Bool) {n : ℕ} (hn : 0 < n)
    (d : Fin n → GaussCo) (h w psfShape : ℕ) (procs : ℤ)
    (hs : ∀ j, (d j).interped.h = h ∧ (d j).interped.w = w ∧ (d j).mask.HasShape h w)
    (hp : procs ≤ n) (hp' : procs ≤ 2 ^ 25) (hb : procs * n ≤ 2 ^ 50)
include hn hs hp hp' hb

theorem gaussCoaddOf_eq (x : Fin n → Img ℝ) (hx : ∀ m, (x m).h = h ∧ (x m).w = w) (i j : ℕ) :
    (gaussCoaddOf lt d psfShape procs x).px i j =
      ∑ m, ∑ a ∈ range h, ∑ b ∈ range w, ((x m).px a b : ℂ) * impulseResp h w (gainGauss d h w m) i j a b := by
  set e : Fin n → GaussCo := fun m => { d m with interped := x m } with he
  have hlen : ((List.ofFn e).map GaussCo.toCoImg).length = n := by simp
  have hall : AllShape ((List.ofFn e).map GaussCo.toCoImg) h w := by
    intro im him
    obtain ⟨g, hg, rfl⟩ := List.mem_map.1 him
    obtain ⟨m, rfl⟩ := (List.mem_ofFn' e g).1 hg
    exact ⟨(hx m).1, (hx m).2, (hs m).2.2⟩
  obtain ⟨out, eo, ho, _⟩ := coadd_spec lt h w ((List.ofFn e).map GaussCo.toCoImg) psfShape procs
    (by intro hnil; rw [hnil] at hlen; simp at hlen; omega) hall
    (by rw [hlen]; exact hp) hp' (by rw [hlen]; exact hb)
  have hR : out.R = ifftDefault ⟨h, w, coaddRhat ((List.ofFn e).map GaussCo.toCoImg)⟩ := by
    rw [← coadd_R_eq h w _ psfShape, ← ho]
  have hS : ∀ k l, specS ((List.ofFn e).map GaussCo.toCoImg) k l =
      ∑ m, (((d m).zp / (d m).var ^ 2 : ℝ) : ℂ) * ((fftOrtho (toC (x m))).px k l *
        (starRingEnd ℂ) ((fftOrtho (padTo h w (toC (d m).render))).px k l) *
          shiftPhase h w (psfCentroid (d m).render) k l) := by
    intro k l
    unfold specS
    rw [List.map_map, List.map_ofFn, List.sum_ofFn]
    refine Finset.sum_congr rfl fun m _ => ?_
    have h1 := (hx m).1
    have h2 := (hx m).2
    subst h1
    subst h2
    rfl
  have hP : ∀ k l, specP ((List.ofFn e).map GaussCo.toCoImg) k l = ((klPower d h w k l : ℝ) : ℂ) :=
    gauss_specP e h w hx
  have ed : gaussCoaddOf lt d psfShape procs x = out.R := by
    unfold gaussCoaddOf
    rw [eo]
  have key : out.R.px i j = (ifftOrtho ⟨h, w, fun k l => ∑ m,
      gainGauss d h w m k l * (fftOrtho (toC (x m))).px k l⟩).px i j := by
    rw [hR]
    change (∑ k ∈ range h, ∑ l ∈ range w, specS ((List.ofFn e).map GaussCo.toCoImg) k l /
        csqrt (specP ((List.ofFn e).map GaussCo.toCoImg) k l) *
      (tw h (-((k : ℝ) * i)) * tw w (-((l : ℝ) * j)))) / ((h * w : ℕ) : ℂ) =
      (∑ k ∈ range h, ∑ l ∈ range w, (∑ m, gainGauss d h w m k l * (fftOrtho (toC (x m))).px k l) *
      (tw h (-((k : ℝ) * i)) * tw w (-((l : ℝ) * j)))) / (Real.sqrt ((h * w : ℕ) : ℝ) : ℂ)
    rw [← sqrt_mul_self_cast, ← div_div]
    congr 1
    rw [Finset.sum_div]
    refine Finset.sum_congr rfl fun k _ => ?_
    rw [Finset.sum_div]
    refine Finset.sum_congr rfl fun l _ => ?_
    rw [mul_div_right_comm]
    congr 1
    rw [hS, hP, csqrt_ofReal_nonneg _ (klPower_nonneg d h w k l), div_div, Finset.sum_div]
    refine Finset.sum_congr rfl fun m _ => ?_
    unfold gainGauss
    ring
  rw [ed, key, ifftOrtho_sum]
  refine Finset.sum_congr rfl fun m _ => ?_
  have f := filter_eq (toC (x m)) (gainGauss d h w m) i j
  rw [show (toC (x m)).h = h from (hx m).1, show (toC (x m)).w = w from (hx m).2] at f
  exact f

theorem respGauss_eq (m : Fin n) (i j x y : ℕ) (hx : x < h) (hy : y < w) :
    respGauss lt d psfShape procs m i j x y = impulseResp h w (gainGauss d h w m) i j x y := by
  unfold respGauss
  rw [gaussCoaddOf_eq lt hn d h w psfShape procs hs hp hp' hb
      (fun m' => if m' = m then bump (d m').interped x y 1 else (d m').interped)
      (by intro m'; split <;> exact ⟨(hs m').1, (hs m').2.1⟩),
    gaussCoaddOf_eq lt hn d h w psfShape procs hs hp hp' hb (fun m' => (d m').interped)
      (fun m' => ⟨(hs m').1, (hs m').2.1⟩), ← Finset.sum_sub_distrib, Finset.sum_eq_single m]
  · simp only [if_true]
    rw [sum_bump h w _ x y hx hy, add_sub_cancel_left]
  · intro m' _ hm'
    simp only [if_neg hm', sub_self]
  · intro h; exact absurd (Finset.mem_univ m) h

/-- C120: R is a linear function of the pixels. -/
theorem gauss_coadd_linear (e : Fin n → Img ℝ) (i j : ℕ) :
    (gaussCoaddOf lt d psfShape procs fun m => plusImg (d m).interped (e m)).px i j =
      (gaussCoaddOf lt d psfShape procs fun m => (d m).interped).px i j +
      ∑ m, ∑ x ∈ range h, ∑ y ∈ range w, ((e m).px x y : ℂ) * respGauss lt d psfShape procs m i j x y := by
  rw [gaussCoaddOf_eq lt hn d h w psfShape procs hs hp hp' hb (fun m => plusImg (d m).interped (e m))
      (fun m => ⟨(hs m).1, (hs m).2.1⟩),
    gaussCoaddOf_eq lt hn d h w psfShape procs hs hp hp' hb (fun m => (d m).interped)
      (fun m => ⟨(hs m).1, (hs m).2.1⟩),
    ← Finset.sum_add_distrib]
  refine Finset.sum_congr rfl fun m _ => ?_
  rw [← Finset.sum_add_distrib]
  refine Finset.sum_congr rfl fun x hx => ?_
  rw [← Finset.sum_add_distrib]
  refine Finset.sum_congr rfl fun y hy => ?_
  rw [respGauss_eq lt hn d h w psfShape procs hs hp hp' hb m i j x y (mem_range.1 hx) (mem_range.1 hy)]
  simp only [plusImg]
  push_cast
  ring

/-- C120: the noise of R has at every frequency the power of the Gaussians over the power of the bases. -/
theorem gauss_coadd_noise (h0 : h ≠ 0) (w0 : w ≠ 0) (hv : ∀ m, (d m).var ≠ 0) (i j i' j' : ℕ) :
    gaussCov lt d h w psfShape procs i j i' j' =
      (∑ k ∈ range h, ∑ l ∈ range w, ((gaussPower d h w k l / klPower d h w k l : ℝ) : ℂ) *
        (tw h ((k : ℝ) * (((i' : ℤ) - i : ℤ) : ℝ)) * tw w ((l : ℝ) * (((j' : ℤ) - j : ℤ) : ℝ)))) /
          ((h * w : ℕ) : ℂ) ^ 2 := by
  have hne : ((h * w : ℕ) : ℝ) ≠ 0 := by exact_mod_cast Nat.mul_ne_zero h0 w0
  unfold gaussCov
  have r := fun m i j x hx y hy => respGauss_eq lt hn d h w psfShape procs hs hp hp' hb m i j x y
    (mem_range.1 hx) (mem_range.1 hy)
  rw [Finset.sum_congr rfl fun m _ => by
    rw [Finset.sum_congr rfl fun x hx => Finset.sum_congr rfl fun y hy => by
      rw [r m i j x hx y hy, r m i' j' x hx y hy], sum_resp_conj h w _ i j i' j' h0 w0]]
  have pw : ∀ m k l, (d m).var ^ 2 * normSq (gainGauss d h w m k l) =
      (d m).zp ^ 2 / (d m).var ^ 2 * normSq ((fftOrtho (padTo h w (toC (d m).render))).px k l) /
        klPower d h w k l / ((h * w : ℕ) : ℝ) := by
    intro m k l
    unfold gainGauss
    rw [normSq_div, normSq_mul, normSq_mul, normSq_mul, normSq_ofReal, normSq_ofReal, normSq_ofReal,
      normSq_shiftPhase, normSq_conj, Real.mul_self_sqrt (klPower_nonneg d h w k l),
      Real.mul_self_sqrt (Nat.cast_nonneg _), div_div]
    have := hv m
    field_simp
  simp only [← mul_div_assoc, ← Finset.sum_div]
  rw [pow_two, ← div_div]
  congr 1
  rw [Finset.sum_div]
  simp only [Finset.mul_sum]
  rw [Finset.sum_comm]
  refine Finset.sum_congr rfl fun k _ => ?_
  rw [Finset.sum_comm, Finset.sum_div]
  refine Finset.sum_congr rfl fun l _ => ?_
  rw [mul_div_right_comm, Finset.sum_congr rfl fun m _ => (mul_assoc _ _ _).symm, ← Finset.sum_mul]
  congr 1
  have e : ∀ m, (((d m).var ^ 2 : ℝ) : ℂ) * (normSq (gainGauss d h w m k l) : ℂ) =
      (((d m).zp ^ 2 / (d m).var ^ 2 * normSq ((fftOrtho (padTo h w (toC (d m).render))).px k l) /
        klPower d h w k l / ((h * w : ℕ) : ℝ) : ℝ) : ℂ) := by
    intro m
    rw [← pw, ofReal_mul]
  simp only [e]
  rw [← ofReal_sum, ← Finset.sum_div, ← Finset.sum_div]
  unfold gaussPower
  rw [ofReal_div, ofReal_natCast]

/-- C120: the noise is white exactly if the two powers are proportional. -/
theorem gauss_coadd_white_iff (h0 : h ≠ 0) (w0 : w ≠ 0) (hv : ∀ m, (d m).var ≠ 0)
    (hpow : ∀ k < h, ∀ l < w, klPower d h w k l ≠ 0) (v : ℝ) :
    (∀ i < h, ∀ j < w, ∀ i' < h, ∀ j' < w, gaussCov lt d h w psfShape procs i j i' j' =
      if i = i' ∧ j = j' then (v : ℂ) else 0) ↔
    ∀ k < h, ∀ l < w, gaussPower d h w k l = v * ((h * w : ℕ) : ℝ) * klPower d h w k l := by
  have hne : ((h * w : ℕ) : ℂ) ≠ 0 := by exact_mod_cast Nat.mul_ne_zero h0 w0
  have noise := gauss_coadd_noise lt hn d h w psfShape procs hs hp hp' hb h0 w0 hv
  have hc : ∀ (i i' j j' : ℕ), (if i = i' ∧ j = j' then (v : ℂ) else 0) * ((h * w : ℕ) : ℂ) ^ 2 =
      if i = i' ∧ j = j' then ((v * ((h * w : ℕ) : ℝ) : ℝ) : ℂ) * ((h * w : ℕ) : ℂ) else 0 := by
    intro i i' j j'
    split_ifs
    · push_cast
      ring
    · ring
  constructor
  · intro hw' k hk l hl
    have z := dft_injective h w
      (fun k l => ((gaussPower d h w k l / klPower d h w k l : ℝ) : ℂ) - ((v * ((h * w : ℕ) : ℝ) : ℝ) : ℂ)) (by
        intro i' hi' j' hj'
        have a := hw' 0 (by omega) 0 (by omega) i' hi' j' hj'
        rw [noise, div_eq_iff (pow_ne_zero 2 hne), hc,
          ← phase_sum h w 0 0 i' j' _ (by omega) (by omega) hi' hj'] at a
        change ∑ k ∈ range h, ∑ l ∈ range w,
          (((gaussPower d h w k l / klPower d h w k l : ℝ) : ℂ) - ((v * ((h * w : ℕ) : ℝ) : ℝ) : ℂ)) *
            (tw h ((i' : ℝ) * k) * tw w ((j' : ℝ) * l)) = 0
        simp only [sub_mul, Finset.sum_sub_distrib]
        rw [sub_eq_zero]
        have m1 : ∀ k : ℕ, (k : ℝ) * (((i' : ℤ) - (0 : ℕ) : ℤ) : ℝ) = (i' : ℝ) * k := by
          intro k
          push_cast
          ring
        have m2 : ∀ k : ℕ, (k : ℝ) * (((j' : ℤ) - (0 : ℕ) : ℤ) : ℝ) = (j' : ℝ) * k := by
          intro k
          push_cast
          ring
        simp only [m1, m2] at a
        exact a) k l hk hl
    have z' : gaussPower d h w k l / klPower d h w k l = v * ((h * w : ℕ) : ℝ) := by
      exact_mod_cast sub_eq_zero.1 z
    exact (div_eq_iff (hpow k hk l hl)).1 z'
  · intro hq i hi j hj i' hi' j' hj'
    rw [noise, div_eq_iff (pow_ne_zero 2 hne), hc, ← phase_sum h w i j i' j' _ hi hj hi' hj']
    refine Finset.sum_congr rfl fun k hk => Finset.sum_congr rfl fun l hl => ?_
    have hk' := mem_range.1 hk
    have hl' := mem_range.1 hl
    rw [hq k hk' l hl', mul_div_assoc, div_self (hpow k hk' l hl'), mul_one]

/-- C120: a star with the Gaussian profile and `c` times the zero point of each image, its centre at the same pixel
`(X, Y)` of all of them, appears in R with the transform `Σ F²/σ² |G|² / √(Σ F²/σ² Σ |Q|²)`. -/
theorem gauss_coadd_star (p q : Fin n → ℕ) (c : ℝ) (X Y : ℤ) (hpq : ∀ m, p m < h ∧ q m < w)
    (hX : ∀ m, (p m : ℝ) + (psfCentroid (d m).render).1 = X) (hY : ∀ m, (q m : ℝ) + (psfCentroid (d m).render).2 = Y)
    (i j : ℕ) (hi : i < h) (hj : j < w) :
    (gaussCoaddOf lt d psfShape procs fun m =>
        plusImg (d m).interped (starAt h w (d m).render (p m) (q m) (c * (d m).zp))).px i j -
      (gaussCoaddOf lt d psfShape procs fun m => (d m).interped).px i j =
      (c : ℂ) * (ifftOrtho ⟨h, w, fun k l => ((gaussPower d h w k l / Real.sqrt (klPower d h w k l) : ℝ) : ℂ) /
        (Real.sqrt ((h * w : ℕ) : ℝ) : ℂ)⟩).px (((i : ℤ) - X) % h).toNat (((j : ℤ) - Y) % w).toNat := by
  rw [gaussCoaddOf_eq lt hn d h w psfShape procs hs hp hp' hb
      (fun m => plusImg (d m).interped (starAt h w (d m).render (p m) (q m) (c * (d m).zp)))
      (fun m => ⟨(hs m).1, (hs m).2.1⟩),
    gaussCoaddOf_eq lt hn d h w psfShape procs hs hp hp' hb (fun m => (d m).interped)
      (fun m => ⟨(hs m).1, (hs m).2.1⟩), ← Finset.sum_sub_distrib]
  have f : ∀ m, (∑ a ∈ range h, ∑ b ∈ range w,
      ((plusImg (d m).interped (starAt h w (d m).render (p m) (q m) (c * (d m).zp))).px a b : ℂ) *
        impulseResp h w (gainGauss d h w m) i j a b) -
      ∑ a ∈ range h, ∑ b ∈ range w, ((d m).interped.px a b : ℂ) * impulseResp h w (gainGauss d h w m) i j a b =
      (ifftOrtho ⟨h, w, fun k l => gainGauss d h w m k l *
        (fftOrtho (toC (starAt h w (d m).render (p m) (q m) (c * (d m).zp)))).px k l⟩).px i j := by
    intro m
    have g := filter_eq (toC (starAt h w (d m).render (p m) (q m) (c * (d m).zp))) (gainGauss d h w m) i j
    refine Eq.trans ?_ g.symm
    change _ = ∑ a ∈ range h, ∑ b ∈ range w, ((starAt h w (d m).render (p m) (q m) (c * (d m).zp)).px a b : ℂ) *
      impulseResp h w (gainGauss d h w m) i j a b
    simp only [plusImg, ofReal_add, add_mul, Finset.sum_add_distrib]
    ring
  simp only [f]
  rw [← ifftOrtho_sum, ← ifftOrtho_roll h w _ _ _ i j hi hj, ← ifftOrtho_const_mul]
  refine ifftOrtho_congr h w _ _ ?_ i j
  intro k hk l hl
  have term : ∀ m, gainGauss d h w m k l *
      (fftOrtho (toC (starAt h w (d m).render (p m) (q m) (c * (d m).zp)))).px k l =
      (((d m).zp ^ 2 / (d m).var ^ 2 * normSq ((fftOrtho (padTo h w (toC (d m).render))).px k l) : ℝ) : ℂ) *
        (c * shiftPhase h w ((X : ℝ), (Y : ℝ)) k l /
          (Real.sqrt (klPower d h w k l) * Real.sqrt ((h * w : ℕ) : ℝ) : ℂ)) := by
    intro m
    rw [fftOrtho_starAt h w (d m).render (p m) (q m) _ (hpq m).1 (hpq m).2]
    have s1 := shiftPhase_add h w ((p m : ℝ), (q m : ℝ)) (psfCentroid (d m).render) k l
    simp only [hX m, hY m] at s1
    rw [s1]
    unfold gainGauss
    have nsq : ((normSq ((fftOrtho (padTo h w (toC (d m).render))).px k l) : ℝ) : ℂ) =
      (fftOrtho (padTo h w (toC (d m).render))).px k l *
        (starRingEnd ℂ) ((fftOrtho (padTo h w (toC (d m).render))).px k l) := (Complex.mul_conj _).symm
    push_cast
    rw [nsq]
    ring
  simp only [term]
  rw [← Finset.sum_mul, ← Complex.ofReal_sum]
  change ((gaussPower d h w k l : ℝ) : ℂ) * _ = _
  push_cast
  ring

/-- C120: the PSF image that `coadd` returns has the transform `√(Σ F²/σ² Σ |Q|²)`. -/
theorem gauss_coadd_psf (h0 : h ≠ 0) (w0 : w ≠ 0) :
    ∃ out, coaddCore lt ((List.ofFn d).map GaussCo.toCoImg) psfShape procs = .ok out ∧
      ∀ i < h, ∀ j < w, out.Pr.px i j =
        (ifftOrtho ⟨h, w, fun k l => ((Real.sqrt (klPower d h w k l) : ℝ) : ℂ) / (Real.sqrt ((h * w : ℕ) : ℝ) : ℂ)⟩).px
          (((i : ℤ) - psfShape) % h).toNat (((j : ℤ) - psfShape) % w).toNat /
          ((Real.sqrt (klPower d h w 0 0) : ℝ) : ℂ) := by
  have hlen : ((List.ofFn d).map GaussCo.toCoImg).length = n := by simp
  have hall : AllShape ((List.ofFn d).map GaussCo.toCoImg) h w := by
    intro im him
    obtain ⟨g, hg, rfl⟩ := List.mem_map.1 him
    obtain ⟨m, rfl⟩ := (List.mem_ofFn' d g).1 hg
    exact hs m
  obtain ⟨out, eo, ho, _⟩ := coadd_spec lt h w ((List.ofFn d).map GaussCo.toCoImg) psfShape procs
    (by intro hnil; rw [hnil] at hlen; simp at hlen; omega) hall
    (by rw [hlen]; exact hp) hp' (by rw [hlen]; exact hb)
  refine ⟨out, eo, ?_⟩
  have hP : out.Pr = coaddPsf ⟨h, w, specP ((List.ofFn d).map GaussCo.toCoImg)⟩ psfShape := congrArg Prod.snd ho
  have hraw := coadd_psf_raw_sum ⟨h, w, specP ((List.ofFn d).map GaussCo.toCoImg)⟩ psfShape h0 w0
  have hsq : ∀ k l, csqrt (specP ((List.ofFn d).map GaussCo.toCoImg) k l) =
      ((Real.sqrt (klPower d h w k l) : ℝ) : ℂ) := by
    intro k l
    rw [gauss_specP d h w (fun m => ⟨(hs m).1, (hs m).2.1⟩), csqrt_ofReal_nonneg _ (klPower_nonneg d h w k l)]
  intro i hi j hj
  rw [hP]
  change (coaddPsfRaw _ psfShape).px i j / imSum (coaddPsfRaw _ psfShape) = _
  rw [hraw]
  change _ / csqrt (specP _ 0 0) = _
  rw [hsq 0 0]
  congr 1
  have hroll := idftSum_shift_roll ((⟨h, w, specP ((List.ofFn d).map GaussCo.toCoImg)⟩ : Img ℂ).map csqrt)
    psfShape psfShape i j hi hj
  rw [coaddPsfRaw]
  change (idftSum _).px i j / ((h * w : ℕ) : ℂ) = _
  rw [Int.cast_natCast] at hroll
  rw [hroll]
  change (∑ k ∈ range h, ∑ l ∈ range w, csqrt (specP ((List.ofFn d).map GaussCo.toCoImg) k l) *
    (tw h (-((k : ℝ) * ((((i : ℤ) - psfShape) % h).toNat : ℕ))) *
      tw w (-((l : ℝ) * ((((j : ℤ) - psfShape) % w).toNat : ℕ))))) / ((h * w : ℕ) : ℂ) =
    (∑ k ∈ range h, ∑ l ∈ range w, ((Real.sqrt (klPower d h w k l) : ℝ) : ℂ) / (Real.sqrt ((h * w : ℕ) : ℝ) : ℂ) *
    (tw h (-((k : ℝ) * ((((i : ℤ) - psfShape) % h).toNat : ℕ))) *
      tw w (-((l : ℝ) * ((((j : ℤ) - psfShape) % w).toNat : ℕ))))) / (Real.sqrt ((h * w : ℕ) : ℝ) : ℂ)
  rw [← sqrt_mul_self_cast, ← div_div]
  congr 1
  rw [Finset.sum_div]
  refine Finset.sum_congr rfl fun k _ => ?_
  rw [Finset.sum_div]
  refine Finset.sum_congr rfl fun l _ => ?_
  rw [hsq, div_mul_eq_mul_div]

/-- C120: such a star has the shape of the PSF image that `coadd` returns exactly if the powers of the Gaussians and of the
bases are proportional. -/
theorem gauss_star_psf_iff (p q : Fin n → ℕ) (c : ℝ) (X Y : ℤ) (hpq : ∀ m, p m < h ∧ q m < w)
    (hX : ∀ m, (p m : ℝ) + (psfCentroid (d m).render).1 = X) (hY : ∀ m, (q m : ℝ) + (psfCentroid (d m).render).2 = Y)
    (hc : c ≠ 0) (hpow : ∀ k < h, ∀ l < w, klPower d h w k l ≠ 0) :
    ∃ out, coaddCore lt ((List.ofFn d).map GaussCo.toCoImg) psfShape procs = .ok out ∧
      ((∃ t : ℝ, ∀ i < h, ∀ j < w, (gaussCoaddOf lt d psfShape procs fun m =>
          plusImg (d m).interped (starAt h w (d m).render (p m) (q m) (c * (d m).zp))).px i j - out.R.px i j =
          (t : ℂ) * out.Pr.px (((i : ℤ) - (X - psfShape)) % h).toNat (((j : ℤ) - (Y - psfShape)) % w).toNat) ↔
        ∃ t : ℝ, ∀ k < h, ∀ l < w, gaussPower d h w k l = t * klPower d h w k l) := by
  have h0 : h ≠ 0 := by have := (hpq ⟨0, hn⟩).1; omega
  have w0 : w ≠ 0 := by have := (hpq ⟨0, hn⟩).2; omega
  obtain ⟨out, e, hPr⟩ := gauss_coadd_psf lt hn d h w psfShape procs hs hp hp' hb h0 w0
  refine ⟨out, e, ?_⟩
  have hd : gaussCoaddOf lt d psfShape procs (fun m => (d m).interped) = out.R := by
    have : coaddCore lt ((List.ofFn fun m => { d m with interped := (d m).interped }).map GaussCo.toCoImg) psfShape procs =
      .ok out := e
    unfold gaussCoaddOf
    rw [this]
  rw [← hd]
  have nn : ∀ (N : ℕ), N ≠ 0 → ∀ (u s : ℤ) (t : ℕ), ((((u - (s - t)) % (N : ℤ)).toNat : ℤ) - (t : ℤ)) % N = (u - s) % N := by
    intro N hN u s t
    have h1 := Int.emod_nonneg (u - (s - t)) (show (N : ℤ) ≠ 0 by exact_mod_cast hN)
    rw [Int.toNat_of_nonneg h1, Int.emod_sub_emod]
    congr 1
    ring
  have ltN : ∀ (N : ℕ), N ≠ 0 → ∀ u : ℤ, (u % (N : ℤ)).toNat < N := by
    intro N hN u
    have h1 := Int.emod_lt_of_pos u (show (0 : ℤ) < N by omega)
    have h2 := Int.emod_nonneg u (show (N : ℤ) ≠ 0 by omega)
    omega
  have sq : ∀ k < h, ∀ l < w, 0 < Real.sqrt (klPower d h w k l) := fun k hk l hl =>
    Real.sqrt_pos.2 (lt_of_le_of_ne (klPower_nonneg d h w k l) (Ne.symm (hpow k hk l hl)))
  set q0 := Real.sqrt (klPower d h w 0 0) with hq0
  have q0pos : 0 < q0 := sq 0 (by omega) 0 (by omega)
  have hne : (Real.sqrt ((h * w : ℕ) : ℝ) : ℂ) ≠ 0 := by
    exact_mod_cast (Real.sqrt_pos.2 (by exact_mod_cast Nat.pos_of_ne_zero (Nat.mul_ne_zero h0 w0) : (0 : ℝ) < ((h * w : ℕ) : ℝ))).ne'
  have star := gauss_coadd_star lt hn d h w psfShape procs hs hp hp' hb p q c X Y hpq hX hY
  have lhs : ∀ t : ℝ, (∀ i < h, ∀ j < w, (gaussCoaddOf lt d psfShape procs fun m =>
          plusImg (d m).interped (starAt h w (d m).render (p m) (q m) (c * (d m).zp))).px i j -
          (gaussCoaddOf lt d psfShape procs fun m => (d m).interped).px i j =
          (t : ℂ) * out.Pr.px (((i : ℤ) - (X - psfShape)) % h).toNat (((j : ℤ) - (Y - psfShape)) % w).toNat) ↔
      ∀ i < h, ∀ j < w, (ifftOrtho ⟨h, w, fun k l =>
        ((c * (gaussPower d h w k l / Real.sqrt (klPower d h w k l)) - t / q0 * Real.sqrt (klPower d h w k l) : ℝ) : ℂ) /
          (Real.sqrt ((h * w : ℕ) : ℝ) : ℂ)⟩).px i j = 0 := by
    intro t
    have lin : ∀ i j, (ifftOrtho ⟨h, w, fun k l =>
        ((c * (gaussPower d h w k l / Real.sqrt (klPower d h w k l)) - t / q0 * Real.sqrt (klPower d h w k l) : ℝ) : ℂ) /
          (Real.sqrt ((h * w : ℕ) : ℝ) : ℂ)⟩).px i j =
        (c : ℂ) * (ifftOrtho ⟨h, w, fun k l => ((gaussPower d h w k l / Real.sqrt (klPower d h w k l) : ℝ) : ℂ) /
        (Real.sqrt ((h * w : ℕ) : ℝ) : ℂ)⟩).px i j - (t : ℂ) * ((ifftOrtho ⟨h, w, fun k l =>
          ((Real.sqrt (klPower d h w k l) : ℝ) : ℂ) / (Real.sqrt ((h * w : ℕ) : ℝ) : ℂ)⟩).px i j / (q0 : ℂ)) := by
      intro i j
      rw [sub_eq_add_neg, ← ifftOrtho_const_mul, ← mul_div_assoc, mul_div_right_comm, ← neg_mul, ← ifftOrtho_const_mul,
        ← ifftOrtho_add]
      refine ifftOrtho_congr h w _ _ (fun k _ l _ => ?_) i j
      push_cast
      ring
    constructor
    · intro hh i hi j hj
      have fw : ∀ (N : ℕ) (u : ℕ) (s : ℤ), u < N → (((((u : ℤ) + s) % N).toNat : ℤ) - s) % N = u := by
        intro N u s hu
        have h1 := Int.emod_nonneg ((u : ℤ) + s) (show (N : ℤ) ≠ 0 by omega)
        rw [Int.toNat_of_nonneg h1, Int.emod_sub_emod, add_sub_cancel_right, Int.emod_eq_of_lt (by omega) (by omega)]
      have a := hh ((((i : ℤ) + X) % h).toNat) (ltN h h0 _) ((((j : ℤ) + Y) % w).toNat) (ltN w w0 _)
      rw [star _ _ (ltN h h0 _) (ltN w w0 _), hPr _ (ltN h h0 _) _ (ltN w w0 _), nn h h0, nn w w0, fw h i X hi,
        fw w j Y hj, Int.toNat_natCast, Int.toNat_natCast] at a
      rw [lin, a, sub_self]
    · intro hh i hi j hj
      have a := hh _ (ltN h h0 ((i : ℤ) - X)) _ (ltN w w0 ((j : ℤ) - Y))
      rw [lin, sub_eq_zero] at a
      rw [star i j hi hj, hPr _ (ltN h h0 _) _ (ltN w w0 _), nn h h0, nn w w0]
      exact a
  simp only [lhs]
  constructor
  · rintro ⟨t, ht⟩
    refine ⟨t / q0 / c, fun k hk l hl => ?_⟩
    have pw := ifftOrtho_power h w fun k l =>
        ((c * (gaussPower d h w k l / Real.sqrt (klPower d h w k l)) - t / q0 * Real.sqrt (klPower d h w k l) : ℝ) : ℂ) /
          (Real.sqrt ((h * w : ℕ) : ℝ) : ℂ)
    rw [Finset.sum_eq_zero fun i hi => Finset.sum_eq_zero fun j hj => by
      rw [ht i (mem_range.1 hi) j (mem_range.1 hj), normSq_zero]] at pw
    have z := (Finset.sum_eq_zero_iff_of_nonneg fun k _ => Finset.sum_nonneg fun l _ => normSq_nonneg _).1 pw.symm k
      (mem_range.2 hk)
    have z2 := (Finset.sum_eq_zero_iff_of_nonneg fun l _ => normSq_nonneg _).1 z l (mem_range.2 hl)
    have z3 := (div_eq_zero_iff.1 (normSq_eq_zero.1 z2)).resolve_right hne
    have z4 : c * (gaussPower d h w k l / Real.sqrt (klPower d h w k l)) - t / q0 * Real.sqrt (klPower d h w k l) = 0 := by
      exact_mod_cast z3
    have s0 := (sq k hk l hl).ne'
    have ss := Real.mul_self_sqrt (klPower_nonneg d h w k l)
    rw [← ss]
    field_simp at z4 ⊢
    linarith
  · rintro ⟨t, ht⟩
    refine ⟨c * t * q0, fun i hi j hj => ?_⟩
    have z : ∀ k < h, ∀ l < w, ((c * (gaussPower d h w k l / Real.sqrt (klPower d h w k l)) -
        c * t * q0 / q0 * Real.sqrt (klPower d h w k l) : ℝ) : ℂ) / (Real.sqrt ((h * w : ℕ) : ℝ) : ℂ) = (0 : ℂ) * 0 := by
      intro k hk l hl
      have s0 := (sq k hk l hl).ne'
      have ss := Real.mul_self_sqrt (klPower_nonneg d h w k l)
      have : c * (gaussPower d h w k l / Real.sqrt (klPower d h w k l)) -
        c * t * q0 / q0 * Real.sqrt (klPower d h w k l) = 0 := by
        rw [ht k hk l hl]
        have e1 : t * klPower d h w k l / Real.sqrt (klPower d h w k l) = t * Real.sqrt (klPower d h w k l) := by
          rw [div_eq_iff s0, mul_assoc, ss]
        rw [e1, mul_div_assoc, div_self q0pos.ne']
        ring
      rw [this]
      simp
    rw [ifftOrtho_congr h w _ (fun _ _ => (0 : ℂ) * 0) z, ifftOrtho_const_mul h w 0 (fun _ _ => 0), zero_mul]

end

/-! ## Worked instance -/

/-- A 1×3 image whose Gaussian is so narrow that it has one pixel, with a basis element 1 : 2 : 1. -/
noncomputable def narrowGauss : GaussCo where
  interped := ⟨1, 3, fun _ _ => 0⟩
  render := dotPsf
  basis := [seeingPsf]
  zp := 1
  var := 1
  mask := none

theorem narrow_kl (k l : ℕ) (hk : k < 1) (hl : l < 3) : klPower (fun _ : Fin 1 => narrowGauss) 1 3 k l ≠ 0 := by
  have e : klPower (fun _ : Fin 1 => narrowGauss) 1 3 k l =
      normSq ((fftOrtho (padTo 1 3 (toC seeingPsf))).px k l) := by
    unfold klPower
    simp [narrowGauss]
  rw [e]
  intro h0
  exact seeing_idle k hk l hl (by rw [normSq_eq_zero.1 h0]; rfl)

theorem narrow_powers : (∀ l, gaussPower (fun _ : Fin 1 => narrowGauss) 1 3 0 l = 1 / 3) ∧
    klPower (fun _ : Fin 1 => narrowGauss) 1 3 0 0 = 1 / 3 ∧ klPower (fun _ : Fin 1 => narrowGauss) 1 3 0 1 = 1 / 48 := by
  have gp : ∀ l, gaussPower (fun _ : Fin 1 => narrowGauss) 1 3 0 l = 1 / 3 := by
    intro l
    unfold gaussPower
    simp only [Fin.sum_univ_one]
    change 1 ^ 2 / 1 ^ 2 * normSq ((fftOrtho (padTo 1 3 (toC dotPsf))).px 0 l) = _
    rw [dot_padded 0 l (by norm_num), dot_power]
    norm_num
  have hat : ∀ l : ℕ, (fftOrtho (padTo 1 3 (toC seeingPsf))).px 0 l =
      (((1 / 4 : ℝ) : ℂ) + ((1 / 2 : ℝ) : ℂ) * tw 3 (l : ℝ) + ((1 / 4 : ℝ) : ℂ) * (tw 3 (l : ℝ) * tw 3 (l : ℝ))) /
        (Real.sqrt ((1 * 3 : ℕ) : ℝ) : ℂ) := by
    intro l
    change (∑ i ∈ range 1, ∑ j ∈ range 3, (if i < 1 ∧ j < 3 then ((if j = 1 then 1 / 2 else 1 / 4 : ℝ) : ℂ) else 0) *
      (tw 1 (((0 : ℕ) : ℝ) * i) * tw 3 ((l : ℝ) * j))) / (Real.sqrt ((1 * 3 : ℕ) : ℝ) : ℂ) = _
    congr 1
    simp only [Finset.sum_range_succ, Finset.sum_range_zero]
    norm_num [tw_zero]
    rw [← tw_add, mul_two]
  have kl : ∀ l : ℕ, klPower (fun _ : Fin 1 => narrowGauss) 1 3 0 l =
      normSq ((fftOrtho (padTo 1 3 (toC seeingPsf))).px 0 l) := by
    intro l
    unfold klPower
    simp [narrowGauss]
  have k0 : klPower (fun _ : Fin 1 => narrowGauss) 1 3 0 0 = 1 / 3 := by
    rw [kl, hat, normSq_div, normSq_ofReal, Real.mul_self_sqrt (Nat.cast_nonneg _), Nat.cast_zero, tw_zero]
    norm_num
  have k1 : klPower (fun _ : Fin 1 => narrowGauss) 1 3 0 1 = 1 / 48 := by
    rw [kl, hat, normSq_div, normSq_ofReal, Real.mul_self_sqrt (Nat.cast_nonneg _)]
    have re := tw_three_re 1 (by norm_num)
    have nm : normSq (tw 3 ((1 : ℕ) : ℝ)) = 1 := by rw [Complex.normSq_eq_norm_sq, norm_tw]; norm_num
    rw [normSq_apply, re] at nm
    generalize tw 3 ((1 : ℕ) : ℝ) = t at re nm
    rw [normSq_apply]
    simp only [add_re, add_im, mul_re, mul_im, ofReal_re, ofReal_im, re]
    push_cast
    nlinarith [nm]
  exact ⟨gp, k0, k1⟩

/-- The noise in its coadd is not white. -/
theorem narrow_not_white (lt : List CoImg → List CoImg → Option Bool) (v : ℝ) :
    ¬ ∀ i < 1, ∀ j < 3, ∀ i' < 1, ∀ j' < 3, gaussCov lt (fun _ : Fin 1 => narrowGauss) 1 3 5 1 i j i' j' =
      if i = i' ∧ j = j' then (v : ℂ) else 0 := by
  rw [gauss_coadd_white_iff lt (by norm_num) (fun _ : Fin 1 => narrowGauss) 1 3 5 1
    (fun _ => ⟨rfl, rfl, by intro m hm; cases hm⟩) (by norm_num) (by norm_num) (by norm_num) (by norm_num) (by norm_num)
    (fun _ => by norm_num [narrowGauss]) (fun k hk l hl => narrow_kl k l hk hl) v]
  intro hq
  obtain ⟨gp, k0, k1⟩ := narrow_powers
  have a0 := hq 0 (by norm_num) 0 (by norm_num)
  have a1 := hq 0 (by norm_num) 1 (by norm_num)
  rw [gp, k0] at a0
  rw [gp, k1] at a1
  push_cast at a0 a1
  linarith

/-- A star of this image does not appear in its coadd with the shape of the returned PSF. -/
theorem narrow_star_shape (lt : List CoImg → List CoImg → Option Bool) (c : ℝ) (hc : c ≠ 0) :
    ∃ out, coaddCore lt ((List.ofFn fun _ : Fin 1 => narrowGauss).map GaussCo.toCoImg) 5 1 = .ok out ∧
      ¬ ∃ t : ℝ, ∀ i < 1, ∀ j < 3, (gaussCoaddOf lt (fun _ : Fin 1 => narrowGauss) 5 1 fun _ =>
          plusImg narrowGauss.interped (starAt 1 3 narrowGauss.render 0 0 (c * narrowGauss.zp))).px i j - out.R.px i j =
          (t : ℂ) * out.Pr.px (((i : ℤ) - (0 - (5 : ℕ))) % (1 : ℕ)).toNat (((j : ℤ) - (1 - (5 : ℕ))) % (3 : ℕ)).toNat := by
  obtain ⟨out, e, hi⟩ := gauss_star_psf_iff lt (by norm_num) (fun _ : Fin 1 => narrowGauss) 1 3 5 1
    (fun _ => ⟨rfl, rfl, by intro m hm; cases hm⟩) (by norm_num) (by norm_num) (by norm_num) (fun _ => 0) (fun _ => 0) c 0 1
    (fun _ => ⟨by norm_num, by norm_num⟩)
    (fun _ => by norm_num [narrowGauss, psfCentroid, dotPsf, Finset.sum_range_succ])
    (fun _ => by norm_num [narrowGauss, psfCentroid, dotPsf, Finset.sum_range_succ]) hc
    (fun k hk l hl => narrow_kl k l hk hl)
  refine ⟨out, e, fun hh => ?_⟩
  obtain ⟨t, ht⟩ := hi.1 hh
  obtain ⟨gp, k0, k1⟩ := narrow_powers
  have a0 := ht 0 (by norm_num) 0 (by norm_num)
  have a1 := ht 0 (by norm_num) 1 (by norm_num)
  rw [gp, k0] at a0
  rw [gp, k1] at a1
  linarith

end PI
