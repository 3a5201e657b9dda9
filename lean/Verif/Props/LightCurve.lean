import Verif.Props.SamePsf

/-!
# Property C198: difference images with a common reference share its noise
-/

namespace PI

open Complex Finset

/-- Noise through two filters: the correlation of a pixel of one output with a pixel of the other. -/
theorem sum_resp_cross (h w : ℕ) (A A' : ℕ → ℕ → ℂ) (i j i' j' : ℕ) (hh : h ≠ 0) (hw : w ≠ 0) :
    ∑ a ∈ range h, ∑ b ∈ range w, impulseResp h w A i j a b * (starRingEnd ℂ) (impulseResp h w A' i' j' a b) =
      impulseResp h w (fun k l => A k l * (starRingEnd ℂ) (A' k l)) i j i' j' := by
  have hne : ((h * w : ℕ) : ℂ) ≠ 0 := by exact_mod_cast Nat.mul_ne_zero hh hw
  have p := sum_dft_conj ⟨h, w, fun k l => A k l * (tw h (-((k : ℝ) * i)) * tw w (-((l : ℝ) * j)))⟩
    ⟨h, w, fun k l => A' k l * (tw h (-((k : ℝ) * i')) * tw w (-((l : ℝ) * j')))⟩ rfl rfl
  simp only [] at p
  have e : ∀ a b, impulseResp h w A i j a b * (starRingEnd ℂ) (impulseResp h w A' i' j' a b) =
      ((dft ⟨h, w, fun k l => A k l * (tw h (-((k : ℝ) * i)) * tw w (-((l : ℝ) * j)))⟩).px a b *
        (starRingEnd ℂ) ((dft ⟨h, w, fun k l => A' k l *
          (tw h (-((k : ℝ) * i')) * tw w (-((l : ℝ) * j')))⟩).px a b)) / (((h * w : ℕ) : ℂ) * ((h * w : ℕ) : ℂ)) := by
    intro a b
    rw [impulseResp_dft, impulseResp_dft, map_div₀, Complex.conj_natCast, div_mul_div_comm]
  simp only [e, ← Finset.sum_div]
  rw [p]
  have hc : (h : ℂ) * (w : ℂ) = ((h * w : ℕ) : ℂ) := by push_cast; rfl
  rw [hc, mul_div_mul_left _ _ hne]
  unfold impulseResp
  congr 1
  refine Finset.sum_congr rfl fun k _ => Finset.sum_congr rfl fun l _ => ?_
  rw [map_mul, map_mul, conj_tw, conj_tw, neg_neg, neg_neg]
  ring

/-- What independent errors of the reference's pixels, of standard deviation `ref.var`, make the covariance of pixel `(i, j)` of one
difference image and pixel `(i', j')` of another. -/
noncomputable def sharedCov (env env' : SubEnv) (it : Bool) (ref new new' : SubImg) (h w i j i' j' : ℕ) : ℂ :=
  ((ref.var ^ 2 : ℝ) : ℂ) * ∑ x ∈ range h, ∑ y ∈ range w, respRef env ⟨false, false, it⟩ ref new i j x y *
    (starRingEnd ℂ) (respRef env' ⟨false, false, it⟩ ref new' i' j' x y)

/-- The part of the noise of a difference image that is the reference's, averaged over the frequencies. -/
noncomputable def refShare (ref new : SubImg) (b : ℝ) (h w : ℕ) : ℝ :=
  (∑ k ∈ range h, ∑ l ∈ range w, b ^ 2 * ref.var ^ 2 * normSq (new.psfHat.px k l) /
    (new.var ^ 2 * normSq (ref.psfHat.px k l) + b ^ 2 * ref.var ^ 2 * normSq (new.psfHat.px k l))) / ((h * w : ℕ) : ℝ)

/-- Variance of pixel `(i, j)` of `∑ m, c m * D_m`, for independent errors of all pixels of all new exposures and of the reference. -/
noncomputable def sumNoise {n : ℕ} (env : Fin n → SubEnv) (it : Bool) (ref : SubImg) (new : Fin n → SubImg) (h w : ℕ)
    (c : Fin n → ℝ) (i j : ℕ) : ℝ :=
  ∑ m, (c m) ^ 2 * ((new m).var ^ 2 * ∑ x ∈ range h, ∑ y ∈ range w,
      normSq (respNew (env m) ⟨false, false, it⟩ ref (new m) i j x y)) +
    ref.var ^ 2 * ∑ x ∈ range h, ∑ y ∈ range w,
      normSq (∑ m, (c m : ℂ) * respRef (env m) ⟨false, false, it⟩ ref (new m) i j x y)

/-- Covariance of pixels `(i, j)` and `(i', j')` of `∑ m, c m * D_m`, for the same errors. -/
noncomputable def sumCov {n : ℕ} (env : Fin n → SubEnv) (it : Bool) (ref : SubImg) (new : Fin n → SubImg) (h w : ℕ)
    (c : Fin n → ℝ) (i j i' j' : ℕ) : ℂ :=
  ∑ m, (c m : ℂ) ^ 2 * ((((new m).var ^ 2 : ℝ) : ℂ) * ∑ x ∈ range h, ∑ y ∈ range w,
      respNew (env m) ⟨false, false, it⟩ ref (new m) i j x y *
        (starRingEnd ℂ) (respNew (env m) ⟨false, false, it⟩ ref (new m) i' j' x y)) +
    ((ref.var ^ 2 : ℝ) : ℂ) * ∑ x ∈ range h, ∑ y ∈ range w,
      (∑ m, (c m : ℂ) * respRef (env m) ⟨false, false, it⟩ ref (new m) i j x y) *
        (starRingEnd ℂ) (∑ m, (c m : ℂ) * respRef (env m) ⟨false, false, it⟩ ref (new m) i' j' x y)

/-- A filter that leaves pixels apart is a constant. -/
theorem impulseResp_white_iff (h w : ℕ) (A : ℕ → ℕ → ℂ) (hh : 0 < h) (hw : 0 < w) :
    (∀ a < h, ∀ b < w, (a ≠ 0 ∨ b ≠ 0) → impulseResp h w A 0 0 a b = 0) ↔ ∀ k < h, ∀ l < w, A k l = A 0 0 := by
  constructor
  · intro H
    have hne : ((h * w : ℕ) : ℂ) ≠ 0 := by exact_mod_cast Nat.mul_ne_zero hh.ne' hw.ne'
    have e : ∀ a < h, ∀ b < w, impulseResp h w A 0 0 a b =
        impulseResp h w (fun _ _ => impulseResp h w A 0 0 0 0) 0 0 a b := by
      intro a ha b hb
      rw [impulseResp_smul h w (fun _ _ => impulseResp h w A 0 0 0 0) (fun _ _ => 1) _ (fun _ _ _ _ => (mul_one _).symm),
        impulseResp_one h w 0 0 a b hh hw ha hb]
      split
      · rename_i q
        rw [← q.1, ← q.2, mul_one]
      · rename_i q
        rw [mul_zero]
        refine H a ha b hb ?_
        by_contra q'
        push Not at q'
        exact q ⟨q'.1.symm, q'.2.symm⟩
    have z : ∀ k < h, ∀ l < w, A k l = impulseResp h w A 0 0 0 0 := by
      intro k hk l hl
      refine sub_eq_zero.1 (dft_injective h w (fun k l => A k l - impulseResp h w A 0 0 0 0) (fun a ha b hb => ?_) k l hk hl)
      have q := e a ha b hb
      rw [impulseResp_dft, impulseResp_dft h w (fun _ _ => impulseResp h w A 0 0 0 0), div_left_inj' hne] at q
      simp only [Nat.cast_zero, mul_zero, neg_zero, tw_zero, mul_one] at q
      rw [← sub_eq_zero.2 q]
      change ∑ i ∈ range h, ∑ j ∈ range w, (A i j - impulseResp h w A 0 0 0 0) * _ =
        ∑ i ∈ range h, ∑ j ∈ range w, A i j * _ - ∑ i ∈ range h, ∑ j ∈ range w, impulseResp h w A 0 0 0 0 * _
      rw [← Finset.sum_sub_distrib]
      refine Finset.sum_congr rfl fun i _ => ?_
      rw [← Finset.sum_sub_distrib]
      exact Finset.sum_congr rfl fun j _ => sub_mul _ _ _
    intro k hk l hl
    rw [z k hk l hl, z 0 hh 0 hw]
  · intro H a ha b hb hab
    rw [impulseResp_smul h w A (fun _ _ => 1) (A 0 0) (fun k hk l hl => by rw [H k hk l hl, mul_one]),
      impulseResp_one h w 0 0 a b hh hw ha hb, if_neg, mul_zero]
    rintro ⟨q1, q2⟩
    rcases hab with q | q
    · exact q q1.symm
    · exact q q2.symm

theorem sum_pixels_comm {n : ℕ} (h w : ℕ) (F : ℕ → ℕ → Fin n → ℂ) :
    ∑ x ∈ range h, ∑ y ∈ range w, ∑ m, F x y m = ∑ m, ∑ x ∈ range h, ∑ y ∈ range w, F x y m := by
  rw [Finset.sum_comm (s := univ)]
  exact Finset.sum_congr rfl fun x _ => Finset.sum_comm

theorem shiftPhase_none (h w k l : ℕ) : shiftPhase h w ((0 : ℝ), (0 : ℝ)) k l = 1 := by
  unfold shiftPhase
  simp [tw_zero]

/-- A new exposure that `subtract` can take with the reference `ref` of `h × w` pixels, and the zero points it then uses. -/
structure Takes (env : SubEnv) (new : SubImg) (h w : ℕ) (z : ℝ × ℝ) : Prop where
  mask : new.mask.HasShape h w
  zps : env.zps = .ok z
  centre : env.fitted = true ∨ (0 ≤ (centerOfMass new.psf).1 ∧ 0 ≤ (centerOfMass new.psf).2)
  shape : new.interped.shape = (h, w)

section
variable (it : Bool) (ref : SubImg) (h w : ℕ) (hmr : ref.mask.HasShape h w) (hr : ref.interped.shape = (h, w))

section
variable (env env' : SubEnv) (new new' : SubImg) (z z' : ℝ × ℝ) (T : Takes env new h w z) (T' : Takes env' new' h w z')
include hmr hr T T'

/-- C198: the covariance of a pixel of one difference image and a pixel of another depends on the displacement only; its transform is
the product of what the reference's noise is turned into in the two. -/
theorem shared_cov (i j i' j' : ℕ) (hi : i < h) (hj : j < w) :
    sharedCov env env' it ref new new' h w i j i' j' =
      (∑ k ∈ range h, ∑ l ∈ range w, ((z.2 / z.1 * (z'.2 / z'.1) * ref.var ^ 2 /
          (Real.sqrt (normReal ref new (z.2 / z.1) k l) * Real.sqrt (normReal ref new' (z'.2 / z'.1) k l)) : ℝ) : ℂ) *
        (centredPsf new k l * (starRingEnd ℂ) (centredPsf new' k l)) *
        (tw h ((k : ℝ) * (((i' : ℤ) - i : ℤ) : ℝ)) * tw w ((l : ℝ) * (((j' : ℤ) - j : ℤ) : ℝ)))) / ((h * w : ℕ) : ℂ) := by
  have r := fun i j x hx y hy => (resp_eq env it ref new h w z hmr T.mask T.zps T.centre hr T.shape i j x y
    (mem_range.1 hx) (mem_range.1 hy)).2
  have r' := fun i j x hx y hy => (resp_eq env' it ref new' h w z' hmr T'.mask T'.zps T'.centre hr T'.shape i j x y
    (mem_range.1 hx) (mem_range.1 hy)).2
  unfold sharedCov
  rw [Finset.sum_congr rfl fun x hx => Finset.sum_congr rfl fun y hy => by rw [r i j x hx y hy, r' i' j' x hx y hy]]
  rw [sum_resp_cross h w _ _ i j i' j' (Nat.ne_zero_of_lt hi) (Nat.ne_zero_of_lt hj)]
  unfold impulseResp
  rw [mul_div_assoc', Finset.mul_sum]
  congr 1
  refine Finset.sum_congr rfl fun k _ => ?_
  rw [Finset.mul_sum]
  refine Finset.sum_congr rfl fun l _ => ?_
  have t : ∀ (n m u v : ℕ), tw n ((m : ℝ) * (((v : ℤ) - u : ℤ) : ℝ)) = tw n ((m : ℝ) * v) * tw n (-((m : ℝ) * u)) := by
    intro n m u v
    rw [← tw_add]
    congr 1
    push_cast
    ring
  rw [t, t]
  unfold gainRef
  beta_reduce
  rw [shiftPhase_none, map_div₀, map_neg, map_mul, map_mul, conj_ofReal, conj_ofReal, map_one]
  push_cast
  ring

/-- C198: with one PSF the same pixels of the two difference images are correlated, and others are not. -/
theorem shared_one_psf (hp : new.psf = ref.psf) (hp' : new'.psf = ref.psf) (i j i' j' : ℕ) (hi : i < h) (hj : j < w) (hi' : i' < h)
    (hj' : j' < w) :
    sharedCov env env' it ref new new' h w i j i' j' =
      if i = i' ∧ j = j' then ((z.2 / z.1 * (z'.2 / z'.1) * ref.var ^ 2 /
        (Real.sqrt (new.var ^ 2 + (z.2 / z.1) ^ 2 * ref.var ^ 2) *
          Real.sqrt (new'.var ^ 2 + (z'.2 / z'.1) ^ 2 * ref.var ^ 2)) : ℝ) : ℂ) else 0 := by
  have r := fun i j x hx y hy => (resp_eq env it ref new h w z hmr T.mask T.zps T.centre hr T.shape i j x y
    (mem_range.1 hx) (mem_range.1 hy)).2
  have r' := fun i j x hx y hy => (resp_eq env' it ref new' h w z' hmr T'.mask T'.zps T'.centre hr T'.shape i j x y
    (mem_range.1 hx) (mem_range.1 hy)).2
  unfold sharedCov
  rw [Finset.sum_congr rfl fun x hx => Finset.sum_congr rfl fun y hy => by rw [r i j x hx y hy, r' i' j' x hx y hy]]
  rw [sum_resp_cross h w _ _ i j i' j' (Nat.ne_zero_of_lt hi) (Nat.ne_zero_of_lt hj)]
  rw [impulseResp_smul h w _ (fun _ _ => 1) (((-(z.2 / z.1) / Real.sqrt (new.var ^ 2 + (z.2 / z.1) ^ 2 * ref.var ^ 2)) *
      (-(z'.2 / z'.1) / Real.sqrt (new'.var ^ 2 + (z'.2 / z'.1) ^ 2 * ref.var ^ 2)) : ℝ) : ℂ) ?_ i j i' j',
    impulseResp_one h w i j i' j' hi hj hi' hj']
  · split
    · push_cast
      ring
    · simp
  · intro k _ l _
    have n1 : turnOf (centredPsf ref k l) * (starRingEnd ℂ) (turnOf (centredPsf ref k l)) = 1 := by
      rw [mul_conj, normSq_turnOf _ (centredPsf_ne ref k l), ofReal_one]
    rw [(gains_one ref new h w hr T.shape hp (z.2 / z.1) k l).2, (gains_one ref new' h w hr T'.shape hp' (z'.2 / z'.1) k l).2,
      map_mul, conj_ofReal]
    push_cast
    linear_combination (-((z.2 : ℂ) / z.1) / (Real.sqrt (new.var ^ 2 + (z.2 / z.1) ^ 2 * ref.var ^ 2) : ℂ)) *
      (-((z'.2 : ℂ) / z'.1) / (Real.sqrt (new'.var ^ 2 + (z'.2 / z'.1) ^ 2 * ref.var ^ 2) : ℂ)) * n1

/-- The part of the noise power of a difference image at one frequency that is the reference's. -/
noncomputable def refPower (ref new : SubImg) (b : ℝ) (k l : ℕ) : ℝ :=
  b ^ 2 * ref.var ^ 2 * normSq (new.psfHat.px k l) /
    (new.var ^ 2 * normSq (ref.psfHat.px k l) + b ^ 2 * ref.var ^ 2 * normSq (new.psfHat.px k l))

theorem shared_same_at (hp : new'.psf = new.psf) (hv : new'.var = new.var) (hb : z'.2 / z'.1 = z.2 / z.1)
    (i j i' j' : ℕ) (hi : i < h) (hj : j < w) :
    sharedCov env env' it ref new new' h w i j i' j' =
      impulseResp h w (fun k l => ((refPower ref new (z.2 / z.1) k l : ℝ) : ℂ)) i j i' j' := by
  have e1 : new'.h = new.h := (congrArg Prod.fst T'.shape).trans (congrArg Prod.fst T.shape).symm
  have e2 : new'.w = new.w := (congrArg Prod.snd T'.shape).trans (congrArg Prod.snd T.shape).symm
  have hh : new'.psfHat = new.psfHat := by
    unfold SubImg.psfHat
    rw [e1, e2, hp]
  have hcp : ∀ k l, centredPsf new' k l = centredPsf new k l := by
    intro k l
    unfold centredPsf
    rw [hh, e1, e2, hp]
  have hN : ∀ k l, normReal ref new' (z.2 / z.1) k l = normReal ref new (z.2 / z.1) k l := by
    intro k l
    unfold normReal
    rw [hh, hv]
  rw [shared_cov it ref h w hmr hr env env' new new' z z' T T' i j i' j' hi hj]
  unfold impulseResp
  congr 1
  refine Finset.sum_congr rfl fun k _ => Finset.sum_congr rfl fun l _ => ?_
  beta_reduce
  have h0 : 0 ≤ normReal ref new (z.2 / z.1) k l := by
    unfold normReal
    have := normSq_nonneg (ref.psfHat.px k l)
    have := normSq_nonneg (new.psfHat.px k l)
    positivity
  have q : refPower ref new (z.2 / z.1) k l = (z.2 / z.1) ^ 2 * ref.var ^ 2 * normSq (new.psfHat.px k l) /
      normReal ref new (z.2 / z.1) k l := rfl
  have t : ∀ (n m u v : ℕ), tw n ((m : ℝ) * (((v : ℤ) - u : ℤ) : ℝ)) = tw n ((m : ℝ) * v) * tw n (-((m : ℝ) * u)) := by
    intro n m u v
    rw [← tw_add]
    congr 1
    push_cast
    ring
  rw [hcp, mul_conj, normSq_centredPsf, q, t, t, hb, hN, Real.mul_self_sqrt h0]
  push_cast
  ring

/-- C198: two new exposures with the same PSF, noise and flux ratio: the same pixels of the two difference images have the reference's
share of the noise in common. -/
theorem shared_same (hp : new'.psf = new.psf) (hv : new'.var = new.var) (hb : z'.2 / z'.1 = z.2 / z.1)
    (i j : ℕ) (hi : i < h) (hj : j < w) :
    sharedCov env env' it ref new new' h w i j i j = ((refShare ref new (z.2 / z.1) h w : ℝ) : ℂ) := by
  rw [shared_same_at it ref h w hmr hr env env' new new' z z' T T' hp hv hb i j i j hi hj]
  unfold impulseResp refShare
  push_cast
  congr 1
  refine Finset.sum_congr rfl fun k _ => Finset.sum_congr rfl fun l _ => ?_
  have t : ∀ (n m u : ℕ), tw n ((m : ℝ) * u) * tw n (-((m : ℝ) * u)) = 1 := by
    intro n m u
    rw [← tw_add, add_neg_cancel, tw_zero]
  have q : ((refPower ref new (z.2 / z.1) k l : ℝ) : ℂ) = ((z.2 : ℂ) / z.1) ^ 2 * (ref.var : ℂ) ^ 2 * (normSq (new.psfHat.px k l) : ℂ) /
      ((new.var : ℂ) ^ 2 * (normSq (ref.psfHat.px k l) : ℂ) +
        ((z.2 : ℂ) / z.1) ^ 2 * (ref.var : ℂ) ^ 2 * (normSq (new.psfHat.px k l) : ℂ)) := by
    unfold refPower
    push_cast
    rfl
  rw [q]
  linear_combination (((z.2 : ℂ) / z.1) ^ 2 * (ref.var : ℂ) ^ 2 * (normSq (new.psfHat.px k l) : ℂ) /
      ((new.var : ℂ) ^ 2 * (normSq (ref.psfHat.px k l) : ℂ) +
        ((z.2 : ℂ) / z.1) ^ 2 * (ref.var : ℂ) ^ 2 * (normSq (new.psfHat.px k l) : ℂ))) *
    (tw w ((l : ℝ) * j) * tw w (-((l : ℝ) * j)) * t h k i + t w l j)

end

/-- C198: the share is positive and less than one if both have noise and the flux ratio is not zero. -/
theorem refShare_between (new : SubImg) (b : ℝ) (hh : h ≠ 0) (hw : w ≠ 0) (hn : new.var ≠ 0) (hv : ref.var ≠ 0) (hb : b ≠ 0) :
    0 < refShare ref new b h w ∧ refShare ref new b h w < 1 := by
  have hN : (0 : ℝ) < ((h * w : ℕ) : ℝ) := by exact_mod_cast Nat.mul_pos (Nat.pos_of_ne_zero hh) (Nat.pos_of_ne_zero hw)
  have hne : (range h).Nonempty := ⟨0, mem_range.2 (Nat.pos_of_ne_zero hh)⟩
  have hne' : (range w).Nonempty := ⟨0, mem_range.2 (Nat.pos_of_ne_zero hw)⟩
  unfold refShare
  constructor
  · refine div_pos (Finset.sum_pos (fun k _ => Finset.sum_pos (fun l _ => ?_) hne') hne) hN
    have := normSq_pos.2 (psfHat_ne_zero ref k l)
    have := normSq_pos.2 (psfHat_ne_zero new k l)
    positivity
  · rw [div_lt_one hN]
    refine (Finset.sum_lt_sum_of_nonempty hne fun k _ => Finset.sum_lt_sum_of_nonempty (g := fun _ => (1 : ℝ)) hne' fun l _ => ?_).trans_eq
      (b := ∑ k ∈ range h, ∑ l ∈ range w, (1 : ℝ)) ?_
    · have := normSq_pos.2 (psfHat_ne_zero ref k l)
      have := normSq_pos.2 (psfHat_ne_zero new k l)
      rw [div_lt_one (by positivity)]
      have : 0 < new.var ^ 2 * normSq (ref.psfHat.px k l) := by positivity
      linarith
    · simp

section
variable {n : ℕ} (env : Fin n → SubEnv) (new : Fin n → SubImg) (z : Fin n → ℝ × ℝ) (T : ∀ m, Takes (env m) (new m) h w (z m))
include hmr hr T

/-- C198: errors `e m` of the new exposures and `f` of the reference reach `∑ m, c m * D_m` as the sums of the responses say. -/
theorem sum_linear (c : Fin n → ℝ) (f : Img ℝ) (e : Fin n → Img ℝ) (i j : ℕ) :
    ∑ m, (c m : ℂ) * (diffOf (env m) ⟨false, false, it⟩ ref (new m) (plusImg ref.interped f) (plusImg (new m).interped (e m))).px i j =
      ∑ m, (c m : ℂ) * (diffOf (env m) ⟨false, false, it⟩ ref (new m) ref.interped (new m).interped).px i j +
      (∑ m, (c m : ℂ) * ∑ x ∈ range h, ∑ y ∈ range w, ((e m).px x y : ℂ) * respNew (env m) ⟨false, false, it⟩ ref (new m) i j x y +
        ∑ x ∈ range h, ∑ y ∈ range w, (f.px x y : ℂ) *
          ∑ m, (c m : ℂ) * respRef (env m) ⟨false, false, it⟩ ref (new m) i j x y) := by
  have s : ∑ x ∈ range h, ∑ y ∈ range w, (f.px x y : ℂ) *
      ∑ m, (c m : ℂ) * respRef (env m) ⟨false, false, it⟩ ref (new m) i j x y =
      ∑ m, (c m : ℂ) * ∑ x ∈ range h, ∑ y ∈ range w, (f.px x y : ℂ) * respRef (env m) ⟨false, false, it⟩ ref (new m) i j x y := by
    simp only [Finset.mul_sum]
    rw [sum_pixels_comm]
    refine Finset.sum_congr rfl fun m _ => Finset.sum_congr rfl fun x _ => Finset.sum_congr rfl fun y _ => ?_
    ring
  rw [s, ← Finset.sum_add_distrib, ← Finset.sum_add_distrib]
  refine Finset.sum_congr rfl fun m _ => ?_
  rw [subtract_noise_linear (env m) it ref (new m) h w (z m) hmr (T m).mask (T m).zps (T m).centre hr (T m).shape]
  simp only [Finset.sum_add_distrib]
  ring

/-- C198: the variance of a sum of difference images is that of independent images, and a term for each pair. -/
theorem sum_noise_cov (hv : ∀ m, (new m).var ≠ 0 ∨ (ref.var ≠ 0 ∧ (z m).2 / (z m).1 ≠ 0)) (c : Fin n → ℝ) (i j : ℕ)
    (hi : i < h) (hj : j < w) :
    ((sumNoise env it ref new h w c i j : ℝ) : ℂ) = ∑ m, (c m : ℂ) ^ 2 +
      ∑ m, ∑ m' ∈ univ.erase m, (c m : ℂ) * c m' * sharedCov (env m) (env m') it ref (new m) (new m') h w i j i j := by
  have white := fun m => subtract_noise_white (env m) it ref (new m) h w (z m) hmr (T m).mask (T m).zps (T m).centre hr (T m).shape
    (hv m) i j i j hi hj hi hj
  simp only [and_self, if_true, Finset.sum_add_distrib, ← Finset.mul_sum] at white
  have own : ∀ m, (((new m).var ^ 2 : ℝ) : ℂ) * ∑ x ∈ range h, ∑ y ∈ range w,
      respNew (env m) ⟨false, false, it⟩ ref (new m) i j x y *
        (starRingEnd ℂ) (respNew (env m) ⟨false, false, it⟩ ref (new m) i j x y) =
      1 - sharedCov (env m) (env m) it ref (new m) (new m) h w i j i j := by
    intro m
    rw [eq_sub_iff_add_eq]
    exact white m
  have cross : (((ref.var ^ 2 : ℝ) : ℂ)) * ∑ x ∈ range h, ∑ y ∈ range w,
      ((∑ m, (c m : ℂ) * respRef (env m) ⟨false, false, it⟩ ref (new m) i j x y) *
        (starRingEnd ℂ) (∑ m, (c m : ℂ) * respRef (env m) ⟨false, false, it⟩ ref (new m) i j x y)) =
      ∑ m, ∑ m', (c m : ℂ) * c m' * sharedCov (env m) (env m') it ref (new m) (new m') h w i j i j := by
    unfold sharedCov
    simp only [map_sum]
    simp only [Finset.sum_mul_sum]
    simp only [Finset.mul_sum]
    rw [sum_pixels_comm]
    refine Finset.sum_congr rfl fun m _ => ?_
    rw [sum_pixels_comm]
    refine Finset.sum_congr rfl fun m' _ => Finset.sum_congr rfl fun x _ => Finset.sum_congr rfl fun y _ => ?_
    rw [map_mul, conj_ofReal]
    ring
  have expand : ((sumNoise env it ref new h w c i j : ℝ) : ℂ) =
      ∑ m, (c m : ℂ) ^ 2 * ((((new m).var ^ 2 : ℝ) : ℂ) * ∑ x ∈ range h, ∑ y ∈ range w,
        respNew (env m) ⟨false, false, it⟩ ref (new m) i j x y *
          (starRingEnd ℂ) (respNew (env m) ⟨false, false, it⟩ ref (new m) i j x y)) +
      (((ref.var ^ 2 : ℝ) : ℂ)) * ∑ x ∈ range h, ∑ y ∈ range w,
      ((∑ m, (c m : ℂ) * respRef (env m) ⟨false, false, it⟩ ref (new m) i j x y) *
        (starRingEnd ℂ) (∑ m, (c m : ℂ) * respRef (env m) ⟨false, false, it⟩ ref (new m) i j x y)) := by
    unfold sumNoise
    simp only [mul_conj]
    push_cast
    rfl
  rw [expand, cross]
  simp only [own]
  rw [← Finset.sum_add_distrib, ← Finset.sum_add_distrib]
  refine Finset.sum_congr rfl fun m _ => ?_
  rw [← Finset.add_sum_erase univ _ (mem_univ m)]
  ring

/-- C198: new exposures with the same PSF, noise and flux ratio: the variance of a sum of their difference images. -/
theorem sum_noise_same (new0 : SubImg) (b : ℝ) (hs : ∀ m, (new m).psf = new0.psf ∧ (new m).var = new0.var ∧ (z m).2 / (z m).1 = b)
    (h0 : new0.interped.shape = (h, w)) (hv : new0.var ≠ 0 ∨ (ref.var ≠ 0 ∧ b ≠ 0)) (c : Fin n → ℝ) (i j : ℕ) (hi : i < h)
    (hj : j < w) :
    sumNoise env it ref new h w c i j =
      (1 - refShare ref new0 b h w) * ∑ m, (c m) ^ 2 + refShare ref new0 b h w * (∑ m, c m) ^ 2 := by
  have hsh : ∀ m, refShare ref (new m) b h w = refShare ref new0 b h w := by
    intro m
    have e1 : (new m).h = new0.h := (congrArg Prod.fst (T m).shape).trans (congrArg Prod.fst h0).symm
    have e2 : (new m).w = new0.w := (congrArg Prod.snd (T m).shape).trans (congrArg Prod.snd h0).symm
    have hh : (new m).psfHat = new0.psfHat := by
      unfold SubImg.psfHat
      rw [e1, e2, (hs m).1]
    unfold refShare
    rw [hh, (hs m).2.1]
  have key := sum_noise_cov it ref h w hmr hr env new z T (fun m => by rw [(hs m).2.1, (hs m).2.2]; exact hv) c i j hi hj
  have sc : ∀ m m', sharedCov (env m) (env m') it ref (new m) (new m') h w i j i j = ((refShare ref new0 b h w : ℝ) : ℂ) := by
    intro m m'
    rw [shared_same it ref h w hmr hr (env m) (env m') (new m) (new m') (z m) (z m') (T m) (T m')
      ((hs m').1.trans (hs m).1.symm) ((hs m').2.1.trans (hs m).2.1.symm) ((hs m').2.2.trans (hs m).2.2.symm) i j hi hj,
      (hs m).2.2, hsh]
  simp only [sc] at key
  have key' : sumNoise env it ref new h w c i j = ∑ m, (c m) ^ 2 + ∑ m, ∑ m' ∈ univ.erase m, c m * c m' * refShare ref new0 b h w := by
    exact_mod_cast key
  rw [key', sq (∑ m, c m), Finset.sum_mul_sum, Finset.mul_sum, Finset.mul_sum, ← Finset.sum_add_distrib, ← Finset.sum_add_distrib]
  refine Finset.sum_congr rfl fun m _ => ?_
  rw [← Finset.add_sum_erase univ (fun m' => c m * c m') (mem_univ m), ← Finset.sum_mul]
  ring

/-- C198: so the mean of `n` difference images keeps the reference's share of the noise however many exposures there are. -/
theorem mean_noise (new0 : SubImg) (b : ℝ) (hs : ∀ m, (new m).psf = new0.psf ∧ (new m).var = new0.var ∧ (z m).2 / (z m).1 = b)
    (h0 : new0.interped.shape = (h, w)) (hv : new0.var ≠ 0) (hn : n ≠ 0) (i j : ℕ) (hi : i < h) (hj : j < w) :
    sumNoise env it ref new h w (fun _ => 1 / (n : ℝ)) i j = refShare ref new0 b h w + (1 - refShare ref new0 b h w) / n := by
  have hn' : (n : ℝ) ≠ 0 := by exact_mod_cast hn
  rw [sum_noise_same it ref h w hmr hr env new z T new0 b hs h0 (Or.inl hv) _ i j hi hj]
  simp only [Finset.sum_const, Finset.card_univ, Fintype.card_fin, nsmul_eq_mul]
  field_simp
  ring

/-- C198: so its variance never falls to the reference's share. -/
theorem mean_noise_floor (new0 : SubImg) (b : ℝ) (hs : ∀ m, (new m).psf = new0.psf ∧ (new m).var = new0.var ∧ (z m).2 / (z m).1 = b)
    (h0 : new0.interped.shape = (h, w)) (hv : new0.var ≠ 0) (hvr : ref.var ≠ 0) (hb : b ≠ 0) (hn : n ≠ 0) (i j : ℕ) (hi : i < h)
    (hj : j < w) :
    0 < refShare ref new0 b h w ∧
    refShare ref new0 b h w < sumNoise env it ref new h w (fun _ => 1 / (n : ℝ)) i j := by
  obtain ⟨q1, q2⟩ := refShare_between ref h w new0 b (Nat.ne_zero_of_lt hi) (Nat.ne_zero_of_lt hj) hv hvr hb
  have hn' : (0 : ℝ) < n := by exact_mod_cast Nat.pos_of_ne_zero hn
  rw [mean_noise it ref h w hmr hr env new z T new0 b hs h0 hv hn i j hi hj]
  have : 0 < (1 - refShare ref new0 b h w) / n := div_pos (by linarith) hn'
  exact ⟨q1, by linarith⟩

/-- C198: no other weights that add up to one do better than equal ones. -/
theorem mean_noise_least (new0 : SubImg) (b : ℝ) (hs : ∀ m, (new m).psf = new0.psf ∧ (new m).var = new0.var ∧ (z m).2 / (z m).1 = b)
    (h0 : new0.interped.shape = (h, w)) (hv : new0.var ≠ 0) (hvr : ref.var ≠ 0) (hb : b ≠ 0) (hn : n ≠ 0) (c : Fin n → ℝ)
    (hc : ∑ m, c m = 1) (i j : ℕ) (hi : i < h) (hj : j < w) :
    sumNoise env it ref new h w (fun _ => 1 / (n : ℝ)) i j ≤ sumNoise env it ref new h w c i j ∧
    (sumNoise env it ref new h w c i j = sumNoise env it ref new h w (fun _ => 1 / (n : ℝ)) i j ↔ ∀ m, c m = 1 / n) := by
  obtain ⟨_, q2⟩ := refShare_between ref h w new0 b (Nat.ne_zero_of_lt hi) (Nat.ne_zero_of_lt hj) hv hvr hb
  have hn' : (n : ℝ) ≠ 0 := by exact_mod_cast hn
  have one : ∑ _m : Fin n, 1 / (n : ℝ) = 1 := by
    simp only [Finset.sum_const, Finset.card_univ, Fintype.card_fin, nsmul_eq_mul]
    field_simp
  have dev : ∑ m, (c m) ^ 2 = ∑ _m : Fin n, (1 / (n : ℝ)) ^ 2 + ∑ m, (c m - 1 / n) ^ 2 := by
    have e : ∀ m, (c m - 1 / n) ^ 2 = (c m) ^ 2 - 2 / n * c m + (1 / (n : ℝ)) ^ 2 := fun m => by ring
    simp only [e, Finset.sum_add_distrib, Finset.sum_sub_distrib, ← Finset.mul_sum, hc]
    have : ∑ _m : Fin n, (1 / (n : ℝ)) ^ 2 = 1 / (n : ℝ) := by
      simp only [Finset.sum_const, Finset.card_univ, Fintype.card_fin, nsmul_eq_mul]
      field_simp
    rw [this]
    ring
  rw [sum_noise_same it ref h w hmr hr env new z T new0 b hs h0 (Or.inl hv) c i j hi hj,
    sum_noise_same it ref h w hmr hr env new z T new0 b hs h0 (Or.inl hv) _ i j hi hj, hc, one, dev]
  have hq : 0 < 1 - refShare ref new0 b h w := by linarith
  have hp : 0 ≤ ∑ m, (c m - 1 / n) ^ 2 := Finset.sum_nonneg fun m _ => sq_nonneg _
  refine ⟨by nlinarith [mul_nonneg hq.le hp], fun H => ?_, fun H => by simp [H]⟩
  have z0 : ∑ m, (c m - 1 / n) ^ 2 = 0 := by
    have : (1 - refShare ref new0 b h w) * ∑ m, (c m - 1 / n) ^ 2 = 0 := by linarith
    exact (mul_eq_zero.1 this).resolve_left hq.ne'
  intro m
  have := (Finset.sum_eq_zero_iff_of_nonneg fun m _ => sq_nonneg _).1 z0 m (mem_univ m)
  exact sub_eq_zero.1 (pow_eq_zero_iff (two_ne_zero)|>.1 this)

/-- Covariances in a sum of difference images of such exposures. -/
theorem sum_cov_same (new0 : SubImg) (b : ℝ) (hs : ∀ m, (new m).psf = new0.psf ∧ (new m).var = new0.var ∧ (z m).2 / (z m).1 = b)
    (h0 : new0.interped.shape = (h, w)) (hv : new0.var ≠ 0) (c : Fin n → ℝ) (i j i' j' : ℕ) (hi : i < h) (hj : j < w)
    (hi' : i' < h) (hj' : j' < w) :
    sumCov env it ref new h w c i j i' j' = (∑ m, (c m : ℂ) ^ 2) * (if i = i' ∧ j = j' then 1 else 0) +
      ((∑ m, (c m : ℂ)) ^ 2 - ∑ m, (c m : ℂ) ^ 2) *
        impulseResp h w (fun k l => ((refPower ref new0 b k l : ℝ) : ℂ)) i j i' j' := by
  have hsh : ∀ m, refPower ref (new m) b = refPower ref new0 b := by
    intro m
    have e1 : (new m).h = new0.h := (congrArg Prod.fst (T m).shape).trans (congrArg Prod.fst h0).symm
    have e2 : (new m).w = new0.w := (congrArg Prod.snd (T m).shape).trans (congrArg Prod.snd h0).symm
    have hh : (new m).psfHat = new0.psfHat := by
      unfold SubImg.psfHat
      rw [e1, e2, (hs m).1]
    funext k l
    unfold refPower
    rw [hh, (hs m).2.1]
  have sc : ∀ m m', sharedCov (env m) (env m') it ref (new m) (new m') h w i j i' j' =
      impulseResp h w (fun k l => ((refPower ref new0 b k l : ℝ) : ℂ)) i j i' j' := by
    intro m m'
    rw [shared_same_at it ref h w hmr hr (env m) (env m') (new m) (new m') (z m) (z m') (T m) (T m')
      ((hs m').1.trans (hs m).1.symm) ((hs m').2.1.trans (hs m).2.1.symm) ((hs m').2.2.trans (hs m).2.2.symm) i j i' j' hi hj,
      (hs m).2.2, hsh]
  have white := fun m => subtract_noise_white (env m) it ref (new m) h w (z m) hmr (T m).mask (T m).zps (T m).centre hr (T m).shape
    (Or.inl (by rw [(hs m).2.1]; exact hv)) i j i' j' hi hj hi' hj'
  simp only [Finset.sum_add_distrib, ← Finset.mul_sum] at white
  have own : ∀ m, (((new m).var ^ 2 : ℝ) : ℂ) * ∑ x ∈ range h, ∑ y ∈ range w,
      respNew (env m) ⟨false, false, it⟩ ref (new m) i j x y *
        (starRingEnd ℂ) (respNew (env m) ⟨false, false, it⟩ ref (new m) i' j' x y) =
      (if i = i' ∧ j = j' then 1 else 0) - impulseResp h w (fun k l => ((refPower ref new0 b k l : ℝ) : ℂ)) i j i' j' := by
    intro m
    rw [← sc m m, eq_sub_iff_add_eq]
    exact white m
  have cross : (((ref.var ^ 2 : ℝ) : ℂ)) * ∑ x ∈ range h, ∑ y ∈ range w,
      ((∑ m, (c m : ℂ) * respRef (env m) ⟨false, false, it⟩ ref (new m) i j x y) *
        (starRingEnd ℂ) (∑ m, (c m : ℂ) * respRef (env m) ⟨false, false, it⟩ ref (new m) i' j' x y)) =
      ∑ m, ∑ m', (c m : ℂ) * c m' * sharedCov (env m) (env m') it ref (new m) (new m') h w i j i' j' := by
    unfold sharedCov
    simp only [map_sum]
    simp only [Finset.sum_mul_sum]
    simp only [Finset.mul_sum]
    rw [sum_pixels_comm]
    refine Finset.sum_congr rfl fun m _ => ?_
    rw [sum_pixels_comm]
    refine Finset.sum_congr rfl fun m' _ => Finset.sum_congr rfl fun x _ => Finset.sum_congr rfl fun y _ => ?_
    rw [map_mul, conj_ofReal]
    ring
  unfold sumCov
  rw [cross]
  simp only [own, sc]
  rw [← Finset.sum_mul]
  have dbl : ∑ m, ∑ m', (c m : ℂ) * c m' * impulseResp h w (fun k l => ((refPower ref new0 b k l : ℝ) : ℂ)) i j i' j' =
      (∑ m, (c m : ℂ)) ^ 2 * impulseResp h w (fun k l => ((refPower ref new0 b k l : ℝ) : ℂ)) i j i' j' := by
    rw [sq, Finset.sum_mul_sum, Finset.sum_mul]
    exact Finset.sum_congr rfl fun m _ => (Finset.sum_mul _ _ _).symm
  rw [dbl]
  ring

/-- C198: and the noise of the mean of two or more difference images is white exactly if the PSFs of the reference and of the new
exposures have transforms with a constant ratio of absolute values. -/
theorem mean_white_iff (new0 : SubImg) (b : ℝ) (hs : ∀ m, (new m).psf = new0.psf ∧ (new m).var = new0.var ∧ (z m).2 / (z m).1 = b)
    (h0 : new0.interped.shape = (h, w)) (hv : new0.var ≠ 0) (hvr : ref.var ≠ 0) (hb : b ≠ 0) (hn : 2 ≤ n) (hh : 0 < h) (hw : 0 < w) :
    (∀ i < h, ∀ j < w, ∀ i' < h, ∀ j' < w, (i ≠ i' ∨ j ≠ j') →
      sumCov env it ref new h w (fun _ => 1 / (n : ℝ)) i j i' j' = 0) ↔
    ∀ k < h, ∀ l < w, normSq (new0.psfHat.px k l) * normSq (ref.psfHat.px 0 0) =
      normSq (new0.psfHat.px 0 0) * normSq (ref.psfHat.px k l) := by
  have hn' : (n : ℂ) ≠ 0 := by exact_mod_cast (by omega : n ≠ 0)
  have hn1 : (n : ℂ) - 1 ≠ 0 := by
    rw [sub_ne_zero]
    exact_mod_cast (by omega : n ≠ 1)
  have cov := fun i hi j hj i' hi' j' hj' => sum_cov_same it ref h w hmr hr env new z T new0 b hs h0 hv (fun _ => 1 / (n : ℝ))
    i j i' j' hi hj hi' hj'
  have off : ∀ i < h, ∀ j < w, ∀ i' < h, ∀ j' < w, (i ≠ i' ∨ j ≠ j') →
      (sumCov env it ref new h w (fun _ => 1 / (n : ℝ)) i j i' j' = 0 ↔
        impulseResp h w (fun k l => ((refPower ref new0 b k l : ℝ) : ℂ)) i j i' j' = 0) := by
    intro i hi j hj i' hi' j' hj' hd
    have e : sumCov env it ref new h w (fun _ => 1 / (n : ℝ)) i j i' j' = ((n : ℂ) - 1) / n *
        impulseResp h w (fun k l => ((refPower ref new0 b k l : ℝ) : ℂ)) i j i' j' := by
      rw [cov i hi j hj i' hi' j' hj', if_neg fun q => hd.elim (fun d => d q.1) fun d => d q.2]
      simp only [Finset.sum_const, Finset.card_univ, Fintype.card_fin, nsmul_eq_mul]
      push_cast
      field_simp
      ring
    rw [e, mul_eq_zero, or_iff_right (div_ne_zero hn1 hn')]
  have pw : ∀ k l, refPower ref new0 b k l = refPower ref new0 b 0 0 ↔
      normSq (new0.psfHat.px k l) * normSq (ref.psfHat.px 0 0) = normSq (new0.psfHat.px 0 0) * normSq (ref.psfHat.px k l) := by
    intro k l
    have p1 := normSq_pos.2 (psfHat_ne_zero ref k l)
    have p2 := normSq_pos.2 (psfHat_ne_zero ref 0 0)
    have p3 := normSq_pos.2 (psfHat_ne_zero new0 k l)
    have p4 := normSq_pos.2 (psfHat_ne_zero new0 0 0)
    unfold refPower
    generalize normSq (ref.psfHat.px k l) = r at *
    generalize normSq (ref.psfHat.px 0 0) = r0 at *
    generalize normSq (new0.psfHat.px k l) = s at *
    generalize normSq (new0.psfHat.px 0 0) = s0 at *
    rw [div_eq_div_iff (by positivity) (by positivity)]
    have hc : b ^ 2 * ref.var ^ 2 * new0.var ^ 2 ≠ 0 := by positivity
    constructor
    · intro H
      refine mul_left_cancel₀ hc ?_
      linear_combination H
    · intro H
      linear_combination b ^ 2 * ref.var ^ 2 * new0.var ^ 2 * H
  have w0 := impulseResp_white_iff h w (fun k l => ((refPower ref new0 b k l : ℝ) : ℂ)) hh hw
  constructor
  · intro H k hk l hl
    refine (pw k l).1 ?_
    have := w0.1 (fun a ha b' hb' hab => (off 0 hh 0 hw a ha b' hb' (hab.imp Ne.symm Ne.symm)).1
      (H 0 hh 0 hw a ha b' hb' (hab.imp Ne.symm Ne.symm))) k hk l hl
    exact_mod_cast this
  · intro H i hi j hj i' hi' j' hj' hd
    refine (off i hi j hj i' hi' j' hj' hd).2 ?_
    rw [impulseResp_smul h w _ (fun _ _ => 1) ((refPower ref new0 b 0 0 : ℝ) : ℂ) (fun k hk l hl => by
      rw [(pw k l).2 (H k hk l hl), mul_one]), impulseResp_one h w i j i' j' hi hj hi' hj',
      if_neg fun q => hd.elim (fun d => d q.1) fun d => d q.2, mul_zero]

/-- C198: and what is left of the reference in a comparison of difference images with one another is nothing. -/
theorem contrast_noise (new0 : SubImg) (b : ℝ) (hs : ∀ m, (new m).psf = new0.psf ∧ (new m).var = new0.var ∧ (z m).2 / (z m).1 = b)
    (h0 : new0.interped.shape = (h, w)) (hv : new0.var ≠ 0) (c : Fin n → ℝ) (hc : ∑ m, c m = 0) (i j : ℕ) (hi : i < h)
    (hj : j < w) :
    sumNoise env it ref new h w c i j = (1 - refShare ref new0 b h w) * ∑ m, (c m) ^ 2 := by
  rw [sum_noise_same it ref h w hmr hr env new z T new0 b hs h0 (Or.inl hv) _ i j hi hj, hc]
  ring

end

end

/-! ## Worked instances -/

/-- A reference and new exposures of two pixels, all with a PSF of one pixel, noise one and equal zero points: half the noise of every
difference image is the reference's. -/
example (i j : ℕ) (hi : i < 1) (hj : j < 2) :
    sharedCov (tinyEnv 3 3) (tinyEnv 2 2) false (tinySub 5 7) (tinySub 1 0) (tinySub 4 9) 1 2 i j i j = ((1 / 2 : ℝ) : ℂ) := by
  rw [shared_one_psf false (tinySub 5 7) 1 2 (by intro a q; cases q) rfl (tinyEnv 3 3) (tinyEnv 2 2) (tinySub 1 0) (tinySub 4 9)
    (3, 3) (2, 2) ⟨(by intro a q; cases q), rfl, Or.inl rfl, rfl⟩ ⟨(by intro a q; cases q), rfl, Or.inl rfl, rfl⟩ rfl rfl i j i j hi hj hi hj,
    if_pos ⟨rfl, rfl⟩]
  have : (1 + 1 : ℝ) = 2 := by norm_num
  norm_num [tinySub, this, Real.mul_self_sqrt]

/-- The share of the reference there. -/
theorem tiny_share (a b c d : ℝ) : refShare (tinySub a b) (tinySub c d) 1 1 2 = 1 / 2 := by
  have e : ∀ k l, normSq ((tinySub c d).psfHat.px k l) = normSq ((tinySub a b).psfHat.px k l) := fun k l => rfl
  have t : ∀ k l, (1 : ℝ) ^ 2 * (tinySub a b).var ^ 2 * normSq ((tinySub c d).psfHat.px k l) /
      ((tinySub c d).var ^ 2 * normSq ((tinySub a b).psfHat.px k l) +
        1 ^ 2 * (tinySub a b).var ^ 2 * normSq ((tinySub c d).psfHat.px k l)) = 1 / 2 := by
    intro k l
    have := normSq_pos.2 (psfHat_ne_zero (tinySub a b) k l)
    rw [e]
    simp only [tinySub] at *
    field_simp
    norm_num
  unfold refShare
  simp only [t]
  norm_num

/-- A hundred of them: the mean of their difference images has half the variance of one, and not a hundredth of it. -/
example (p : Fin 100 → ℝ) (i j : ℕ) (hi : i < 1) (hj : j < 2) :
    sumNoise (fun _ => tinyEnv 3 3) true (tinySub 5 7) (fun m => tinySub (p m) 0) 1 2 (fun _ => 1 / ((100 : ℕ) : ℝ)) i j = 101 / 200 := by
  rw [mean_noise true (tinySub 5 7) 1 2 (by intro a q; cases q) rfl (fun _ : Fin 100 => tinyEnv 3 3) (fun m => tinySub (p m) 0)
    (fun _ => (3, 3)) (fun m => ⟨(by intro a q; cases q), rfl, Or.inl rfl, rfl⟩) (tinySub 0 0) 1
    (fun m => ⟨rfl, rfl, by norm_num⟩) rfl (by norm_num [tinySub]) (by norm_num) i j hi hj, tiny_share]
  norm_num

/-- The difference of two of them has the noise of the two new exposures only. -/
example (i j : ℕ) (hi : i < 1) (hj : j < 2) :
    sumNoise (fun _ => tinyEnv 3 3) true (tinySub 5 7) (fun m : Fin 2 => tinySub m 0) 1 2 (fun m => if m = 0 then 1 else -1) i j = 1 := by
  rw [contrast_noise true (tinySub 5 7) 1 2 (by intro a q; cases q) rfl (fun _ : Fin 2 => tinyEnv 3 3) (fun m => tinySub m 0)
    (fun _ => (3, 3)) (fun m => ⟨(by intro a q; cases q), rfl, Or.inl rfl, rfl⟩) (tinySub 0 0) 1
    (fun m => ⟨rfl, rfl, by norm_num⟩) rfl (by norm_num [tinySub]) _ (by norm_num [Fin.sum_univ_two]) i j hi hj, tiny_share]
  norm_num [Fin.sum_univ_two]

/-- A sharp reference and ten new exposures with PSF (1/4, 1/2, 1/4): the noise of the mean of their difference images is not white. -/
example : ¬ ∀ i < 1, ∀ j < 3, ∀ i' < 1, ∀ j' < 3, (i ≠ i' ∨ j ≠ j') →
    sumCov (fun _ : Fin 10 => tinyEnv 3 3) true (rowSub 0 1) (fun _ => rowSub (1 / 4) 1) 1 3 (fun _ => 1 / ((10 : ℕ) : ℝ)) i j i' j' = 0 := by
  rw [mean_white_iff true (rowSub 0 1) 1 3 (by intro a q; cases q) rfl (fun _ : Fin 10 => tinyEnv 3 3) (fun _ => rowSub (1 / 4) 1)
    (fun _ => (3, 3)) (fun m => ⟨(by intro a q; cases q), rfl, Or.inl rfl, rfl⟩) (rowSub (1 / 4) 1) 1
    (fun m => ⟨rfl, rfl, by norm_num⟩) rfl (by norm_num [rowSub]) (by norm_num [rowSub]) (by norm_num) (by norm_num) (by norm_num)
    (by norm_num)]
  intro H
  have q := H 0 (by norm_num) 1 (by norm_num)
  rw [← normSq_centredPsf, ← normSq_centredPsf, ← normSq_centredPsf, ← normSq_centredPsf,
    row_centred (1 / 4) 1 (by norm_num) 0 (by norm_num) 1 (by norm_num), row_centred 0 1 (by norm_num) 0 (by norm_num) 0 (by norm_num),
    row_centred (1 / 4) 1 (by norm_num) 0 (by norm_num) 0 (by norm_num), row_centred 0 1 (by norm_num) 0 (by norm_num) 1 (by norm_num)] at q
  simp only [normSq_ofReal] at q
  norm_num at q
  field_simp at q
  norm_num at q

end PI
