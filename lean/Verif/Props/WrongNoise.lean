import Verif.Props.CoaddOverlap

/-!
# Property C171: what wrong noise levels and zero points do to the difference image and the coadd

`subtract` and `coadd` weigh the images with the noise level (`var`) and the zero point recorded in each object. Here the pixels
have other noise levels and the star other fluxes.
-/

namespace PI

open Complex Finset

/-- The covariance of two pixels of a sum of filtered images with white noise. -/
theorem cov_of_power {ι : Type} (s : Finset ι) (h w : ℕ) (v : ι → ℝ) (A : ι → ℕ → ℕ → ℂ) (i j i' j' : ℕ) (hh : h ≠ 0)
    (hw : w ≠ 0) :
    ∑ n ∈ s, (v n : ℂ) * ∑ a ∈ range h, ∑ b ∈ range w,
      impulseResp h w (A n) i j a b * (starRingEnd ℂ) (impulseResp h w (A n) i' j' a b) =
      (∑ k ∈ range h, ∑ l ∈ range w, ((∑ n ∈ s, v n * normSq (A n k l) : ℝ) : ℂ) *
        (tw h ((k : ℝ) * (((i' : ℤ) - i : ℤ) : ℝ)) * tw w ((l : ℝ) * (((j' : ℤ) - j : ℤ) : ℝ)))) / ((h * w : ℕ) : ℂ) := by
  simp only [sum_resp_conj h w _ i j i' j' hh hw]
  simp only [← mul_div_assoc, ← Finset.sum_div]
  congr 1
  simp only [Finset.mul_sum]
  rw [Finset.sum_comm]
  refine Finset.sum_congr rfl fun k hk => ?_
  rw [Finset.sum_comm]
  refine Finset.sum_congr rfl fun l hl => ?_
  rw [Complex.ofReal_sum, Finset.sum_mul]
  refine Finset.sum_congr rfl fun n _ => ?_
  push_cast
  ring

/-- Different pixels are uncorrelated exactly when the noise has the same power at all frequencies. -/
theorem white_iff_power {ι : Type} (s : Finset ι) (h w : ℕ) (v : ι → ℝ) (A : ι → ℕ → ℕ → ℂ) (hh : h ≠ 0) (hw : w ≠ 0) :
    (∀ i < h, ∀ j < w, ∀ i' < h, ∀ j' < w, ¬ (i = i' ∧ j = j') →
      ∑ n ∈ s, (v n : ℂ) * ∑ a ∈ range h, ∑ b ∈ range w,
        impulseResp h w (A n) i j a b * (starRingEnd ℂ) (impulseResp h w (A n) i' j' a b) = 0) ↔
    ∀ k < h, ∀ l < w, ∀ k' < h, ∀ l' < w,
      ∑ n ∈ s, v n * normSq (A n k l) = ∑ n ∈ s, v n * normSq (A n k' l') := by
  have hne : ((h * w : ℕ) : ℂ) ≠ 0 := by exact_mod_cast Nat.mul_ne_zero hh hw
  constructor
  · intro H
    set ρ : ℕ → ℕ → ℂ := fun k l => ((∑ n ∈ s, v n * normSq (A n k l) : ℝ) : ℂ) with hρ
    set c : ℂ := (∑ k ∈ range h, ∑ l ∈ range w, ρ k l) / ((h * w : ℕ) : ℂ) with hcd
    have flat : ∀ a < h, ∀ b < w, (dft ⟨h, w, fun k l => ρ k l - c⟩).px a b = 0 := by
      intro a ha b hb
      change ∑ k ∈ range h, ∑ l ∈ range w, (ρ k l - c) * (tw h ((a : ℝ) * k) * tw w ((b : ℝ) * l)) = 0
      simp only [sub_mul, Finset.sum_sub_distrib]
      have f : ∑ k ∈ range h, ∑ l ∈ range w, c * (tw h ((a : ℝ) * k) * tw w ((b : ℝ) * l)) =
          c * ((∑ k ∈ range h, tw h ((k : ℝ) * ((a : ℤ) : ℝ))) * ∑ l ∈ range w, tw w ((l : ℝ) * ((b : ℤ) : ℝ))) := by
        rw [Finset.sum_mul_sum, Finset.mul_sum]
        refine Finset.sum_congr rfl fun k _ => ?_
        rw [Finset.mul_sum]
        refine Finset.sum_congr rfl fun l _ => ?_
        rw [mul_comm (a : ℝ), mul_comm (b : ℝ)]
        push_cast
        rfl
      rw [f, sum_tw h hh, sum_tw w hw]
      by_cases hab : a = 0 ∧ b = 0
      · obtain ⟨rfl, rfl⟩ := hab
        have t : ∀ k l : ℕ, ρ k l * (tw h (((0 : ℕ) : ℝ) * k) * tw w (((0 : ℕ) : ℝ) * l)) = ρ k l := by
          intro k l
          simp [tw_zero]
        simp only [t]
        rw [if_pos (by simp), if_pos (by simp), hcd]
        push_cast at hne ⊢
        field_simp
        ring
      · have z := H 0 (by omega) 0 (by omega) a ha b hb (by tauto)
        rw [cov_of_power s h w v A 0 0 a b hh hw, div_eq_zero_iff] at z
        have z1 := z.resolve_right hne
        have z2 : ∑ k ∈ range h, ∑ l ∈ range w, ρ k l * (tw h ((a : ℝ) * k) * tw w ((b : ℝ) * l)) = 0 := by
          rw [← z1]
          refine Finset.sum_congr rfl fun k _ => Finset.sum_congr rfl fun l _ => ?_
          rw [hρ, mul_comm (a : ℝ), mul_comm (b : ℝ)]
          push_cast
          simp
        rw [z2]
        have d1 : ((h : ℤ) ∣ (a : ℤ)) ↔ a = 0 := by
          rw [Int.natCast_dvd_natCast]
          exact ⟨fun d => Nat.eq_zero_of_dvd_of_lt d ha, fun e => e ▸ dvd_zero h⟩
        have d2 : ((w : ℤ) ∣ (b : ℤ)) ↔ b = 0 := by
          rw [Int.natCast_dvd_natCast]
          exact ⟨fun d => Nat.eq_zero_of_dvd_of_lt d hb, fun e => e ▸ dvd_zero w⟩
        by_cases h1 : a = 0
        · rw [if_neg (mt d2.1 fun h2 => hab ⟨h1, h2⟩)]
          simp
        · rw [if_neg (mt d1.1 h1)]
          simp
    have const : ∀ k < h, ∀ l < w, ρ k l = c := fun k hk l hl =>
      sub_eq_zero.1 (dft_injective h w (fun k l => ρ k l - c) flat k l hk hl)
    intro k hk l hl k' hk' l' hl'
    have := (const k hk l hl).trans (const k' hk' l' hl').symm
    exact Complex.ofReal_injective this
  · intro H i hi j hj i' hi' j' hj' hd
    rw [white_of_power s h w v A ((∑ n ∈ s, v n * normSq (A n 0 0) : ℝ) : ℂ) ?_ i j i' j' hi hj hi' hj', if_neg hd]
    intro k hk l hl
    rw [← H k hk l hl 0 (by omega) 0 (by omega)]
    push_cast
    rfl

/-! ## subtract -/

section
variable (env : SubEnv) (it : Bool) (ref new : SubImg) (h w : ℕ) (z : ℝ × ℝ)
    (hmr : ref.mask.HasShape h w) (hmn : new.mask.HasShape h w) (hz : env.zps = .ok z)
    (hc : env.fitted = true ∨ (0 ≤ (centerOfMass new.psf).1 ∧ 0 ≤ (centerOfMass new.psf).2))
    (hr : ref.interped.shape = (h, w)) (hn : new.interped.shape = (h, w)) (hh : h ≠ 0) (hw : w ≠ 0)
    (hv : new.var ≠ 0 ∨ (ref.var ≠ 0 ∧ z.2 / z.1 ≠ 0))
include hmr hmn hz hc hr hn hh hw hv

/-- The power of the noise in D at a frequency, when the pixels of the two images have standard deviations `sn` and `sr`. -/
noncomputable def noisePower (ref new : SubImg) (b sn sr : ℝ) (k l : ℕ) : ℝ :=
  (sn ^ 2 * normSq (ref.psfHat.px k l) + sr ^ 2 * b ^ 2 * normSq (new.psfHat.px k l)) /
    (new.var ^ 2 * normSq (ref.psfHat.px k l) + ref.var ^ 2 * b ^ 2 * normSq (new.psfHat.px k l))

omit hh hw hv in
theorem subtract_cov (sn sr : ℝ) (i j i' j' : ℕ) :
    ∑ x ∈ range h, ∑ y ∈ range w,
      (((sn ^ 2 : ℝ) : ℂ) * (respNew env ⟨false, false, it⟩ ref new i j x y *
          (starRingEnd ℂ) (respNew env ⟨false, false, it⟩ ref new i' j' x y)) +
        ((sr ^ 2 : ℝ) : ℂ) * (respRef env ⟨false, false, it⟩ ref new i j x y *
          (starRingEnd ℂ) (respRef env ⟨false, false, it⟩ ref new i' j' x y))) =
      ∑ n : Bool, ((if n then sn ^ 2 else sr ^ 2 : ℝ) : ℂ) * ∑ a ∈ range h, ∑ b ∈ range w,
        impulseResp h w (if n then gainNew ref new (z.2 / z.1) else gainRef ref new (z.2 / z.1) 0 0) i j a b *
          (starRingEnd ℂ) (impulseResp h w (if n then gainNew ref new (z.2 / z.1) else
            gainRef ref new (z.2 / z.1) 0 0) i' j' a b) := by
  have r := fun i j x hx y hy => resp_eq env it ref new h w z hmr hmn hz hc hr hn i j x y
    (mem_range.1 hx) (mem_range.1 hy)
  rw [Finset.sum_congr rfl fun x hx => Finset.sum_congr rfl fun y hy => by
    rw [(r i j x hx y hy).1, (r i j x hx y hy).2, (r i' j' x hx y hy).1, (r i' j' x hx y hy).2]]
  rw [Fintype.sum_bool]
  simp only [if_true, Bool.false_eq_true, if_false]
  simp only [Finset.sum_add_distrib, Finset.mul_sum]

omit hmr hmn hz hc hr hn hh hw in
theorem power_sub (sn sr : ℝ) (k l : ℕ) :
    ∑ n : Bool, (if n then sn ^ 2 else sr ^ 2) *
      normSq ((if n then gainNew ref new (z.2 / z.1) else gainRef ref new (z.2 / z.1) 0 0 : ℕ → ℕ → ℂ) k l) =
      noisePower ref new (z.2 / z.1) sn sr k l := by
  obtain ⟨_, _, r, hr, hr'⟩ := subtract_norm_pos ref new (z.2 / z.1) k l hv
  rw [normHat_eq] at hr'
  have hr2 : normReal ref new (z.2 / z.1) k l = r := by exact_mod_cast hr'
  have hpos : 0 < normReal ref new (z.2 / z.1) k l := by rw [hr2]; exact hr
  rw [Fintype.sum_bool]
  simp only [if_true, Bool.false_eq_true, if_false]
  have e : normReal ref new (z.2 / z.1) k l = new.var ^ 2 * normSq (ref.psfHat.px k l) +
      ref.var ^ 2 * (z.2 / z.1) ^ 2 * normSq (new.psfHat.px k l) := by
    unfold normReal
    ring
  unfold gainNew gainRef noisePower
  rw [← e, normSq_div, normSq_div, normSq_neg, normSq_mul, normSq_mul, normSq_ofReal, normSq_ofReal,
    normSq_shiftPhase, normSq_centredPsf, normSq_centredPsf, Real.mul_self_sqrt hpos.le]
  field_simp

/-- C171: pixels with other noise levels than those recorded. The covariance of two pixels of D. -/
theorem subtract_noise_true (sn sr : ℝ) (i j i' j' : ℕ) :
    ∑ x ∈ range h, ∑ y ∈ range w,
      (((sn ^ 2 : ℝ) : ℂ) * (respNew env ⟨false, false, it⟩ ref new i j x y *
          (starRingEnd ℂ) (respNew env ⟨false, false, it⟩ ref new i' j' x y)) +
        ((sr ^ 2 : ℝ) : ℂ) * (respRef env ⟨false, false, it⟩ ref new i j x y *
          (starRingEnd ℂ) (respRef env ⟨false, false, it⟩ ref new i' j' x y))) =
      (∑ k ∈ range h, ∑ l ∈ range w, (noisePower ref new (z.2 / z.1) sn sr k l : ℂ) *
        (tw h ((k : ℝ) * (((i' : ℤ) - i : ℤ) : ℝ)) * tw w ((l : ℝ) * (((j' : ℤ) - j : ℤ) : ℝ)))) / ((h * w : ℕ) : ℂ) := by
  rw [subtract_cov env it ref new h w z hmr hmn hz hc hr hn sn sr i j i' j']
  have := cov_of_power (univ : Finset Bool) h w (fun n => if n then sn ^ 2 else sr ^ 2)
    (fun n => if n then gainNew ref new (z.2 / z.1) else gainRef ref new (z.2 / z.1) 0 0) i j i' j' hh hw
  rw [this]
  simp only [power_sub ref new z hv]

/-- C171: every pixel of D has the same variance, between the smaller and the larger of the two ratios of true to recorded
noise power. -/
theorem subtract_noise_between (sn sr lo hi : ℝ) (i j : ℕ)
    (h1 : lo * new.var ^ 2 ≤ sn ^ 2 ∧ sn ^ 2 ≤ hi * new.var ^ 2) (h2 : lo * ref.var ^ 2 ≤ sr ^ 2 ∧ sr ^ 2 ≤ hi * ref.var ^ 2) :
    ∃ V : ℝ, lo ≤ V ∧ V ≤ hi ∧
    ∑ x ∈ range h, ∑ y ∈ range w,
      (((sn ^ 2 : ℝ) : ℂ) * (respNew env ⟨false, false, it⟩ ref new i j x y *
          (starRingEnd ℂ) (respNew env ⟨false, false, it⟩ ref new i j x y)) +
        ((sr ^ 2 : ℝ) : ℂ) * (respRef env ⟨false, false, it⟩ ref new i j x y *
          (starRingEnd ℂ) (respRef env ⟨false, false, it⟩ ref new i j x y))) = (V : ℂ) := by
  have hpos : (0 : ℝ) < ((h * w : ℕ) : ℝ) := by exact_mod_cast Nat.mul_pos (by omega) (by omega)
  have each : ∀ k l, lo ≤ noisePower ref new (z.2 / z.1) sn sr k l ∧ noisePower ref new (z.2 / z.1) sn sr k l ≤ hi := by
    intro k l
    obtain ⟨_, _, r, hr, hr'⟩ := subtract_norm_pos ref new (z.2 / z.1) k l hv
    rw [normHat_eq] at hr'
    have hr2 : normReal ref new (z.2 / z.1) k l = r := by exact_mod_cast hr'
    have e : new.var ^ 2 * normSq (ref.psfHat.px k l) +
        ref.var ^ 2 * (z.2 / z.1) ^ 2 * normSq (new.psfHat.px k l) = r := by
      rw [← hr2]
      unfold normReal
      ring
    have p1 := normSq_nonneg (ref.psfHat.px k l)
    have p2 : 0 ≤ (z.2 / z.1) ^ 2 * normSq (new.psfHat.px k l) := mul_nonneg (sq_nonneg _) (normSq_nonneg _)
    unfold noisePower
    rw [e]
    rw [le_div_iff₀ hr, div_le_iff₀ hr, ← e]
    constructor
    · nlinarith [mul_le_mul_of_nonneg_right h1.1 p1, mul_le_mul_of_nonneg_right h2.1 p2]
    · nlinarith [mul_le_mul_of_nonneg_right h1.2 p1, mul_le_mul_of_nonneg_right h2.2 p2]
  refine ⟨(∑ k ∈ range h, ∑ l ∈ range w, noisePower ref new (z.2 / z.1) sn sr k l) / ((h * w : ℕ) : ℝ), ?_, ?_, ?_⟩
  · rw [le_div_iff₀ hpos]
    calc lo * ((h * w : ℕ) : ℝ) = ∑ k ∈ range h, ∑ l ∈ range w, lo := by
          simp only [Finset.sum_const, Finset.card_range, nsmul_eq_mul]
          push_cast
          ring
      _ ≤ _ := Finset.sum_le_sum fun k _ => Finset.sum_le_sum fun l _ => (each k l).1
  · rw [div_le_iff₀ hpos]
    calc _ ≤ ∑ k ∈ range h, ∑ l ∈ range w, hi := Finset.sum_le_sum fun k _ => Finset.sum_le_sum fun l _ => (each k l).2
      _ = hi * ((h * w : ℕ) : ℝ) := by
          simp only [Finset.sum_const, Finset.card_range, nsmul_eq_mul]
          push_cast
          ring
  · rw [subtract_noise_true env it ref new h w z hmr hmn hz hc hr hn hh hw hv]
    push_cast
    congr 1
    refine Finset.sum_congr rfl fun k _ => Finset.sum_congr rfl fun l _ => ?_
    simp [tw_zero]

/-- C171: the noise in D is white exactly when both recorded noise levels are off by the same factor, or the PSFs have their power in
the same proportion at all frequencies. -/
theorem subtract_white_iff (hb : z.2 / z.1 ≠ 0) (sn sr : ℝ) :
    (∀ i < h, ∀ j < w, ∀ i' < h, ∀ j' < w, ¬ (i = i' ∧ j = j') →
      ∑ x ∈ range h, ∑ y ∈ range w,
        (((sn ^ 2 : ℝ) : ℂ) * (respNew env ⟨false, false, it⟩ ref new i j x y *
            (starRingEnd ℂ) (respNew env ⟨false, false, it⟩ ref new i' j' x y)) +
          ((sr ^ 2 : ℝ) : ℂ) * (respRef env ⟨false, false, it⟩ ref new i j x y *
            (starRingEnd ℂ) (respRef env ⟨false, false, it⟩ ref new i' j' x y))) = 0) ↔
    sn ^ 2 * ref.var ^ 2 = sr ^ 2 * new.var ^ 2 ∨
      ∀ k < h, ∀ l < w, ∀ k' < h, ∀ l' < w, normSq (ref.psfHat.px k l) * normSq (new.psfHat.px k' l') =
        normSq (ref.psfHat.px k' l') * normSq (new.psfHat.px k l) := by
  simp only [subtract_cov env it ref new h w z hmr hmn hz hc hr hn sn sr]
  have W := white_iff_power (univ : Finset Bool) h w (fun n => if n then sn ^ 2 else sr ^ 2)
    (fun n => if n then gainNew ref new (z.2 / z.1) else gainRef ref new (z.2 / z.1) 0 0) hh hw
  rw [W]
  simp only [power_sub ref new z hv]
  have den : ∀ k l, 0 < new.var ^ 2 * normSq (ref.psfHat.px k l) +
      ref.var ^ 2 * (z.2 / z.1) ^ 2 * normSq (new.psfHat.px k l) := by
    intro k l
    obtain ⟨_, _, r, hr, hr'⟩ := subtract_norm_pos ref new (z.2 / z.1) k l hv
    rw [normHat_eq] at hr'
    have hr2 : normReal ref new (z.2 / z.1) k l = r := by exact_mod_cast hr'
    have e : normReal ref new (z.2 / z.1) k l = new.var ^ 2 * normSq (ref.psfHat.px k l) +
        ref.var ^ 2 * (z.2 / z.1) ^ 2 * normSq (new.psfHat.px k l) := by
      unfold normReal
      ring
    rw [← e, hr2]
    exact hr
  have cross : ∀ k l k' l', noisePower ref new (z.2 / z.1) sn sr k l = noisePower ref new (z.2 / z.1) sn sr k' l' ↔
      (z.2 / z.1) ^ 2 * (sn ^ 2 * ref.var ^ 2 - sr ^ 2 * new.var ^ 2) *
        (normSq (ref.psfHat.px k l) * normSq (new.psfHat.px k' l') -
          normSq (ref.psfHat.px k' l') * normSq (new.psfHat.px k l)) = 0 := by
    intro k l k' l'
    unfold noisePower
    rw [div_eq_div_iff (den k l).ne' (den k' l').ne', ← sub_eq_zero]
    constructor <;> intro e <;> rw [← e] <;> ring
  simp only [cross]
  have b2 : (z.2 / z.1) ^ 2 ≠ 0 := pow_ne_zero 2 hb
  constructor
  · intro H
    by_cases e : sn ^ 2 * ref.var ^ 2 = sr ^ 2 * new.var ^ 2
    · exact Or.inl e
    · refine Or.inr fun k hk l hl k' hk' l' hl' => ?_
      exact sub_eq_zero.1 ((mul_eq_zero.1 (H k hk l hl k' hk' l' hl')).resolve_left (mul_ne_zero b2 (sub_ne_zero.2 e)))
  · rintro (e | e) k hk l hl k' hk' l' hl'
    · rw [e]; ring
    · rw [e k hk l hl k' hk' l' hl']; ring

end

/-! ## coadd -/

section
variable (lt : List CoImg → List CoImg → Option Bool) {n : ℕ} (hn : 0 < n)
    (d : Fin n → SinglePsf) (h w psfShape : ℕ) (procs : ℤ)
    (hs : ∀ j, (d j).interped.h = h ∧ (d j).interped.w = w ∧ (d j).mask.HasShape h w)
    (hp : procs ≤ n) (hp' : procs ≤ 2 ^ 25) (hb : procs * n ≤ 2 ^ 50)
    (hpow : ∀ k < h, ∀ l < w,
      zackayPower (fun j => (d j).zp) (fun j => (d j).var) (fun j => (d j).psfHat.px k l) ≠ 0)
include hn hs hp hp' hb hpow

/-- C171: pixels with other noise levels than those recorded. The covariance of two pixels of the coadd. -/
theorem coadd_noise_true (hh : h ≠ 0) (hw : w ≠ 0) (s : Fin n → ℝ) (i j i' j' : ℕ) :
    ∑ m, ((s m ^ 2 : ℝ) : ℂ) * ∑ x ∈ range h, ∑ y ∈ range w,
      respCoadd lt d psfShape procs m i j x y *
        (starRingEnd ℂ) (respCoadd lt d psfShape procs m i' j' x y) =
      (∑ k ∈ range h, ∑ l ∈ range w,
        (((∑ m, s m ^ 2 * ((d m).zp / (d m).var ^ 2) ^ 2 * normSq ((d m).psfHat.px k l)) /
          (∑ m, ((d m).zp / (d m).var) ^ 2 * normSq ((d m).psfHat.px k l)) : ℝ) : ℂ) *
        (tw h ((k : ℝ) * (((i' : ℤ) - i : ℤ) : ℝ)) * tw w ((l : ℝ) * (((j' : ℤ) - j : ℤ) : ℝ)))) /
          ((h * w : ℕ) : ℂ) ^ 2 := by
  have hhw : (0 : ℝ) < ((h * w : ℕ) : ℝ) := by exact_mod_cast Nat.mul_pos (by omega) (by omega)
  have e : ∑ m, ((s m ^ 2 : ℝ) : ℂ) * ∑ x ∈ range h, ∑ y ∈ range w,
      respCoadd lt d psfShape procs m i j x y * (starRingEnd ℂ) (respCoadd lt d psfShape procs m i' j' x y) =
      ∑ m ∈ (univ : Finset (Fin n)), ((s m ^ 2 : ℝ) : ℂ) * ∑ a ∈ range h, ∑ b ∈ range w,
        impulseResp h w (gainCoadd d h w m) i j a b *
          (starRingEnd ℂ) (impulseResp h w (gainCoadd d h w m) i' j' a b) := by
    refine Finset.sum_congr rfl fun m _ => ?_
    congr 1
    refine Finset.sum_congr rfl fun x hx => Finset.sum_congr rfl fun y hy => ?_
    rw [respCoadd_eq lt hn d h w psfShape procs hs hp hp' hb m i j x y (mem_range.1 hx) (mem_range.1 hy),
      respCoadd_eq lt hn d h w psfShape procs hs hp hp' hb m i' j' x y (mem_range.1 hx) (mem_range.1 hy)]
  rw [e, cov_of_power univ h w (fun m => s m ^ 2) (fun m => gainCoadd d h w m) i j i' j' hh hw, sq (((h * w : ℕ) : ℂ)),
    ← div_div]
  congr 1
  rw [Finset.sum_div]
  refine Finset.sum_congr rfl fun k hk => ?_
  rw [Finset.sum_div]
  refine Finset.sum_congr rfl fun l hl => ?_
  rw [mul_div_right_comm]
  congr 1
  have z : zackayPower (fun j => (d j).zp) (fun j => (d j).var) (fun j => (d j).psfHat.px k l) =
      ∑ m, ((d m).zp / (d m).var) ^ 2 * normSq ((d m).psfHat.px k l) := by
    unfold zackayPower
    simp only [div_pow]
  have nz := hpow k (mem_range.1 hk) l (mem_range.1 hl)
  have hpos : 0 ≤ zackayPower (fun j => (d j).zp) (fun j => (d j).var) (fun j => (d j).psfHat.px k l) :=
    zackayPower_nonneg _ _ _
  have g : ∀ m, s m ^ 2 * normSq (gainCoadd d h w m k l) =
      s m ^ 2 * ((d m).zp / (d m).var ^ 2) ^ 2 * normSq ((d m).psfHat.px k l) /
        (zackayPower (fun j => (d j).zp) (fun j => (d j).var) (fun j => (d j).psfHat.px k l)) / ((h * w : ℕ) : ℝ) := by
    intro m
    unfold gainCoadd
    rw [normSq_div, normSq_mul, normSq_mul, normSq_mul, normSq_ofReal, normSq_ofReal, normSq_ofReal,
      normSq_shiftPhase, normSq_conj, Real.mul_self_sqrt hpos, Real.mul_self_sqrt (by positivity)]
    field_simp
  simp only [g, ← Finset.sum_div]
  rw [z]
  push_cast
  rfl

/-- C171: every pixel of the coadd has the same variance, between the smallest and the largest of the ratios of true to recorded noise
power, over the number of pixels. -/
theorem coadd_noise_between (hh : h ≠ 0) (hw : w ≠ 0) (s : Fin n → ℝ) (lo hi : ℝ) (hv : ∀ m, (d m).var ≠ 0)
    (hlh : ∀ m, lo * (d m).var ^ 2 ≤ s m ^ 2 ∧ s m ^ 2 ≤ hi * (d m).var ^ 2) (i j : ℕ) :
    ∃ V : ℝ, lo ≤ V ∧ V ≤ hi ∧
      ∑ m, ((s m ^ 2 : ℝ) : ℂ) * ∑ x ∈ range h, ∑ y ∈ range w,
        respCoadd lt d psfShape procs m i j x y *
          (starRingEnd ℂ) (respCoadd lt d psfShape procs m i j x y) = ((V / ((h * w : ℕ) : ℝ) : ℝ) : ℂ) := by
  have hhw : (0 : ℝ) < ((h * w : ℕ) : ℝ) := by exact_mod_cast Nat.mul_pos (by omega) (by omega)
  set ρ : ℕ → ℕ → ℝ := fun k l => (∑ m, s m ^ 2 * ((d m).zp / (d m).var ^ 2) ^ 2 * normSq ((d m).psfHat.px k l)) /
          (∑ m, ((d m).zp / (d m).var) ^ 2 * normSq ((d m).psfHat.px k l)) with hρ
  have each : ∀ k < h, ∀ l < w, lo ≤ ρ k l ∧ ρ k l ≤ hi := by
    intro k hk l hl
    have z : zackayPower (fun j => (d j).zp) (fun j => (d j).var) (fun j => (d j).psfHat.px k l) =
        ∑ m, ((d m).zp / (d m).var) ^ 2 * normSq ((d m).psfHat.px k l) := by
      unfold zackayPower
      simp only [div_pow]
    have pos : 0 < ∑ m, ((d m).zp / (d m).var) ^ 2 * normSq ((d m).psfHat.px k l) := by
      rw [← z]
      exact lt_of_le_of_ne (zackayPower_nonneg _ _ _) (Ne.symm (hpow k hk l hl))
    rw [hρ]
    simp only []
    rw [le_div_iff₀ pos, div_le_iff₀ pos, Finset.mul_sum, Finset.mul_sum]
    have t : ∀ (c : ℝ) m, c * (((d m).zp / (d m).var) ^ 2 * normSq ((d m).psfHat.px k l)) =
        c * (d m).var ^ 2 * (((d m).zp / (d m).var ^ 2) ^ 2 * normSq ((d m).psfHat.px k l)) := by
      intro c m
      have := hv m
      field_simp
    constructor
    · refine Finset.sum_le_sum fun m _ => ?_
      rw [t, mul_assoc (s m ^ 2)]
      exact mul_le_mul_of_nonneg_right (hlh m).1 (mul_nonneg (sq_nonneg _) (normSq_nonneg _))
    · refine Finset.sum_le_sum fun m _ => ?_
      rw [t, mul_assoc (s m ^ 2)]
      exact mul_le_mul_of_nonneg_right (hlh m).2 (mul_nonneg (sq_nonneg _) (normSq_nonneg _))
  refine ⟨(∑ k ∈ range h, ∑ l ∈ range w, ρ k l) / ((h * w : ℕ) : ℝ), ?_, ?_, ?_⟩
  · rw [le_div_iff₀ hhw]
    calc lo * ((h * w : ℕ) : ℝ) = ∑ k ∈ range h, ∑ l ∈ range w, lo := by
          simp only [Finset.sum_const, Finset.card_range, nsmul_eq_mul]
          push_cast
          ring
      _ ≤ _ := Finset.sum_le_sum fun k hk => Finset.sum_le_sum fun l hl => (each k (mem_range.1 hk) l (mem_range.1 hl)).1
  · rw [div_le_iff₀ hhw]
    calc _ ≤ ∑ k ∈ range h, ∑ l ∈ range w, hi :=
          Finset.sum_le_sum fun k hk => Finset.sum_le_sum fun l hl => (each k (mem_range.1 hk) l (mem_range.1 hl)).2
      _ = hi * ((h * w : ℕ) : ℝ) := by
          simp only [Finset.sum_const, Finset.card_range, nsmul_eq_mul]
          push_cast
          ring
  · rw [coadd_noise_true lt hn d h w psfShape procs hs hp hp' hb hpow hh hw]
    rw [div_div, ← sq, Complex.ofReal_div, Complex.ofReal_pow, Complex.ofReal_natCast, Complex.ofReal_sum]
    congr 1
    refine Finset.sum_congr rfl fun k _ => ?_
    rw [Complex.ofReal_sum]
    refine Finset.sum_congr rfl fun l _ => ?_
    simp [tw_zero, hρ]

variable (ψ : Fin n → Img ℝ) (hψ : ∀ m, (d m).psf = toC (ψ m)) (p q : Fin n → ℕ) (X Y : ℤ)
    (hpq : ∀ m, p m < h ∧ q m < w)
    (hX : ∀ m, (p m : ℝ) + (d m).com.1 = X) (hY : ∀ m, (q m : ℝ) + (d m).com.2 = Y)
include hψ hpq hX hY

/-- C171: the star statistic of the coadd when the star has the fluxes `f` instead of the zero points and the pixels the noise levels `s` instead
of those recorded. It never does better than the best statistic, and as well exactly when the weights `zp / var²` are right up to one
common factor. -/
theorem coadd_wrong_weights (hv : ∀ m, (d m).var ≠ 0) (f s : Fin n → ℝ) (hs0 : ∀ m, s m ≠ 0)
    (hE : ∀ m, ∃ a < h, ∃ b < w, padPx (ψ m) a b ≠ 0) :
    ∃ out, coaddCore lt ((List.ofFn d).map SinglePsf.toCoImg) psfShape procs = .ok out ∧
      ∀ T, T = pixelWeights h w
          (fun i j => (starRingEnd ℂ)
            (out.Pr.px (((i : ℤ) - (X - psfShape)) % h).toNat (((j : ℤ) - (Y - psfShape)) % w).toNat))
          (respCoadd lt d psfShape procs) →
        normSq (linResp h w T fun m => starAt h w (ψ m) (p m) (q m) (f m)) / linNoise h w s T =
          (∑ m, (d m).zp * f m / (d m).var ^ 2 * ∑ a ∈ range h, ∑ b ∈ range w, padPx (ψ m) a b ^ 2) ^ 2 /
            ∑ m, (d m).zp ^ 2 * s m ^ 2 / (d m).var ^ 4 * ∑ a ∈ range h, ∑ b ∈ range w, padPx (ψ m) a b ^ 2 ∧
        normSq (linResp h w T fun m => starAt h w (ψ m) (p m) (q m) (f m)) / linNoise h w s T ≤
          ∑ m, f m ^ 2 / s m ^ 2 * ∑ a ∈ range h, ∑ b ∈ range w, padPx (ψ m) a b ^ 2 ∧
        (normSq (linResp h w T fun m => starAt h w (ψ m) (p m) (q m) (f m)) / linNoise h w s T =
          ∑ m, f m ^ 2 / s m ^ 2 * ∑ a ∈ range h, ∑ b ∈ range w, padPx (ψ m) a b ^ 2 ↔
          ∃ c : ℝ, ∀ m, f m / s m ^ 2 = c * ((d m).zp / (d m).var ^ 2)) := by
  obtain ⟨out, e, st⟩ := coadd_weights lt hn d h w psfShape procs hs hp hp' hb ψ hψ p q X Y hpq hX hY hpow hv
  refine ⟨out, e, fun T hT => ?_⟩
  obtain ⟨_, lam, lam0, hl⟩ := st T hT
  set E : Fin n → ℝ := fun m => ∑ a ∈ range h, ∑ b ∈ range w, padPx (ψ m) a b ^ 2 with hEd
  have Epos : ∀ m, 0 < E m := by
    intro m
    obtain ⟨a, ha, b, hb', nz⟩ := hE m
    have nn : ∀ a ∈ range h, 0 ≤ ∑ b ∈ range w, padPx (ψ m) a b ^ 2 := fun a _ => Finset.sum_nonneg fun b _ => sq_nonneg _
    refine lt_of_lt_of_le ?_ (Finset.single_le_sum nn (mem_range.2 ha))
    refine lt_of_lt_of_le ?_ (Finset.single_le_sum (fun b _ => sq_nonneg (padPx (ψ m) a b)) (mem_range.2 hb'))
    positivity
  have ov : ∀ m (c c' : ℝ), ∑ a ∈ range h, ∑ b ∈ range w,
      (starAt h w (ψ m) (p m) (q m) c).px a b * (starAt h w (ψ m) (p m) (q m) c').px a b = c * c' * E m := by
    intro m c c'
    have := starAt_overlap h w (ψ m) (ψ m) (p m) (q m) c c'
    simp only [← sq] at this
    exact this
  have r : linResp h w T (fun m => starAt h w (ψ m) (p m) (q m) (f m)) =
      lam * ((∑ m, (d m).zp * f m / (d m).var ^ 2 * E m : ℝ) : ℂ) := by
    unfold linResp
    rw [Complex.ofReal_sum, Finset.mul_sum]
    refine Finset.sum_congr rfl fun m _ => ?_
    have o := congrArg (fun t : ℝ => (t : ℂ)) (ov m (d m).zp (f m))
    have t : (d m).zp * f m / (d m).var ^ 2 * E m = (d m).zp * f m * E m / (d m).var ^ 2 := by ring
    rw [t, ← ov m (d m).zp (f m)]
    push_cast
    rw [← mul_div_assoc, Finset.mul_sum, Finset.sum_div]
    refine Finset.sum_congr rfl fun a ha => ?_
    rw [Finset.mul_sum, Finset.sum_div]
    refine Finset.sum_congr rfl fun b hb' => ?_
    rw [hl m a (mem_range.1 ha) b (mem_range.1 hb')]
    unfold commonStar
    push_cast
    ring
  have nz : linNoise h w s T = normSq lam * ∑ m, (d m).zp ^ 2 * s m ^ 2 / (d m).var ^ 4 * E m := by
    unfold linNoise
    rw [Finset.mul_sum]
    refine Finset.sum_congr rfl fun m _ => ?_
    have v0 := hv m
    have t : (d m).zp ^ 2 * s m ^ 2 / (d m).var ^ 4 * E m = s m ^ 2 * ((d m).zp * (d m).zp * E m) / (d m).var ^ 4 := by ring
    rw [t, ← ov m (d m).zp (d m).zp, ← mul_div_assoc, Finset.mul_sum, Finset.mul_sum, Finset.sum_div]
    refine Finset.sum_congr rfl fun a ha => ?_
    rw [Finset.mul_sum, Finset.mul_sum, Finset.sum_div]
    refine Finset.sum_congr rfl fun b hb' => ?_
    rw [hl m a (mem_range.1 ha) b (mem_range.1 hb'), normSq_mul, normSq_ofReal]
    unfold commonStar
    field_simp
  have pos : 0 < ∑ m, (d m).zp ^ 2 * s m ^ 2 / (d m).var ^ 4 * E m := by
    have nn : ∀ m ∈ (univ : Finset (Fin n)), 0 ≤ (d m).zp ^ 2 * s m ^ 2 / (d m).var ^ 4 * E m := fun m _ =>
      mul_nonneg (by positivity) (Epos m).le
    obtain ⟨m, hm⟩ : ∃ m, (d m).zp ≠ 0 := by
      by_contra hcon
      push Not at hcon
      have h0 : h ≠ 0 := by have := (hpq ⟨0, hn⟩).1; omega
      have w0 : w ≠ 0 := by have := (hpq ⟨0, hn⟩).2; omega
      refine hpow 0 (by omega) 0 (by omega) ?_
      unfold zackayPower
      refine Finset.sum_eq_zero fun m _ => ?_
      simp [hcon m]
    refine lt_of_lt_of_le ?_ (Finset.single_le_sum nn (mem_univ m))
    have := hs0 m
    have := hv m
    have := Epos m
    positivity
  have l2 : 0 < normSq lam := normSq_pos.2 lam0
  have main : normSq (linResp h w T fun m => starAt h w (ψ m) (p m) (q m) (f m)) / linNoise h w s T =
      (∑ m, (d m).zp * f m / (d m).var ^ 2 * E m) ^ 2 / ∑ m, (d m).zp ^ 2 * s m ^ 2 / (d m).var ^ 4 * E m := by
    rw [r, nz, normSq_mul, normSq_ofReal, mul_div_mul_left _ _ l2.ne', sq]
  have vp : ∀ m ∈ (univ : Finset (Fin n)), 0 < s m ^ 2 / E m := fun m _ => by
    have := hs0 m
    have := Epos m
    positivity
  have c1 : ∑ m, ((d m).zp * s m ^ 2 / (d m).var ^ 2) * f m / (s m ^ 2 / E m) =
      ∑ m, (d m).zp * f m / (d m).var ^ 2 * E m := by
    refine Finset.sum_congr rfl fun m _ => ?_
    have := hs0 m
    have := (Epos m).ne'
    field_simp
  have c2 : ∑ m, ((d m).zp * s m ^ 2 / (d m).var ^ 2) ^ 2 / (s m ^ 2 / E m) =
      ∑ m, (d m).zp ^ 2 * s m ^ 2 / (d m).var ^ 4 * E m := by
    refine Finset.sum_congr rfl fun m _ => ?_
    have := hs0 m
    have := hv m
    have := (Epos m).ne'
    field_simp
  have c3 : ∑ m, f m ^ 2 / (s m ^ 2 / E m) = ∑ m, f m ^ 2 / s m ^ 2 * E m := by
    refine Finset.sum_congr rfl fun m _ => ?_
    have := hs0 m
    have := (Epos m).ne'
    field_simp
  obtain ⟨cs, ceq⟩ := overlap_le (univ : Finset (Fin n)) (fun m => (d m).zp * s m ^ 2 / (d m).var ^ 2) f
    (fun m => s m ^ 2 / E m) vp (by rw [c2]; exact pos)
  rw [c1, c2, c3] at cs ceq
  refine ⟨main, ?_, ?_⟩
  · rw [main, div_le_iff₀ pos, mul_comm]
    exact cs
  · rw [main, div_eq_iff pos.ne', mul_comm, ceq]
    refine exists_congr fun c => ⟨fun k m => ?_, fun k m _ => ?_⟩
    · have := hs0 m
      have := hv m
      rw [k m (mem_univ m)]
      field_simp
    · have := hs0 m
      have k' := k m
      rw [div_eq_iff (by positivity)] at k'
      rw [k']
      ring

end

/-! ## Cases -/

theorem one_hat (a b : ℝ) (l : ℕ) : (tinySub a b).psfHat.px 0 l = ((1 / Real.sqrt 2 : ℝ) : ℂ) := by
  rw [← guardHat_real_pos _ (by positivity : 0 < 1 / Real.sqrt 2)]
  change guardHat (_ / _) = _
  congr 1
  unfold dft padTo toC tinySub SubImg.h SubImg.w Img.map
  simp [Finset.sum_range_succ, tw_zero]

theorem uneven_power (l : ℕ) (hl : l < 2) :
    noisePower evenRef (tinySub 1 0) (2 / 1) 1 2 0 l = if l = 0 then 8 / 5 else 5 / 2 := by
  have s2 : Real.sqrt 2 * Real.sqrt 2 = 2 := Real.mul_self_sqrt (by norm_num)
  have n1 : normSq ((tinySub 1 0).psfHat.px 0 l) = 1 / 2 := by
    rw [one_hat, normSq_ofReal, div_mul_div_comm, s2]
    norm_num
  unfold noisePower
  rw [n1]
  obtain rfl | rfl : l = 0 ∨ l = 1 := by omega
  · rw [even_psfHat0, normSq_ofReal, div_mul_div_comm, s2]
    norm_num [tinySub, evenRef]
  · rw [even_psfHat1, normSq_ofReal, div_mul_div_comm, s2]
    norm_num [tinySub, evenRef]

/-- Both images record the noise level 1, the reference has 2 in truth: the pixels of D have variance 41/20 and neighbours the covariance
-9/20. -/
theorem uneven_noise (j' : ℕ) (hj : j' < 2) :
    ∑ x ∈ range 1, ∑ y ∈ range 2,
      (((1 ^ 2 : ℝ) : ℂ) * (respNew (tinyEnv 1 2) ⟨false, false, true⟩ evenRef (tinySub 1 0) 0 0 x y *
          (starRingEnd ℂ) (respNew (tinyEnv 1 2) ⟨false, false, true⟩ evenRef (tinySub 1 0) 0 j' x y)) +
        ((2 ^ 2 : ℝ) : ℂ) * (respRef (tinyEnv 1 2) ⟨false, false, true⟩ evenRef (tinySub 1 0) 0 0 x y *
          (starRingEnd ℂ) (respRef (tinyEnv 1 2) ⟨false, false, true⟩ evenRef (tinySub 1 0) 0 j' x y))) =
      if j' = 0 then 41 / 20 else -9 / 20 := by
  have k := subtract_noise_true (tinyEnv 1 2) true evenRef (tinySub 1 0) 1 2 (1, 2)
    (by intro a h; cases h) (by intro a h; cases h) rfl (Or.inl rfl) rfl rfl (by norm_num) (by norm_num)
    (Or.inl (by norm_num [tinySub])) 1 2 0 0 0 j'
  refine k.trans ?_
  have p0 := uneven_power 0 (by norm_num)
  have p1 := uneven_power 1 (by norm_num)
  rw [if_pos rfl] at p0
  rw [if_neg (by norm_num)] at p1
  simp only [Finset.sum_range_succ, Finset.sum_range_zero, zero_add]
  rw [p0, p1]
  obtain rfl | rfl : j' = 0 ∨ j' = 1 := by omega
  · norm_num [tw_zero]
  · norm_num [tw_zero, tw_two_one]

/-- A sharp and a soft exposure, both recorded with noise level 1; the soft one has 2 in truth. The squared signal-to-noise ratio is 3/4
instead of 9/8. -/
theorem sharpAndSoft_noisy (lt : List CoImg → List CoImg → Option Bool) :
    ∃ out, coaddCore lt ((List.ofFn sharpAndSoft).map SinglePsf.toCoImg) 0 2 = .ok out ∧
      ∀ T, T = pixelWeights 1 2
          (fun i j => (starRingEnd ℂ)
            (out.Pr.px (((i : ℤ) - (0 - (0 : ℕ))) % (1 : ℕ)).toNat (((j : ℤ) - (0 - (0 : ℕ))) % (2 : ℕ)).toNat))
          (respCoadd lt sharpAndSoft 0 2) →
        normSq (linResp 1 2 T fun m => starAt 1 2
            (if m = 0 then ⟨1, 1, fun _ _ => 1⟩ else ⟨1, 2, fun _ _ => 1 / 2⟩ : Img ℝ) 0 0 1) /
          linNoise 1 2 (fun m => if m = 0 then 1 else 2) T = 3 / 4 := by
  obtain ⟨out, e, k⟩ := coadd_wrong_weights lt (n := 2) (by norm_num) sharpAndSoft 1 2 0 2
    (fun m => ⟨rfl, rfl, by intro a h; cases h⟩) (by norm_num) (by norm_num) (by norm_num)
    (by
      intro k hk l hl
      obtain rfl : k = 0 := by omega
      obtain rfl | rfl : l = 0 ∨ l = 1 := by omega
      · exact ne_of_eq_of_ne sharpAndSoft_power.1 (by norm_num)
      · exact ne_of_eq_of_ne sharpAndSoft_power.2 (by norm_num))
    (fun m => if m = 0 then ⟨1, 1, fun _ _ => 1⟩ else ⟨1, 2, fun _ _ => 1 / 2⟩)
    (by intro m; fin_cases m <;> simp [sharpAndSoft, toC, Img.map]) (fun _ => 0) (fun _ => 0) 0 0
    (fun _ => by norm_num) (fun _ => by norm_num [sharpAndSoft]) (fun _ => by norm_num [sharpAndSoft])
    (fun _ => by norm_num [sharpAndSoft]) (fun _ => 1) (fun m => if m = 0 then 1 else 2)
    (by intro m; fin_cases m <;> norm_num)
    (by intro m; refine ⟨0, by norm_num, 0, by norm_num, ?_⟩; fin_cases m <;> norm_num [padPx])
  refine ⟨out, e, fun T hT => ?_⟩
  rw [(k T hT).1]
  norm_num [Fin.sum_univ_two, Finset.sum_range_succ, padPx, sharpAndSoft]

end PI
