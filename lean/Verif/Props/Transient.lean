import Verif.Props.Optimal

/-!
# Property C156: how well a new star is seen in the difference image
-/

namespace PI

open Complex Finset

/-- The squared signal to noise ratio of a new star of flux one in the difference image (`subtract_snr`). -/
noncomputable def diffInfo (ref new : SubImg) (b : ℝ) (h w : ℕ) : ℝ :=
  ∑ k ∈ range h, ∑ l ∈ range w,
    normSq (ref.psfHat.px k l) * normSq (new.psfHat.px k l) / normReal ref new b k l

/-- The squared signal to noise ratio of a star of flux `c` in one image alone. -/
noncomputable def aloneInfo (d : SubImg) (c : ℝ) (h w : ℕ) : ℝ :=
  ∑ k ∈ range h, ∑ l ∈ range w, c ^ 2 * normSq (d.psfHat.px k l) / d.var ^ 2

theorem psf_power_pos (d : SubImg) (k l : ℕ) : 0 < normSq (d.psfHat.px k l) := normSq_pos.2 (psfHat_ne_zero _ _ _)

/-- The noises of the two images add up at each frequency. -/
theorem diff_term (ref new : SubImg) (b : ℝ) (k l : ℕ) :
    normSq (ref.psfHat.px k l) * normSq (new.psfHat.px k l) / normReal ref new b k l =
      (new.var ^ 2 / normSq (new.psfHat.px k l) + b ^ 2 * ref.var ^ 2 / normSq (ref.psfHat.px k l))⁻¹ := by
  have h1 := (psf_power_pos ref k l).ne'
  have h2 := (psf_power_pos new k l).ne'
  unfold normReal
  rw [div_add_div _ _ h2 h1, inv_div, mul_comm (normSq (new.psfHat.px k l)) (b ^ 2 * ref.var ^ 2),
    mul_comm (normSq (ref.psfHat.px k l)) (normSq (new.psfHat.px k l))]

/-- The noise per frequency of an image over its PSF power; an image is at least as good as another if this is nowhere
larger. -/
noncomputable def noiseAt (d : SubImg) (k l : ℕ) : ℝ := d.var ^ 2 / normSq (d.psfHat.px k l)

theorem noiseAt_nonneg (d : SubImg) (k l : ℕ) : 0 ≤ noiseAt d k l := div_nonneg (sq_nonneg _) (normSq_nonneg _)

theorem diff_term' (ref new : SubImg) (b : ℝ) (k l : ℕ) :
    normSq (ref.psfHat.px k l) * normSq (new.psfHat.px k l) / normReal ref new b k l =
      (noiseAt new k l + b ^ 2 * noiseAt ref k l)⁻¹ := by
  rw [diff_term]
  unfold noiseAt
  rw [mul_div_assoc]

theorem alone_term (d : SubImg) (c : ℝ) (k l : ℕ) :
    c ^ 2 * normSq (d.psfHat.px k l) / d.var ^ 2 = c ^ 2 * (noiseAt d k l)⁻¹ := by
  unfold noiseAt
  rw [inv_div, mul_div_assoc]

theorem noiseAt_pos (d : SubImg) (hv : d.var ≠ 0) (k l : ℕ) : 0 < noiseAt d k l :=
  div_pos (by positivity) (psf_power_pos d k l)

/-- C156: better images (no more noise per frequency, flux scale of the reference no larger) never see the star worse. -/
theorem diff_better (ref new ref' new' : SubImg) (b b' : ℝ) (h w : ℕ)
    (hv : new'.var ≠ 0 ∨ (ref'.var ≠ 0 ∧ b' ≠ 0))
    (hn : ∀ k < h, ∀ l < w, noiseAt new' k l ≤ noiseAt new k l)
    (hr : ∀ k < h, ∀ l < w, noiseAt ref' k l ≤ noiseAt ref k l) (hb : |b'| ≤ |b|) :
    diffInfo ref new b h w ≤ diffInfo ref' new' b' h w := by
  refine Finset.sum_le_sum fun k hk => Finset.sum_le_sum fun l hl => ?_
  rw [diff_term', diff_term']
  have hb2 : b' ^ 2 ≤ b ^ 2 := sq_le_sq.2 hb
  have hpos : 0 < noiseAt new' k l + b' ^ 2 * noiseAt ref' k l := by
    rcases hv with h1 | ⟨h1, h2⟩
    · exact add_pos_of_pos_of_nonneg (noiseAt_pos new' h1 k l) (mul_nonneg (sq_nonneg _) (noiseAt_nonneg _ _ _))
    · exact add_pos_of_nonneg_of_pos (noiseAt_nonneg _ _ _) (mul_pos (by positivity) (noiseAt_pos ref' h1 k l))
  refine inv_anti₀ hpos (add_le_add (hn k (mem_range.1 hk) l (mem_range.1 hl)) ?_)
  exact mul_le_mul hb2 (hr k (mem_range.1 hk) l (mem_range.1 hl)) (noiseAt_nonneg _ _ _) (sq_nonneg _)

/-- C156: a new star is never seen better in the difference image than in the new image alone, -/
theorem diff_le_new (ref new : SubImg) (b : ℝ) (h w : ℕ) (hv : new.var ≠ 0) :
    diffInfo ref new b h w ≤ aloneInfo new 1 h w := by
  refine Finset.sum_le_sum fun k _ => Finset.sum_le_sum fun l _ => ?_
  rw [diff_term', alone_term, one_pow, one_mul]
  exact inv_anti₀ (noiseAt_pos new hv k l) (le_add_of_nonneg_right (mul_nonneg (sq_nonneg _) (noiseAt_nonneg _ _ _)))

/-- just as well exactly if the reference has no noise, -/
theorem diff_eq_new_iff (ref new : SubImg) (b : ℝ) (h w : ℕ) (h0 : h ≠ 0) (w0 : w ≠ 0) (hv : new.var ≠ 0) (hb : b ≠ 0) :
    diffInfo ref new b h w = aloneInfo new 1 h w ↔ ref.var = 0 := by
  constructor
  · intro heq
    by_contra hr
    refine absurd heq (ne_of_lt ?_)
    have hlt : ∀ k l, normSq (ref.psfHat.px k l) * normSq (new.psfHat.px k l) / normReal ref new b k l <
        1 ^ 2 * normSq (new.psfHat.px k l) / new.var ^ 2 := by
      intro k l
      rw [diff_term', alone_term, one_pow, one_mul]
      exact inv_strictAnti₀ (noiseAt_pos new hv k l)
        (lt_add_of_pos_right _ (mul_pos (by positivity) (noiseAt_pos ref hr k l)))
    exact Finset.sum_lt_sum_of_nonempty (Finset.nonempty_range_iff.2 h0) fun k _ =>
      Finset.sum_lt_sum_of_nonempty (Finset.nonempty_range_iff.2 w0) fun l _ => hlt k l
  · intro hr
    refine Finset.sum_congr rfl fun k _ => Finset.sum_congr rfl fun l _ => ?_
    rw [diff_term', alone_term, one_pow, one_mul]
    simp [noiseAt, hr]

/-- nor better than a star of the flux `1/b` would be seen in the reference. -/
theorem diff_le_ref (ref new : SubImg) (b : ℝ) (h w : ℕ) (hv : ref.var ≠ 0) (hb : b ≠ 0) :
    diffInfo ref new b h w ≤ aloneInfo ref (1 / b) h w := by
  refine Finset.sum_le_sum fun k _ => Finset.sum_le_sum fun l _ => ?_
  rw [diff_term', alone_term, one_div, inv_pow, ← mul_inv]
  exact inv_anti₀ (mul_pos (by positivity) (noiseAt_pos ref hv k l)) (le_add_of_nonneg_left (noiseAt_nonneg _ _ _))

/-- C156: with a reference as good as the new image, half of the squared signal to noise ratio is left. -/
theorem diff_half (ref new : SubImg) (b : ℝ) (h w : ℕ)
    (he : ∀ k < h, ∀ l < w, b ^ 2 * noiseAt ref k l = noiseAt new k l) :
    diffInfo ref new b h w = aloneInfo new 1 h w / 2 := by
  unfold diffInfo aloneInfo
  rw [Finset.sum_div]
  refine Finset.sum_congr rfl fun k hk => ?_
  rw [Finset.sum_div]
  refine Finset.sum_congr rfl fun l hl => ?_
  rw [diff_term', alone_term, he k (mem_range.1 hk) l (mem_range.1 hl), one_pow, one_mul, ← two_mul, mul_inv, mul_comm,
    div_eq_mul_inv]

theorem alone_power (d : SubImg) (h w : ℕ) (hd : d.interped.shape = (h, w)) (hh : h ≠ 0) (hw : w ≠ 0)
    (gd : GuardIdle h w d.psf) (A B X Y : ℤ) (c : ℝ) :
    ∑ i ∈ range h, ∑ j ∈ range w, (skyStar h w d.psf A B X Y c).px i j ^ 2 = aloneInfo d c h w * d.var ^ 2 ∨ d.var = 0 := by
  by_cases hv : d.var = 0
  · exact Or.inr hv
  refine Or.inl ?_
  have dh : d.interped.h = h := congrArg Prod.fst hd
  have dw : d.interped.w = w := congrArg Prod.snd hd
  have f := fftOrtho_power h w (fun i j => ((skyStar h w d.psf A B X Y c).px i j : ℂ))
  have t : ∀ k ∈ range h, ∀ l ∈ range w,
      normSq ((fftOrtho ⟨h, w, fun i j => ((skyStar h w d.psf A B X Y c).px i j : ℂ)⟩).px k l) =
      c ^ 2 * normSq (d.psfHat.px k l) := by
    intro k hk l hl
    change normSq ((fftOrtho (toC (skyStar h w d.psf A B X Y c))).px k l) = _
    rw [fftOrtho_skyStar h w hh hw, ← psfHat_idle d h w dh dw gd k l (mem_range.1 hk) (mem_range.1 hl), normSq_mul,
      normSq_mul, normSq_ofReal, normSq_shiftPhase]
    ring
  rw [Finset.sum_congr rfl fun k hk => Finset.sum_congr rfl fun l hl => t k hk l hl] at f
  unfold aloneInfo
  simp only [← Finset.sum_div]
  rw [div_mul_cancel₀ _ (by positivity), f]
  refine Finset.sum_congr rfl fun i _ => Finset.sum_congr rfl fun j _ => ?_
  rw [normSq_ofReal, pow_two]

/-- C156: `aloneInfo` is the largest squared signal to noise ratio that a linear statistic of the pixels of one image has
for a star of flux `c`, and it is attained. -/
theorem alone_best (d : SubImg) (h w : ℕ) (hd : d.interped.shape = (h, w)) (hh : h ≠ 0) (hw : w ≠ 0)
    (gd : GuardIdle h w d.psf) (hv : d.var ≠ 0) (A B X Y : ℤ) (c : ℝ) (hc : c ≠ 0) :
    (∀ g : Unit → ℕ → ℕ → ℂ, normSq (linResp h w g fun _ => skyStar h w d.psf A B X Y c) ≤
      linNoise h w (fun _ => d.var) g * aloneInfo d c h w) ∧
    ∃ g : Unit → ℕ → ℕ → ℂ, 0 < linNoise h w (fun _ => d.var) g ∧
      normSq (linResp h w g fun _ => skyStar h w d.psf A B X Y c) =
        linNoise h w (fun _ => d.var) g * aloneInfo d c h w := by
  have P := (alone_power d h w hd hh hw gd A B X Y c).resolve_right hv
  set s := skyStar h w d.psf A B X Y c with hs
  have hI : 0 < aloneInfo d c h w := by
    refine Finset.sum_pos (fun k _ => Finset.sum_pos (fun l _ => ?_) (Finset.nonempty_range_iff.2 hw))
      (Finset.nonempty_range_iff.2 hh)
    exact div_pos (mul_pos (by positivity) (psf_power_pos d k l)) (by positivity)
  have e1 : ∑ b ∈ (univ : Finset Unit) ×ˢ (range h ×ˢ range w), s.px b.2.1 b.2.2 ^ 2 / d.var ^ 2 = aloneInfo d c h w := by
    rw [Finset.sum_product, Finset.univ_unique, Finset.sum_singleton, Finset.sum_product]
    simp only [← Finset.sum_div]
    rw [P, mul_div_cancel_right₀ _ (by positivity)]
  constructor
  · intro g
    rw [linResp_flat, linNoise_flat, ← e1]
    refine response_bound _ _ _ _ (fun b _ => mul_nonneg (sq_nonneg _) (normSq_nonneg _))
      (fun b _ => div_nonneg (sq_nonneg _) (sq_nonneg _)) fun b _ => ?_
    rw [normSq_mul, normSq_ofReal]
    field_simp
    exact le_refl _
  · have n1 : linNoise h w (fun _ : Unit => d.var) (fun _ a b => (s.px a b : ℂ)) = aloneInfo d c h w * d.var ^ 4 := by
      unfold linNoise
      rw [Finset.univ_unique, Finset.sum_singleton]
      simp only [← Finset.mul_sum, normSq_ofReal, ← pow_two]
      rw [P]
      ring
    have r1 : linResp h w (fun (_ : Unit) a b => (s.px a b : ℂ)) (fun _ => s) = ((aloneInfo d c h w * d.var ^ 2 : ℝ) : ℂ) := by
      unfold linResp
      rw [Finset.univ_unique, Finset.sum_singleton, ← P]
      push_cast
      refine Finset.sum_congr rfl fun a _ => Finset.sum_congr rfl fun b _ => ?_
      rw [pow_two]
    refine ⟨fun _ a b => (s.px a b : ℂ), ?_, ?_⟩
    · rw [n1]
      positivity
    · rw [n1, r1, normSq_ofReal]
      ring

/-- Two exposures of the same quality (`b` times the noise of the reference is the noise of the new image): a new star is
seen in the difference with half the squared signal to noise ratio of the new image. -/
theorem seeing_half (s : ℝ) : diffInfo (seeingSub 5 7 0 s) (seeingSub 1 0 4 (3 * s)) 3 1 3 =
    aloneInfo (seeingSub 1 0 4 (3 * s)) 1 1 3 / 2 :=
  diff_half _ _ 3 1 3 fun k _ l _ => by
    have e : (seeingSub 5 7 0 s).psfHat.px k l = (seeingSub 1 0 4 (3 * s)).psfHat.px k l := rfl
    unfold noiseAt
    rw [e]
    change 3 ^ 2 * (s ^ 2 / _) = (3 * s) ^ 2 / _
    ring

/-- The difference of two images of noise 1 and 2 with zero points 1 and 3 sees a new star in the last column with the signal
to noise ratio of `diffInfo`, less than the new image does. -/
theorem seeing_transient : ∃ out,
    subtract (tinyEnv 1 3) ⟨false, false, true⟩ (seeingSub 5 7 0 1) (seeingSub 1 0 4 2) = .ok out ∧
    (∀ T, T = pixelWeights 1 3
        (fun i j => (out.P.px (((i : ℤ) - (0 - 0 - 0)) % (1 : ℕ)).toNat (((j : ℤ) - (2 - 1 - 1)) % (3 : ℕ)).toNat : ℂ))
        (pairResp (tinyEnv 1 3) ⟨false, false, true⟩ (seeingSub 5 7 0 1) (seeingSub 1 0 4 2)) →
      normSq (linResp 1 3 T (newStar 1 3 (seeingSub 1 0 4 2) 0 1 0 2)) =
        linNoise 1 3 (pairSigma (seeingSub 5 7 0 1) (seeingSub 1 0 4 2)) T *
          diffInfo (seeingSub 5 7 0 1) (seeingSub 1 0 4 2) 3 1 3) ∧
    diffInfo (seeingSub 5 7 0 1) (seeingSub 1 0 4 2) 3 1 3 < aloneInfo (seeingSub 1 0 4 2) 1 1 3 := by
  obtain ⟨out, e, k⟩ := subtract_snr (tinyEnv 1 3) true (seeingSub 5 7 0 1) (seeingSub 1 0 4 2) 1 3 (1, 3)
    (by intro a h; cases h) (by intro a h; cases h) rfl (Or.inl rfl) rfl rfl (by norm_num) (by norm_num)
    seeing_idle seeing_idle 0 1 0 1 seeing_com seeing_com (by norm_num) (Or.inl (by norm_num [seeingSub])) 0 2
  refine ⟨out, e, fun T hT => ?_, ?_⟩
  · have := (k T hT).2.2
    simpa [diffInfo] using this
  · refine lt_of_le_of_ne (diff_le_new _ _ 3 1 3 (by norm_num [seeingSub])) fun h => ?_
    rw [diff_eq_new_iff _ _ 3 1 3 (by norm_num) (by norm_num) (by norm_num [seeingSub]) (by norm_num)] at h
    norm_num [seeingSub] at h

end PI
