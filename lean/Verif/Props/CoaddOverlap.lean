import Verif.Props.Peak
import Verif.Props.Optimal

/-!
# Property C169: what the coadd's statistic for a star responds to, and what wrong PSFs cost

The statistic of C116 – R summed against the PSF image that `coadd` returns, centred on a place – is a weighted sum of the pixels
of the images. Its weights are the pictures of the star, divided by the squares of the noise levels.
-/

namespace PI

open Complex Finset

/-- The case of equality: weights that reach the bound are proportional to the signal over the variance. -/
theorem reaches_bound {β : Type} (I : Finset β) (T : β → ℂ) (s v : β → ℝ) (hv : ∀ b ∈ I, 0 < v b)
    (hE : 0 < ∑ b ∈ I, s b ^ 2 / v b)
    (heq : normSq (∑ b ∈ I, T b * (s b : ℂ)) = (∑ b ∈ I, v b * normSq (T b)) * ∑ b ∈ I, s b ^ 2 / v b) (b : β) (hb : b ∈ I) :
    T b = (∑ c ∈ I, T c * (s c : ℂ)) / ((∑ c ∈ I, s c ^ 2 / v c : ℝ) : ℂ) * ((s b / v b : ℝ) : ℂ) := by
  set E := ∑ c ∈ I, s c ^ 2 / v c with hEdef
  set R := ∑ c ∈ I, T c * (s c : ℂ) with hR
  set N := ∑ c ∈ I, v c * normSq (T c) with hN
  set lam : ℂ := R / (E : ℂ) with hlam
  have expand : ∑ c ∈ I, v c * normSq (T c - lam * ((s c / v c : ℝ) : ℂ)) = 0 := by
    have term : ∀ c ∈ I, v c * normSq (T c - lam * ((s c / v c : ℝ) : ℂ)) =
        v c * normSq (T c) + normSq lam * (s c ^ 2 / v c) - 2 * ((starRingEnd ℂ) lam * (T c * (s c : ℂ))).re := by
      intro c hc
      have v0 := (hv c hc).ne'
      rw [normSq_sub, normSq_mul, normSq_ofReal, map_mul, Complex.conj_ofReal]
      have e : (T c * ((starRingEnd ℂ) lam * ((s c / v c : ℝ) : ℂ))).re =
          ((starRingEnd ℂ) lam * (T c * (s c : ℂ))).re / v c := by
        have : T c * ((starRingEnd ℂ) lam * ((s c / v c : ℝ) : ℂ)) =
            ((starRingEnd ℂ) lam * (T c * (s c : ℂ))) * (((v c)⁻¹ : ℝ) : ℂ) := by
          push_cast
          field_simp
        rw [this, Complex.re_mul_ofReal]
        rfl
      rw [e]
      field_simp
    rw [Finset.sum_congr rfl term, Finset.sum_sub_distrib, Finset.sum_add_distrib, ← Finset.mul_sum, ← Finset.mul_sum,
      ← Complex.re_sum, ← Finset.mul_sum, ← hN, ← hR, ← hEdef]
    have e1 : ((starRingEnd ℂ) lam * R).re = normSq R / E := by
      rw [hlam, map_div₀, Complex.conj_ofReal]
      have : (starRingEnd ℂ) R / (E : ℂ) * R = ((normSq R / E : ℝ) : ℂ) := by
        rw [div_mul_eq_mul_div, mul_comm, Complex.mul_conj]
        push_cast
        rfl
      rw [this, Complex.ofReal_re]
    have e2 : normSq lam = normSq R / E ^ 2 := by
      rw [hlam, normSq_div, normSq_ofReal, sq]
    rw [e1, e2, heq]
    field_simp
    ring
  have each := (Finset.sum_eq_zero_iff_of_nonneg (fun c hc => mul_nonneg (hv c hc).le (normSq_nonneg _))).1 expand b hb
  have := (mul_eq_zero.1 each).resolve_left (hv b hb).ne'
  exact sub_eq_zero.1 (normSq_eq_zero.1 this)

/-- Cauchy and Schwarz with weights, and the case of equality. -/
theorem overlap_le {β : Type} (I : Finset β) (s x v : β → ℝ) (hv : ∀ b ∈ I, 0 < v b) (hE : 0 < ∑ b ∈ I, s b ^ 2 / v b) :
    (∑ b ∈ I, s b * x b / v b) ^ 2 ≤ (∑ b ∈ I, s b ^ 2 / v b) * ∑ b ∈ I, x b ^ 2 / v b ∧
    ((∑ b ∈ I, s b * x b / v b) ^ 2 = (∑ b ∈ I, s b ^ 2 / v b) * (∑ b ∈ I, x b ^ 2 / v b) ↔
      ∃ c : ℝ, ∀ b ∈ I, x b = c * s b) := by
  set E := ∑ b ∈ I, s b ^ 2 / v b with hEd
  set C := ∑ b ∈ I, s b * x b / v b with hC
  set F := ∑ b ∈ I, x b ^ 2 / v b with hF
  have key : ∑ b ∈ I, (E * x b - C * s b) ^ 2 / v b = E * (E * F - C ^ 2) := by
    have term : ∀ b ∈ I, (E * x b - C * s b) ^ 2 / v b =
        E ^ 2 * (x b ^ 2 / v b) - 2 * E * C * (s b * x b / v b) + C ^ 2 * (s b ^ 2 / v b) := by
      intro b _
      ring
    rw [Finset.sum_congr rfl term, Finset.sum_add_distrib, Finset.sum_sub_distrib, ← Finset.mul_sum, ← Finset.mul_sum,
      ← Finset.mul_sum, ← hEd, ← hC, ← hF]
    ring
  have nn : ∀ b ∈ I, 0 ≤ (E * x b - C * s b) ^ 2 / v b := fun b hb => div_nonneg (sq_nonneg _) (hv b hb).le
  have pos : 0 ≤ E * (E * F - C ^ 2) := key ▸ Finset.sum_nonneg nn
  refine ⟨by nlinarith [nonneg_of_mul_nonneg_right pos hE], ?_⟩
  constructor
  · intro e
    refine ⟨C / E, fun b hb => ?_⟩
    have z : ∑ b ∈ I, (E * x b - C * s b) ^ 2 / v b = 0 := by rw [key, e]; ring
    have := (Finset.sum_eq_zero_iff_of_nonneg nn).1 z b hb
    have h2 := (div_eq_zero_iff.1 this).resolve_right (hv b hb).ne'
    have h3 : E * x b - C * s b = 0 := by simpa using h2
    field_simp
    linarith
  · rintro ⟨c, hc⟩
    have e1 : C = c * E := by
      rw [hC, hEd, Finset.mul_sum]
      refine Finset.sum_congr rfl fun b hb => ?_
      rw [hc b hb]
      ring
    have e2 : F = c ^ 2 * E := by
      rw [hF, hEd, Finset.mul_sum]
      refine Finset.sum_congr rfl fun b hb => ?_
      rw [hc b hb]
      ring
    rw [e1, e2]
    ring

/-- The overlap of two stars with their corners at the same place. -/
theorem starAt_overlap (h w : ℕ) (P T : Img ℝ) (p q : ℕ) (c c' : ℝ) :
    ∑ a ∈ range h, ∑ b ∈ range w, (starAt h w P p q c).px a b * (starAt h w T p q c').px a b =
      c * c' * ∑ a ∈ range h, ∑ b ∈ range w, padPx P a b * padPx T a b := by
  change ∑ a ∈ range h, ∑ b ∈ range w, c * padPx P ((a + (h - p)) % h) ((b + (w - q)) % w) *
    (c' * padPx T ((a + (h - p)) % h) ((b + (w - q)) % w)) = _
  have e : ∀ a b, c * padPx P ((a + (h - p)) % h) ((b + (w - q)) % w) *
      (c' * padPx T ((a + (h - p)) % h) ((b + (w - q)) % w)) =
      c * c' * (fun x y => padPx P x y * padPx T x y) (((h - p) + a) % h) (((w - q) + b) % w) := by
    intro a b
    simp only [Nat.add_comm]
    ring
  simp only [e, ← Finset.mul_sum]
  congr 1
  rw [sum_range_roll h (h - p) fun x => ∑ b ∈ range w, padPx P x (((w - q) + b) % w) * padPx T x (((w - q) + b) % w)]
  exact Finset.sum_congr rfl fun a _ => sum_range_roll w (w - q) fun y => padPx P a y * padPx T a y

section
variable (lt : List CoImg → List CoImg → Option Bool) {n : ℕ} (hn : 0 < n)
    (d : Fin n → SinglePsf) (h w psfShape : ℕ) (procs : ℤ)
    (hs : ∀ j, (d j).interped.h = h ∧ (d j).interped.w = w ∧ (d j).mask.HasShape h w)
    (hp : procs ≤ n) (hp' : procs ≤ 2 ^ 25) (hb : procs * n ≤ 2 ^ 50)
    (ψ : Fin n → Img ℝ) (hψ : ∀ m, (d m).psf = toC (ψ m)) (p q : Fin n → ℕ) (X Y : ℤ)
    (hpq : ∀ m, p m < h ∧ q m < w)
    (hX : ∀ m, (p m : ℝ) + (d m).com.1 = X) (hY : ∀ m, (q m : ℝ) + (d m).com.2 = Y)
    (hpow : ∀ k < h, ∀ l < w,
      zackayPower (fun j => (d j).zp) (fun j => (d j).var) (fun j => (d j).psfHat.px k l) ≠ 0)
include hs hψ hpq

/-- The power summed over the frequencies is the information in the star's pixels. -/
theorem common_power :
    ∑ k ∈ range h, ∑ l ∈ range w,
        zackayPower (fun j => (d j).zp) (fun j => (d j).var) (fun j => (d j).psfHat.px k l) =
      ∑ b ∈ (univ : Finset (Fin n)) ×ˢ (range h ×ˢ range w),
        (commonStar d h w ψ p q b.1).px b.2.1 b.2.2 ^ 2 / (d b.1).var ^ 2 := by
  rw [Finset.sum_product]
  have e : ∀ m, ∑ c ∈ range h ×ˢ range w, (commonStar d h w ψ p q m).px c.1 c.2 ^ 2 / (d m).var ^ 2 =
      ∑ k ∈ range h, ∑ l ∈ range w, (d m).zp ^ 2 / (d m).var ^ 2 * normSq ((d m).psfHat.px k l) := by
    intro m
    rw [Finset.sum_product]
    have f := fftOrtho_power h w (fun i j => ((commonStar d h w ψ p q m).px i j : ℂ))
    have t : ∀ k l, normSq ((fftOrtho ⟨h, w, fun i j => ((commonStar d h w ψ p q m).px i j : ℂ)⟩).px k l) =
        (d m).zp ^ 2 * normSq ((d m).psfHat.px k l) := by
      intro k l
      have s := fftOrtho_starAt h w (ψ m) (p m) (q m) (d m).zp (hpq m).1 (hpq m).2 k l
      have hpsf : (fftOrtho (padTo h w (toC (ψ m)))).px k l = (d m).psfHat.px k l := by
        unfold SinglePsf.psfHat
        rw [(hs m).1, (hs m).2.1, hψ m]
      rw [hpsf] at s
      change normSq ((fftOrtho (toC (starAt h w (ψ m) (p m) (q m) (d m).zp))).px k l) = _
      rw [s, normSq_mul, normSq_mul, normSq_ofReal, normSq_shiftPhase]
      ring
    simp only [t, normSq_ofReal] at f
    simp only [← Finset.sum_div]
    have e2 : ∀ k l, (d m).zp ^ 2 / (d m).var ^ 2 * normSq ((d m).psfHat.px k l) =
        (d m).zp ^ 2 * normSq ((d m).psfHat.px k l) / (d m).var ^ 2 := fun k l => by ring
    simp only [e2, ← Finset.sum_div]
    rw [f]
    congr 1
    refine Finset.sum_congr rfl fun i _ => Finset.sum_congr rfl fun j _ => ?_
    ring
  simp only [e]
  symm
  rw [Finset.sum_comm]
  refine Finset.sum_congr rfl fun k _ => ?_
  rw [Finset.sum_comm]
  rfl

include hX hY hpow hn hp hp' hb

/-- C169: the weights with which the pixels of the images enter the statistic are the pictures of the star in the
images, each divided by the square of the noise level, up to one common factor. -/
theorem coadd_weights (hv : ∀ m, (d m).var ≠ 0) :
    ∃ out, coaddCore lt ((List.ofFn d).map SinglePsf.toCoImg) psfShape procs = .ok out ∧
      ∀ T, T = pixelWeights h w
          (fun i j => (starRingEnd ℂ)
            (out.Pr.px (((i : ℤ) - (X - psfShape)) % h).toNat (((j : ℤ) - (Y - psfShape)) % w).toNat))
          (respCoadd lt d psfShape procs) →
        0 < linNoise h w (fun m => (d m).var) T ∧
        ∃ lam : ℂ, lam ≠ 0 ∧ ∀ m, ∀ a < h, ∀ b < w,
          T m a b = lam * (((commonStar d h w ψ p q m).px a b / (d m).var ^ 2 : ℝ) : ℂ) := by
  obtain ⟨out, e, st⟩ := coadd_snr lt hn d h w psfShape procs hs hp hp' hb ψ hψ p q X Y hpq hX hY hpow hv
  refine ⟨out, e, fun T hT => ?_⟩
  obtain ⟨pos, eq⟩ := st T hT
  refine ⟨pos, ?_⟩
  rw [common_power d h w hs ψ hψ p q hpq, linResp_flat, linNoise_flat] at eq
  have E0 : 0 < ∑ b ∈ (univ : Finset (Fin n)) ×ˢ (range h ×ˢ range w),
      (commonStar d h w ψ p q b.1).px b.2.1 b.2.2 ^ 2 / (d b.1).var ^ 2 := by
    rw [← common_power d h w hs ψ hψ p q hpq]
    have h0 : h ≠ 0 := by have := (hpq ⟨0, hn⟩).1; omega
    have w0 : w ≠ 0 := by have := (hpq ⟨0, hn⟩).2; omega
    have nn : ∀ k ∈ range h, 0 ≤ ∑ l ∈ range w,
        zackayPower (fun j => (d j).zp) (fun j => (d j).var) (fun j => (d j).psfHat.px k l) :=
      fun k _ => Finset.sum_nonneg fun l _ => zackayPower_nonneg _ _ _
    refine lt_of_lt_of_le ?_ (Finset.single_le_sum nn (mem_range.2 (Nat.pos_of_ne_zero h0)))
    refine lt_of_lt_of_le ?_ (Finset.single_le_sum (fun l _ => zackayPower_nonneg _ _ _)
      (mem_range.2 (Nat.pos_of_ne_zero w0)))
    exact lt_of_le_of_ne (zackayPower_nonneg _ _ _) (Ne.symm (hpow 0 (by omega) 0 (by omega)))
  have hv2 : ∀ b ∈ (univ : Finset (Fin n)) ×ˢ (range h ×ˢ range w), 0 < (d b.1).var ^ 2 :=
    fun b _ => by have := hv b.1; positivity
  have k := reaches_bound ((univ : Finset (Fin n)) ×ˢ (range h ×ˢ range w)) (fun b => T b.1 b.2.1 b.2.2)
    (fun b => (commonStar d h w ψ p q b.1).px b.2.1 b.2.2) (fun b => (d b.1).var ^ 2) hv2 E0 eq
  refine ⟨_, ?_, fun m a ha b hb' => k (m, a, b) (by simp [ha, hb'])⟩
  intro z
  rw [linNoise_flat] at pos
  have R0 : normSq (∑ b ∈ (univ : Finset (Fin n)) ×ˢ (range h ×ˢ range w), T b.1 b.2.1 b.2.2 *
      ((commonStar d h w ψ p q b.1).px b.2.1 b.2.2 : ℂ)) = 0 := by
    rcases div_eq_zero_iff.1 z with z | z
    · rw [z, map_zero]
    · exact absurd z (by exact_mod_cast E0.ne')
  rw [eq] at R0
  exact absurd R0 (mul_pos pos E0).ne'

/-- C169: the response of the statistic to anything in the images, over its noise. -/
theorem coadd_any_signal (hv : ∀ m, (d m).var ≠ 0) :
    ∃ out, coaddCore lt ((List.ofFn d).map SinglePsf.toCoImg) psfShape procs = .ok out ∧
      ∀ T, T = pixelWeights h w
          (fun i j => (starRingEnd ℂ)
            (out.Pr.px (((i : ℤ) - (X - psfShape)) % h).toNat (((j : ℤ) - (Y - psfShape)) % w).toNat))
          (respCoadd lt d psfShape procs) →
        0 < linNoise h w (fun m => (d m).var) T ∧
        ∀ x : Fin n → Img ℝ, normSq (linResp h w T x) *
            (∑ m, (∑ a ∈ range h, ∑ b ∈ range w, (commonStar d h w ψ p q m).px a b ^ 2) / (d m).var ^ 2) =
          linNoise h w (fun m => (d m).var) T *
            (∑ m, (∑ a ∈ range h, ∑ b ∈ range w, (commonStar d h w ψ p q m).px a b * (x m).px a b) / (d m).var ^ 2) ^ 2 := by
  obtain ⟨out, e, st⟩ := coadd_weights lt hn d h w psfShape procs hs hp hp' hb ψ hψ p q X Y hpq hX hY hpow hv
  refine ⟨out, e, fun T hT => ?_⟩
  obtain ⟨pos, lam, _, hl⟩ := st T hT
  refine ⟨pos, fun x => ?_⟩
  have r : linResp h w T x = lam * ((∑ m, (∑ a ∈ range h, ∑ b ∈ range w,
      (commonStar d h w ψ p q m).px a b * (x m).px a b) / (d m).var ^ 2 : ℝ) : ℂ) := by
    unfold linResp
    push_cast
    rw [Finset.mul_sum]
    refine Finset.sum_congr rfl fun m _ => ?_
    rw [← mul_div_assoc, Finset.mul_sum, Finset.sum_div]
    refine Finset.sum_congr rfl fun a ha => ?_
    rw [Finset.mul_sum, Finset.sum_div]
    refine Finset.sum_congr rfl fun b hb' => ?_
    rw [hl m a (mem_range.1 ha) b (mem_range.1 hb')]
    push_cast
    ring
  have nz : linNoise h w (fun m => (d m).var) T = normSq lam *
      ∑ m, (∑ a ∈ range h, ∑ b ∈ range w, (commonStar d h w ψ p q m).px a b ^ 2) / (d m).var ^ 2 := by
    unfold linNoise
    rw [Finset.mul_sum]
    refine Finset.sum_congr rfl fun m _ => ?_
    have v0 := hv m
    rw [← mul_div_assoc, Finset.mul_sum, Finset.sum_div]
    refine Finset.sum_congr rfl fun a ha => ?_
    rw [Finset.mul_sum, Finset.sum_div]
    refine Finset.sum_congr rfl fun b hb' => ?_
    rw [hl m a (mem_range.1 ha) b (mem_range.1 hb'), normSq_mul, normSq_ofReal]
    field_simp
  rw [r, nz, normSq_mul, normSq_ofReal]
  ring

/-- C169: a star that the images show through PSFs `τ` other than those `coadd` works with. The square of the response over the noise
is the squared overlap of the two sets of PSFs over the power of the assumed ones; it never exceeds what the best
statistic reaches, and reaches it exactly when, over all images in one proportion, the true PSFs are the assumed ones. -/
theorem coadd_wrong_psf (hv : ∀ m, (d m).var ≠ 0) (τ : Fin n → Img ℝ) :
    ∃ out, coaddCore lt ((List.ofFn d).map SinglePsf.toCoImg) psfShape procs = .ok out ∧
      ∀ T, T = pixelWeights h w
          (fun i j => (starRingEnd ℂ)
            (out.Pr.px (((i : ℤ) - (X - psfShape)) % h).toNat (((j : ℤ) - (Y - psfShape)) % w).toNat))
          (respCoadd lt d psfShape procs) →
        0 < linNoise h w (fun m => (d m).var) T ∧
        normSq (linResp h w T (commonStar d h w τ p q)) / linNoise h w (fun m => (d m).var) T =
          (∑ m, (d m).zp ^ 2 / (d m).var ^ 2 * ∑ a ∈ range h, ∑ b ∈ range w, padPx (ψ m) a b * padPx (τ m) a b) ^ 2 /
            ∑ m, (d m).zp ^ 2 / (d m).var ^ 2 * ∑ a ∈ range h, ∑ b ∈ range w, padPx (ψ m) a b ^ 2 ∧
        normSq (linResp h w T (commonStar d h w τ p q)) / linNoise h w (fun m => (d m).var) T ≤
          ∑ m, (d m).zp ^ 2 / (d m).var ^ 2 * ∑ a ∈ range h, ∑ b ∈ range w, padPx (τ m) a b ^ 2 ∧
        (normSq (linResp h w T (commonStar d h w τ p q)) / linNoise h w (fun m => (d m).var) T =
          ∑ m, (d m).zp ^ 2 / (d m).var ^ 2 * ∑ a ∈ range h, ∑ b ∈ range w, padPx (τ m) a b ^ 2 ↔
          ∃ c : ℝ, ∀ m, (d m).zp ≠ 0 → ∀ a < h, ∀ b < w, padPx (τ m) a b = c * padPx (ψ m) a b) := by
  obtain ⟨out, e, st⟩ := coadd_any_signal lt hn d h w psfShape procs hs hp hp' hb ψ hψ p q X Y hpq hX hY hpow hv
  refine ⟨out, e, fun T hT => ?_⟩
  obtain ⟨pos, k⟩ := st T hT
  have k1 := k (commonStar d h w τ p q)
  have ov : ∀ (P Q : Fin n → Img ℝ) (m : Fin n), ∑ a ∈ range h, ∑ b ∈ range w,
      (commonStar d h w P p q m).px a b * (commonStar d h w Q p q m).px a b =
      (d m).zp ^ 2 * ∑ a ∈ range h, ∑ b ∈ range w, padPx (P m) a b * padPx (Q m) a b := by
    intro P Q m
    have := starAt_overlap h w (P m) (Q m) (p m) (q m) (d m).zp (d m).zp
    rw [← sq] at this
    exact this
  have flat : ∀ P Q : Fin n → Img ℝ, (∑ m, (∑ a ∈ range h, ∑ b ∈ range w,
      (commonStar d h w P p q m).px a b * (commonStar d h w Q p q m).px a b) / (d m).var ^ 2) =
      ∑ m, (d m).zp ^ 2 / (d m).var ^ 2 * ∑ a ∈ range h, ∑ b ∈ range w, padPx (P m) a b * padPx (Q m) a b := by
    intro P Q
    refine Finset.sum_congr rfl fun m _ => ?_
    rw [ov P Q m]
    ring
  simp only [sq ((commonStar d h w ψ p q _).px _ _)] at k1
  rw [flat ψ ψ, flat ψ τ] at k1
  simp only [← sq] at k1
  set I := (univ : Finset (Fin n)) ×ˢ (range h ×ˢ range w) with hI
  have box : ∀ f : Fin n → ℕ → ℕ → ℝ, ∑ m, (d m).zp ^ 2 / (d m).var ^ 2 * ∑ a ∈ range h, ∑ b ∈ range w, f m a b =
      ∑ c ∈ I, (d c.1).zp ^ 2 * f c.1 c.2.1 c.2.2 / (d c.1).var ^ 2 := by
    intro f
    rw [hI, Finset.sum_product]
    refine Finset.sum_congr rfl fun m _ => ?_
    rw [Finset.sum_product, Finset.mul_sum]
    refine Finset.sum_congr rfl fun a _ => ?_
    rw [Finset.mul_sum]
    refine Finset.sum_congr rfl fun b _ => ?_
    ring
  have b1 : (∑ m, (d m).zp ^ 2 / (d m).var ^ 2 * ∑ a ∈ range h, ∑ b ∈ range w, padPx (ψ m) a b ^ 2) =
      ∑ c ∈ I, ((d c.1).zp * padPx (ψ c.1) c.2.1 c.2.2) ^ 2 / (d c.1).var ^ 2 := by
    rw [box fun m a b => padPx (ψ m) a b ^ 2]
    exact Finset.sum_congr rfl fun c _ => by ring
  have b2 : (∑ m, (d m).zp ^ 2 / (d m).var ^ 2 * ∑ a ∈ range h, ∑ b ∈ range w, padPx (τ m) a b ^ 2) =
      ∑ c ∈ I, ((d c.1).zp * padPx (τ c.1) c.2.1 c.2.2) ^ 2 / (d c.1).var ^ 2 := by
    rw [box fun m a b => padPx (τ m) a b ^ 2]
    exact Finset.sum_congr rfl fun c _ => by ring
  have b3 : (∑ m, (d m).zp ^ 2 / (d m).var ^ 2 * ∑ a ∈ range h, ∑ b ∈ range w, padPx (ψ m) a b * padPx (τ m) a b) =
      ∑ c ∈ I, (d c.1).zp * padPx (ψ c.1) c.2.1 c.2.2 * ((d c.1).zp * padPx (τ c.1) c.2.1 c.2.2) / (d c.1).var ^ 2 := by
    rw [box fun m a b => padPx (ψ m) a b * padPx (τ m) a b]
    exact Finset.sum_congr rfl fun c _ => by ring
  have E0 : 0 < ∑ m, (d m).zp ^ 2 / (d m).var ^ 2 * ∑ a ∈ range h, ∑ b ∈ range w, padPx (ψ m) a b ^ 2 := by
    have c1 := common_power d h w hs ψ hψ p q hpq
    have c2 : ∑ b ∈ I, (commonStar d h w ψ p q b.1).px b.2.1 b.2.2 ^ 2 / (d b.1).var ^ 2 =
        ∑ m, (d m).zp ^ 2 / (d m).var ^ 2 * ∑ a ∈ range h, ∑ b ∈ range w, padPx (ψ m) a b ^ 2 := by
      have f := flat ψ ψ
      simp only [← sq] at f
      rw [← f, hI, Finset.sum_product]
      refine Finset.sum_congr rfl fun m _ => ?_
      rw [Finset.sum_product, Finset.sum_div]
      refine Finset.sum_congr rfl fun a _ => ?_
      rw [Finset.sum_div]
    rw [← c2, ← c1]
    have h0 : h ≠ 0 := by have := (hpq ⟨0, hn⟩).1; omega
    have w0 : w ≠ 0 := by have := (hpq ⟨0, hn⟩).2; omega
    have nn : ∀ k ∈ range h, 0 ≤ ∑ l ∈ range w,
        zackayPower (fun j => (d j).zp) (fun j => (d j).var) (fun j => (d j).psfHat.px k l) :=
      fun k _ => Finset.sum_nonneg fun l _ => zackayPower_nonneg _ _ _
    refine lt_of_lt_of_le ?_ (Finset.single_le_sum nn (mem_range.2 (Nat.pos_of_ne_zero h0)))
    refine lt_of_lt_of_le ?_ (Finset.single_le_sum (fun l _ => zackayPower_nonneg _ _ _)
      (mem_range.2 (Nat.pos_of_ne_zero w0)))
    exact lt_of_le_of_ne (zackayPower_nonneg _ _ _) (Ne.symm (hpow 0 (by omega) 0 (by omega)))
  have main : normSq (linResp h w T (commonStar d h w τ p q)) / linNoise h w (fun m => (d m).var) T =
      (∑ m, (d m).zp ^ 2 / (d m).var ^ 2 * ∑ a ∈ range h, ∑ b ∈ range w, padPx (ψ m) a b * padPx (τ m) a b) ^ 2 /
        ∑ m, (d m).zp ^ 2 / (d m).var ^ 2 * ∑ a ∈ range h, ∑ b ∈ range w, padPx (ψ m) a b ^ 2 := by
    rw [div_eq_div_iff pos.ne' E0.ne', k1]
    ring
  obtain ⟨cs, ceq⟩ := overlap_le I (fun c => (d c.1).zp * padPx (ψ c.1) c.2.1 c.2.2)
    (fun c => (d c.1).zp * padPx (τ c.1) c.2.1 c.2.2) (fun c => (d c.1).var ^ 2)
    (fun c _ => by have := hv c.1; positivity) (by rw [← b1]; exact E0)
  rw [← b1, ← b2, ← b3] at cs ceq
  refine ⟨pos, main, ?_, ?_⟩
  · rw [main, div_le_iff₀ E0, mul_comm]
    exact cs
  · rw [main, div_eq_iff E0.ne', mul_comm, ceq]
    constructor
    · rintro ⟨c, hc⟩
      refine ⟨c, fun m hm a ha b hb' => ?_⟩
      have := hc (m, a, b) (by simp [hI, ha, hb'])
      simp only [] at this
      exact mul_left_cancel₀ hm (this.trans (by ring))
    · rintro ⟨c, hc⟩
      refine ⟨c, fun x hx => ?_⟩
      simp only [hI, mem_product, mem_univ, true_and, mem_range] at hx
      by_cases hz : (d x.1).zp = 0
      · rw [hz]; ring
      · rw [hc x.1 hz x.2.1 hx.1 x.2.2 hx.2]
        ring

end

/-! ## A case -/

/-- A sharp and a soft exposure, when in truth both are soft: the statistic of the coadd reaches two thirds of what can be
reached. -/
theorem sharpAndSoft_mistaken (lt : List CoImg → List CoImg → Option Bool) :
    ∃ out, coaddCore lt ((List.ofFn sharpAndSoft).map SinglePsf.toCoImg) 0 2 = .ok out ∧
      ∀ T, T = pixelWeights 1 2
          (fun i j => (starRingEnd ℂ)
            (out.Pr.px (((i : ℤ) - (0 - (0 : ℕ))) % (1 : ℕ)).toNat (((j : ℤ) - (0 - (0 : ℕ))) % (2 : ℕ)).toNat))
          (respCoadd lt sharpAndSoft 0 2) →
        normSq (linResp 1 2 T (commonStar sharpAndSoft 1 2 (fun _ => ⟨1, 2, fun _ _ => 1 / 2⟩) (fun _ => 0) (fun _ => 0))) /
            linNoise 1 2 (fun m => (sharpAndSoft m).var) T = 2 / 3 ∧
        (∑ m, (sharpAndSoft m).zp ^ 2 / (sharpAndSoft m).var ^ 2 *
          ∑ a ∈ range 1, ∑ b ∈ range 2, padPx (⟨1, 2, fun _ _ => 1 / 2⟩ : Img ℝ) a b ^ 2) = 1 := by
  obtain ⟨out, e, k⟩ := coadd_wrong_psf lt (n := 2) (by norm_num) sharpAndSoft 1 2 0 2
    (fun m => ⟨rfl, rfl, by intro a h; cases h⟩) (by norm_num) (by norm_num) (by norm_num)
    (fun m => if m = 0 then ⟨1, 1, fun _ _ => 1⟩ else ⟨1, 2, fun _ _ => 1 / 2⟩)
    (by intro m; fin_cases m <;> simp [sharpAndSoft, toC, Img.map]) (fun _ => 0) (fun _ => 0) 0 0
    (fun _ => by norm_num) (fun _ => by norm_num [sharpAndSoft]) (fun _ => by norm_num [sharpAndSoft])
    (by
      intro k hk l hl
      obtain rfl : k = 0 := by omega
      obtain rfl | rfl : l = 0 ∨ l = 1 := by omega
      · exact ne_of_eq_of_ne sharpAndSoft_power.1 (by norm_num)
      · exact ne_of_eq_of_ne sharpAndSoft_power.2 (by norm_num))
    (fun _ => by norm_num [sharpAndSoft]) (fun _ => ⟨1, 2, fun _ _ => 1 / 2⟩)
  refine ⟨out, e, fun T hT => ⟨?_, ?_⟩⟩
  · rw [(k T hT).2.1]
    norm_num [Fin.sum_univ_two, Finset.sum_range_succ, padPx, sharpAndSoft]
  · norm_num [Fin.sum_univ_two, Finset.sum_range_succ, padPx, sharpAndSoft]

end PI
