import Verif.Lemmas.Parseval
import Verif.Props.StarRecovery

/-!
# Properties C116 and C117: no linear statistic of the pixels finds a star better

A linear statistic of several images is a weighted sum of their pixels. Its response to a star is the value it
takes on the star alone; its noise is its variance when the pixels of image `m` carry independent noise of
variance `σ m ^ 2`. Statistics are compared by their squared ratios of response to noise.
-/

namespace PI

open Complex Finset

/-- Value of the statistic with weights `g` on the images `s`. -/
noncomputable def linResp {ι : Type} [Fintype ι] (h w : ℕ) (g : ι → ℕ → ℕ → ℂ) (s : ι → Img ℝ) : ℂ :=
  ∑ m, ∑ a ∈ range h, ∑ b ∈ range w, g m a b * ((s m).px a b : ℂ)

/-- Variance of the statistic with weights `g`. -/
noncomputable def linNoise {ι : Type} [Fintype ι] (h w : ℕ) (σ : ι → ℝ) (g : ι → ℕ → ℕ → ℂ) : ℝ :=
  ∑ m, ∑ a ∈ range h, ∑ b ∈ range w, σ m ^ 2 * normSq (g m a b)

/-- Weights of the sum over all pixels of `q` times the image whose pixel `(i, j)` responds with `K m i j a b`
to pixel `(a, b)` of image `m`. -/
noncomputable def pixelWeights {ι : Type} (h w : ℕ) (q : ℕ → ℕ → ℂ) (K : ι → ℕ → ℕ → ℕ → ℕ → ℂ) :
    ι → ℕ → ℕ → ℂ :=
  fun m a b => ∑ i ∈ range h, ∑ j ∈ range w, q i j * K m i j a b

theorem linNoise_flat {ι : Type} [Fintype ι] (h w : ℕ) (σ : ι → ℝ) (g : ι → ℕ → ℕ → ℂ) :
    linNoise h w σ g = ∑ b ∈ (univ : Finset ι) ×ˢ (range h ×ˢ range w), σ b.1 ^ 2 * normSq (g b.1 b.2.1 b.2.2) := by
  unfold linNoise
  rw [Finset.sum_product]
  refine Finset.sum_congr rfl fun m _ => ?_
  rw [Finset.sum_product]

theorem linResp_flat {ι : Type} [Fintype ι] (h w : ℕ) (g : ι → ℕ → ℕ → ℂ) (s : ι → Img ℝ) :
    linResp h w g s = ∑ b ∈ (univ : Finset ι) ×ˢ (range h ×ˢ range w),
      g b.1 b.2.1 b.2.2 * ((s b.1).px b.2.1 b.2.2 : ℂ) := by
  unfold linResp
  rw [Finset.sum_product]
  refine Finset.sum_congr rfl fun m _ => ?_
  rw [Finset.sum_product]

/-- The response of a sum over an image is the sum of the responses. -/
theorem linResp_pixels {ι : Type} [Fintype ι] (h w : ℕ) (q : ℕ → ℕ → ℂ) (K : ι → ℕ → ℕ → ℕ → ℕ → ℂ)
    (s : ι → Img ℝ) :
    linResp h w (pixelWeights h w q K) s =
      ∑ i ∈ range h, ∑ j ∈ range w, q i j * ∑ m, ∑ a ∈ range h, ∑ b ∈ range w, ((s m).px a b : ℂ) * K m i j a b := by
  have e : ∀ i j, q i j * ∑ m, ∑ a ∈ range h, ∑ b ∈ range w, ((s m).px a b : ℂ) * K m i j a b =
      ∑ c ∈ (univ : Finset ι) ×ˢ (range h ×ˢ range w),
        q i j * K c.1 i j c.2.1 c.2.2 * ((s c.1).px c.2.1 c.2.2 : ℂ) := by
    intro i j
    rw [Finset.sum_product, Finset.mul_sum]
    refine Finset.sum_congr rfl fun m _ => ?_
    rw [Finset.sum_product, Finset.mul_sum]
    refine Finset.sum_congr rfl fun a _ => ?_
    rw [Finset.mul_sum]
    refine Finset.sum_congr rfl fun b _ => ?_
    ring
  simp only [e]
  rw [linResp_flat, Finset.sum_congr rfl fun i _ => Finset.sum_comm, Finset.sum_comm]
  refine Finset.sum_congr rfl fun c _ => ?_
  unfold pixelWeights
  rw [Finset.sum_mul]
  refine Finset.sum_congr rfl fun i _ => ?_
  rw [Finset.sum_mul]

/-- The noise of a sum over an image with white noise of variance `c`. -/
theorem linNoise_pixels {ι : Type} [Fintype ι] (h w : ℕ) (σ : ι → ℝ) (q : ℕ → ℕ → ℂ)
    (K : ι → ℕ → ℕ → ℕ → ℕ → ℂ) (c : ℝ)
    (hK : ∀ i < h, ∀ j < w, ∀ i' < h, ∀ j' < w, ∑ m, ((σ m ^ 2 : ℝ) : ℂ) * ∑ a ∈ range h, ∑ b ∈ range w,
      K m i j a b * (starRingEnd ℂ) (K m i' j' a b) = if i = i' ∧ j = j' then (c : ℂ) else 0) :
    linNoise h w σ (pixelWeights h w q K) = c * ∑ i ∈ range h, ∑ j ∈ range w, normSq (q i j) := by
  rw [linNoise_flat]
  have v := variance_of_white (range h ×ˢ range w) ((univ : Finset ι) ×ˢ (range h ×ˢ range w))
    (fun b => σ b.1 ^ 2) (fun i b => K b.1 i.1 i.2 b.2.1 b.2.2) c (by
      rintro ⟨i, j⟩ hi ⟨i', j'⟩ hi'
      rw [Finset.mem_product] at hi hi'
      have k := hK i (mem_range.1 hi.1) j (mem_range.1 hi.2) i' (mem_range.1 hi'.1) j' (mem_range.1 hi'.2)
      simp only [Prod.mk.injEq]
      rw [← k, Finset.sum_product]
      refine Finset.sum_congr rfl fun m _ => ?_
      rw [Finset.sum_product, Finset.mul_sum]
      refine Finset.sum_congr rfl fun a _ => ?_
      rw [Finset.mul_sum]) (fun i => q i.1 i.2)
  rw [Finset.sum_product (s := range h) (t := range w) (f := fun i => normSq (q i.1 i.2))] at v
  rw [← v]
  refine Finset.sum_congr rfl fun b _ => ?_
  congr 2
  rw [Finset.sum_product]
  rfl

/-! ## coadd -/

section
variable (lt : List CoImg → List CoImg → Option Bool) {n : ℕ} (hn : 0 < n)
    (d : Fin n → SinglePsf) (h w psfShape : ℕ) (procs : ℤ)
    (hs : ∀ j, (d j).interped.h = h ∧ (d j).interped.w = w ∧ (d j).mask.HasShape h w)
    (hp : procs ≤ n) (hp' : procs ≤ 2 ^ 25) (hb : procs * n ≤ 2 ^ 50)
    (ψ : Fin n → Img ℝ) (hψ : ∀ m, (d m).psf = toC (ψ m)) (p q : Fin n → ℕ) (X Y : ℤ)
    (hpq : ∀ m, p m < h ∧ q m < w)
    (hX : ∀ m, (p m : ℝ) + (d m).com.1 = X) (hY : ∀ m, (q m : ℝ) + (d m).com.2 = Y)
    (hpow : ∀ k < h, ∀ l < w,
      zackayPower (fun j => (d j).zp) (fun j => (d j).var) (fun j => (d j).psfHat.px k l) ≠ 0)
include hs hψ hpq

/-- A star that all images show, with a flux equal to the zero point of each. -/
def commonStar (ψ : Fin n → Img ℝ) (p q : Fin n → ℕ) (m : Fin n) : Img ℝ :=
  starAt h w (ψ m) (p m) (q m) (d m).zp

/-- No statistic reaches more than the information in the star's pixels. -/
theorem common_bound (hv : ∀ m, (d m).var ≠ 0) (g : Fin n → ℕ → ℕ → ℂ) :
    normSq (linResp h w g (commonStar d h w ψ p q)) ≤ linNoise h w (fun m => (d m).var) g *
      ∑ k ∈ range h, ∑ l ∈ range w,
        zackayPower (fun j => (d j).zp) (fun j => (d j).var) (fun j => (d j).psfHat.px k l) := by
  rw [linResp_flat, linNoise_flat]
  have b := response_bound ((univ : Finset (Fin n)) ×ˢ (range h ×ˢ range w))
    (fun b => g b.1 b.2.1 b.2.2 * ((commonStar d h w ψ p q b.1).px b.2.1 b.2.2 : ℂ))
    (fun b => (d b.1).var ^ 2 * normSq (g b.1 b.2.1 b.2.2))
    (fun b => (commonStar d h w ψ p q b.1).px b.2.1 b.2.2 ^ 2 / (d b.1).var ^ 2)
    (fun b _ => mul_nonneg (sq_nonneg _) (normSq_nonneg _))
    (fun b _ => div_nonneg (sq_nonneg _) (sq_nonneg _))
    (fun b _ => by
      have := hv b.1
      rw [normSq_mul, normSq_ofReal]
      field_simp
      exact le_refl _)
  refine b.trans (le_of_eq ?_)
  congr 1
  rw [Finset.sum_product]
  have e : ∀ m, ∑ c ∈ range h ×ˢ range w, (commonStar d h w ψ p q m).px c.1 c.2 ^ 2 / (d m).var ^ 2 =
      ∑ k ∈ range h, ∑ l ∈ range w, (d m).zp ^ 2 / (d m).var ^ 2 * normSq ((d m).psfHat.px k l) := by
    intro m
    rw [Finset.sum_product]
    have f := fftOrtho_power h w (fun i j => ((commonStar d h w ψ p q m).px i j : ℂ))
    have t : ∀ k l, normSq ((fftOrtho ⟨h, w, fun i j => ((commonStar d h w ψ p q m).px i j : ℂ)⟩).px k l) =
        (d m).zp ^ 2 * normSq ((d m).psfHat.px k l) := by
      intro k l
      have s := fftOrtho_starAt h w (ψ m) (p m) (q m) (d m).zp (hpq m).1 (hpq m).2 k l
      have hpsf : (fftOrtho (padTo h w (toC (ψ m)))).px k l = (d m).psfHat.px k l := by
        unfold SinglePsf.psfHat
        rw [(hs m).1, (hs m).2.1, hψ m]
      rw [hpsf] at s
      change normSq ((fftOrtho (toC (starAt h w (ψ m) (p m) (q m) (d m).zp))).px k l) = _
      rw [s, normSq_mul, normSq_mul, normSq_ofReal, normSq_shiftPhase]
      ring
    simp only [t, normSq_ofReal] at f
    simp only [← Finset.sum_div]
    have e2 : ∀ k l, (d m).zp ^ 2 / (d m).var ^ 2 * normSq ((d m).psfHat.px k l) =
        (d m).zp ^ 2 * normSq ((d m).psfHat.px k l) / (d m).var ^ 2 := fun k l => by ring
    simp only [e2, ← Finset.sum_div]
    rw [f]
    congr 1
    refine Finset.sum_congr rfl fun i _ => Finset.sum_congr rfl fun j _ => ?_
    ring
  simp only [e]
  rw [Finset.sum_comm]
  refine Finset.sum_congr rfl fun k _ => ?_
  rw [Finset.sum_comm]
  rfl

include hX hY hpow
/-- The transform of what a common star adds to the coadd. -/
theorem common_hat (k l : ℕ) (hk : k < h) (hl : l < w) :
    ∑ m, gainCoadd d h w m k l * (fftOrtho (toC (commonStar d h w ψ p q m))).px k l =
      ((Real.sqrt (zackayPower (fun j => (d j).zp) (fun j => (d j).var) (fun j => (d j).psfHat.px k l)) : ℝ) : ℂ) /
        (Real.sqrt ((h * w : ℕ) : ℝ) : ℂ) * shiftPhase h w ((X : ℝ), (Y : ℝ)) k l := by
  have pw := hpow k hk l hl
  have pn := zackayPower_nonneg (fun j => (d j).zp) (fun j => (d j).var) (fun j => (d j).psfHat.px k l)
  have term : ∀ m, gainCoadd d h w m k l *
      (fftOrtho (toC (starAt h w (ψ m) (p m) (q m) (d m).zp))).px k l =
      (((d m).zp ^ 2 / (d m).var ^ 2 * normSq ((d m).psfHat.px k l) : ℝ) : ℂ) *
        (shiftPhase h w ((X : ℝ), (Y : ℝ)) k l / (Real.sqrt (zackayPower (fun j => (d j).zp)
          (fun j => (d j).var) (fun j => (d j).psfHat.px k l)) * Real.sqrt ((h * w : ℕ) : ℝ) : ℂ)) := by
    intro m
    have hpsf : (fftOrtho (padTo h w (toC (ψ m)))).px k l = (d m).psfHat.px k l := by
      unfold SinglePsf.psfHat
      rw [(hs m).1, (hs m).2.1, hψ m]
    rw [fftOrtho_starAt h w (ψ m) (p m) (q m) _ (hpq m).1 (hpq m).2, hpsf]
    have s1 := shiftPhase_add h w ((p m : ℝ), (q m : ℝ)) (d m).com k l
    simp only [hX m, hY m] at s1
    rw [s1]
    unfold gainCoadd
    have nsq : ((normSq ((d m).psfHat.px k l) : ℝ) : ℂ) =
      (d m).psfHat.px k l * (starRingEnd ℂ) ((d m).psfHat.px k l) := (Complex.mul_conj _).symm
    push_cast
    rw [nsq]
    ring
  unfold commonStar
  simp only [term]
  rw [← Finset.sum_mul, ← Complex.ofReal_sum]
  change ((zackayPower (fun j => (d j).zp) (fun j => (d j).var) (fun j => (d j).psfHat.px k l) : ℝ) : ℂ) * _ = _
  generalize zackayPower (fun j => (d j).zp) (fun j => (d j).var) (fun j => (d j).psfHat.px k l) = Q at pw pn ⊢
  have hQ : ((Real.sqrt Q : ℝ) : ℂ) * ((Real.sqrt Q : ℝ) : ℂ) = (Q : ℂ) := by
    rw [← Complex.ofReal_mul, Real.mul_self_sqrt pn]
  have hQ0 : ((Real.sqrt Q : ℝ) : ℂ) ≠ 0 := by
    exact_mod_cast (Real.sqrt_pos.2 (lt_of_le_of_ne pn (Ne.symm pw))).ne'
  rw [← hQ]
  generalize ((Real.sqrt Q : ℝ) : ℂ) = S at hQ0 ⊢
  rw [← div_div]
  field_simp

include hn hp hp' hb
/-- C155: the statistic of the coadd for a star: R summed against the PSF image centred on the star. Its squared response to
a star with the flux of the zero points, over its noise, is the power summed over the frequencies. -/
theorem coadd_snr (hv : ∀ m, (d m).var ≠ 0) :
    ∃ out, coaddCore lt ((List.ofFn d).map SinglePsf.toCoImg) psfShape procs = .ok out ∧
      ∀ T, T = pixelWeights h w
          (fun i j => (starRingEnd ℂ)
            (out.Pr.px (((i : ℤ) - (X - psfShape)) % h).toNat (((j : ℤ) - (Y - psfShape)) % w).toNat))
          (respCoadd lt d psfShape procs) →
        0 < linNoise h w (fun m => (d m).var) T ∧
        normSq (linResp h w T (commonStar d h w ψ p q)) = linNoise h w (fun m => (d m).var) T *
          ∑ k ∈ range h, ∑ l ∈ range w,
            zackayPower (fun j => (d j).zp) (fun j => (d j).var) (fun j => (d j).psfHat.px k l) := by
  obtain ⟨out, e, st⟩ := coadd_star lt hn d h w psfShape procs hs hp hp' hb ψ hψ p q 1 X Y hpq hX hY hpow
  have h0 : h ≠ 0 := by have := (hpq ⟨0, hn⟩).1; omega
  have w0 : w ≠ 0 := by have := (hpq ⟨0, hn⟩).2; omega
  refine ⟨out, e, ?_⟩
  intro T hT
  set Q : ℕ → ℕ → ℂ := fun i j =>
    out.Pr.px (((i : ℤ) - (X - psfShape)) % h).toNat (((j : ℤ) - (Y - psfShape)) % w).toNat with hQ
  set κ : ℝ := Real.sqrt (zackayPower (fun j => (d j).zp) (fun j => (d j).var)
    (fun j => (d j).psfHat.px 0 0)) with hκ
  have hκ0 : 0 < κ := Real.sqrt_pos.2 (lt_of_le_of_ne
    (zackayPower_nonneg _ _ _) (Ne.symm (hpow 0 (by omega) 0 (by omega))))
  have hN : (0 : ℝ) < ((h * w : ℕ) : ℝ) := by exact_mod_cast Nat.pos_of_ne_zero (Nat.mul_ne_zero h0 w0)
  -- what the star adds to pixel (i, j)
  have add : ∀ i < h, ∀ j < w, ∑ m, ∑ a ∈ range h, ∑ b ∈ range w,
      ((commonStar d h w ψ p q m).px a b : ℂ) * respCoadd lt d psfShape procs m i j a b = (κ : ℂ) * Q i j := by
    intro i hi j hj
    have s := st i hi j hj
    have l := coadd_noise_linear lt hn d h w psfShape procs hs hp hp' hb
      (fun m => toC (starAt h w (ψ m) (p m) (q m) (1 * (d m).zp))) i j
    have hd : coaddOf lt d psfShape procs (fun m => (d m).interped) = out.R := by
      have : coaddCore lt ((List.ofFn (withPix d fun m => (d m).interped)).map SinglePsf.toCoImg) psfShape procs =
        .ok out := e
      unfold coaddOf
      rw [this]
    rw [s, hd] at l
    have l' := add_left_cancel l
    simp only [one_mul] at l'
    exact l'.symm
  have add2 : ∀ i < h, ∀ j < w, (κ : ℂ) * Q i j = (ifftOrtho ⟨h, w, fun k l =>
      ∑ m, gainCoadd d h w m k l * (fftOrtho (toC (commonStar d h w ψ p q m))).px k l⟩).px i j := by
    intro i hi j hj
    rw [← add i hi j hj, ifftOrtho_sum]
    refine Finset.sum_congr rfl fun m _ => ?_
    have f := filter_eq (toC (commonStar d h w ψ p q m)) (gainCoadd d h w m) i j
    refine Eq.trans ?_ f.symm
    refine Finset.sum_congr rfl fun a ha => Finset.sum_congr rfl fun b hb' => ?_
    rw [respCoadd_eq lt hn d h w psfShape procs hs hp hp' hb m i j a b (mem_range.1 ha) (mem_range.1 hb')]
    rfl
  -- its power
  have pwr : κ ^ 2 * ∑ i ∈ range h, ∑ j ∈ range w, normSq (Q i j) =
      (∑ k ∈ range h, ∑ l ∈ range w,
        zackayPower (fun j => (d j).zp) (fun j => (d j).var) (fun j => (d j).psfHat.px k l)) / ((h * w : ℕ) : ℝ) := by
    have P := ifftOrtho_power h w (fun k l =>
      ∑ m, gainCoadd d h w m k l * (fftOrtho (toC (commonStar d h w ψ p q m))).px k l)
    have L : ∑ i ∈ range h, ∑ j ∈ range w, normSq ((ifftOrtho ⟨h, w, fun k l =>
        ∑ m, gainCoadd d h w m k l * (fftOrtho (toC (commonStar d h w ψ p q m))).px k l⟩).px i j) =
        κ ^ 2 * ∑ i ∈ range h, ∑ j ∈ range w, normSq (Q i j) := by
      rw [Finset.mul_sum]
      refine Finset.sum_congr rfl fun i hi => ?_
      rw [Finset.mul_sum]
      refine Finset.sum_congr rfl fun j hj => ?_
      rw [← add2 i (mem_range.1 hi) j (mem_range.1 hj), normSq_mul, normSq_ofReal]
      ring
    rw [L] at P
    rw [P, Finset.sum_div]
    refine Finset.sum_congr rfl fun k hk => ?_
    rw [Finset.sum_div]
    refine Finset.sum_congr rfl fun l hl => ?_
    rw [common_hat d h w hs ψ hψ p q X Y hpq hX hY hpow k l (mem_range.1 hk) (mem_range.1 hl), normSq_mul, normSq_div,
      normSq_shiftPhase, normSq_ofReal, normSq_ofReal, Real.mul_self_sqrt (zackayPower_nonneg _ _ _),
      Real.mul_self_sqrt hN.le, mul_one]
  have noise : linNoise h w (fun m => (d m).var) T =
      1 / ((h * w : ℕ) : ℝ) * ∑ i ∈ range h, ∑ j ∈ range w, normSq (Q i j) := by
    rw [hT, linNoise_pixels h w (fun m => (d m).var) _ _ (1 / ((h * w : ℕ) : ℝ))]
    · simp only [normSq_conj]
      rfl
    · intro i hi j hj i' hi' j' hj'
      have wn := coadd_noise_white lt hn d h w psfShape procs hs hp hp' hb hv hpow i j i' j' hi hj hi' hj'
      rw [wn]
      push_cast
      rfl
  have resp : linResp h w T (commonStar d h w ψ p q) =
      ((κ * ∑ i ∈ range h, ∑ j ∈ range w, normSq (Q i j) : ℝ) : ℂ) := by
    rw [hT, linResp_pixels]
    push_cast
    rw [Finset.mul_sum]
    refine Finset.sum_congr rfl fun i hi => ?_
    rw [Finset.mul_sum]
    refine Finset.sum_congr rfl fun j hj => ?_
    rw [add i (mem_range.1 hi) j (mem_range.1 hj), ← Complex.mul_conj]
    ring
  have E0 : 0 < ∑ k ∈ range h, ∑ l ∈ range w,
        zackayPower (fun j => (d j).zp) (fun j => (d j).var) (fun j => (d j).psfHat.px k l) := by
    have nn : ∀ k ∈ range h, 0 ≤ ∑ l ∈ range w,
        zackayPower (fun j => (d j).zp) (fun j => (d j).var) (fun j => (d j).psfHat.px k l) :=
      fun k _ => Finset.sum_nonneg fun l _ => zackayPower_nonneg _ _ _
    refine lt_of_lt_of_le ?_ (Finset.single_le_sum nn (mem_range.2 (Nat.pos_of_ne_zero h0)))
    refine lt_of_lt_of_le ?_ (Finset.single_le_sum (fun l _ => zackayPower_nonneg _ _ _)
      (mem_range.2 (Nat.pos_of_ne_zero w0)))
    exact lt_of_le_of_ne (zackayPower_nonneg _ _ _) (Ne.symm (hpow 0 (by omega) 0 (by omega)))
  set E := ∑ k ∈ range h, ∑ l ∈ range w,
        zackayPower (fun j => (d j).zp) (fun j => (d j).var) (fun j => (d j).psfHat.px k l) with hE
  set W := ∑ i ∈ range h, ∑ j ∈ range w, normSq (Q i j) with hW
  have hW0 : 0 < W := by
    have : 0 < κ ^ 2 * W := by rw [pwr]; positivity
    exact pos_of_mul_pos_right this (by positivity)
  refine ⟨by rw [noise]; positivity, ?_⟩
  rw [noise, resp, normSq_ofReal]
  have hEW : E = κ ^ 2 * W * ((h * w : ℕ) : ℝ) := by rw [pwr]; field_simp
  rw [hEW]
  field_simp

/-- C116: the coadd loses nothing. Take a star that all images show at pixel `(X, Y)`, with fluxes in the
proportion of the zero points, and take from `coadd` the image R and the PSF image; centre the PSF image on
the star and sum R against it. This statistic has the largest ratio of response to noise among all linear
statistics of all pixels of all images. -/
theorem coadd_optimal (hv : ∀ m, (d m).var ≠ 0) :
    ∃ out, coaddCore lt ((List.ofFn d).map SinglePsf.toCoImg) psfShape procs = .ok out ∧
      ∀ T, T = pixelWeights h w
          (fun i j => (starRingEnd ℂ)
            (out.Pr.px (((i : ℤ) - (X - psfShape)) % h).toNat (((j : ℤ) - (Y - psfShape)) % w).toNat))
          (respCoadd lt d psfShape procs) →
        0 < linNoise h w (fun m => (d m).var) T ∧
        ∀ g, normSq (linResp h w g (commonStar d h w ψ p q)) * linNoise h w (fun m => (d m).var) T ≤
          normSq (linResp h w T (commonStar d h w ψ p q)) * linNoise h w (fun m => (d m).var) g := by
  obtain ⟨out, e, k⟩ := coadd_snr lt hn d h w psfShape procs hs hp hp' hb ψ hψ p q X Y hpq hX hY hpow hv
  refine ⟨out, e, fun T hT => ?_⟩
  obtain ⟨pos, eq⟩ := k T hT
  refine ⟨pos, fun g => ?_⟩
  have b := common_bound d h w hs ψ hψ p q hpq hv g
  rw [eq]
  calc _ ≤ _ := mul_le_mul_of_nonneg_right b pos.le
    _ = _ := by ring

end

/-! ## subtract -/

theorem shiftPhase_int (h w : ℕ) (hh : h ≠ 0) (hw : w ≠ 0) (a b : ℤ) (k l : ℕ) :
    shiftPhase h w ((a : ℝ), (b : ℝ)) k l = tw h ((k : ℝ) * a) * tw w ((l : ℝ) * b) := by
  unfold shiftPhase
  simp only []
  rw [tw_sfreq h hh k a, tw_sfreq w hw l b]

theorem tw_emod (n : ℕ) (hn : n ≠ 0) (k : ℕ) (a : ℤ) :
    tw n ((k : ℝ) * ((a % n).toNat : ℕ)) = tw n ((k : ℝ) * a) := by
  have h1 := Int.emod_nonneg a (show (n : ℤ) ≠ 0 by exact_mod_cast hn)
  have h2 := Int.mul_ediv_add_emod a n
  have h3 : (((a % n).toNat : ℕ) : ℤ) = a % n := Int.toNat_of_nonneg h1
  have h4 : (a : ℝ) = (((a % n).toNat : ℕ) : ℝ) + n * ((a / n : ℤ) : ℝ) := by
    have : a = (((a % n).toNat : ℕ) : ℤ) + n * (a / n) := by rw [h3]; omega
    exact_mod_cast this
  have h5 : (k : ℝ) * a = (k : ℝ) * ((a % n).toNat : ℕ) + (n : ℝ) * (((k : ℤ) * (a / n) : ℤ) : ℝ) := by
    rw [Int.cast_mul, Int.cast_natCast]
    generalize (((a % n).toNat : ℕ) : ℝ) = r at h4 ⊢
    generalize ((a / n : ℤ) : ℝ) = d at h4 ⊢
    rw [h4]
    ring
  rw [h5, tw_add, tw_period n hn, mul_one]

/-- A star of flux `c` at sky pixel `(X, Y)`, for a PSF stamp with centre `(A, B)`. -/
def skyStar (h w : ℕ) (psf : Img ℝ) (A B X Y : ℤ) (c : ℝ) : Img ℝ :=
  starAt h w psf ((X - A) % h).toNat ((Y - B) % w).toNat c

theorem emod_toNat_lt (n : ℕ) (hn : n ≠ 0) (u : ℤ) : (u % (n : ℤ)).toNat < n := by
  have h1 := Int.emod_lt_of_pos u (show (0 : ℤ) < n by omega)
  have h2 := Int.emod_nonneg u (show (n : ℤ) ≠ 0 by omega)
  omega

theorem fftOrtho_skyStar (h w : ℕ) (hh : h ≠ 0) (hw : w ≠ 0) (psf : Img ℝ) (A B X Y : ℤ) (c : ℝ) (k l : ℕ) :
    (fftOrtho (toC (skyStar h w psf A B X Y c))).px k l =
      c * (fftOrtho (padTo h w (toC psf))).px k l * shiftPhase h w (((X - A : ℤ) : ℝ), ((Y - B : ℤ) : ℝ)) k l := by
  unfold skyStar
  rw [fftOrtho_starAt h w psf _ _ c (emod_toNat_lt h hh _) (emod_toNat_lt w hw _)]
  congr 1
  have e := shiftPhase_int h w hh hw (((X - A) % h).toNat : ℕ) (((Y - B) % w).toNat : ℕ) k l
  rw [Int.cast_natCast, Int.cast_natCast, tw_emod h hh, tw_emod w hw] at e
  rw [e, shiftPhase_int h w hh hw]

/-- A weighted sum of pixels, in the frequency domain. -/
theorem weighted_hat (h w : ℕ) (g : ℕ → ℕ → ℂ) (s : Img ℝ) (hs : s.h = h ∧ s.w = w) :
    ∑ a ∈ range h, ∑ b ∈ range w, g a b * (s.px a b : ℂ) =
      ∑ k ∈ range h, ∑ l ∈ range w, (fftOrtho (toC s)).px k l *
        (starRingEnd ℂ) ((fftOrtho ⟨h, w, fun a b => (starRingEnd ℂ) (g a b)⟩).px k l) := by
  have p := fftOrtho_inner h w (fun a b => (s.px a b : ℂ)) (fun a b => (starRingEnd ℂ) (g a b))
  have e : toC s = ⟨h, w, fun a b => (s.px a b : ℂ)⟩ := by
    rw [← hs.1, ← hs.2]
    rfl
  rw [e, p]
  refine Finset.sum_congr rfl fun a _ => Finset.sum_congr rfl fun b _ => ?_
  rw [Complex.conj_conj, mul_comm]

/-- The noise of the two images of a subtraction (`true`: the new image). -/
def pairSigma (ref new : SubImg) (m : Bool) : ℝ := if m then new.var else ref.var

/-- A star at `(X, Y)` in the new image only. -/
def newStar (h w : ℕ) (new : SubImg) (A' B' X Y : ℤ) (m : Bool) : Img ℝ :=
  if m then skyStar h w new.psf A' B' X Y 1 else ⟨h, w, fun _ _ => 0⟩

/-- A constant star at `(X, Y)`: flux 1 in the reference and `b` in the new image. -/
def constantStar (h w : ℕ) (ref new : SubImg) (b : ℝ) (A B A' B' X Y : ℤ) (m : Bool) : Img ℝ :=
  if m then skyStar h w new.psf A' B' X Y b else skyStar h w ref.psf A B X Y 1

/-- The statistic does not respond to constant stars, wherever they are. -/
def IgnoresConstant (h w : ℕ) (ref new : SubImg) (b : ℝ) (A B A' B' : ℤ) (g : Bool → ℕ → ℕ → ℂ) : Prop :=
  ∀ X Y : ℤ, linResp h w g (constantStar h w ref new b A B A' B' X Y) = 0

/-- Responses of D to the pixels of the two images. -/
noncomputable def pairResp (env : SubEnv) (o : SubOpts) (ref new : SubImg) (m : Bool) : ℕ → ℕ → ℕ → ℕ → ℂ :=
  if m then respNew env o ref new else respRef env o ref new

section
variable (ref new : SubImg) (h w : ℕ) (b : ℝ) (A B A' B' : ℤ)
    (hr : ref.interped.shape = (h, w)) (hn : new.interped.shape = (h, w)) (hh : h ≠ 0) (hw : w ≠ 0)
    (gr : GuardIdle h w ref.psf) (gn : GuardIdle h w new.psf)
include hr hn hh hw gr gn

/-- In the frequency domain a statistic that ignores constant stars balances its two parts. -/
theorem ignores_hat (g : Bool → ℕ → ℕ → ℂ) (hg : IgnoresConstant h w ref new b A B A' B' g)
    (k l : ℕ) (hk : k < h) (hl : l < w) :
    b * new.psfHat.px k l * shiftPhase h w (((-A' : ℤ) : ℝ), ((-B' : ℤ) : ℝ)) k l *
        (starRingEnd ℂ) ((fftOrtho ⟨h, w, fun x y => (starRingEnd ℂ) (g true x y)⟩).px k l) +
      ref.psfHat.px k l * shiftPhase h w (((-A : ℤ) : ℝ), ((-B : ℤ) : ℝ)) k l *
        (starRingEnd ℂ) ((fftOrtho ⟨h, w, fun x y => (starRingEnd ℂ) (g false x y)⟩).px k l) = 0 := by
  have rh : ref.interped.h = h := congrArg Prod.fst hr
  have rw0 : ref.interped.w = w := congrArg Prod.snd hr
  have nh : new.interped.h = h := congrArg Prod.fst hn
  have nw : new.interped.w = w := congrArg Prod.snd hn
  refine dft_injective h w (fun k l =>
    b * new.psfHat.px k l * shiftPhase h w (((-A' : ℤ) : ℝ), ((-B' : ℤ) : ℝ)) k l *
        (starRingEnd ℂ) ((fftOrtho ⟨h, w, fun x y => (starRingEnd ℂ) (g true x y)⟩).px k l) +
      ref.psfHat.px k l * shiftPhase h w (((-A : ℤ) : ℝ), ((-B : ℤ) : ℝ)) k l *
        (starRingEnd ℂ) ((fftOrtho ⟨h, w, fun x y => (starRingEnd ℂ) (g false x y)⟩).px k l)) ?_ k l hk hl
  intro X _ Y _
  have z := hg X Y
  unfold linResp constantStar at z
  rw [Fintype.sum_bool] at z
  simp only [if_true, Bool.false_eq_true, if_false] at z
  rw [weighted_hat h w _ _ ⟨rfl, rfl⟩, weighted_hat h w _ _ ⟨rfl, rfl⟩, ← Finset.sum_add_distrib] at z
  change ∑ k ∈ range h, ∑ l ∈ range w, _ * (tw h ((X : ℝ) * k) * tw w ((Y : ℝ) * l)) = 0
  rw [← z]
  refine Finset.sum_congr rfl fun k hk => ?_
  rw [← Finset.sum_add_distrib]
  refine Finset.sum_congr rfl fun l hl => ?_
  rw [fftOrtho_skyStar h w hh hw, fftOrtho_skyStar h w hh hw,
    ← psfHat_idle ref h w rh rw0 gr k l (mem_range.1 hk) (mem_range.1 hl),
    ← psfHat_idle new h w nh nw gn k l (mem_range.1 hk) (mem_range.1 hl)]
  have sp : ∀ U V : ℤ, shiftPhase h w ((((X : ℤ) - U : ℤ) : ℝ), (((Y : ℤ) - V : ℤ) : ℝ)) k l =
      shiftPhase h w (((-U : ℤ) : ℝ), ((-V : ℤ) : ℝ)) k l * (tw h ((X : ℝ) * k) * tw w ((Y : ℝ) * l)) := by
    intro U V
    have s := shiftPhase_add h w (((X : ℤ) : ℝ), ((Y : ℤ) : ℝ)) (((-U : ℤ) : ℝ), ((-V : ℤ) : ℝ)) k l
    have i0 := shiftPhase_int h w hh hw (X : ℤ) (Y : ℤ) k l
    rw [mul_comm (k : ℝ), mul_comm (l : ℝ)] at i0
    rw [i0, Int.cast_natCast, Int.cast_natCast] at s
    rw [mul_comm, ← s]
    congr 2
    · push_cast; ring
    · push_cast; ring
  rw [sp, sp]
  push_cast
  ring

/-- No statistic that ignores constant stars reaches more than this. -/
theorem ignoring_bound (hv : new.var ≠ 0 ∨ (ref.var ≠ 0 ∧ b ≠ 0)) (g : Bool → ℕ → ℕ → ℂ)
    (hg : IgnoresConstant h w ref new b A B A' B' g) (X Y : ℤ) :
    normSq (linResp h w g (newStar h w new A' B' X Y)) ≤ linNoise h w (pairSigma ref new) g *
      ∑ k ∈ range h, ∑ l ∈ range w,
        normSq (ref.psfHat.px k l) * normSq (new.psfHat.px k l) / normReal ref new b k l := by
  have nh : new.interped.h = h := congrArg Prod.fst hn
  have nw : new.interped.w = w := congrArg Prod.snd hn
  have npos : ∀ k l, 0 < normReal ref new b k l := by
    intro k l
    obtain ⟨_, _, r, hr, hr'⟩ := subtract_norm_pos ref new b k l hv
    rw [normHat_eq] at hr'
    have hr2 : normReal ref new b k l = r := by exact_mod_cast hr'
    rw [hr2]
    exact hr
  set G := fun k l => (fftOrtho ⟨h, w, fun x y => (starRingEnd ℂ) (g true x y)⟩).px k l with hG
  set F := fun k l => (fftOrtho ⟨h, w, fun x y => (starRingEnd ℂ) (g false x y)⟩).px k l with hF
  have noise : linNoise h w (pairSigma ref new) g = ∑ c ∈ range h ×ˢ range w,
      (new.var ^ 2 * normSq (G c.1 c.2) + ref.var ^ 2 * normSq (F c.1 c.2)) := by
    unfold linNoise pairSigma
    rw [Fintype.sum_bool, Finset.sum_product]
    simp only [if_true, Bool.false_eq_true, if_false, Finset.sum_add_distrib, ← Finset.mul_sum]
    rw [hG, hF, fftOrtho_power, fftOrtho_power]
    simp only [normSq_conj]
  have resp : linResp h w g (newStar h w new A' B' X Y) = ∑ c ∈ range h ×ˢ range w,
      new.psfHat.px c.1 c.2 * shiftPhase h w (((X - A' : ℤ) : ℝ), ((Y - B' : ℤ) : ℝ)) c.1 c.2 *
        (starRingEnd ℂ) (G c.1 c.2) := by
    unfold linResp newStar
    rw [Fintype.sum_bool, Finset.sum_product]
    simp only [if_true, Bool.false_eq_true, if_false, Complex.ofReal_zero, mul_zero, Finset.sum_const_zero,
      add_zero]
    rw [weighted_hat h w _ _ ⟨rfl, rfl⟩]
    refine Finset.sum_congr rfl fun k hk => Finset.sum_congr rfl fun l hl => ?_
    rw [fftOrtho_skyStar h w hh hw, ← psfHat_idle new h w nh nw gn k l (mem_range.1 hk) (mem_range.1 hl)]
    push_cast
    ring
  rw [noise, resp, ← Finset.sum_product (s := range h) (t := range w)
    (f := fun c => normSq (ref.psfHat.px c.1 c.2) * normSq (new.psfHat.px c.1 c.2) / normReal ref new b c.1 c.2)]
  refine response_bound _ _ _ _ (fun c _ => ?_) (fun c _ => ?_) (fun c hc => ?_)
  · have h1 := normSq_nonneg (G c.1 c.2)
    have h2 := normSq_nonneg (F c.1 c.2)
    positivity
  · exact div_nonneg (mul_nonneg (normSq_nonneg _) (normSq_nonneg _)) (npos _ _).le
  · rw [Finset.mem_product] at hc
    have z := ignores_hat ref new h w b A B A' B' hr hn hh hw gr gn g hg c.1 c.2 (mem_range.1 hc.1) (mem_range.1 hc.2)
    have z2 : normSq (ref.psfHat.px c.1 c.2) * normSq (F c.1 c.2) =
        b ^ 2 * normSq (new.psfHat.px c.1 c.2) * normSq (G c.1 c.2) := by
      have z3 := congrArg normSq (eq_neg_of_add_eq_zero_left z)
      rw [normSq_neg] at z3
      simp only [normSq_mul, normSq_shiftPhase, normSq_conj, normSq_ofReal, mul_one] at z3
      rw [hF, hG, ← z3]
      ring
    have np := npos c.1 c.2
    rw [normSq_mul, normSq_mul, normSq_shiftPhase, normSq_conj, mul_one, ← mul_div_assoc, le_div_iff₀ np]
    unfold normReal
    refine le_of_eq ?_
    linear_combination (-(ref.var ^ 2 * normSq (new.psfHat.px c.1 c.2))) * z2

end

section
variable (env : SubEnv) (it : Bool) (ref new : SubImg) (h w : ℕ) (z : ℝ × ℝ)
    (hmr : ref.mask.HasShape h w) (hmn : new.mask.HasShape h w) (hz : env.zps = .ok z)
    (hc : env.fitted = true ∨ (0 ≤ (centerOfMass new.psf).1 ∧ 0 ≤ (centerOfMass new.psf).2))
    (hr : ref.interped.shape = (h, w)) (hn : new.interped.shape = (h, w)) (hh : h ≠ 0) (hw : w ≠ 0)
    (gr : GuardIdle h w ref.psf) (gn : GuardIdle h w new.psf) (A B A' B' : ℤ)
    (hA : centerOfMass ref.psf = ((A : ℝ), (B : ℝ))) (hA' : centerOfMass new.psf = ((A' : ℝ), (B' : ℝ)))
include hmr hmn hz hc hr hn hh hw gr gn hA hA'

/-- What a pair of stars at the same sky position adds to D. -/
theorem pair_hat (X Y : ℤ) (cn cr : ℝ) (i j : ℕ) :
    ∑ m : Bool, ∑ x ∈ range h, ∑ y ∈ range w,
      (((if m then skyStar h w new.psf A' B' X Y cn else skyStar h w ref.psf A B X Y cr : Img ℝ).px x y : ℝ) : ℂ) *
        pairResp env ⟨false, false, it⟩ ref new m i j x y =
      (ifftOrtho ⟨h, w, fun k l =>
        ref.psfHat.px k l * new.psfHat.px k l / (Real.sqrt (normReal ref new (z.2 / z.1) k l) : ℂ) *
          (((cn - z.2 / z.1 * cr : ℝ) : ℂ) *
            shiftPhase h w (((X - A' - A : ℤ) : ℝ), ((Y - B' - B : ℤ) : ℝ)) k l)⟩).px i j := by
  have rh : ref.interped.h = h := congrArg Prod.fst hr
  have rw0 : ref.interped.w = w := congrArg Prod.snd hr
  have nh : new.interped.h = h := congrArg Prod.fst hn
  have nw : new.interped.w = w := congrArg Prod.snd hn
  rw [Fintype.sum_bool]
  unfold pairResp
  simp only [if_true, Bool.false_eq_true, if_false]
  have r := fun x hx y hy => resp_eq env it ref new h w z hmr hmn hz hc hr hn i j x y
    (mem_range.1 hx) (mem_range.1 hy)
  rw [Finset.sum_congr rfl fun x hx => Finset.sum_congr rfl fun y hy => by rw [(r x hx y hy).1],
    Finset.sum_congr (s₁ := range h) (f := fun x => ∑ y ∈ range w, ((skyStar h w ref.psf A B X Y cr).px x y : ℂ) *
      respRef env ⟨false, false, it⟩ ref new i j x y) rfl fun x hx => Finset.sum_congr rfl fun y hy => by
        rw [(r x hx y hy).2]]
  have f1 := filter_eq (toC (skyStar h w new.psf A' B' X Y cn)) (gainNew ref new (z.2 / z.1)) i j
  have f2 := filter_eq (toC (skyStar h w ref.psf A B X Y cr)) (gainRef ref new (z.2 / z.1) 0 0) i j
  refine (congrArg₂ (· + ·) f1.symm f2.symm).trans ?_
  change (ifftOrtho ⟨h, w, _⟩).px i j + (ifftOrtho ⟨h, w, _⟩).px i j = _
  rw [← ifftOrtho_add]
  refine ifftOrtho_congr h w _ _ ?_ i j
  intro k hk l hl
  rw [fftOrtho_skyStar h w hh hw, fftOrtho_skyStar h w hh hw,
    ← psfHat_idle ref h w rh rw0 gr k l hk hl, ← psfHat_idle new h w nh nw gn k l hk hl]
  unfold gainNew gainRef centredPsf SubImg.h SubImg.w
  rw [rh, rw0, nh, nw, hA, hA']
  have z0 : shiftPhase h w (0, 0) k l = 1 := by simp [shiftPhase, tw_zero]
  rw [z0]
  have s1 := shiftPhase_add h w (((X - A' : ℤ) : ℝ), ((Y - B' : ℤ) : ℝ)) (negPair ((A : ℝ), (B : ℝ))) k l
  have s2 := shiftPhase_add h w (((X - A : ℤ) : ℝ), ((Y - B : ℤ) : ℝ)) (negPair ((A' : ℝ), (B' : ℝ))) k l
  have t1 : (((X - A' - A : ℤ) : ℝ), ((Y - B' - B : ℤ) : ℝ)) =
      (((X - A' : ℤ) : ℝ) + (negPair ((A : ℝ), (B : ℝ))).1, ((Y - B' : ℤ) : ℝ) + (negPair ((A : ℝ), (B : ℝ))).2) := by
    simp only [negPair]
    congr 1 <;> push_cast <;> ring
  have t2 : (((X - A' - A : ℤ) : ℝ), ((Y - B' - B : ℤ) : ℝ)) =
      (((X - A : ℤ) : ℝ) + (negPair ((A' : ℝ), (B' : ℝ))).1, ((Y - B : ℤ) : ℝ) + (negPair ((A' : ℝ), (B' : ℝ))).2) := by
    simp only [negPair]
    congr 1 <;> push_cast <;> ring
  have u1 := (congrArg (fun v => shiftPhase h w v k l) t1).trans s1
  have u2 := (congrArg (fun v => shiftPhase h w v k l) t2).trans s2
  have : ∀ S : ℂ, ((cn - z.2 / z.1 * cr : ℝ) : ℂ) * S = cn * S - ((z.2 / z.1 : ℝ) : ℂ) * cr * S := by
    intro S
    push_cast
    ring
  rw [this]
  nth_rewrite 1 [u1]
  rw [u2]
  ring

/-- C156: centre the PSF image that `subtract` returns on a star at `(X, Y)` and sum D against it. The statistic ignores
constant stars, and its squared response to a star of flux one in the new image only, over its noise, is a sum over the
frequencies. -/
theorem subtract_snr (hb : z.2 / z.1 ≠ 0) (hv : ref.var ≠ 0 ∨ new.var ≠ 0) (X Y : ℤ) :
    ∃ out, subtract env ⟨false, false, it⟩ ref new = .ok out ∧
      ∀ T, T = pixelWeights h w
          (fun i j => (out.P.px (((i : ℤ) - (X - A' - A)) % h).toNat (((j : ℤ) - (Y - B' - B)) % w).toNat : ℂ))
          (pairResp env ⟨false, false, it⟩ ref new) →
        IgnoresConstant h w ref new (z.2 / z.1) A B A' B' T ∧
        0 < linNoise h w (pairSigma ref new) T ∧
        normSq (linResp h w T (newStar h w new A' B' X Y)) = linNoise h w (pairSigma ref new) T *
          ∑ k ∈ range h, ∑ l ∈ range w,
            normSq (ref.psfHat.px k l) * normSq (new.psfHat.px k l) / normReal ref new (z.2 / z.1) k l := by
  have hv' : new.var ≠ 0 ∨ (ref.var ≠ 0 ∧ z.2 / z.1 ≠ 0) := by
    rcases hv with h1 | h1
    · exact Or.inr ⟨h1, hb⟩
    · exact Or.inl h1
  have rh : ref.interped.h = h := congrArg Prod.fst hr
  have rw0 : ref.interped.w = w := congrArg Prod.snd hr
  have nh : new.interped.h = h := congrArg Prod.fst hn
  have nw : new.interped.w = w := congrArg Prod.snd hn
  obtain ⟨out, e, _, hP, _⟩ := subtract_returns env it ref new h w hr hn hmr hmn z hz hc
  refine ⟨out, e, ?_⟩
  intro T hT
  set S : ℝ := Real.sqrt (ref.var ^ 2 * (z.2 / z.1) ^ 2 + new.var ^ 2) with hS
  have hSpos : 0 < S := by
    refine Real.sqrt_pos.2 ?_
    rcases hv with h1 | h1
    · have : 0 < ref.var ^ 2 * (z.2 / z.1) ^ 2 := by positivity
      positivity
    · have : 0 < new.var ^ 2 := by positivity
      positivity
  set Q : ℕ → ℕ → ℝ := fun i j =>
    out.P.px (((i : ℤ) - (X - A' - A)) % h).toNat (((j : ℤ) - (Y - B' - B)) % w).toNat with hQ
  have npos : ∀ k l, 0 < normReal ref new (z.2 / z.1) k l := by
    intro k l
    obtain ⟨_, _, r, hr, hr'⟩ := subtract_norm_pos ref new (z.2 / z.1) k l hv'
    rw [normHat_eq] at hr'
    have hr2 : normReal ref new (z.2 / z.1) k l = r := by exact_mod_cast hr'
    rw [hr2]
    exact hr
  have e3 : pHat ref new (z.2 / z.1) = ⟨h, w, (pHat ref new (z.2 / z.1)).px⟩ := by
    have e1 : (pHat ref new (z.2 / z.1)).h = h := rh
    have e2 : (pHat ref new (z.2 / z.1)).w = w := rw0
    rw [← e1, ← e2]
  -- what a star in the new image adds to pixel (i, j)
  have add2 : ∀ i j, ∑ m : Bool, ∑ x ∈ range h, ∑ y ∈ range w,
      ((newStar h w new A' B' X Y m).px x y : ℂ) * pairResp env ⟨false, false, it⟩ ref new m i j x y =
      (ifftOrtho ⟨h, w, fun k l =>
        ref.psfHat.px k l * new.psfHat.px k l / (Real.sqrt (normReal ref new (z.2 / z.1) k l) : ℂ) *
          shiftPhase h w (((X - A' - A : ℤ) : ℝ), ((Y - B' - B : ℤ) : ℝ)) k l⟩).px i j := by
    intro i j
    have k := pair_hat env it ref new h w z hmr hmn hz hc hr hn hh hw gr gn A B A' B' hA hA' X Y 1 0 i j
    simp only [mul_zero, sub_zero, Complex.ofReal_one, one_mul] at k
    rw [← k, Fintype.sum_bool, Fintype.sum_bool]
    unfold newStar
    simp only [if_true, Bool.false_eq_true, if_false]
    congr 1
    refine Finset.sum_congr rfl fun x _ => Finset.sum_congr rfl fun y _ => ?_
    simp [skyStar, starAt]
  have add : ∀ i < h, ∀ j < w, ∑ m : Bool, ∑ x ∈ range h, ∑ y ∈ range w,
      ((newStar h w new A' B' X Y m).px x y : ℂ) * pairResp env ⟨false, false, it⟩ ref new m i j x y =
      ((1 / S * Q i j : ℝ) : ℂ) := by
    intro i hi j hj
    rw [add2 i j, ifftOrtho_roll h w _ _ _ i j hi hj]
    have c : (ifftOrtho ⟨h, w, fun k l => ref.psfHat.px k l * new.psfHat.px k l /
        (Real.sqrt (normReal ref new (z.2 / z.1) k l) : ℂ)⟩).px (((i : ℤ) - (X - A' - A)) % h).toNat
          (((j : ℤ) - (Y - B' - B)) % w).toNat =
        ((1 / S : ℝ) : ℂ) * (ifftOrtho ⟨h, w, (pHat ref new (z.2 / z.1)).px⟩).px
          (((i : ℤ) - (X - A' - A)) % h).toNat (((j : ℤ) - (Y - B' - B)) % w).toNat := by
      rw [← ifftOrtho_const_mul]
      refine ifftOrtho_congr h w _ _ ?_ _ _
      intro k _ l _
      rw [pHat_eq ref new z hb hv k l]
    rw [c, ← e3, ← subtract_P_real ref new (nh.trans rh.symm) (nw.trans rw0.symm), ← hP, Complex.ofReal_mul]
  have pwr : (1 / S) ^ 2 * ∑ i ∈ range h, ∑ j ∈ range w, Q i j ^ 2 = ∑ k ∈ range h, ∑ l ∈ range w,
      normSq (ref.psfHat.px k l) * normSq (new.psfHat.px k l) / normReal ref new (z.2 / z.1) k l := by
    have P := ifftOrtho_power h w (fun k l =>
        ref.psfHat.px k l * new.psfHat.px k l / (Real.sqrt (normReal ref new (z.2 / z.1) k l) : ℂ) *
          shiftPhase h w (((X - A' - A : ℤ) : ℝ), ((Y - B' - B : ℤ) : ℝ)) k l)
    rw [Finset.sum_congr rfl fun i hi => Finset.sum_congr rfl fun j hj => by
      rw [← add2 i j, add i (mem_range.1 hi) j (mem_range.1 hj), normSq_ofReal]] at P
    rw [Finset.mul_sum]
    refine Eq.trans ?_ (P.trans ?_)
    · refine Finset.sum_congr rfl fun i _ => ?_
      rw [Finset.mul_sum]
      refine Finset.sum_congr rfl fun j _ => ?_
      ring
    · refine Finset.sum_congr rfl fun k _ => Finset.sum_congr rfl fun l _ => ?_
      rw [normSq_mul, normSq_shiftPhase, normSq_div, normSq_mul, normSq_ofReal, Real.mul_self_sqrt (npos k l).le,
        mul_one]
  have noise : linNoise h w (pairSigma ref new) T = ∑ i ∈ range h, ∑ j ∈ range w, Q i j ^ 2 := by
    rw [hT, linNoise_pixels h w (pairSigma ref new) _ _ 1]
    · rw [one_mul]
      refine Finset.sum_congr rfl fun i _ => Finset.sum_congr rfl fun j _ => ?_
      rw [normSq_ofReal, pow_two]
    · intro i hi j hj i' hi' j' hj'
      have wn := subtract_noise_white env it ref new h w z hmr hmn hz hc hr hn hv' i j i' j' hi hj hi' hj'
      rw [Complex.ofReal_one, ← wn, Fintype.sum_bool]
      unfold pairSigma pairResp
      simp only [if_true, Bool.false_eq_true, if_false, Finset.sum_add_distrib, ← Finset.mul_sum]
  have resp : linResp h w T (newStar h w new A' B' X Y) =
      ((1 / S * ∑ i ∈ range h, ∑ j ∈ range w, Q i j ^ 2 : ℝ) : ℂ) := by
    rw [hT, linResp_pixels, Finset.mul_sum, Complex.ofReal_sum]
    refine Finset.sum_congr rfl fun i hi => ?_
    rw [Finset.mul_sum, Complex.ofReal_sum]
    refine Finset.sum_congr rfl fun j hj => ?_
    rw [add i (mem_range.1 hi) j (mem_range.1 hj), ← Complex.ofReal_mul]
    congr 1
    change Q i j * _ = _
    ring
  have ign : IgnoresConstant h w ref new (z.2 / z.1) A B A' B' T := by
    intro U V
    rw [hT, linResp_pixels]
    refine Finset.sum_eq_zero fun i _ => Finset.sum_eq_zero fun j _ => ?_
    have k := pair_hat env it ref new h w z hmr hmn hz hc hr hn hh hw gr gn A B A' B' hA hA' U V (z.2 / z.1) 1 i j
    have k0 : (ifftOrtho ⟨h, w, fun k l =>
        ref.psfHat.px k l * new.psfHat.px k l / (Real.sqrt (normReal ref new (z.2 / z.1) k l) : ℂ) *
          (((z.2 / z.1 - z.2 / z.1 * 1 : ℝ) : ℂ) *
            shiftPhase h w (((U - A' - A : ℤ) : ℝ), ((V - B' - B : ℤ) : ℝ)) k l)⟩).px i j = 0 := by
      rw [ifftOrtho_congr h w _ (fun _ _ => 0 * 0), ifftOrtho_const_mul, zero_mul]
      intro k _ l _
      rw [mul_one, sub_self, Complex.ofReal_zero, zero_mul, mul_zero, mul_zero]
    rw [k0] at k
    unfold constantStar
    rw [k, mul_zero]
  have E0 : 0 < ∑ k ∈ range h, ∑ l ∈ range w,
      normSq (ref.psfHat.px k l) * normSq (new.psfHat.px k l) / normReal ref new (z.2 / z.1) k l := by
    refine Finset.sum_pos (fun k _ => Finset.sum_pos (fun l _ => ?_) ?_) ?_
    · exact div_pos (mul_pos (normSq_pos.2 (psfHat_ne_zero _ _ _)) (normSq_pos.2 (psfHat_ne_zero _ _ _))) (npos k l)
    · exact Finset.nonempty_range_iff.2 hw
    · exact Finset.nonempty_range_iff.2 hh
  set W := ∑ i ∈ range h, ∑ j ∈ range w, Q i j ^ 2 with hW
  have hW0 : 0 < W := by
    have : 0 < (1 / S) ^ 2 * W := by rw [pwr]; exact E0
    exact pos_of_mul_pos_right this (by positivity)
  refine ⟨ign, by rw [noise]; exact hW0, ?_⟩
  rw [noise, resp, normSq_ofReal, ← pwr]
  ring

/-- C117: the difference image loses nothing. Centre the PSF image that `subtract` returns on a star at
`(X, Y)` and sum D against it. This statistic ignores every constant star (one with a flux in the new image
that is `b` times the flux in the reference), and among all linear statistics of all pixels of the two images
that do so it has the largest ratio of response, to a star in the new image only, to noise. -/
theorem subtract_optimal (hb : z.2 / z.1 ≠ 0) (hv : ref.var ≠ 0 ∨ new.var ≠ 0) (X Y : ℤ) :
    ∃ out, subtract env ⟨false, false, it⟩ ref new = .ok out ∧
      ∀ T, T = pixelWeights h w
          (fun i j => (out.P.px (((i : ℤ) - (X - A' - A)) % h).toNat (((j : ℤ) - (Y - B' - B)) % w).toNat : ℂ))
          (pairResp env ⟨false, false, it⟩ ref new) →
        IgnoresConstant h w ref new (z.2 / z.1) A B A' B' T ∧
        0 < linNoise h w (pairSigma ref new) T ∧
        ∀ g, IgnoresConstant h w ref new (z.2 / z.1) A B A' B' g →
          normSq (linResp h w g (newStar h w new A' B' X Y)) * linNoise h w (pairSigma ref new) T ≤
            normSq (linResp h w T (newStar h w new A' B' X Y)) * linNoise h w (pairSigma ref new) g := by
  obtain ⟨out, e, k⟩ := subtract_snr env it ref new h w z hmr hmn hz hc hr hn hh hw gr gn A B A' B' hA hA' hb hv X Y
  refine ⟨out, e, fun T hT => ?_⟩
  obtain ⟨ign, pos, eq⟩ := k T hT
  refine ⟨ign, pos, fun g hg => ?_⟩
  have bd := ignoring_bound ref new h w (z.2 / z.1) A B A' B' hr hn hh hw gr gn
    (hv.elim (fun h1 => Or.inr ⟨h1, hb⟩) Or.inl) g hg X Y
  rw [eq]
  calc _ ≤ _ := mul_le_mul_of_nonneg_right bd pos.le
    _ = _ := by ring

end

/-! ## Worked instances -/

/-- A PSF of three pixels, 1 : 2 : 1, centred on its middle pixel. -/
noncomputable def seeingPsf : Img ℝ := ⟨1, 3, fun _ j => if j = 1 then 1 / 2 else 1 / 4⟩

/-- A 1×3 image with that PSF and noise `s`. -/
noncomputable def seeingSub (a b c s : ℝ) : SubImg where
  interped := ⟨1, 3, fun _ j => if j = 0 then a else if j = 1 then b else c⟩
  mask := none
  filled := ⟨1, 3, fun _ j => if j = 0 then a else if j = 1 then b else c⟩
  psf := seeingPsf
  var := s

theorem seeing_com : centerOfMass seeingPsf = (((0 : ℤ) : ℝ), ((1 : ℤ) : ℝ)) := by
  unfold centerOfMass rsum seeingPsf
  simp only [Finset.sum_range_succ, Finset.sum_range_zero]
  norm_num

theorem tw_three_re (m : ℕ) (hm : m % 3 ≠ 0) : (tw 3 (m : ℝ)).re = -1 / 2 := by
  have key : ∀ r q : ℕ, m = r + 3 * q → tw 3 (m : ℝ) = tw 3 (r : ℝ) := by
    intro r q e
    rw [e]
    push_cast
    have := tw_period 3 (by norm_num) (q : ℤ)
    push_cast at this
    rw [tw_add, this, mul_one]
  have c1 : (tw 3 (1 : ℝ)).re = -1 / 2 := by
    unfold tw
    rw [Complex.exp_ofReal_mul_I_re, Real.cos_neg]
    have : 2 * Real.pi * 1 / (3 : ℕ) = Real.pi - Real.pi / 3 := by push_cast; ring
    rw [this, Real.cos_pi_sub, Real.cos_pi_div_three]
    norm_num
  have c2 : (tw 3 (2 : ℝ)).re = -1 / 2 := by
    unfold tw
    rw [Complex.exp_ofReal_mul_I_re, Real.cos_neg]
    have : 2 * Real.pi * 2 / (3 : ℕ) = Real.pi / 3 + Real.pi := by push_cast; ring
    rw [this, Real.cos_add_pi, Real.cos_pi_div_three]
    norm_num
  have h3 : m % 3 = 1 ∨ m % 3 = 2 := by omega
  rcases h3 with h3 | h3
  · rw [key 1 (m / 3) (by omega)]; exact_mod_cast c1
  · rw [key 2 (m / 3) (by omega)]; exact_mod_cast c2

theorem seeing_idle : GuardIdle 1 3 seeingPsf := by
  intro k hk l hl
  have e : (fftOrtho (padTo 1 3 (toC seeingPsf))).px k l =
      (((1 / 4 : ℝ) : ℂ) + ((1 / 2 : ℝ) : ℂ) * tw 3 (l : ℝ) + ((1 / 4 : ℝ) : ℂ) * tw 3 ((2 * l : ℕ) : ℝ)) /
        (Real.sqrt ((1 * 3 : ℕ) : ℝ) : ℂ) := by
    have hk0 : k = 0 := by omega
    subst hk0
    change (∑ i ∈ range 1, ∑ j ∈ range 3, (if i < 1 ∧ j < 3 then ((if j = 1 then 1 / 2 else 1 / 4 : ℝ) : ℂ) else 0) *
      (tw 1 (((0 : ℕ) : ℝ) * i) * tw 3 ((l : ℝ) * j))) / (Real.sqrt ((1 * 3 : ℕ) : ℝ) : ℂ) = _
    congr 1
    simp only [Finset.sum_range_succ, Finset.sum_range_zero]
    norm_num [tw_zero]
    rw [mul_comm (l : ℝ) 2]
  rw [e, Complex.div_ofReal_re]
  refine div_ne_zero ?_ (by positivity)
  rw [Complex.add_re, Complex.add_re, Complex.re_ofReal_mul, Complex.re_ofReal_mul, Complex.ofReal_re]
  by_cases h0 : l = 0
  · subst h0
    norm_num [tw_zero]
  · rw [tw_three_re l (by omega), tw_three_re (2 * l) (by omega)]
    norm_num

/-- Noise 1 in the reference and 2 in the new image, zero points 1 and 3, a new star in the last column. -/
example : ∃ out, subtract (tinyEnv 1 3) ⟨false, false, true⟩ (seeingSub 5 7 0 1) (seeingSub 1 0 4 2) = .ok out ∧
    ∀ T, T = pixelWeights 1 3
        (fun i j => (out.P.px (((i : ℤ) - (0 - 0 - 0)) % (1 : ℕ)).toNat (((j : ℤ) - (2 - 1 - 1)) % (3 : ℕ)).toNat : ℂ))
        (pairResp (tinyEnv 1 3) ⟨false, false, true⟩ (seeingSub 5 7 0 1) (seeingSub 1 0 4 2)) →
      IgnoresConstant 1 3 (seeingSub 5 7 0 1) (seeingSub 1 0 4 2) (3 / 1) 0 1 0 1 T ∧
      0 < linNoise 1 3 (pairSigma (seeingSub 5 7 0 1) (seeingSub 1 0 4 2)) T ∧
      ∀ g, IgnoresConstant 1 3 (seeingSub 5 7 0 1) (seeingSub 1 0 4 2) (3 / 1) 0 1 0 1 g →
        normSq (linResp 1 3 g (newStar 1 3 (seeingSub 1 0 4 2) 0 1 0 2)) *
            linNoise 1 3 (pairSigma (seeingSub 5 7 0 1) (seeingSub 1 0 4 2)) T ≤
          normSq (linResp 1 3 T (newStar 1 3 (seeingSub 1 0 4 2) 0 1 0 2)) *
            linNoise 1 3 (pairSigma (seeingSub 5 7 0 1) (seeingSub 1 0 4 2)) g :=
  subtract_optimal (tinyEnv 1 3) true (seeingSub 5 7 0 1) (seeingSub 1 0 4 2) 1 3 (1, 3)
    (by intro a h; cases h) (by intro a h; cases h) rfl (Or.inl rfl) rfl rfl (by norm_num) (by norm_num)
    seeing_idle seeing_idle 0 1 0 1 seeing_com seeing_com (by norm_num) (Or.inl (by norm_num [seeingSub])) 0 2

/-- Three images of 2×3 pixels, a star of flux 5 (their zero point) at pixel (1, 2) in each. -/
example (lt : List CoImg → List CoImg → Option Bool) :
    ∃ out, coaddCore lt ((List.ofFn fun _ : Fin 3 => deltaDemo).map SinglePsf.toCoImg) 5 2 = .ok out ∧
      ∀ T, T = pixelWeights 2 3
          (fun i j => (starRingEnd ℂ)
            (out.Pr.px (((i : ℤ) - (1 - (5 : ℕ))) % (2 : ℕ)).toNat (((j : ℤ) - (2 - (5 : ℕ))) % (3 : ℕ)).toNat))
          (respCoadd lt (fun _ : Fin 3 => deltaDemo) 5 2) →
        0 < linNoise 2 3 (fun _ : Fin 3 => deltaDemo.var) T := by
  obtain ⟨out, e, k⟩ := coadd_optimal lt (n := 3) (by norm_num) (fun _ => deltaDemo) 2 3 5 2
    (fun _ => ⟨rfl, rfl, by intro m hm; cases hm; exact ⟨rfl, rfl⟩⟩) (by norm_num) (by norm_num) (by norm_num)
    (fun _ => ⟨1, 1, fun _ _ => 1⟩) (fun _ => by simp [deltaDemo, toC, Img.map]) (fun _ => 1) (fun _ => 2) 1 2
    (fun _ => ⟨by norm_num, by norm_num⟩) (fun _ => by norm_num [deltaDemo]) (fun _ => by norm_num [deltaDemo])
    (by
      intro k _ l _
      have e := psfHat_delta deltaDemo rfl k l (by norm_num [deltaDemo]) (by norm_num [deltaDemo])
      unfold zackayPower
      simp only [e]
      norm_num [deltaDemo])
    (fun _ => by norm_num [deltaDemo])
  exact ⟨out, e, fun T hT => (k T hT).1⟩

end PI
