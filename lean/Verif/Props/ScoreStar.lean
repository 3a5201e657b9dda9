import Verif.Props.ScoreNoise
import Verif.Lemmas.Corr

/-!
# Property C122: what a star adds to subtract's score image

Without the fits, a star drawn into one of the two images with that image's own PSF adds to the score the
autocorrelation of the returned P, laid down where the star's copy of P in D has its centre.
-/

namespace PI

open Complex Finset

/-! ## Transforms there and back -/

theorem fftOrtho_conj_px (x : Img ℂ) (k l : ℕ) :
    (starRingEnd ℂ) ((fftOrtho x).px k l) =
      (ifftOrtho ⟨x.h, x.w, fun i j => (starRingEnd ℂ) (x.px i j)⟩).px k l := by
  change (starRingEnd ℂ) ((∑ i ∈ range x.h, ∑ j ∈ range x.w, x.px i j * (tw x.h ((k : ℝ) * i) * tw x.w ((l : ℝ) * j))) /
      (Real.sqrt ((x.h * x.w : ℕ) : ℝ) : ℂ)) =
    (∑ i ∈ range x.h, ∑ j ∈ range x.w, (starRingEnd ℂ) (x.px i j) *
      (tw x.h (-((i : ℝ) * k)) * tw x.w (-((j : ℝ) * l)))) / (Real.sqrt ((x.h * x.w : ℕ) : ℝ) : ℂ)
  rw [map_div₀, conj_ofReal, map_sum]
  congr 1
  refine Finset.sum_congr rfl fun i _ => ?_
  rw [map_sum]
  refine Finset.sum_congr rfl fun j _ => ?_
  rw [map_mul, map_mul, conj_tw, conj_tw, mul_comm (k : ℝ) (i : ℝ), mul_comm (l : ℝ) (j : ℝ)]

theorem fftOrtho_ifftOrtho (X : Img ℂ) (k l : ℕ) (hk : k < X.h) (hl : l < X.w) :
    (fftOrtho (ifftOrtho X)).px k l = X.px k l := by
  have h1 : ∀ i j, (starRingEnd ℂ) ((ifftOrtho X).px i j) =
      (fftOrtho ⟨X.h, X.w, fun a b => (starRingEnd ℂ) (X.px a b)⟩).px i j := by
    intro i j
    have e := fftOrtho_conj_px ⟨X.h, X.w, fun a b => (starRingEnd ℂ) (X.px a b)⟩ i j
    simp only [conj_conj] at e
    rw [← conj_conj ((fftOrtho ⟨X.h, X.w, fun a b => (starRingEnd ℂ) (X.px a b)⟩).px i j), e]
  have h2 := fftOrtho_conj_px (ifftOrtho X) k l
  simp only [h1] at h2
  have h3 := ifftOrtho_fftOrtho ⟨X.h, X.w, fun a b => (starRingEnd ℂ) (X.px a b)⟩ k l hk hl
  rw [← conj_conj ((fftOrtho (ifftOrtho X)).px k l), h2]
  refine Eq.trans (congrArg _ h3) ?_
  exact conj_conj _

/-- The transform back of the power spectrum of a real image is its autocorrelation. -/
theorem ifftOrtho_normSq (h w : ℕ) (X : ℕ → ℕ → ℂ) (f : ℕ → ℕ → ℝ) (h0 : h ≠ 0) (w0 : w ≠ 0)
    (hf : ∀ i j, ((f i j : ℝ) : ℂ) = (ifftOrtho ⟨h, w, X⟩).px i j) (s t : ℕ) :
    (ifftOrtho ⟨h, w, fun k l => ((normSq (X k l) : ℝ) : ℂ)⟩).px s t =
      (((∑ a ∈ range h, ∑ b ∈ range w, f ((s + a) % h) ((t + b) % w) * f a b) /
        Real.sqrt ((h * w : ℕ) : ℝ) : ℝ) : ℂ) := by
  have hpos : ((h * w : ℕ) : ℂ) ≠ 0 := by exact_mod_cast Nat.mul_ne_zero h0 w0
  have hX : ∀ k < h, ∀ l < w, X k l = (fftOrtho ⟨h, w, fun i j => ((f i j : ℝ) : ℂ)⟩).px k l := by
    intro k hk l hl
    rw [show (fun i j => ((f i j : ℝ) : ℂ)) = (ifftOrtho ⟨h, w, X⟩).px from by funext i j; exact hf i j]
    exact (fftOrtho_ifftOrtho ⟨h, w, X⟩ k l hk hl).symm
  have c := idftSum_dft_mul_conj ⟨h, w, fun i j => ((f i j : ℝ) : ℂ)⟩ ⟨h, w, fun i j => ((f i j : ℝ) : ℂ)⟩ rfl rfl h0 w0
    s t
  set g : Img ℂ := ⟨h, w, fun i j => ((f i j : ℝ) : ℂ)⟩ with hg
  have e : ∀ k < h, ∀ l < w, ((normSq (X k l) : ℝ) : ℂ) =
      (1 / ((h * w : ℕ) : ℂ)) * ((dft g).px k l * (starRingEnd ℂ) ((dft g).px k l)) := by
    intro k hk l hl
    rw [hX k hk l hl, ← mul_conj]
    change (dft g).px k l / (Real.sqrt ((h * w : ℕ) : ℝ) : ℂ) *
      (starRingEnd ℂ) ((dft g).px k l / (Real.sqrt ((h * w : ℕ) : ℝ) : ℂ)) = _
    rw [map_div₀, conj_ofReal, div_mul_div_comm, sqrt_mul_self_cast]
    ring
  rw [ifftOrtho_congr h w _ (fun k l => (1 / ((h * w : ℕ) : ℂ)) *
    ((dft g).px k l * (starRingEnd ℂ) ((dft g).px k l))) e s t, ifftOrtho_const_mul]
  change _ * ((idftSum ((dft g).zip (fun m p => m * (starRingEnd ℂ) p) (dft g))).px s t /
    (Real.sqrt ((h * w : ℕ) : ℝ) : ℂ)) = _
  rw [c]
  have hcc : circCorr h w g.px g.px s t =
      ((∑ a ∈ range h, ∑ b ∈ range w, f ((s + a) % h) ((t + b) % w) * f a b : ℝ) : ℂ) := by
    unfold circCorr
    rw [ofReal_sum]
    refine Finset.sum_congr rfl fun a _ => ?_
    rw [ofReal_sum]
    refine Finset.sum_congr rfl fun b _ => ?_
    simp only [hg, conj_ofReal, ofReal_mul]
  change _ * ((h * w : ℂ) * circCorr h w g.px g.px s t / _) = _
  rw [hcc, ofReal_div]
  push_cast at hpos ⊢
  field_simp

/-- Autocorrelation of a real image at the lag `(s, t)`, wrapping around. -/
noncomputable def selfCorr (f : Img ℝ) (s t : ℕ) : ℝ :=
  ∑ a ∈ range f.h, ∑ b ∈ range f.w, f.px ((s + a) % f.h) ((t + b) % f.w) * f.px a b

/-- At lag zero it is the sum of the squares, and nowhere larger. -/
theorem selfCorr_le (f : Img ℝ) (s t : ℕ) :
    selfCorr f s t ≤ selfCorr f 0 0 ∧
      selfCorr f 0 0 = ∑ a ∈ range f.h, ∑ b ∈ range f.w, f.px a b ^ 2 := by
  have h0 : selfCorr f 0 0 = ∑ a ∈ range f.h, ∑ b ∈ range f.w, f.px a b ^ 2 := by
    unfold selfCorr
    refine Finset.sum_congr rfl fun a ha => Finset.sum_congr rfl fun b hb => ?_
    rw [zero_add, zero_add, Nat.mod_eq_of_lt (mem_range.1 ha), Nat.mod_eq_of_lt (mem_range.1 hb), sq]
  exact ⟨h0 ▸ autocorr_le f.h f.w f.px s t, h0⟩

/-- A filter whose response to a star is a multiple of the power of P, moved by whole pixels. -/
theorem filter_star (h w : ℕ) (h0 : h ≠ 0) (w0 : w ≠ 0) (N X : ℕ → ℕ → ℂ) (P : Img ℝ) (hPh : P.h = h) (hPw : P.w = w)
    (hP : ∀ i j, ((P.px i j : ℝ) : ℂ) = (ifftOrtho ⟨h, w, X⟩).px i j) (e : Img ℝ) (he : e.shape = (h, w)) (r : ℝ) (s t : ℤ)
    (hN : ∀ k < h, ∀ l < w, N k l * (fftOrtho (toC e)).px k l =
      (r : ℂ) * ((normSq (X k l) : ℝ) : ℂ) * shiftPhase h w ((s : ℝ), (t : ℝ)) k l)
    (i j : ℕ) (hi : i < h) (hj : j < w) :
    (∑ x ∈ range h, ∑ y ∈ range w, (e.px x y : ℂ) * impulseResp h w N i j x y).re =
      r * (selfCorr P (backBy h s i) (backBy w t j) / Real.sqrt ((h * w : ℕ) : ℝ)) := by
  have f1 := filter_eq (toC e) N i j
  have t1 : (toC e).h = h := congrArg Prod.fst he
  have t2 : (toC e).w = w := congrArg Prod.snd he
  rw [t1, t2] at f1
  change _ = ∑ x ∈ range h, ∑ y ∈ range w, (e.px x y : ℂ) * impulseResp h w N i j x y at f1
  rw [← f1, ifftOrtho_congr h w _ _ hN i j,
    ifftOrtho_roll h w (fun k l => (r : ℂ) * ((normSq (X k l) : ℝ) : ℂ)) s t i j hi hj, ifftOrtho_const_mul,
    ifftOrtho_normSq h w X P.px h0 w0 hP, ← ofReal_mul, ofReal_re]
  unfold selfCorr backBy
  rw [hPh, hPw]

section
variable (env : SubEnv) (it : Bool) (ref new : SubImg) (h w : ℕ) (z : ℝ × ℝ)
    (hmr : ref.mask.HasShape h w) (hmn : new.mask.HasShape h w) (hz : env.zps = .ok z)
    (hc : env.fitted = true ∨ (0 ≤ (centerOfMass new.psf).1 ∧ 0 ≤ (centerOfMass new.psf).2))
    (hr : ref.interped.shape = (h, w)) (hn : new.interped.shape = (h, w))
    (hfr : ref.filled.shape = (h, w)) (hfn : new.filled.shape = (h, w))
    (h0 : h ≠ 0) (w0 : w ≠ 0) (hb : z.2 / z.1 ≠ 0) (hv : ref.var ≠ 0 ∨ new.var ≠ 0)
    (hpr : ∀ i < h, ∀ j < w, -1 ≤ ref.filled.px i j) (hpn : ∀ i < h, ∀ j < w, -1 ≤ new.filled.px i j)
    (out : SubOut) (hout : subtract env ⟨false, false, it⟩ ref new = .ok out) (c : ℝ × ℝ)
    (hcen : ScoreCentre (env.peak out.P) out.P c) (p q : ℕ) (hp : p < h) (hq : q < w) (flux : ℝ)
include hmr hmn hz hc hr hn hfr hfn h0 w0 hb hv hpr hpn hout hcen hp hq

omit hmr hmn hz hc hr hn hfr hfn h0 w0 hpr hpn hout hcen hp hq in
theorem power_eq (k l : ℕ) :
    ((normSq (ref.psfHat.px k l) * normSq (new.psfHat.px k l) : ℝ) : ℂ) / (normReal ref new (z.2 / z.1) k l : ℂ) =
      ((1 / (ref.var ^ 2 * (z.2 / z.1) ^ 2 + new.var ^ 2) * normSq ((pHat ref new (z.2 / z.1)).px k l) : ℝ) : ℂ) := by
  have e := congrArg normSq (pHat_eq ref new z hb hv k l)
  have n0 : 0 ≤ normReal ref new (z.2 / z.1) k l := by
    unfold normReal
    have := normSq_nonneg (ref.psfHat.px k l)
    have := normSq_nonneg (new.psfHat.px k l)
    positivity
  rw [normSq_div, normSq_mul, normSq_mul, normSq_ofReal, normSq_ofReal, Real.mul_self_sqrt n0, div_mul_div_comm,
    Real.mul_self_sqrt (by positivity), one_mul] at e
  rw [← e, ofReal_div]

omit hp hq in
theorem score_plus (f e : Img ℝ) (i j : ℕ) :
    (scoreOf env ⟨false, false, it⟩ ref new (plusImg ref.interped f) (plusImg new.interped e)).px i j = out.S.px i j +
      1 / |z.1| * (((∑ x ∈ range h, ∑ y ∈ range w, (e.px x y : ℂ) *
          impulseResp h w (numNew ref new (z.2 / z.1) c) i j x y).re +
        (∑ x ∈ range h, ∑ y ∈ range w, (f.px x y : ℂ) *
          impulseResp h w (numRef ref new (z.2 / z.1) c) i j x y).re) /
        Real.sqrt (varNew ref new (z.2 / z.1) i j + varRef ref new (z.2 / z.1) i j)) ∧
      out.P = subP ref new (z.2 / z.1) := by
  obtain ⟨out', eo, _, hP, _⟩ := subtract_returns env it ref new h w hr hn hmr hmn z hz hc
  rw [hout] at eo
  cases eo
  refine ⟨?_, hP⟩
  have hcc : subCenter env.peak (subP ref new (z.2 / z.1)) = c := by
    rw [← hP]
    have sp := subCenter_spec env.peak out.P
    by_cases hcl : |(centerOfMass out.P).1 - (env.peak out.P).1| ≤ 30 ∧
        |(centerOfMass out.P).2 - (env.peak out.P).2| ≤ 30
    · rw [sp.1 hcl, hcen.1 hcl]
    · rw [sp.2 hcl, hcen.2 hcl]
  have hS : scoreOf env ⟨false, false, it⟩ ref new ref.interped new.interped = out.S := by
    have : subtract env ⟨false, false, it⟩ (ref.withPixels ref.interped) (new.withPixels new.interped) = .ok out := hout
    unfold scoreOf
    rw [this]
  have hz2 : z.2 ≠ 0 := fun h => hb (by rw [h, zero_div])
  have hcst : |z.2 / z.1 / z.2| = 1 / |z.1| := by
    rw [div_div_cancel_left' hz2, abs_inv, one_div]
  have d := fun r n hr' hn' =>
    scoreOf_eq env it ref new h w z hmr hmn hz hc hr hn hfr hfn h0 w0 hb hv hpr hpn r n hr' hn' i j
  rw [← hS, d (plusImg ref.interped f) (plusImg new.interped e) hr hn, d ref.interped new.interped hr hn, hcc, hcst]
  have e1 : ∀ (u g : Img ℝ) (K : ℕ → ℕ → ℂ), ∑ x ∈ range h, ∑ y ∈ range w, ((plusImg u g).px x y : ℂ) * K x y =
      (∑ x ∈ range h, ∑ y ∈ range w, (u.px x y : ℂ) * K x y) + ∑ x ∈ range h, ∑ y ∈ range w, (g.px x y : ℂ) * K x y := by
    intro u g K
    simp only [plusImg, Complex.ofReal_add, add_mul, Finset.sum_add_distrib]
  rw [e1, e1]
  simp only [add_re]
  ring

/-- C122: a star of a given flux drawn into the new image with its PSF adds to the score the autocorrelation of the
returned P around the pixel where the star's copy of P has its centre, over the noise at each pixel. -/
theorem score_star_new (gn : GuardIdle h w new.psf) (s t : ℤ)
    (h1 : c.1 - (centerOfMass ref.psf).1 = s) (h2 : c.2 - (centerOfMass ref.psf).2 = t)
    (i j : ℕ) (hi : i < h) (hj : j < w) :
    (scoreOf env ⟨false, false, it⟩ ref new ref.interped
        (plusImg new.interped (starAt h w new.psf p q flux))).px i j = out.S.px i j +
      flux * (z.2 / z.1) / (|z.1| * (ref.var ^ 2 * (z.2 / z.1) ^ 2 + new.var ^ 2) * Real.sqrt ((h * w : ℕ) : ℝ)) *
        selfCorr out.P (backBy h (s + p) i) (backBy w (t + q) j) /
        Real.sqrt (varNew ref new (z.2 / z.1) i j + varRef ref new (z.2 / z.1) i j) := by
  have rh0 : ref.interped.h = h := congrArg Prod.fst hr
  have rw0 : ref.interped.w = w := congrArg Prod.snd hr
  have nh0 : new.interped.h = h := congrArg Prod.fst hn
  have nw0 : new.interped.w = w := congrArg Prod.snd hn
  have sp := score_plus env it ref new h w z hmr hmn hz hc hr hn hfr hfn h0 w0 hb hv hpr hpn out hout c hcen
    ⟨h, w, fun _ _ => 0⟩ (starAt h w new.psf p q flux) i j
  have hr0 : plusImg ref.interped ⟨h, w, fun _ _ => 0⟩ = ref.interped := by
    unfold plusImg
    simp only [add_zero]
  have z0 : (∑ x ∈ range h, ∑ y ∈ range w, (((⟨h, w, fun _ _ => 0⟩ : Img ℝ).px x y : ℝ) : ℂ) *
      impulseResp h w (numRef ref new (z.2 / z.1) c) i j x y).re = 0 := by
    simp
  have fs := filter_star h w h0 w0 (numNew ref new (z.2 / z.1) c) (pHat ref new (z.2 / z.1)).px out.P
    (by rw [sp.2]; exact rh0) (by rw [sp.2]; exact rw0)
    (fun a b => by
      rw [sp.2, subtract_P_real ref new (nh0.trans rh0.symm) (nw0.trans rw0.symm)]
      have : pHat ref new (z.2 / z.1) = ⟨h, w, (pHat ref new (z.2 / z.1)).px⟩ := by
        conv_rhs => rw [← rh0, ← rw0]
        rfl
      rw [this])
    (starAt h w new.psf p q flux) rfl
    (flux * (z.2 / z.1) / (ref.var ^ 2 * (z.2 / z.1) ^ 2 + new.var ^ 2)) (s + p) (t + q)
    (by
      intro k hk l hl
      have pe := power_eq ref new z hb hv k l
      rw [fftOrtho_starAt h w new.psf p q flux hp hq, ← psfHat_idle new h w nh0 nw0 gn k l hk hl]
      have sa := shiftPhase_add h w ((s : ℝ), (t : ℝ)) ((p : ℝ), (q : ℝ)) k l
      have hrh : ref.h = h := rh0
      have hrw : ref.w = w := rw0
      push_cast
      push_cast at sa pe
      rw [sa]
      unfold numNew zackayKn
      rw [hrh, hrw, h1, h2]
      have hnr : new.var ^ 2 * 1 ^ 2 * normSq (ref.psfHat.px k l) + ref.var ^ 2 * (z.2 / z.1) ^ 2 * normSq (new.psfHat.px k l)
          = normReal ref new (z.2 / z.1) k l := by
        unfold normReal
        ring
      rw [hnr]
      have hm : (starRingEnd ℂ) (new.psfHat.px k l) * new.psfHat.px k l = (normSq (new.psfHat.px k l) : ℂ) := by
        rw [mul_comm, mul_conj]
      push_cast
      linear_combination (flux * (z.2 / z.1 : ℂ) * normSq (ref.psfHat.px k l) / normReal ref new (z.2 / z.1) k l *
        shiftPhase h w ((s : ℝ), (t : ℝ)) k l * shiftPhase h w ((p : ℝ), (q : ℝ)) k l) * hm +
        (flux * (z.2 / z.1 : ℂ) * shiftPhase h w ((s : ℝ), (t : ℝ)) k l * shiftPhase h w ((p : ℝ), (q : ℝ)) k l) * pe)
    i j hi hj
  rw [hr0, z0, fs, add_zero] at sp
  rw [sp.1]
  congr 1
  generalize ref.var ^ 2 * (z.2 / z.1) ^ 2 + new.var ^ 2 = V
  rw [mul_assoc |z.1|, ← mul_one_div _ (|z.1| * (V * _)), ← one_div_mul_one_div, ← one_div_mul_one_div]
  ring

/-- C122: a star drawn into the reference takes the same from the score. -/
theorem score_star_ref (gr : GuardIdle h w ref.psf) (s t : ℤ)
    (h1 : c.1 - (centerOfMass new.psf).1 = s) (h2 : c.2 - (centerOfMass new.psf).2 = t)
    (i j : ℕ) (hi : i < h) (hj : j < w) :
    (scoreOf env ⟨false, false, it⟩ ref new (plusImg ref.interped (starAt h w ref.psf p q flux)) new.interped).px i j =
      out.S.px i j -
      flux * (z.2 / z.1) ^ 2 / (|z.1| * (ref.var ^ 2 * (z.2 / z.1) ^ 2 + new.var ^ 2) * Real.sqrt ((h * w : ℕ) : ℝ)) *
        selfCorr out.P (backBy h (s + p) i) (backBy w (t + q) j) /
        Real.sqrt (varNew ref new (z.2 / z.1) i j + varRef ref new (z.2 / z.1) i j) := by
  have rh0 : ref.interped.h = h := congrArg Prod.fst hr
  have rw0 : ref.interped.w = w := congrArg Prod.snd hr
  have nh0 : new.interped.h = h := congrArg Prod.fst hn
  have nw0 : new.interped.w = w := congrArg Prod.snd hn
  have sp := score_plus env it ref new h w z hmr hmn hz hc hr hn hfr hfn h0 w0 hb hv hpr hpn out hout c hcen
    (starAt h w ref.psf p q flux) ⟨h, w, fun _ _ => 0⟩ i j
  have hr0 : plusImg new.interped ⟨h, w, fun _ _ => 0⟩ = new.interped := by
    unfold plusImg
    simp only [add_zero]
  have z0 : (∑ x ∈ range h, ∑ y ∈ range w, (((⟨h, w, fun _ _ => 0⟩ : Img ℝ).px x y : ℝ) : ℂ) *
      impulseResp h w (numNew ref new (z.2 / z.1) c) i j x y).re = 0 := by
    simp
  have fs := filter_star h w h0 w0 (numRef ref new (z.2 / z.1) c) (pHat ref new (z.2 / z.1)).px out.P
    (by rw [sp.2]; exact rh0) (by rw [sp.2]; exact rw0)
    (fun a b => by
      rw [sp.2, subtract_P_real ref new (nh0.trans rh0.symm) (nw0.trans rw0.symm)]
      have : pHat ref new (z.2 / z.1) = ⟨h, w, (pHat ref new (z.2 / z.1)).px⟩ := by
        conv_rhs => rw [← rh0, ← rw0]
        rfl
      rw [this])
    (starAt h w ref.psf p q flux) rfl
    (-(flux * (z.2 / z.1) ^ 2 / (ref.var ^ 2 * (z.2 / z.1) ^ 2 + new.var ^ 2))) (s + p) (t + q)
    (by
      intro k hk l hl
      have pe := power_eq ref new z hb hv k l
      rw [fftOrtho_starAt h w ref.psf p q flux hp hq, ← psfHat_idle ref h w rh0 rw0 gr k l hk hl]
      have sa := shiftPhase_add h w ((s : ℝ), (t : ℝ)) ((p : ℝ), (q : ℝ)) k l
      have hrh : ref.h = h := rh0
      have hrw : ref.w = w := rw0
      push_cast
      push_cast at sa pe
      rw [sa]
      unfold numRef zackayKr
      rw [hrh, hrw, h1, h2]
      have hnr : new.var ^ 2 * 1 ^ 2 * normSq (ref.psfHat.px k l) + ref.var ^ 2 * (z.2 / z.1) ^ 2 * normSq (new.psfHat.px k l)
          = normReal ref new (z.2 / z.1) k l := by
        unfold normReal
        ring
      rw [hnr]
      have hm : (starRingEnd ℂ) (ref.psfHat.px k l) * ref.psfHat.px k l = (normSq (ref.psfHat.px k l) : ℂ) := by
        rw [mul_comm, mul_conj]
      push_cast
      linear_combination (-(flux * (z.2 / z.1 : ℂ) ^ 2 * normSq (new.psfHat.px k l) / normReal ref new (z.2 / z.1) k l *
        shiftPhase h w ((s : ℝ), (t : ℝ)) k l * shiftPhase h w ((p : ℝ), (q : ℝ)) k l)) * hm -
        (flux * (z.2 / z.1 : ℂ) ^ 2 * shiftPhase h w ((s : ℝ), (t : ℝ)) k l *
          shiftPhase h w ((p : ℝ), (q : ℝ)) k l) * pe)
    i j hi hj
  rw [hr0, z0, fs, zero_add] at sp
  rw [sp.1, sub_eq_add_neg]
  congr 1
  generalize ref.var ^ 2 * (z.2 / z.1) ^ 2 + new.var ^ 2 = V
  rw [mul_assoc |z.1|, ← mul_one_div _ (|z.1| * (V * _)), ← one_div_mul_one_div, ← one_div_mul_one_div]
  ring

omit hmr hmn hz hc hr hn hfr hfn w0 hb hv hpr hpn hout hcen hp hq in
theorem backBy_self (s : ℤ) : backBy h s (s % h).toNat = 0 := by
  have hh : (h : ℤ) ≠ 0 := by exact_mod_cast h0
  unfold backBy
  rw [Int.toNat_of_nonneg (Int.emod_nonneg _ hh), Int.emod_sub_emod, Int.sub_self, Int.zero_emod]
  rfl

/-- C122: measured in the noise that the score allows for, what the star adds is largest at the pixel where the star's
copy of P has its centre, and there it is the flux times the sum of the squares of P. -/
theorem score_star_peak (gn : GuardIdle h w new.psf) (s t : ℤ)
    (h1 : c.1 - (centerOfMass ref.psf).1 = s) (h2 : c.2 - (centerOfMass ref.psf).2 = t)
    (hpos : ∀ i < h, ∀ j < w, 0 < varNew ref new (z.2 / z.1) i j + varRef ref new (z.2 / z.1) i j)
    (hfl : 0 ≤ flux * (z.2 / z.1)) :
    let gain := fun i j => ((scoreOf env ⟨false, false, it⟩ ref new ref.interped
        (plusImg new.interped (starAt h w new.psf p q flux))).px i j - out.S.px i j) *
      Real.sqrt (varNew ref new (z.2 / z.1) i j + varRef ref new (z.2 / z.1) i j)
    gain ((s + p) % h).toNat ((t + q) % w).toNat =
        flux * (z.2 / z.1) / (|z.1| * (ref.var ^ 2 * (z.2 / z.1) ^ 2 + new.var ^ 2) * Real.sqrt ((h * w : ℕ) : ℝ)) *
          ∑ a ∈ range h, ∑ b ∈ range w, out.P.px a b ^ 2 ∧
      ∀ i < h, ∀ j < w, gain i j ≤ gain ((s + p) % h).toNat ((t + q) % w).toNat := by
  intro gain
  have st := score_star_new env it ref new h w z hmr hmn hz hc hr hn hfr hfn h0 w0 hb hv hpr hpn out hout c hcen p q hp hq
    flux gn s t h1 h2
  have hP := (score_plus env it ref new h w z hmr hmn hz hc hr hn hfr hfn h0 w0 hb hv hpr hpn out hout c hcen
    ref.interped ref.interped 0 0).2
  have hPh : out.P.h = h := by rw [hP]; exact congrArg Prod.fst hr
  have hPw : out.P.w = w := by rw [hP]; exact congrArg Prod.snd hr
  have hg : ∀ i < h, ∀ j < w, gain i j = flux * (z.2 / z.1) /
      (|z.1| * (ref.var ^ 2 * (z.2 / z.1) ^ 2 + new.var ^ 2) * Real.sqrt ((h * w : ℕ) : ℝ)) *
        selfCorr out.P (backBy h (s + p) i) (backBy w (t + q) j) := by
    intro i hi j hj
    change (_ - out.S.px i j) * _ = _
    rw [st i j hi hj, add_sub_cancel_left, div_mul_cancel₀ _ (Real.sqrt_ne_zero'.2 (hpos i hi j hj))]
  have hlt : ∀ (n : ℕ) (a : ℤ), n ≠ 0 → (a % n).toNat < n := by
    intro n a hn0
    have := Int.emod_lt_of_pos a (show (0 : ℤ) < n by omega)
    omega
  have g0 := hg _ (hlt h (s + p) h0) _ (hlt w (t + q) w0)
  rw [backBy_self h h0, backBy_self w w0] at g0
  refine ⟨?_, ?_⟩
  · rw [g0, (selfCorr_le out.P 0 0).2, hPh, hPw]
  · intro i hi j hj
    rw [g0, hg i hi j hj]
    refine mul_le_mul_of_nonneg_left (selfCorr_le out.P _ _).1 (div_nonneg hfl ?_)
    positivity

end

/-! ## An instance -/

/-- Two empty 1×3 images whose PSF is the pixel 1 of a 1×3 stamp, and a star of flux 6 drawn at the corner `(0, 0)`, so
that it sits at the pixel 1: the score grows by √6 at this pixel and nowhere else. -/
theorem dot_score_star (j : ℕ) (hj : j < 3) :
    ∃ out, subtract (tinyEnv 1 1) ⟨false, false, true⟩ (dotSub fun _ => 0) (dotSub fun _ => 0) = .ok out ∧
      (scoreOf (tinyEnv 1 1) ⟨false, false, true⟩ (dotSub fun _ => 0) (dotSub fun _ => 0) (dotSub fun _ => 0).interped
        (plusImg (dotSub fun _ => 0).interped (starAt 1 3 dotPsf 0 0 6))).px 0 j =
        out.S.px 0 j + if j = 1 then Real.sqrt 6 else 0 := by
  obtain ⟨out, eo, _, hP, _⟩ := subtract_returns (tinyEnv 1 1) true (dotSub fun _ => 0) (dotSub fun _ => 0) 1 3 rfl rfl
    (by intro a h; cases h) (by intro a h; cases h) (1, 1) rfl (Or.inl rfl)
  refine ⟨out, eo, ?_⟩
  have hcm : centerOfMass out.P = (((0 : ℤ) : ℝ), (((2 : ℕ) : ℤ) : ℝ)) := by
    rw [hP, ← dot_com 2 (by norm_num)]
    unfold centerOfMass rsum
    change ((∑ i ∈ range 1, ∑ j ∈ range 3, _) / (∑ i ∈ range 1, ∑ j ∈ range 3, _),
      (∑ i ∈ range 1, ∑ j ∈ range 3, _) / (∑ i ∈ range 1, ∑ j ∈ range 3, _)) = _
    simp only [Finset.sum_range_succ, Finset.sum_range_zero, dot_P _ _ 0 0 (by norm_num) (by norm_num),
      dot_P _ _ 0 1 (by norm_num) (by norm_num), dot_P _ _ 0 2 (by norm_num) (by norm_num)]
  have m := score_star_new (tinyEnv 1 1) true (dotSub fun _ => 0) (dotSub fun _ => 0) 1 3 (1, 1) (by intro a h; cases h)
    (by intro a h; cases h) rfl (Or.inl rfl) rfl rfl rfl rfl (by norm_num) (by norm_num) (by norm_num)
    (Or.inl (by norm_num [dotSub])) (fun i _ j hj => by norm_num [dotSub]) (fun i _ j hj => by norm_num [dotSub]) out eo
    (((0 : ℤ) : ℝ), (((2 : ℕ) : ℤ) : ℝ))
    ⟨fun _ => hcm.symm, fun hn => absurd (by rw [hcm]; norm_num [tinyEnv]) hn⟩ 0 0 (by norm_num) (by norm_num) 6 dot_idle 0 1
    (by rw [show (dotSub fun _ => 0).psf = dotPsf from rfl, dotPsf, dot_com 1 (by norm_num)]; norm_num)
    (by rw [show (dotSub fun _ => 0).psf = dotPsf from rfl, dotPsf, dot_com 1 (by norm_num)]; norm_num) 0 j
    (by norm_num) hj
  refine Eq.trans m ?_
  have hsc : ∀ t < 3, selfCorr out.P 0 t = if t = 0 then 1 else 0 := by
    intro t ht
    rw [hP]
    unfold selfCorr
    change ∑ a ∈ range 1, ∑ b ∈ range 3, (subP _ _ (1 / 1)).px ((0 + a) % 1) ((t + b) % 3) * (subP _ _ (1 / 1)).px a b = _
    simp only [Finset.sum_range_succ, Finset.sum_range_zero]
    rw [dot_P _ _ _ _ (by norm_num) (Nat.mod_lt _ (by norm_num)), dot_P _ _ _ _ (by norm_num) (Nat.mod_lt _ (by norm_num)),
      dot_P _ _ _ _ (by norm_num) (Nat.mod_lt _ (by norm_num)), dot_P _ _ _ _ (by norm_num) (by norm_num),
      dot_P _ _ _ _ (by norm_num) (by norm_num), dot_P _ _ _ _ (by norm_num) (by norm_num)]
    interval_cases t <;> norm_num
  have b0 : backBy 1 (0 + ((0 : ℕ) : ℤ)) 0 = 0 := rfl
  have bj : backBy 3 (1 + ((0 : ℕ) : ℤ)) j < 3 ∧ (backBy 3 (1 + ((0 : ℕ) : ℤ)) j = 0 ↔ j = 1) := by
    interval_cases j <;> decide
  rw [b0, hsc _ bj.1, (dot_var _ _ j hj).1, (dot_var _ _ j hj).2]
  congr 1
  by_cases h1 : j = 1
  · rw [if_pos (bj.2.2 h1), if_pos h1]
    norm_num [dotSub]
    rw [show (6 : ℝ) = 2 * 3 by norm_num, Real.sqrt_mul (by norm_num)]
    have h3 : Real.sqrt 3 * Real.sqrt 3 = 3 := Real.mul_self_sqrt (by norm_num)
    have h30 : Real.sqrt 3 ≠ 0 := by positivity
    field_simp
    linear_combination -h3
  · rw [if_neg (fun h => h1 (bj.2.1 h)), if_neg h1]
    simp

end PI
