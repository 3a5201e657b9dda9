import Verif.Props.FitCost
import Verif.Props.SubtractScore
import Verif.Props.ScoreStar
import Verif.Props.PsfStamp
import Verif.Props.Copies

/-!
# Property C136: the sky level in the score image of `subtract` and in `coadd`
-/

namespace PI

open Complex Finset

/-! ## The two parts of the score -/

/-- An image taken under a sky brighter by `s`: every pixel of the interpolated image, every unmasked pixel of `data.filled(0)`. -/
def SubImg.underSky (d : SubImg) (s : ℝ) : SubImg :=
  { d.lifted s with filled := ⟨d.filled.h, d.filled.w, fun i j => d.filled.px i j + if d.mask.marks i j then 0 else s⟩ }

/-- What a kernel makes of an image of weights: the variance of a sum of independent counts. -/
noncomputable def spread (h w : ℕ) (kern : Img ℂ) (f : ℕ → ℕ → ℝ) (i j : ℕ) : ℝ :=
  ∑ a ∈ range h, ∑ b ∈ range w, f a b * (kern.px ((i + (h - a)) % h) ((j + (w - b)) % w)).re ^ 2

theorem hermitian_quot (ref new : SubImg) (hh : new.h = ref.h) (hw : new.w = ref.w) (b : ℝ) (g : ℂ → ℂ → ℂ)
    (hg : ∀ x y, g ((starRingEnd ℂ) x) ((starRingEnd ℂ) y) = (starRingEnd ℂ) (g x y)) :
    Hermitian ⟨ref.h, ref.w, fun k l => g (ref.psfHat.px k l) (new.psfHat.px k l) / normHat ref new b k l⟩ := by
  intro k hk l hl
  have hk' : k < ref.h := hk
  have hl' : l < ref.w := hl
  have e1 := hermitian_psfHat ref k hk' l hl'
  have e2 := hermitian_psfHat new k (by change k < new.h; omega) l (by change l < new.w; omega)
  change ref.psfHat.px (negIdx ref.h k) (negIdx ref.w l) = _ at e1
  change new.psfHat.px (negIdx new.h k) (negIdx new.w l) = _ at e2
  rw [hh, hw] at e2
  change g (ref.psfHat.px (negIdx ref.h k) (negIdx ref.w l)) (new.psfHat.px (negIdx ref.h k) (negIdx ref.w l)) /
    normHat ref new b (negIdx ref.h k) (negIdx ref.w l) = (starRingEnd ℂ) (g (ref.psfHat.px k l) (new.psfHat.px k l) /
      normHat ref new b k l)
  rw [e1, e2, hg, map_div₀, normHat_eq, normHat_eq, normReal_neg ref new hh hw b k l hk' hl', conj_ofReal]

/-- The kernels are real images. -/
theorem subKernels_real (ref new : SubImg) (hh : new.h = ref.h) (hw : new.w = ref.w) (z b : ℝ) (i j : ℕ) :
    ((subKn ref new z b).px i j).im = 0 ∧ ((subKr ref new z b).px i j).im = 0 :=
  ⟨ifftOrtho_real _ (hermitian_quot ref new hh hw b
      (fun r n => (z : ℂ) * (starRingEnd ℂ) n * r * (starRingEnd ℂ) r) (by intro x y; simp)) i j,
    ifftOrtho_real _ (hermitian_quot ref new hh hw b
      (fun r n => (z : ℂ) * (starRingEnd ℂ) r * b * n * (starRingEnd ℂ) n) (by intro x y; simp)) i j⟩

theorem subV_spread (filled : Img ℝ) (kern : Img ℂ) (hr : ∀ i j, (kern.px i j).im = 0) (h w : ℕ) (hk : kern.shape = (h, w))
    (hf : filled.shape = (h, w)) (h0 : h ≠ 0) (w0 : w ≠ 0) (i j : ℕ) :
    (subV filled kern).px i j = ((spread h w kern (fun a b => filled.px a b + 1) i j : ℝ) : ℂ) := by
  obtain ⟨fh, fw, f⟩ := filled
  obtain ⟨kh, kw, k⟩ := kern
  simp only [Img.shape, Prod.mk.injEq] at hk hf
  obtain ⟨rfl, rfl⟩ := hf
  obtain ⟨rfl, rfl⟩ := hk
  rw [score_variance _ _ rfl rfl h0 w0]
  unfold circConv spread
  push_cast
  refine Finset.sum_congr rfl fun a _ => Finset.sum_congr rfl fun b _ => ?_
  have e : ∀ z : ℂ, z.im = 0 → z = ((z.re : ℝ) : ℂ) := fun z hz => Complex.ext rfl (by simp [hz])
  congr 2
  exact e _ (hr _ _)

/-- The variance image of `subtract`: counts plus one, spread with the squares of the kernels. -/
noncomputable def countVar (ref new : SubImg) (z b : ℝ) (i j : ℕ) : ℝ :=
  spread ref.h ref.w (subKn ref new z b) (fun x y => new.filled.px x y + 1) i j +
    spread ref.h ref.w (subKr ref new z b) (fun x y => ref.filled.px x y + 1) i j

/-- C136: the score is the filtered difference over the root of that variance, wherever the variance is not negative. -/
theorem score_quotient (peak : Img ℝ → ℕ × ℕ) (ref new : SubImg) (hh : new.h = ref.h) (hw : new.w = ref.w)
    (h0 : ref.h ≠ 0) (w0 : ref.w ≠ 0) (fr : ref.filled.shape = (ref.h, ref.w)) (fn : new.filled.shape = (ref.h, ref.w))
    (z b dx dy : ℝ) (i j : ℕ) (hv : 0 ≤ countVar ref new z b i j) :
    ((sCorr peak ref new z b dx dy).px i j).re =
      ((ifftOrtho (sHat peak ref new b dx dy)).px i j).re / Real.sqrt (countVar ref new z b i j) := by
  have hk := subKernels_real ref new hh hw z b
  change ((ifftOrtho (sHat peak ref new b dx dy)).px i j / csqrt ((subV new.filled (subKn ref new z b)).px i j +
    (subV ref.filled (subKr ref new z b)).px i j)).re = _
  rw [subV_spread _ _ (fun i j => (hk i j).1) ref.h ref.w rfl fn h0 w0,
    subV_spread _ _ (fun i j => (hk i j).2) ref.h ref.w rfl fr h0 w0, ← ofReal_add]
  change (_ / csqrt ((countVar ref new z b i j : ℝ) : ℂ)).re = _
  rw [csqrt_ofReal_nonneg _ hv, div_ofReal_re]

theorem spread_nonneg (h w : ℕ) (kern : Img ℂ) (f : ℕ → ℕ → ℝ) (hf : ∀ a < h, ∀ b < w, 0 ≤ f a b) (i j : ℕ) :
    0 ≤ spread h w kern f i j :=
  sum_nonneg fun a ha => sum_nonneg fun b hb => mul_nonneg (hf a (mem_range.1 ha) b (mem_range.1 hb)) (sq_nonneg _)

theorem spread_add (h w : ℕ) (kern : Img ℂ) (f g : ℕ → ℕ → ℝ) (i j : ℕ) :
    spread h w kern (fun a b => f a b + g a b) i j = spread h w kern f i j + spread h w kern g i j := by
  unfold spread
  rw [← Finset.sum_add_distrib]
  refine Finset.sum_congr rfl fun a _ => ?_
  rw [← Finset.sum_add_distrib]
  exact Finset.sum_congr rfl fun b _ => add_mul _ _ _

theorem spread_smul (h w : ℕ) (kern : Img ℂ) (s : ℝ) (f : ℕ → ℕ → ℝ) (i j : ℕ) :
    spread h w kern (fun a b => s * f a b) i j = s * spread h w kern f i j := by
  unfold spread
  simp only [Finset.mul_sum, mul_assoc]

/-- One on the pixels that count. -/
noncomputable def clear (m : NMask) (i j : ℕ) : ℝ := if m.marks i j then 0 else 1

/-- A brighter sky raises the variance by its level times the unmasked share of the squared kernels. -/
theorem sky_in_variance (ref new : SubImg) (z b s t : ℝ) (i j : ℕ) :
    countVar (ref.underSky s) (new.underSky t) z b i j = countVar ref new z b i j +
      (t * spread ref.h ref.w (subKn ref new z b) (clear new.mask) i j +
        s * spread ref.h ref.w (subKr ref new z b) (clear ref.mask) i j) := by
  have e : ∀ (d : SubImg) (u : ℝ) (kern : Img ℂ), spread ref.h ref.w kern (fun x y => (d.underSky u).filled.px x y + 1) i j =
      spread ref.h ref.w kern (fun x y => d.filled.px x y + 1) i j + u * spread ref.h ref.w kern (clear d.mask) i j := by
    intro d u kern
    rw [← spread_smul, ← spread_add]
    congr 1
    funext x y
    change d.filled.px x y + (if d.mask.marks x y then 0 else u) + 1 = _
    unfold clear
    split
    · simp
    · simp only [mul_one]; ring
  change spread ref.h ref.w (subKn ref new z b) _ i j + spread ref.h ref.w (subKr ref new z b) _ i j = _
  rw [e, e]
  unfold countVar
  ring

/-! ## The filtered difference -/

/-- The gain from D to the filtered difference. -/
noncomputable def scoreGain (peak : Img ℝ → ℕ × ℕ) (ref new : SubImg) (b : ℝ) (k l : ℕ) : ℂ :=
  (dZp ref new b : ℂ) * (starRingEnd ℂ) ((pHat ref new b).px k l) *
    shiftPhase ref.h ref.w (subCenter peak (subP ref new b)) k l

theorem sHat_gain (peak : Img ℝ → ℕ × ℕ) (ref new : SubImg) (b dx dy : ℝ) (i j : ℕ) :
    (ifftOrtho (sHat peak ref new b dx dy)).px i j =
      ∑ x ∈ range ref.h, ∑ y ∈ range ref.w, (ifftOrtho (dHat ref new b dx dy)).px x y *
        impulseResp ref.h ref.w (scoreGain peak ref new b) i j x y := by
  have f := filter_eq (ifftOrtho (dHat ref new b dx dy)) (scoreGain peak ref new b) i j
  refine Eq.trans ?_ f
  refine congrArg (fun X : Img ℂ => X.px i j) (ifftOrtho_ext _ _ rfl rfl fun k hk l hl => ?_)
  change (dZp ref new b : ℂ) * (dHat ref new b dx dy).px k l * (starRingEnd ℂ) ((pHat ref new b).px k l) *
    shiftPhase ref.h ref.w (subCenter peak (subP ref new b)) k l =
    scoreGain peak ref new b k l * (fftOrtho (ifftOrtho (dHat ref new b dx dy))).px k l
  rw [fftOrtho_ifftOrtho (dHat ref new b dx dy) k l hk hl]
  unfold scoreGain
  ring

section
variable (ref new : SubImg) (hh : new.h = ref.h) (hw : new.w = ref.w) (h0 : ref.h ≠ 0) (w0 : ref.w ≠ 0)
  (fr : ref.psf.h ≤ ref.h ∧ ref.psf.w ≤ ref.w) (fn : new.psf.h ≤ ref.h ∧ new.psf.w ≤ ref.w)
  (sr : rsum ref.psf = 1) (sn : rsum new.psf = 1)
include hh hw h0 w0 fr fn sr sn

theorem scoreGain_zero (peak : Img ℝ → ℕ × ℕ) (b : ℝ) (hv : new.var ≠ 0 ∨ (ref.var ≠ 0 ∧ b ≠ 0)) :
    scoreGain peak ref new b 0 0 = ((b / (diffSigma ref new b * Real.sqrt ((ref.h * ref.w : ℕ) : ℝ)) : ℝ) : ℂ) := by
  have hp : 0 < ref.h * ref.w := Nat.mul_pos (Nat.pos_of_ne_zero h0) (Nat.pos_of_ne_zero w0)
  have hp' : (0 : ℝ) < ((ref.h * ref.w : ℕ) : ℝ) := by exact_mod_cast hp
  have zr := psfHat_zero ref fr.1 fr.2 hp (by rw [sr]; exact one_ne_zero)
  have zn := psfHat_zero new (by rw [hh]; exact fn.1) (by rw [hw]; exact fn.2) (by rw [hh, hw]; exact hp)
    (by rw [sn]; exact one_ne_zero)
  rw [hh, hw] at zn
  have ph : shiftPhase ref.h ref.w (subCenter peak (subP ref new b)) 0 0 = 1 := by
    unfold shiftPhase sfreq
    rw [if_pos (by omega), if_pos (by omega)]
    simp [tw_zero]
  have hn : normReal ref new b 0 0 = (new.var ^ 2 + b ^ 2 * ref.var ^ 2) / ((ref.h * ref.w : ℕ) : ℝ) := by
    unfold normReal
    rw [zr, zn, sr, sn, normSq_ofReal, div_mul_div_comm, one_mul, Real.mul_self_sqrt hp'.le]
    ring
  have hs : (0 : ℝ) < new.var ^ 2 + b ^ 2 * ref.var ^ 2 := by
    rcases hv with hv | ⟨h1, h2⟩
    · positivity
    · positivity
  have hsq : Real.sqrt (normReal ref new b 0 0) = diffSigma ref new b / Real.sqrt ((ref.h * ref.w : ℕ) : ℝ) := by
    rw [hn, Real.sqrt_div hs.le]
    rfl
  have hd : diffSigma ref new b ≠ 0 := (Real.sqrt_pos.2 hs).ne'
  have hq := (Real.sqrt_pos.2 hp').ne'
  have hz : dZp ref new b = b / diffSigma ref new b := by
    unfold dZp diffSigma
    congr 2
    ring
  unfold scoreGain
  rw [ph, mul_one]
  change (dZp ref new b : ℂ) * (starRingEnd ℂ) ((ref.psfHat.px 0 0 * new.psfHat.px 0 0 * b) /
    (csqrt (normHat ref new b 0 0) * dZp ref new b)) = _
  rw [csqrt_normHat, hsq, zr, zn, sr, sn, hz]
  generalize Real.sqrt ((ref.h * ref.w : ℕ) : ℝ) = q at hq ⊢
  rw [← ofReal_mul, ← ofReal_mul, ← ofReal_mul, ← ofReal_div, conj_ofReal, ← ofReal_mul]
  congr 1
  by_cases hb : b = 0
  · rw [hb]; simp
  · field_simp

/-- C136: with PSFs of unit sum a sky of `s` in the reference and `t` in the new image adds the same number to every pixel
of the filtered difference. -/
theorem sky_in_filtered (peak : Img ℝ → ℕ × ℕ) (b dx dy : ℝ) (hv : new.var ≠ 0 ∨ (ref.var ≠ 0 ∧ b ≠ 0)) (s t : ℝ) (i j : ℕ) :
    (ifftOrtho (sHat peak (ref.underSky s) (new.underSky t) b dx dy)).px i j = (ifftOrtho (sHat peak ref new b dx dy)).px i j +
      ((b * (t - b * s) / (diffSigma ref new b ^ 2 * Real.sqrt ((ref.h * ref.w : ℕ) : ℝ)) : ℝ) : ℂ) := by
  obtain ⟨g1, g2⟩ := gains_at_zero ref new hh hw h0 w0 fr fn sr sn b dx dy hv
  have e : ∀ x y, (ifftOrtho (dHat (ref.underSky s) (new.underSky t) b dx dy)).px x y =
      (ifftOrtho (dHat ref new b dx dy)).px x y + (((t - b * s) / diffSigma ref new b : ℝ) : ℂ) := by
    intro x y
    rw [dHat_filter ref new hh hw, dHat_filter (ref.underSky s) (new.underSky t) hh hw]
    change (∑ a ∈ range ref.h, ∑ c ∈ range ref.w, ((new.interped.px a c + t : ℝ) : ℂ) *
        impulseResp ref.h ref.w (gainNew ref new b) x y a c) +
      (∑ a ∈ range ref.h, ∑ c ∈ range ref.w, ((ref.interped.px a c + s : ℝ) : ℂ) *
        impulseResp ref.h ref.w (gainRef ref new b dx dy) x y a c) = _
    simp only [Complex.ofReal_add, add_mul, Finset.sum_add_distrib, ← Finset.mul_sum]
    rw [sum_impulseResp ref.h ref.w h0 w0, sum_impulseResp ref.h ref.w h0 w0, g1, g2]
    push_cast
    ring
  have hg := scoreGain_zero ref new hh hw h0 w0 fr fn sr sn peak b hv
  rw [sHat_gain peak ref new, sHat_gain peak (ref.underSky s) (new.underSky t)]
  simp only [e]
  change (∑ x ∈ range ref.h, ∑ y ∈ range ref.w, ((ifftOrtho (dHat ref new b dx dy)).px x y + _) *
    impulseResp ref.h ref.w (scoreGain peak ref new b) i j x y) = _
  simp only [add_mul, Finset.sum_add_distrib, ← Finset.mul_sum]
  rw [sum_impulseResp ref.h ref.w h0 w0, hg, ← ofReal_mul]
  congr 2
  rw [div_mul_div_comm]
  congr 1 <;> ring

/-- C136: `subtract` without fits under a brighter sky. Where the variance is positive before and after, the score is the
old one with a constant added to its numerator and the variance raised by what the sky brings. -/
theorem subtract_under_sky (env : SubEnv) (it : Bool) (zr zn : ℝ) (hz : env.zps = .ok (zr, zn)) (hf : env.fitted = true)
    (hmr : ref.mask.HasShape ref.h ref.w) (hmn : new.mask.HasShape ref.h ref.w)
    (fir : ref.filled.shape = (ref.h, ref.w)) (fin : new.filled.shape = (ref.h, ref.w)) (b : ℝ) (hb : b = zn / zr)
    (hv : new.var ≠ 0 ∨ (ref.var ≠ 0 ∧ b ≠ 0)) (s t : ℝ) :
    ∃ out out', subtract env ⟨false, false, it⟩ ref new = .ok out ∧
      subtract env ⟨false, false, it⟩ (ref.underSky s) (new.underSky t) = .ok out' ∧
      (∀ i j, out'.D.px i j = out.D.px i j + (((t - b * s) / diffSigma ref new b : ℝ) : ℂ)) ∧ out'.P = out.P ∧
      ∀ i j, 0 < countVar ref new zn b i j → 0 < countVar (ref.underSky s) (new.underSky t) zn b i j →
        out'.S.px i j = (Real.sqrt (countVar ref new zn b i j) * out.S.px i j +
            b * (t - b * s) / (diffSigma ref new b ^ 2 * Real.sqrt ((ref.h * ref.w : ℕ) : ℝ))) /
          Real.sqrt (countVar ref new zn b i j +
            (t * spread ref.h ref.w (subKn ref new zn b) (clear new.mask) i j +
              s * spread ref.h ref.w (subKr ref new zn b) (clear ref.mask) i j)) := by
  have hs : new.interped.shape = (ref.h, ref.w) := by
    rw [← hh, ← hw]
    rfl
  obtain ⟨out, e, eD, eP, eS⟩ := subtract_returns env it ref new ref.h ref.w rfl hs hmr hmn _ hz (Or.inl hf)
  obtain ⟨out', e', eD', eP', eS'⟩ := subtract_returns env it (ref.underSky s) (new.underSky t) ref.h ref.w rfl hs hmr hmn _ hz
    (Or.inl hf)
  have hv' := hv
  simp only [← hb] at eD eD' eP eP' eS eS'
  refine ⟨out, out', e, e', fun i j => ?_, by rw [eP, eP']; rfl, fun i j p1 p2 => ?_⟩
  · obtain ⟨g1, g2⟩ := gains_at_zero ref new hh hw h0 w0 fr fn sr sn b 0 0 hv
    rw [eD, eD', dHat_filter ref new hh hw, dHat_filter (ref.underSky s) (new.underSky t) hh hw]
    change (∑ a ∈ range ref.h, ∑ c ∈ range ref.w, ((new.interped.px a c + t : ℝ) : ℂ) *
        impulseResp ref.h ref.w (gainNew ref new b) i j a c) +
      (∑ a ∈ range ref.h, ∑ c ∈ range ref.w, ((ref.interped.px a c + s : ℝ) : ℂ) *
        impulseResp ref.h ref.w (gainRef ref new b 0 0) i j a c) = _
    simp only [Complex.ofReal_add, add_mul, Finset.sum_add_distrib, ← Finset.mul_sum]
    rw [sum_impulseResp ref.h ref.w h0 w0, sum_impulseResp ref.h ref.w h0 w0, g1, g2]
    push_cast
    ring
  · have q1 := score_quotient env.peak ref new hh hw h0 w0 fir fin zn b 0 0 i j p1.le
    have q2 := score_quotient env.peak (ref.underSky s) (new.underSky t) hh hw h0 w0 fir fin zn b 0 0 i j p2.le
    rw [eS, eS']
    change ((sCorr env.peak (ref.underSky s) (new.underSky t) zn b 0 0).px i j).re =
      (_ * ((sCorr env.peak ref new zn b 0 0).px i j).re + _) / _
    rw [q1, q2, sky_in_filtered ref new hh hw h0 w0 fr fn sr sn env.peak b 0 0 hv s t i j, sky_in_variance, add_re, ofReal_re,
      mul_div_cancel₀ _ (Real.sqrt_pos.2 p1).ne']

/-- C136: a sky that is as bright in the two images as their scale says leaves the difference image alone, and takes a
part of every score. -/
theorem subtract_matched_sky (env : SubEnv) (it : Bool) (zr zn : ℝ) (hz : env.zps = .ok (zr, zn)) (hf : env.fitted = true)
    (hmr : ref.mask.HasShape ref.h ref.w) (hmn : new.mask.HasShape ref.h ref.w)
    (fir : ref.filled.shape = (ref.h, ref.w)) (fin : new.filled.shape = (ref.h, ref.w)) (b : ℝ) (hb : b = zn / zr)
    (hpos : 0 < b) (hv : new.var ≠ 0 ∨ ref.var ≠ 0) (s : ℝ) (hs : 0 ≤ s) :
    ∃ out out', subtract env ⟨false, false, it⟩ ref new = .ok out ∧
      subtract env ⟨false, false, it⟩ (ref.underSky s) (new.underSky (b * s)) = .ok out' ∧
      (∀ i j, out'.D.px i j = out.D.px i j) ∧
      ∀ i j, 0 < countVar ref new zn b i j → ∃ v : ℝ, 0 ≤ v ∧
        v = s * (b * spread ref.h ref.w (subKn ref new zn b) (clear new.mask) i j +
          spread ref.h ref.w (subKr ref new zn b) (clear ref.mask) i j) ∧
        out'.S.px i j = out.S.px i j * Real.sqrt (countVar ref new zn b i j / (countVar ref new zn b i j + v)) ∧
        |out'.S.px i j| ≤ |out.S.px i j| ∧ (0 < v → out.S.px i j ≠ 0 → |out'.S.px i j| < |out.S.px i j|) := by
  obtain ⟨out, out', e, e', hD, _, hS⟩ := subtract_under_sky ref new hh hw h0 w0 fr fn sr sn env it zr zn hz hf hmr hmn fir fin
    b hb (hv.imp id fun h => ⟨h, hpos.ne'⟩) s (b * s)
  refine ⟨out, out', e, e', fun i j => ?_, fun i j hV => ?_⟩
  · rw [hD, sub_self, zero_div, ofReal_zero, add_zero]
  · have hc : ∀ (m : NMask), ∀ x < ref.h, ∀ y < ref.w, 0 ≤ clear m x y := by
      intro m x _ y _
      unfold clear
      split <;> norm_num
    have n1 := spread_nonneg ref.h ref.w (subKn ref new zn b) _ (hc new.mask) i j
    have n2 := spread_nonneg ref.h ref.w (subKr ref new zn b) _ (hc ref.mask) i j
    set V := countVar ref new zn b i j with hVdef
    set v := s * (b * spread ref.h ref.w (subKn ref new zn b) (clear new.mask) i j +
          spread ref.h ref.w (subKr ref new zn b) (clear ref.mask) i j) with hvdef
    have hv0 : 0 ≤ v := by positivity
    have hv2 : b * s * spread ref.h ref.w (subKn ref new zn b) (clear new.mask) i j +
        s * spread ref.h ref.w (subKr ref new zn b) (clear ref.mask) i j = v := by
      rw [hvdef]; ring
    have h2 : 0 < countVar (ref.underSky s) (new.underSky (b * s)) zn b i j := by
      rw [sky_in_variance, hv2]
      linarith
    have key := hS i j hV h2
    rw [hv2, sub_self, mul_zero, zero_div, add_zero] at key
    have key2 : out'.S.px i j = out.S.px i j * Real.sqrt (V / (V + v)) := by
      rw [key, Real.sqrt_div hV.le]
      ring
    have le1 : Real.sqrt (V / (V + v)) ≤ 1 := by
      rw [show (1 : ℝ) = Real.sqrt 1 by simp]
      exact Real.sqrt_le_sqrt ((div_le_one (by linarith)).2 (by linarith))
    refine ⟨v, hv0, rfl, key2, ?_, fun hvp hne => ?_⟩
    · rw [key2, abs_mul, abs_of_nonneg (Real.sqrt_nonneg _)]
      exact mul_le_of_le_one_right (abs_nonneg _) le1
    · rw [key2, abs_mul, abs_of_nonneg (Real.sqrt_nonneg _)]
      refine mul_lt_of_lt_one_right (abs_pos.2 hne) ?_
      rw [show (1 : ℝ) = Real.sqrt 1 by simp]
      exact Real.sqrt_lt_sqrt (by positivity) ((div_lt_one (by linarith)).2 (by linarith))

end

/-! ## coadd -/

/-- An exposure under a sky brighter by `c`. -/
noncomputable def SinglePsf.underSky (d : SinglePsf) (c : ℝ) : SinglePsf :=
  { d with interped := ⟨d.interped.h, d.interped.w, fun i j => d.interped.px i j + (c : ℂ)⟩ }

theorem sum_tw_zero (n : ℕ) (hn : n ≠ 0) (k : ℕ) (hk : k < n) :
    ∑ x ∈ range n, tw n ((k : ℝ) * x) = if k = 0 then (n : ℂ) else 0 := by
  have := sum_tw n hn (k : ℤ)
  simp only [Int.cast_natCast, mul_comm _ (k : ℝ)] at this
  rw [this]
  have : ((n : ℤ) ∣ (k : ℤ)) ↔ k = 0 := by
    rw [Int.natCast_dvd_natCast]
    exact ⟨fun hd => Nat.eq_zero_of_dvd_of_lt hd hk, fun e => e ▸ dvd_zero _⟩
  simp only [this]

theorem fftOrtho_sky (h w : ℕ) (h0 : h ≠ 0) (w0 : w ≠ 0) (f : ℕ → ℕ → ℂ) (c : ℂ) (k l : ℕ) (hk : k < h) (hl : l < w) :
    (fftOrtho ⟨h, w, fun i j => f i j + c⟩).px k l = (fftOrtho ⟨h, w, f⟩).px k l +
      if k = 0 ∧ l = 0 then c * (Real.sqrt ((h * w : ℕ) : ℝ) : ℂ) else 0 := by
  have hq : (Real.sqrt ((h * w : ℕ) : ℝ) : ℂ) ≠ 0 := by
    have : (0 : ℝ) < ((h * w : ℕ) : ℝ) := by exact_mod_cast Nat.mul_pos (Nat.pos_of_ne_zero h0) (Nat.pos_of_ne_zero w0)
    exact_mod_cast (Real.sqrt_pos.2 this).ne'
  have e : ∑ x ∈ range h, ∑ y ∈ range w, c * (tw h ((k : ℝ) * x) * tw w ((l : ℝ) * y)) =
      c * ((∑ x ∈ range h, tw h ((k : ℝ) * x)) * ∑ y ∈ range w, tw w ((l : ℝ) * y)) := by
    rw [Finset.sum_mul_sum, Finset.mul_sum]
    simp only [Finset.mul_sum]
  change (∑ x ∈ range h, ∑ y ∈ range w, (f x y + c) * (tw h ((k : ℝ) * x) * tw w ((l : ℝ) * y))) / _ =
    (∑ x ∈ range h, ∑ y ∈ range w, f x y * (tw h ((k : ℝ) * x) * tw w ((l : ℝ) * y))) / _ + _
  simp only [add_mul, Finset.sum_add_distrib]
  rw [e, add_div, sum_tw_zero h h0 k hk, sum_tw_zero w w0 l hl]
  congr 1
  by_cases hk0 : k = 0
  · by_cases hl0 : l = 0
    · rw [if_pos hk0, if_pos hl0, if_pos ⟨hk0, hl0⟩, div_eq_iff hq, mul_assoc, sqrt_mul_self_cast]
      push_cast
      ring
    · have hc : ¬ (k = 0 ∧ l = 0) := fun q => hl0 q.2
      rw [if_neg hc, if_neg hl0]; simp
  · have hc : ¬ (k = 0 ∧ l = 0) := fun q => hk0 q.1
    rw [if_neg hc, if_neg hk0]; simp

/-- C136: exposures under brighter skies: the coadd gains one and the same number at every pixel. -/
theorem coadd_under_sky (lt lt' : List CoImg → List CoImg → Option Bool) {n : ℕ} (hn : 0 < n) (d : Fin n → SinglePsf)
    (h w psfShape : ℕ) (h0 : h ≠ 0) (w0 : w ≠ 0)
    (hs : ∀ j, (d j).interped.h = h ∧ (d j).interped.w = w ∧ (d j).mask.HasShape h w)
    (hfit : ∀ j, (d j).psf.h ≤ h ∧ (d j).psf.w ≤ w) (q : Fin n → Img ℝ) (hq : ∀ j, (d j).psf = toC (q j))
    (procs : ℤ) (hp : procs ≤ n) (hp' : procs ≤ 2 ^ 25) (hb : procs * n ≤ 2 ^ 50) (c : Fin n → ℝ) :
    ∃ out out', coaddCore lt ((List.ofFn d).map SinglePsf.toCoImg) psfShape procs = .ok out ∧
      coaddCore lt' ((List.ofFn fun j => (d j).underSky (c j)).map SinglePsf.toCoImg) psfShape procs = .ok out' ∧
      out'.Pr = out.Pr ∧ (∀ i < h, ∀ j < w, out'.mask.marks i j = out.mask.marks i j) ∧
      ∀ i j, out'.R.px i j = out.R.px i j + (((∑ m, (d m).zp / (d m).var ^ 2 * c m * rsum (q m)) /
        (Real.sqrt ((h * w : ℕ) : ℝ) * Real.sqrt (∑ m, ((d m).zp / (d m).var) ^ 2 * rsum (q m) ^ 2)) : ℝ) : ℂ) := by
  obtain ⟨out, e, eR, eP, eM, _⟩ := coadd_single_spec lt hn d h w psfShape procs hs hp hp' hb
  obtain ⟨out', e', eR', eP', eM', _⟩ := coadd_single_spec lt' hn (fun j => (d j).underSky (c j)) h w psfShape procs hs hp hp' hb
  have hhw : (0 : ℝ) < ((h * w : ℕ) : ℝ) := by exact_mod_cast Nat.mul_pos (Nat.pos_of_ne_zero h0) (Nat.pos_of_ne_zero w0)
  have hP : specP ((List.ofFn fun j => (d j).underSky (c j)).map SinglePsf.toCoImg) = specP ((List.ofFn d).map SinglePsf.toCoImg) := by
    funext k l
    rw [specP_ofFn, specP_ofFn]
    rfl
  have hph0 : ∀ cc : ℝ × ℝ, shiftPhase h w cc 0 0 = 1 := by
    intro cc
    unfold shiftPhase sfreq
    rw [if_pos (by omega), if_pos (by omega)]
    simp [tw_zero]
  have hz : ∀ m, (d m).psfHat.px 0 0 = ((rsum (q m) / Real.sqrt ((h * w : ℕ) : ℝ) : ℝ) : ℂ) := by
    intro m
    obtain ⟨e1, e2, _⟩ := hs m
    unfold SinglePsf.psfHat
    rw [fftOrtho_zero, hq m, e1, e2, imSum_padTo h w (q m) (by have := (hfit m).1; rw [hq m] at this; exact this)
      (by have := (hfit m).2; rw [hq m] at this; exact this)]
    change _ / ((Real.sqrt ((h * w : ℕ) : ℝ) : ℝ) : ℂ) = _
    push_cast
    rfl
  have hS : ∀ k < h, ∀ l < w, specS ((List.ofFn fun j => (d j).underSky (c j)).map SinglePsf.toCoImg) k l =
      specS ((List.ofFn d).map SinglePsf.toCoImg) k l +
        if k = 0 ∧ l = 0 then ((∑ m, (d m).zp / (d m).var ^ 2 * c m * rsum (q m) : ℝ) : ℂ) else 0 := by
    intro k hk l hl
    rw [specS_ofFn, specS_ofFn]
    have each : ∀ m, ((d m).underSky (c m)).sHatComp.px k l = (d m).sHatComp.px k l +
        if k = 0 ∧ l = 0 then (((d m).zp / (d m).var ^ 2 * c m * rsum (q m) : ℝ) : ℂ) else 0 := by
      intro m
      obtain ⟨e1, e2, _⟩ := hs m
      change (((d m).zp / (d m).var ^ 2 : ℝ) : ℂ) * ((fftOrtho ((d m).underSky (c m)).interped).px k l *
          (starRingEnd ℂ) ((d m).psfHat.px k l) * shiftPhase (d m).interped.h (d m).interped.w (d m).com k l) =
        (((d m).zp / (d m).var ^ 2 : ℝ) : ℂ) * ((fftOrtho (d m).interped).px k l *
          (starRingEnd ℂ) ((d m).psfHat.px k l) * shiftPhase (d m).interped.h (d m).interped.w (d m).com k l) + _
      have := fftOrtho_sky (d m).interped.h (d m).interped.w (by omega) (by omega) (d m).interped.px (c m) k l (by omega) (by omega)
      change (fftOrtho ((d m).underSky (c m)).interped).px k l = (fftOrtho (d m).interped).px k l + _ at this
      rw [this, e1, e2]
      by_cases hc : k = 0 ∧ l = 0
      · rw [if_pos hc, if_pos hc, hc.1, hc.2, hz m, hph0, conj_ofReal]
        have hr : (Real.sqrt ((h * w : ℕ) : ℝ) : ℂ) ≠ 0 := by exact_mod_cast (Real.sqrt_pos.2 hhw).ne'
        push_cast at hr ⊢
        field_simp
      · rw [if_neg hc, if_neg hc, add_zero, add_zero]
    rw [Finset.sum_congr rfl fun m _ => each m, Finset.sum_add_distrib]
    congr 1
    split
    · push_cast; rfl
    · simp
  have hP0 : specP ((List.ofFn d).map SinglePsf.toCoImg) 0 0 =
      (((∑ m, ((d m).zp / (d m).var) ^ 2 * rsum (q m) ^ 2) / ((h * w : ℕ) : ℝ) : ℝ) : ℂ) := by
    rw [specP_ofFn, Finset.sum_div, ofReal_sum]
    refine Finset.sum_congr rfl fun m _ => ?_
    change (((((d m).zp / (d m).var) ^ 2 : ℝ)) : ℂ) * ((d m).psfHat.px 0 0 * (starRingEnd ℂ) ((d m).psfHat.px 0 0)) = _
    rw [hz m, conj_ofReal, ← ofReal_mul, ← ofReal_mul, div_mul_div_comm, Real.mul_self_sqrt hhw.le]
    congr 1
    ring
  refine ⟨out, out', e, e', by rw [eP, eP', hP], fun i hi j hj => by
    rw [Bool.eq_iff_iff, eM i hi j hj, eM' i hi j hj]; rfl, fun i j => ?_⟩
  have hQ : 0 ≤ ∑ m, ((d m).zp / (d m).var) ^ 2 * rsum (q m) ^ 2 := sum_nonneg fun m _ => by positivity
  have hR : ∀ k < h, ∀ l < w, coaddRhat ((List.ofFn fun j => (d j).underSky (c j)).map SinglePsf.toCoImg) k l =
      coaddRhat ((List.ofFn d).map SinglePsf.toCoImg) k l +
        if k = 0 ∧ l = 0 then (((∑ m, (d m).zp / (d m).var ^ 2 * c m * rsum (q m)) /
          (Real.sqrt (∑ m, ((d m).zp / (d m).var) ^ 2 * rsum (q m) ^ 2) / Real.sqrt ((h * w : ℕ) : ℝ)) : ℝ) : ℂ) else 0 := by
    intro k hk l hl
    unfold coaddRhat
    rw [hS k hk l hl, hP, add_div]
    congr 1
    by_cases hc : k = 0 ∧ l = 0
    · rw [if_pos hc, if_pos hc, hc.1, hc.2, hP0, csqrt_ofReal_nonneg _ (by positivity), Real.sqrt_div hQ, ← ofReal_div]
    · rw [if_neg hc, if_neg hc, zero_div]
  rw [eR, eR']
  change (∑ k ∈ range h, ∑ l ∈ range w, coaddRhat ((List.ofFn fun j => (d j).underSky (c j)).map SinglePsf.toCoImg) k l *
      (tw h (-((k : ℝ) * i)) * tw w (-((l : ℝ) * j)))) / ((h * w : ℕ) : ℂ) =
    (∑ k ∈ range h, ∑ l ∈ range w, coaddRhat ((List.ofFn d).map SinglePsf.toCoImg) k l *
      (tw h (-((k : ℝ) * i)) * tw w (-((l : ℝ) * j)))) / ((h * w : ℕ) : ℂ) + _
  rw [Finset.sum_congr rfl fun k hk => Finset.sum_congr rfl fun l hl => by
    rw [hR k (mem_range.1 hk) l (mem_range.1 hl), add_mul]]
  simp only [Finset.sum_add_distrib]
  rw [add_div]
  congr 1
  rw [Finset.sum_eq_single 0, Finset.sum_eq_single 0]
  · rw [if_pos ⟨rfl, rfl⟩]
    simp only [Nat.cast_zero, zero_mul, neg_zero, tw_zero, mul_one]
    have hr := (Real.sqrt_pos.2 hhw).ne'
    have hm := Real.mul_self_sqrt hhw.le
    rw [show ((h * w : ℕ) : ℂ) = (((h * w : ℕ) : ℝ) : ℂ) by push_cast; rfl, ← ofReal_div]
    congr 1
    conv_lhs => rw [← hm]
    rw [Real.sqrt_mul_self (Real.sqrt_nonneg _)]
    generalize Real.sqrt ((h * w : ℕ) : ℝ) = r at hr ⊢
    field_simp
  · intro l _ hl0
    rw [if_neg (fun hc : (0 = 0 ∧ l = 0) => hl0 hc.2), zero_mul]
  · intro hn
    exact absurd (mem_range.2 (Nat.pos_of_ne_zero w0)) hn
  · intro k _ hk0
    refine Finset.sum_eq_zero fun l _ => ?_
    rw [if_neg (fun hc : (k = 0 ∧ l = 0) => hk0 hc.1), zero_mul]
  · intro hn
    exact absurd (mem_range.2 (Nat.pos_of_ne_zero h0)) hn

/-- The two exposures under skies of 3 and 2: the first counts 1 · 3, the second 3/4 · 2, and the unit is the noise of the
coadd. -/
theorem twoExposures_sky (lt : List CoImg → List CoImg → Option Bool) :
    ∃ out out', coaddCore lt ((List.ofFn twoExposures).map SinglePsf.toCoImg) 0 1 = .ok out ∧
      coaddCore lt ((List.ofFn fun j => (twoExposures j).underSky (![3, 2] j)).map SinglePsf.toCoImg) 0 1 = .ok out' ∧
      ∀ i j, out'.R.px i j = out.R.px i j + ((9 / 2 / (Real.sqrt 3 * Real.sqrt (13 / 4)) : ℝ) : ℂ) := by
  obtain ⟨out, out', e, e', _, _, hR⟩ := coadd_under_sky lt lt (by norm_num) twoExposures 1 3 0 (by norm_num) (by norm_num)
    twoExposures_shape (fun j => ⟨show 1 ≤ 1 by norm_num, show 2 ≤ 3 by norm_num⟩)
    (fun _ => ⟨1, 2, fun _ j => if j = 0 then 2 / 3 else 1 / 3⟩) (fun j => by
      unfold twoExposures toC Img.map
      simp only [Img.mk.injEq, true_and]
      funext a b
      split <;> push_cast <;> rfl) 1 (by norm_num) (by norm_num) (by norm_num) ![3, 2]
  refine ⟨out, out', e, e', fun i j => ?_⟩
  have hs : rsum (⟨1, 2, fun _ j => if j = 0 then 2 / 3 else 1 / 3⟩ : Img ℝ) = 1 := by
    unfold rsum
    simp [Finset.sum_range_succ]
    norm_num
  rw [hR]
  simp only [hs, Fin.sum_univ_two]
  norm_num [twoExposures]

theorem point_countVar (u v : ℕ → ℝ) (j : ℕ) (hj : j < 3) :
    countVar (pointSub u) (pointSub v) 1 (1 / 1) 0 j = (u j + v j + 2) / 4 := by
  have hk := subKernels_real (pointSub u) (pointSub v) rfl rfl 1 (1 / 1)
  obtain ⟨n1, n2⟩ := point_noise u v j hj
  have e1 := subV_spread (pointSub v).filled (subKn (pointSub u) (pointSub v) 1 (1 / 1)) (fun i j => (hk i j).1) 1 3 rfl rfl
    (by norm_num) (by norm_num) 0 j
  have e2 := subV_spread (pointSub u).filled (subKr (pointSub u) (pointSub v) 1 (1 / 1)) (fun i j => (hk i j).2) 1 3 rfl rfl
    (by norm_num) (by norm_num) 0 j
  unfold noiseNew at n1
  unfold noiseRef at n2
  have f1 := ofReal_injective (e1.symm.trans n1)
  have f2 := ofReal_injective (e2.symm.trans n2)
  unfold countVar
  change spread 1 3 _ _ 0 j + spread 1 3 _ _ 0 j = _
  rw [f1, f2]
  ring

/-- One-pixel PSFs and 8 counts in a pixel of the new image, none in the reference. Under a sky of `s` in both the score of
the pixel falls by the factor `√(10 / (10 + 2 s))`. -/
theorem point_sky (s : ℝ) (hs : 0 ≤ s) : ∃ out out',
    subtract (tinyEnv 1 1) ⟨false, false, true⟩ (pointSub fun _ => 0) (pointSub fun j => if j = 0 then 8 else 0) = .ok out ∧
      subtract (tinyEnv 1 1) ⟨false, false, true⟩ ((pointSub fun _ => 0).underSky s)
        ((pointSub fun j => if j = 0 then 8 else 0).underSky (1 / 1 * s)) = .ok out' ∧
      (∀ i j, out'.D.px i j = out.D.px i j) ∧ out'.S.px 0 0 = out.S.px 0 0 * Real.sqrt (10 / (10 + 2 * s)) := by
  have hsum : ∀ u, rsum (pointSub u).psf = 1 := by
    intro u
    change rsum (⟨1, 1, fun _ _ => 1⟩ : Img ℝ) = 1
    simp [rsum]
  obtain ⟨out, out', e, e', hD, hS⟩ := subtract_matched_sky (pointSub fun _ => 0) (pointSub fun j => if j = 0 then 8 else 0) rfl rfl
    (show 1 ≠ 0 by norm_num) (show 3 ≠ 0 by norm_num) ⟨show 1 ≤ 1 by norm_num, show 1 ≤ 3 by norm_num⟩
    ⟨show 1 ≤ 1 by norm_num, show 1 ≤ 3 by norm_num⟩ (hsum _) (hsum _) (tinyEnv 1 1) true 1 1 rfl rfl
    (fun a ha => by cases ha) (fun a ha => by cases ha) rfl rfl (1 / 1) rfl (by norm_num) (Or.inl (show (1 : ℝ) ≠ 0 by norm_num)) s hs
  refine ⟨out, out', e, e', hD, ?_⟩
  have hV := point_countVar (fun _ => 0) (fun j => if j = 0 then 8 else 0) 0 (by norm_num)
  obtain ⟨v, _, ev, hSv, _⟩ := hS 0 0 (by rw [hV]; norm_num)
  have hV2 := point_countVar (fun _ => s) (fun j => if j = 0 then 8 + 1 / 1 * s else 1 / 1 * s) 0 (by norm_num)
  have hsky := sky_in_variance (pointSub fun _ => 0) (pointSub fun j => if j = 0 then 8 else 0) 1 (1 / 1) s (1 / 1 * s) 0 0
  have same : countVar ((pointSub fun _ => 0).underSky s) ((pointSub fun j => if j = 0 then 8 else 0).underSky (1 / 1 * s)) 1 (1 / 1) 0 0 =
      countVar (pointSub fun _ => s) (pointSub fun j => if j = 0 then 8 + 1 / 1 * s else 1 / 1 * s) 1 (1 / 1) 0 0 := by
    unfold countVar
    change spread 1 3 (subKn (pointSub fun _ => 0) (pointSub fun j => if j = 0 then 8 else 0) 1 (1 / 1))
        (fun x y => ((if y = 0 then 8 else 0) + 1 / 1 * s) + 1) 0 0 +
      spread 1 3 (subKr (pointSub fun _ => 0) (pointSub fun j => if j = 0 then 8 else 0) 1 (1 / 1)) (fun x y => (0 + s) + 1) 0 0 =
      spread 1 3 (subKn (pointSub fun _ => 0) (pointSub fun j => if j = 0 then 8 else 0) 1 (1 / 1))
        (fun x y => (if y = 0 then 8 + 1 / 1 * s else 1 / 1 * s) + 1) 0 0 +
      spread 1 3 (subKr (pointSub fun _ => 0) (pointSub fun j => if j = 0 then 8 else 0) 1 (1 / 1)) (fun x y => s + 1) 0 0
    congr 2
    · funext x y
      split <;> ring
    · funext x y
      ring
  rw [same, hV2, hV] at hsky
  have hv : v = s / 2 := by
    rw [ev]
    norm_num at hsky ⊢
    linarith
  rw [hSv, hV, hv]
  congr 2
  norm_num
  have : (0 : ℝ) < 10 + 2 * s := by positivity
  field_simp
  ring

end PI
