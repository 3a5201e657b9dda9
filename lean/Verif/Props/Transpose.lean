import Verif.Lemmas.FitSeen
import Verif.Lemmas.Transpose
import Mathlib.Tactic.NormNum
import Mathlib.Tactic.Positivity
import Mathlib.Tactic.Linarith

/-!
# Property C123: transposing both images transposes what subtract returns
-/

namespace PI

open Complex Finset

/-- The image object of the transposed arrays. -/
def SubImg.tr (d : SubImg) : SubImg := ⟨d.interped.tr, d.mask.tr, d.filled.tr, d.psf.tr, d.var⟩

theorem tr_toC (x : Img ℝ) : toC x.tr = (toC x).tr := rfl

theorem tr_psfHat (d : SubImg) : d.tr.psfHat = d.psfHat.tr := by
  unfold SubImg.psfHat
  change (fftOrtho (padTo d.w d.h (toC d.psf.tr))).map guardHat = _
  rw [tr_toC, tr_padTo, tr_fftOrtho, tr_map]

theorem tr_interpedHat (d : SubImg) : d.tr.interpedHat = d.interpedHat.tr := by
  unfold SubImg.interpedHat
  exact tr_fftOrtho (toC d.interped)

theorem tr_negPair (c : ℝ × ℝ) : negPair c.swap = (negPair c).swap := rfl

theorem tr_dHatR (ref new : SubImg) : dHatR ref.tr new.tr = (dHatR ref new).tr := by
  unfold dHatR
  change fourierShift (new.tr.psfHat.zip (· * ·) ref.tr.interpedHat) (negPair (centerOfMass new.psf.tr)) = _
  rw [tr_psfHat, tr_interpedHat, tr_centerOfMass, tr_negPair]
  exact tr_fourierShift (new.psfHat.zip (· * ·) ref.interpedHat) _

theorem tr_dHatN (ref new : SubImg) : dHatN ref.tr new.tr = (dHatN ref new).tr := by
  unfold dHatN
  change fourierShift (ref.tr.psfHat.zip (· * ·) new.tr.interpedHat) (negPair (centerOfMass ref.psf.tr)) = _
  rw [tr_psfHat, tr_interpedHat, tr_centerOfMass, tr_negPair]
  exact tr_fourierShift (ref.psfHat.zip (· * ·) new.interpedHat) _

theorem tr_normHat (ref new : SubImg) (b : ℝ) (k l : ℕ) :
    normHat ref.tr new.tr b k l = normHat ref new b l k := by
  unfold normHat
  rw [tr_psfHat, tr_psfHat]
  rfl

/-- The scale and shift being given, D is transposed (and the two shifts are exchanged). -/
theorem tr_dHat (ref new : SubImg) (b dx dy : ℝ) : dHat ref.tr new.tr b dy dx = (dHat ref new b dx dy).tr := by
  unfold dHat
  rw [tr_dHatN, tr_dHatR]
  by_cases h : dx = 0 ∧ dy = 0
  · simp only [if_pos h, if_pos h.symm, tr_normHat]
    rfl
  · simp only [if_neg h, if_neg (fun q : dy = 0 ∧ dx = 0 => h q.symm), tr_normHat, tr_map]
    have e := tr_fourierShift ((dHatR ref new).map fun z => (b : ℂ) * z) (dx, dy)
    simp only [Prod.swap] at e
    rw [e]
    rfl

theorem tr_pHat (ref new : SubImg) (b : ℝ) : pHat ref.tr new.tr b = (pHat ref new b).tr := by
  unfold pHat
  rw [tr_psfHat, tr_psfHat]
  simp only [tr_normHat]
  rfl

theorem tr_subP (ref new : SubImg) (b : ℝ) : subP ref.tr new.tr b = (subP ref new b).tr := by
  unfold subP
  rw [tr_pHat, tr_ifftOrtho, tr_map]

theorem tr_subKr (ref new : SubImg) (z b : ℝ) : subKr ref.tr new.tr z b = (subKr ref new z b).tr := by
  unfold subKr
  rw [tr_psfHat, tr_psfHat, ← tr_ifftOrtho]
  simp only [tr_normHat]
  rfl

theorem tr_subKn (ref new : SubImg) (z b : ℝ) : subKn ref.tr new.tr z b = (subKn ref new z b).tr := by
  unfold subKn
  rw [tr_psfHat, tr_psfHat, ← tr_ifftOrtho]
  simp only [tr_normHat]
  rfl

theorem tr_subV (f : Img ℝ) (k : Img ℂ) : subV f.tr k.tr = (subV f k).tr := by
  unfold subV
  rw [tr_map, tr_map, tr_fftOrtho, tr_dft, ← tr_ifftOrtho]
  rfl

/-- The place of the maximum as read on the transposed image. -/
def trPeak (peak : Img ℝ → ℕ × ℕ) : Img ℝ → ℕ × ℕ := fun P => (peak P.tr).swap

theorem tr_subCenter (peak : Img ℝ → ℕ × ℕ) (P : Img ℝ) :
    subCenter (trPeak peak) P.tr = (subCenter peak P).swap := by
  unfold subCenter trPeak
  rw [tr_centerOfMass, Img.tr_tr]
  simp only [Prod.swap]
  by_cases h : 30 < |(centerOfMass P).1 - ((peak P).1 : ℝ)| ∨ 30 < |(centerOfMass P).2 - ((peak P).2 : ℝ)|
  · rw [if_pos h, if_pos h.symm]
  · rw [if_neg h, if_neg (fun q => h q.symm)]

theorem tr_sHat (peak : Img ℝ → ℕ × ℕ) (ref new : SubImg) (b dx dy : ℝ) :
    sHat (trPeak peak) ref.tr new.tr b dy dx = (sHat peak ref new b dx dy).tr := by
  unfold sHat
  rw [tr_dHat, tr_pHat, tr_subP, tr_subCenter, ← tr_fourierShift]
  rfl

theorem tr_sCorr (peak : Img ℝ → ℕ × ℕ) (ref new : SubImg) (z b dx dy : ℝ) :
    sCorr (trPeak peak) ref.tr new.tr z b dy dx = (sCorr peak ref new z b dx dy).tr := by
  unfold sCorr
  rw [tr_sHat, tr_ifftOrtho, tr_subKn, tr_subKr]
  change _ = ((ifftOrtho (sHat peak ref new b dx dy)).tr.zip (fun s v => s / csqrt v)
    ((subV new.filled (subKn ref new z b)).tr.zip (· + ·) (subV ref.filled (subKr ref new z b)).tr))
  rw [← tr_subV, ← tr_subV]
  rfl

theorem tr_scaleCost (gamma : Img ℝ) (mask : NMask) (ref new : SubImg) :
    scaleCost gamma.tr mask.tr ref.tr new.tr = scaleCost gamma mask ref new := by
  funext b
  have en : (ifftOrtho ⟨ref.tr.h, ref.tr.w, fun k l => (dHatN ref.tr new.tr).px k l / csqrt (normHat ref.tr new.tr b k l)⟩) =
      (ifftOrtho ⟨ref.h, ref.w, fun k l => (dHatN ref new).px k l / csqrt (normHat ref new b k l)⟩).tr := by
    rw [tr_dHatN, ← tr_ifftOrtho]
    simp only [tr_normHat]
    rfl
  have er : (ifftOrtho ⟨ref.tr.h, ref.tr.w, fun k l => (dHatR ref.tr new.tr).px k l / csqrt (normHat ref.tr new.tr b k l)⟩) =
      (ifftOrtho ⟨ref.h, ref.w, fun k l => (dHatR ref new).px k l / csqrt (normHat ref new b k l)⟩).tr := by
    rw [tr_dHatR, ← tr_ifftOrtho]
    simp only [tr_normHat]
    rfl
  unfold scaleCost
  simp only []
  rw [en, er, Finset.sum_comm]
  refine Finset.sum_congr rfl fun i _ => Finset.sum_congr rfl fun j _ => ?_
  rw [tr_marks]
  rfl

/-- Everything outside `subtract`, for the transposed images. -/
def SubEnv.tr (env : SubEnv) : SubEnv := { env with gamma := env.gamma.tr, peak := trPeak env.peak }

/-- What `subtract` returns, transposed. -/
def SubOut.tr (out : SubOut) : SubOut := ⟨out.D.tr, out.P.tr, out.S.tr, out.mask.tr⟩

/-- The scale found without fitting a shift depends on the images only through the cost of the scale, and on whether there is
an unmasked pixel. -/
theorem scaleShift_congr (opt : Opt) (bt it : Bool) (gamma gamma' : Img ℝ) (mask mask' : NMask)
    (ref new ref' new' : SubImg) (z1 z2 : ℝ) (e : scaleCost gamma' mask' ref' new' = scaleCost gamma mask ref new)
    (es : imageSeen mask' ref'.h ref'.w = imageSeen mask ref.h ref.w) :
    scaleShift opt ⟨bt, false, it⟩ gamma' mask' ref' new' z1 z2 =
      scaleShift opt ⟨bt, false, it⟩ gamma mask ref new z1 z2 := by
  have e2 : costScale gamma' mask' ref' new' = costScale gamma mask ref new := by
    funext l
    unfold costScale
    rw [e]
  cases bt
  · have u : ∀ (g : Img ℝ) (m : NMask) (r n : SubImg), scaleShift opt ⟨false, false, it⟩ g m r n z1 z2 =
        .ok (z2 / z1, 0, 0) := fun _ _ _ _ => rfl
    rw [u, u]
  · have u : ∀ (g : Img ℝ) (m : NMask) (r n : SubImg), scaleShift opt ⟨true, false, it⟩ g m r n z1 z2 =
        (if it then (let r' := opt.scalar (scaleCost g m r n) (1 / 10) 10
          if r'.1 then .ok (r'.2, 0, 0) else .ok (z2 / z1, 0, 0))
        else (leastSquares opt (costScale g m r n) (imageSeen m r.h r.w) [z2 / z1] [1 / 10] [10] >>= fun r' =>
          if r'.1 then
            match r'.2 with
            | [b'] => .ok (b', 0, 0)
            | _ => .error .ValueError
          else .ok (z2 / z1, 0, 0)) : Py (ℝ × ℝ × ℝ)) := fun _ _ _ _ => rfl
    rw [u, u, e, e2, es]

/-- Without a fitted shift, the scale comes with no shift. -/
theorem scaleShift_noshift (opt : Opt) (bt it : Bool) (gamma : Img ℝ) (mask : NMask) (ref new : SubImg) (z1 z2 : ℝ)
    (s : ℝ × ℝ × ℝ) (h : scaleShift opt ⟨bt, false, it⟩ gamma mask ref new z1 z2 = .ok s) : s.2 = (0, 0) := by
  cases bt
  · cases h
    rfl
  · unfold scaleShift at h
    simp only [Bool.false_eq_true, if_false, if_true] at h
    cases it
    · simp only [Bool.false_eq_true, if_false] at h
      rcases hl : leastSquares opt (costScale gamma mask ref new) (imageSeen mask ref.h ref.w) [z2 / z1] [1 / 10] [10] with er | r
      · rw [hl] at h
        cases h
      · rw [hl] at h
        change (if r.1 = true then _ else _) = _ at h
        split_ifs at h with h1
        · split at h
          · cases h
            rfl
          · cases h
        · cases h
          rfl
    · simp only [if_true] at h
      split_ifs at h with h1 <;> cases h <;> rfl

/-- What `subtract` returns for a given scale. -/
noncomputable def outAt (env : SubEnv) (ref new : SubImg) (z2 b : ℝ) (m : NMask) : SubOut :=
  ⟨ifftOrtho (dHat ref new b 0 0), subP ref new b, (sCorr env.peak ref new z2 b 0 0).map re, m⟩

/-- Two calls that see the same photometry and the same cost of the scale both raise the same error, or both return
for the same scale. -/
theorem subtract_pair (env env' : SubEnv) (bt it : Bool) (ref new ref' new' : SubImg) (f : NMask → NMask)
    (ho : env'.opt = env.opt) (hz : env'.zps = env.zps)
    (hs : new'.interped.shape ≠ ref'.interped.shape ↔ new.interped.shape ≠ ref.interped.shape)
    (hm : new'.mask.maskOr ref'.mask = (new.mask.maskOr ref.mask).map f)
    (hc : (env'.fitted = false ∧ ((centerOfMass new'.psf).1 < 0 ∨ (centerOfMass new'.psf).2 < 0)) ↔
      (env.fitted = false ∧ ((centerOfMass new.psf).1 < 0 ∨ (centerOfMass new.psf).2 < 0)))
    (hcost : ∀ m, new.mask.maskOr ref.mask = .ok m →
      scaleCost env'.gamma (f m) ref' new' = scaleCost env.gamma m ref new)
    (hseen : ∀ m, new.mask.maskOr ref.mask = .ok m → imageSeen (f m) ref'.h ref'.w = imageSeen m ref.h ref.w) :
    (∃ er, subtract env ⟨bt, false, it⟩ ref new = .error er ∧ subtract env' ⟨bt, false, it⟩ ref' new' = .error er) ∨
    ∃ m z b, new.interped.shape = ref.interped.shape ∧ new.mask.maskOr ref.mask = .ok m ∧ env.zps = .ok z ∧
      subtract env ⟨bt, false, it⟩ ref new = .ok (outAt env ref new z.2 b m) ∧
      subtract env' ⟨bt, false, it⟩ ref' new' = .ok (outAt env' ref' new' z.2 b (f m)) := by
  unfold subtract
  by_cases h : new.interped.shape ≠ ref.interped.shape
  · rw [if_pos h, if_pos (hs.2 h)]
    exact Or.inl ⟨_, rfl, rfl⟩
  rw [if_neg h, if_neg (fun q => h (hs.1 q)), hm, hz, ho]
  rcases hmo : new.mask.maskOr ref.mask with er | m
  · exact Or.inl ⟨er, rfl, rfl⟩
  change (∃ er, (env.zps >>= _) = Except.error er ∧ (env.zps >>= _) = Except.error er) ∨
    ∃ m' z b, _ ∧ _ ∧ _ ∧ (env.zps >>= _) = _ ∧ (env.zps >>= _) = _
  rcases env.zps with er | z
  · exact Or.inl ⟨er, rfl, rfl⟩
  change (∃ er, (if env.fitted = false ∧ ((centerOfMass new.psf).1 < 0 ∨ (centerOfMass new.psf).2 < 0) then _
        else (scaleShift env.opt ⟨bt, false, it⟩ env.gamma m ref new z.1 z.2 >>= _)) = Except.error er ∧
      (if env'.fitted = false ∧ ((centerOfMass new'.psf).1 < 0 ∨ (centerOfMass new'.psf).2 < 0) then _ else
        (scaleShift env.opt ⟨bt, false, it⟩ env'.gamma (f m) ref' new' z.1 z.2 >>= _)) = Except.error er) ∨
    ∃ m' z' b, _ ∧ _ ∧ _ ∧ (if env.fitted = false ∧ ((centerOfMass new.psf).1 < 0 ∨ (centerOfMass new.psf).2 < 0) then _
        else (scaleShift env.opt ⟨bt, false, it⟩ env.gamma m ref new z.1 z.2 >>= _)) = _ ∧
      (if env'.fitted = false ∧ ((centerOfMass new'.psf).1 < 0 ∨ (centerOfMass new'.psf).2 < 0) then _ else
        (scaleShift env.opt ⟨bt, false, it⟩ env'.gamma (f m) ref' new' z.1 z.2 >>= _)) = _
  by_cases h2 : env.fitted = false ∧ ((centerOfMass new.psf).1 < 0 ∨ (centerOfMass new.psf).2 < 0)
  · rw [if_pos h2, if_pos (hc.2 h2)]
    exact Or.inl ⟨_, rfl, rfl⟩
  rw [if_neg h2, if_neg (fun q => h2 (hc.1 q)),
    scaleShift_congr env.opt bt it env.gamma env'.gamma m (f m) ref new ref' new' z.1 z.2 (hcost m hmo) (hseen m hmo)]
  rcases hss : scaleShift env.opt ⟨bt, false, it⟩ env.gamma m ref new z.1 z.2 with er | s
  · exact Or.inl ⟨er, rfl, rfl⟩
  have hs0 := scaleShift_noshift env.opt bt it env.gamma m ref new z.1 z.2 s hss
  obtain ⟨b, dx, dy⟩ := s
  cases hs0
  exact Or.inr ⟨m, z, b, not_not.1 h, rfl, rfl, rfl, rfl⟩

theorem tr_imageSeen (m : NMask) (h w : ℕ) : imageSeen m.tr w h = imageSeen m h w := by
  rw [Bool.eq_iff_iff, imageSeen_iff, imageSeen_iff]
  have e : ∀ i j, m.tr.marks j i = m.marks i j := fun i j => by cases m <;> rfl
  constructor
  · rintro ⟨j, hj, i, hi, h⟩
    exact ⟨i, hi, j, hj, (e i j).symm.trans h⟩
  · rintro ⟨i, hi, j, hj, h⟩
    exact ⟨j, hj, i, hi, (e i j).trans h⟩

/-- C123: transposing both images (pixels, masks, PSFs, backgrounds) transposes D, P, S and the mask, whether the
scale is fitted or not; where `subtract` raises, it raises the same error. -/
theorem subtract_transpose (env : SubEnv) (bt it : Bool) (ref new : SubImg) :
    subtract env.tr ⟨bt, false, it⟩ ref.tr new.tr = (subtract env ⟨bt, false, it⟩ ref new).map SubOut.tr := by
  have hs : new.tr.interped.shape ≠ ref.tr.interped.shape ↔ new.interped.shape ≠ ref.interped.shape := by
    unfold SubImg.tr Img.tr Img.shape
    rw [Ne, Ne, Prod.mk.injEq, Prod.mk.injEq, and_comm]
  have hc : (env.tr.fitted = false ∧ ((centerOfMass new.tr.psf).1 < 0 ∨ (centerOfMass new.tr.psf).2 < 0)) ↔
      (env.fitted = false ∧ ((centerOfMass new.psf).1 < 0 ∨ (centerOfMass new.psf).2 < 0)) := by
    change (env.fitted = false ∧ ((centerOfMass new.psf.tr).1 < 0 ∨ (centerOfMass new.psf.tr).2 < 0)) ↔ _
    rw [tr_centerOfMass]
    simp only [Prod.swap]
    rw [or_comm]
  rcases subtract_pair env env.tr bt it ref new ref.tr new.tr NMask.tr rfl rfl hs (tr_maskOr _ _) hc
    (fun m _ => tr_scaleCost env.gamma m ref new) (fun m _ => tr_imageSeen m ref.h ref.w) with ⟨er, e1, e2⟩ | ⟨m, z, b, _, _, _, e1, e2⟩
  · rw [e1, e2]
    rfl
  · rw [e1, e2]
    unfold outAt
    rw [tr_dHat, tr_ifftOrtho, tr_subP]
    change Except.ok (SubOut.mk _ _ ((sCorr (trPeak env.peak) ref.tr new.tr z.2 b 0 0).map re) m.tr) =
      Except.ok (SubOut.tr _)
    rw [tr_sCorr, tr_map]
    rfl

/-! ## The fit of a shift is not symmetric -/

/-- The residual that the fit of a shift minimises is transposed but for the background, which the code rolls along
the rows. -/
theorem tr_shiftResidual (gamma : Img ℝ) (ref new : SubImg) (b dx dy : ℝ) (i j : ℕ) :
    (shiftResidual gamma.tr ref.tr new.tr b dy dx).px j i = (shiftResidual gamma ref new b dx dy).px i j +
      ((rollFlat (gammaP gamma ref new b) (roundReal dx) (roundReal dy)).px i j -
        (rollFlat (gammaP gamma ref new b).tr (roundReal dy) (roundReal dx)).px j i) := by
  have en : (ifftOrtho ⟨ref.tr.h, ref.tr.w, fun k l => (dHatN ref.tr new.tr).px k l / csqrt (normHat ref.tr new.tr b k l)⟩) =
      (ifftOrtho ⟨ref.h, ref.w, fun k l => (dHatN ref new).px k l / csqrt (normHat ref new b k l)⟩).tr := by
    rw [tr_dHatN, ← tr_ifftOrtho]
    simp only [tr_normHat]
    rfl
  have er : (ifftOrtho (fourierShift
      ⟨ref.tr.h, ref.tr.w, fun k l => (dHatR ref.tr new.tr).px k l / csqrt (normHat ref.tr new.tr b k l)⟩ (dy, dx))) =
      (ifftOrtho (fourierShift
        ⟨ref.h, ref.w, fun k l => (dHatR ref new).px k l / csqrt (normHat ref new b k l)⟩ (dx, dy))).tr := by
    rw [tr_dHatR, ← tr_ifftOrtho, ← tr_fourierShift]
    simp only [tr_normHat]
    rfl
  have eg : gammaP gamma.tr ref.tr new.tr b = (gammaP gamma ref new b).tr := rfl
  unfold shiftResidual
  simp only []
  rw [en, er, eg]
  simp only [Img.tr, sub_re, ofReal_re]
  ring

theorem roundReal_none : roundReal 0 = 0 := by
  unfold roundReal
  norm_num

theorem roundReal_tenths : roundReal (9 / 10) = 1 := by
  have h : ⌊(9 / 10 : ℝ)⌋ = 0 := by
    rw [Int.floor_eq_iff]
    norm_num
  unfold roundReal
  rw [h]
  norm_num

/-- C123: with a background that grows by one per column, the residual of a shift by nine tenths of a row is not that
of the transposed images and a shift by nine tenths of a column. -/
theorem shift_residual_asymmetric (ref new : SubImg) (b : ℝ) (hv : 0 < new.var ^ 2 + b ^ 2 * ref.var ^ 2) :
    let gamma : Img ℝ := ⟨2, 2, fun _ j => j⟩
    (shiftResidual gamma.tr ref.tr new.tr b 0 (9 / 10)).px 0 1 ≠ (shiftResidual gamma ref new b (9 / 10) 0).px 1 0 := by
  intro gamma h
  rw [tr_shiftResidual, roundReal_none, roundReal_tenths] at h
  have h1 : (rollFlat (gammaP gamma ref new b) 1 0).px 1 0 = 1 / Real.sqrt (new.var ^ 2 + b ^ 2 * ref.var ^ 2) := by
    change (((0 + 1 : ℕ) : ℝ)) / _ = _
    norm_num
  have h2 : (rollFlat (gammaP gamma ref new b).tr 0 1).px 0 1 = 0 := by
    simp [rollFlat, Img.tr, gammaP, Img.map, gamma]
  rw [h1, h2] at h
  have : 0 < 1 / Real.sqrt (new.var ^ 2 + b ^ 2 * ref.var ^ 2) := by positivity
  linarith

end PI
