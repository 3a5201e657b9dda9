import Verif.Props.Sky
import Verif.Props.ScoreStar
import Verif.Props.Stages
import Verif.Props.Peak
import Verif.Props.StarFound
import Mathlib.Analysis.SpecialFunctions.Trigonometric.Complex

/-!
# Property C177: a new image less the coadd of the earlier ones

`coadd` makes a reference of earlier exposures, `subtract` takes it from a new one. D is looked at as a function of the pixels of
all exposures.
-/

namespace PI

open Complex Finset

/-- D of the new image `y` less the coadd of the exposures `x`: the real part of R is the pixels of the reference. -/
noncomputable def chainOf (env : SubEnv) (o : SubOpts) (lt : List CoImg → List CoImg → Option Bool) {n : ℕ}
    (d : Fin n → SinglePsf) (psfShape : ℕ) (procs : ℤ) (ref new : SubImg) (x : Fin n → Img ℝ) (y : Img ℝ) : Img ℂ :=
  diffOf env o ref new ((coaddOf lt d psfShape procs fun m => toC (x m)).map re) y

/-- Change of `D[i, j]` when pixel `(a, b)` of the new image (`none`) or of an earlier exposure is one larger. -/
noncomputable def respChain (env : SubEnv) (o : SubOpts) (lt : List CoImg → List CoImg → Option Bool) {n : ℕ}
    (d : Fin n → SinglePsf) (psfShape : ℕ) (procs : ℤ) (ref new : SubImg) (x : Fin n → Img ℝ) (y : Img ℝ) :
    Option (Fin n) → ℕ → ℕ → ℕ → ℕ → ℂ
  | none => fun i j a b => (chainOf env o lt d psfShape procs ref new x (bump y a b 1)).px i j -
      (chainOf env o lt d psfShape procs ref new x y).px i j
  | some m => fun i j a b =>
      (chainOf env o lt d psfShape procs ref new (fun m' => if m' = m then bump (x m') a b 1 else x m') y).px i j -
        (chainOf env o lt d psfShape procs ref new x y).px i j

/-- The gains from the exposures to D. -/
noncomputable def gainChain {n : ℕ} (d : Fin n → SinglePsf) (h w : ℕ) (ref new : SubImg) (b : ℝ) :
    Option (Fin n) → ℕ → ℕ → ℂ
  | none => gainNew ref new b
  | some m => fun k l => gainRef ref new b 0 0 k l * gainCoadd d h w m k l

section
variable (lt : List CoImg → List CoImg → Option Bool) {n : ℕ} (hn : 0 < n)
    (d : Fin n → SinglePsf) (h w psfShape : ℕ) (procs : ℤ)
    (hs : ∀ j, (d j).interped.h = h ∧ (d j).interped.w = w ∧ (d j).mask.HasShape h w)
    (hp : procs ≤ n) (hp' : procs ≤ 2 ^ 25) (hb : procs * n ≤ 2 ^ 50)
    (ψ : Fin n → Img ℝ) (hψ : ∀ m, (d m).psf = toC (ψ m)) (A B : Fin n → ℤ)
    (hc : ∀ m, (d m).com = ((A m : ℝ), (B m : ℝ)))

include hs hψ in
theorem single_hermitian (m : Fin n) (k l : ℕ) (hk : k < h) (hl : l < w) :
    (d m).psfHat.px (negIdx h k) (negIdx w l) = (starRingEnd ℂ) ((d m).psfHat.px k l) := by
  obtain ⟨h1, h2, _⟩ := hs m
  have e : (d m).psfHat = fftOrtho (padTo h w (toC (ψ m))) := by
    unfold SinglePsf.psfHat
    rw [h1, h2, hψ m]
  rw [e]
  refine hermitian_fftOrtho (padTo h w (toC (ψ m))) ?_ k hk l hl
  intro i _ j _
  change (starRingEnd ℂ) (if _ then ((ψ m).px i j : ℂ) else 0) = if _ then ((ψ m).px i j : ℂ) else 0
  split
  · exact conj_ofReal _
  · exact map_zero _

include hs hψ hc in
theorem gainCoadd_hermitian (m : Fin n) (k l : ℕ) (hk : k < h) (hl : l < w) :
    gainCoadd d h w m (negIdx h k) (negIdx w l) = (starRingEnd ℂ) (gainCoadd d h w m k l) := by
  have sh := fun m => single_hermitian d h w hs ψ hψ m k l hk hl
  have ph : shiftPhase h w (d m).com (negIdx h k) (negIdx w l) = (starRingEnd ℂ) (shiftPhase h w (d m).com k l) := by
    unfold shiftPhase
    rw [map_mul, hc m]
    exact congrArg₂ (· * ·) (shift_axis h k hk _ (Or.inr ⟨A m, rfl⟩)) (shift_axis w l hl _ (Or.inr ⟨B m, rfl⟩))
  unfold gainCoadd
  simp only [sh, ph]
  have pw : zackayPower (fun j => (d j).zp) (fun j => (d j).var) (fun j => (starRingEnd ℂ) ((d j).psfHat.px k l)) =
      zackayPower (fun j => (d j).zp) (fun j => (d j).var) (fun j => (d j).psfHat.px k l) := by
    unfold zackayPower
    simp only [normSq_conj]
  rw [pw, map_div₀, map_mul, map_mul, map_mul, conj_ofReal, conj_ofReal, conj_ofReal]

include hn hs hp hp' hb hψ hc

/-- The coadd of real exposures with centres on whole pixels is real, and its transform is the sum of the filtered ones. -/
theorem coadd_real_hat (x : Fin n → Img ℝ) (hx : ∀ m, (x m).h = h ∧ (x m).w = w) :
    ((coaddOf lt d psfShape procs fun m => toC (x m)).map re).shape = (h, w) ∧
    ∀ i < h, ∀ j < w,
      ((((coaddOf lt d psfShape procs fun m => toC (x m)).map re).px i j : ℝ) : ℂ) =
        (ifftOrtho ⟨h, w, fun k l => ∑ m, gainCoadd d h w m k l * (fftOrtho (toC (x m))).px k l⟩).px i j := by
  obtain ⟨out, e, rh, rw0, _⟩ := coadd_returns_zackay lt hn (withPix d fun m => toC (x m)) h w psfShape procs
    (fun m => ⟨(hx m).1, (hx m).2, (hs m).2.2⟩) hp hp' hb
  have ed : coaddOf lt d psfShape procs (fun m => toC (x m)) = out.R := by
    unfold coaddOf
    rw [e]
  refine ⟨by rw [ed]; exact congrArg₂ Prod.mk rh rw0, fun i hi j hj => ?_⟩
  have v : (coaddOf lt d psfShape procs fun m => toC (x m)).px i j =
      (ifftOrtho ⟨h, w, fun k l => ∑ m, gainCoadd d h w m k l * (fftOrtho (toC (x m))).px k l⟩).px i j := by
    rw [coaddOf_eq lt hn d h w psfShape procs hs hp hp' hb (fun m => toC (x m)) hx i j, ifftOrtho_sum]
    refine Finset.sum_congr rfl fun m _ => ?_
    have f := filter_eq (toC (x m)) (gainCoadd d h w m) i j
    have e1 : (toC (x m)).h = h := (hx m).1
    have e2 : (toC (x m)).w = w := (hx m).2
    rw [e1, e2] at f
    exact f.symm
  have r := ifftOrtho_real ⟨h, w, fun k l => ∑ m, gainCoadd d h w m k l * (fftOrtho (toC (x m))).px k l⟩ (by
    intro k hk l hl
    change ∑ m, gainCoadd d h w m (negIdx h k) (negIdx w l) * (fftOrtho (toC (x m))).px (negIdx h k) (negIdx w l) =
      (starRingEnd ℂ) (∑ m, gainCoadd d h w m k l * (fftOrtho (toC (x m))).px k l)
    rw [map_sum]
    refine Finset.sum_congr rfl fun m _ => ?_
    rw [map_mul, gainCoadd_hermitian d h w hs ψ hψ A B hc m k l hk hl]
    congr 1
    have H := hermitian_fftOrtho (toC (x m)) (fun i _ j _ => conj_ofReal _)
    have e1 : (toC (x m)).h = h := (hx m).1
    have e2 : (toC (x m)).w = w := (hx m).2
    have H' := H k (by change k < (toC (x m)).h; rw [e1]; exact hk) l (by change l < (toC (x m)).w; rw [e2]; exact hl)
    change (fftOrtho (toC (x m))).px (negIdx (toC (x m)).h k) (negIdx (toC (x m)).w l) = _ at H'
    rw [e1, e2] at H'
    exact H') i j
  rw [← v]
  rw [← v] at r
  change (((coaddOf lt d psfShape procs fun m => toC (x m)).px i j).re : ℂ) = _
  exact Complex.ext (by simp) (by simp [r])

section
variable (env : SubEnv) (it : Bool) (ref new : SubImg) (z : ℝ × ℝ)
    (hmr : ref.mask.HasShape h w) (hmn : new.mask.HasShape h w) (hz : env.zps = .ok z)
    (hf : env.fitted = true ∨ (0 ≤ (centerOfMass new.psf).1 ∧ 0 ≤ (centerOfMass new.psf).2))
    (hr : ref.interped.shape = (h, w)) (hnw : new.interped.shape = (h, w))
include hmr hmn hz hf hr hnw

/-- D is a linear function of the pixels of all exposures. -/
theorem chain_eq (x : Fin n → Img ℝ) (hx : ∀ m, (x m).h = h ∧ (x m).w = w) (y : Img ℝ) (hy : y.shape = (h, w)) (i j : ℕ) :
    (chainOf env ⟨false, false, it⟩ lt d psfShape procs ref new x y).px i j =
      (∑ a ∈ range h, ∑ b ∈ range w, (y.px a b : ℂ) * impulseResp h w (gainNew ref new (z.2 / z.1)) i j a b) +
      ∑ m, ∑ a ∈ range h, ∑ b ∈ range w, ((x m).px a b : ℂ) *
        impulseResp h w (gainChain d h w ref new (z.2 / z.1) (some m)) i j a b := by
  obtain ⟨sh, v⟩ := coadd_real_hat lt hn d h w psfShape procs hs hp hp' hb ψ hψ A B hc x hx
  unfold chainOf
  rw [diffOf_eq env it ref new h w z hmr hmn hz hf hr hnw _ y sh hy]
  congr 1
  set X : Img ℂ := ⟨h, w, fun k l => ∑ m, gainCoadd d h w m k l * (fftOrtho (toC (x m))).px k l⟩ with hX
  have f := filter_eq (ifftOrtho X) (gainRef ref new (z.2 / z.1) 0 0) i j
  have s1 : ∑ a ∈ range h, ∑ b ∈ range w,
      ((((coaddOf lt d psfShape procs fun m => toC (x m)).map re).px a b : ℝ) : ℂ) *
        impulseResp h w (gainRef ref new (z.2 / z.1) 0 0) i j a b =
      ∑ a ∈ range h, ∑ b ∈ range w, (ifftOrtho X).px a b *
        impulseResp h w (gainRef ref new (z.2 / z.1) 0 0) i j a b := by
    refine Finset.sum_congr rfl fun a ha => Finset.sum_congr rfl fun b hb' => ?_
    rw [v a (mem_range.1 ha) b (mem_range.1 hb')]
  rw [s1]
  refine f.symm.trans ?_
  have g : ∀ m, ∑ a ∈ range h, ∑ b ∈ range w, ((x m).px a b : ℂ) *
        impulseResp h w (gainChain d h w ref new (z.2 / z.1) (some m)) i j a b =
      (ifftOrtho ⟨h, w, fun k l => gainChain d h w ref new (z.2 / z.1) (some m) k l *
        (fftOrtho (toC (x m))).px k l⟩).px i j := by
    intro m
    have f := filter_eq (toC (x m)) (gainChain d h w ref new (z.2 / z.1) (some m)) i j
    have e1 : (toC (x m)).h = h := (hx m).1
    have e2 : (toC (x m)).w = w := (hx m).2
    rw [e1, e2] at f
    exact f.symm
  simp only [g]
  rw [← ifftOrtho_sum]
  refine ifftOrtho_congr h w _ _ (fun k hk l hl => ?_) i j
  rw [fftOrtho_ifftOrtho X k l hk hl, Finset.mul_sum]
  refine Finset.sum_congr rfl fun m _ => ?_
  change _ = gainRef ref new (z.2 / z.1) 0 0 k l * gainCoadd d h w m k l * _
  ring

theorem respChain_eq (x : Fin n → Img ℝ) (hx : ∀ m, (x m).h = h ∧ (x m).w = w) (y : Img ℝ) (hy : y.shape = (h, w))
    (m : Option (Fin n)) (i j a b : ℕ) (ha : a < h) (hb' : b < w) :
    respChain env ⟨false, false, it⟩ lt d psfShape procs ref new x y m i j a b =
      impulseResp h w (gainChain d h w ref new (z.2 / z.1) m) i j a b := by
  have c := fun x' hx' y' hy' => chain_eq lt hn d h w psfShape procs hs hp hp' hb ψ hψ A B hc env it ref new z hmr hmn hz hf
    hr hnw x' hx' y' hy' i j
  cases m with
  | none =>
    change (chainOf env ⟨false, false, it⟩ lt d psfShape procs ref new x (bump y a b 1)).px i j - _ = _
    rw [c x hx (bump y a b 1) hy, c x hx y hy, sum_bump h w _ a b ha hb']
    simp only [gainChain]
    ring
  | some m =>
    change (chainOf env ⟨false, false, it⟩ lt d psfShape procs ref new
      (fun m' => if m' = m then bump (x m') a b 1 else x m') y).px i j - _ = _
    rw [c (fun m' => if m' = m then bump (x m') a b 1 else x m')
      (by intro m'; by_cases q : m' = m <;> simp only [q, if_true, if_false] <;> first | exact hx m | exact hx m') y hy, c x hx y hy, add_sub_add_left_eq_sub,
      ← Finset.sum_sub_distrib, Finset.sum_eq_single m]
    · simp only [if_true]
      rw [sum_bump h w _ a b ha hb']
      ring
    · intro m' _ hm'
      simp only [if_neg hm', sub_self]
    · intro q; exact absurd (Finset.mem_univ m) q

end

/-! ## The coadd's PSF image -/

omit hn hs hp hp' hb hψ hc in
theorem powerAt_pos (hpow : ∀ k < h, ∀ l < w, powerAt d k l ≠ 0) (k l : ℕ) (hk : k < h) (hl : l < w) :
    0 < powerAt d k l :=
  lt_of_le_of_ne (zackayPower_nonneg _ _ _) (Ne.symm (hpow k hk l hl))

omit hc in
/-- The transform of the (real) PSF image of a coadd. -/
theorem coadd_psf_transform (hpow : ∀ k < h, ∀ l < w, powerAt d k l ≠ 0) (out : CoaddOut)
    (ho : coaddCore lt ((List.ofFn d).map SinglePsf.toCoImg) psfShape procs = .ok out) (k l : ℕ) (hk : k < h) (hl : l < w) :
    (fftOrtho (padTo h w (toC (out.Pr.map re)))).px k l =
      ((Real.sqrt (powerAt d k l) / Real.sqrt (powerAt d 0 0) / Real.sqrt ((h * w : ℕ) : ℝ) : ℝ) : ℂ) *
        shiftPhase h w ((psfShape : ℝ), (psfShape : ℝ)) k l := by
  have hlen : ((List.ofFn d).map SinglePsf.toCoImg).length = n := by simp
  obtain ⟨out', e, ho', _⟩ := coadd_spec lt h w ((List.ofFn d).map SinglePsf.toCoImg) psfShape procs
    (by intro hnil; rw [hnil] at hlen; simp at hlen; omega) (allShape_single d h w hs)
    (by rw [hlen]; exact hp) hp' (by rw [hlen]; exact hb)
  rw [ho] at e
  obtain rfl : out = out' := by injection e
  have hP : out.Pr = coaddPsf ⟨h, w, specP ((List.ofFn d).map SinglePsf.toCoImg)⟩ psfShape := congrArg Prod.snd ho'
  have sp : ∀ k l, specP ((List.ofFn d).map SinglePsf.toCoImg) k l = ((powerAt d k l : ℝ) : ℂ) := specP_single d
  have pp : PositivePower h w ((List.ofFn d).map SinglePsf.toCoImg) := by
    intro k hk l hl
    rw [sp, ofReal_re, ofReal_im]
    exact ⟨powerAt_pos d h w hpow k l hk hl, rfl⟩
  have tr : ∀ k < h, ∀ l < w, (fftOrtho out.Pr).px k l =
      ((Real.sqrt (powerAt d k l) / Real.sqrt (powerAt d 0 0) / Real.sqrt ((h * w : ℕ) : ℝ) : ℝ) : ℂ) *
        shiftPhase h w ((psfShape : ℝ), (psfShape : ℝ)) k l := by
    intro k hk l hl
    have t := stage_psfHat h w psfShape _ pp k l hk hl
    unfold fluxScale at t
    rw [sp, sp, ofReal_re, ofReal_re] at t
    rw [hP, t]
  have ph : out.Pr.h = h := by rw [hP]; rfl
  have pw : out.Pr.w = w := by rw [hP]; rfl
  have real : ∀ i < out.Pr.h, ∀ j < out.Pr.w, (((out.Pr.px i j).re : ℝ) : ℂ) = out.Pr.px i j := by
    intro i hi j hj
    have inv := ifftOrtho_fftOrtho out.Pr i j hi hj
    have e1 : fftOrtho out.Pr = ⟨h, w, (fftOrtho out.Pr).px⟩ := by
      rw [← ph, ← pw]
      rfl
    rw [e1, ifftOrtho_congr h w _ _ tr] at inv
    have im := ifftOrtho_real ⟨h, w, fun k l =>
      ((Real.sqrt (powerAt d k l) / Real.sqrt (powerAt d 0 0) / Real.sqrt ((h * w : ℕ) : ℝ) : ℝ) : ℂ) *
        shiftPhase h w ((psfShape : ℝ), (psfShape : ℝ)) k l⟩ (by
      intro k hk l hl
      change ((Real.sqrt (powerAt d (negIdx h k) (negIdx w l)) / _ / _ : ℝ) : ℂ) * (_ * _) = (starRingEnd ℂ) (_ * (_ * _))
      have q : powerAt d (negIdx h k) (negIdx w l) = powerAt d k l := by
        unfold powerAt zackayPower
        refine Finset.sum_congr rfl fun m _ => ?_
        simp only []
        rw [single_hermitian d h w hs ψ hψ m k l hk hl, normSq_conj]
      rw [q, map_mul, map_mul, conj_ofReal]
      congr 1
      exact congrArg₂ (· * ·) (shift_axis h k hk _ (Or.inr ⟨psfShape, by simp⟩))
        (shift_axis w l hl _ (Or.inr ⟨psfShape, by simp⟩))) i j
    rw [inv] at im
    exact Complex.ext (by simp) (by simp [im])
  have e2 : (fftOrtho (padTo h w (toC (out.Pr.map re)))).px k l = (fftOrtho (padTo h w out.Pr)).px k l := by
    have : padTo h w (toC (out.Pr.map re)) = padTo h w out.Pr := by
      unfold padTo
      refine congrArg (Img.mk h w) ?_
      funext i j
      change (if i < out.Pr.h ∧ j < out.Pr.w then (((out.Pr.px i j).re : ℝ) : ℂ) else 0) =
        if i < out.Pr.h ∧ j < out.Pr.w then out.Pr.px i j else 0
      split_ifs with q
      · exact real i q.1 j q.2
      · rfl
    rw [this]
  rw [e2, fftOrtho_padSelf h w out.Pr ph pw, tr k hk l hl]

section
variable (env : SubEnv) (it : Bool) (ref new : SubImg) (z : ℝ × ℝ)
    (hr : ref.interped.shape = (h, w)) (hnw : new.interped.shape = (h, w)) (hh : h ≠ 0) (hw : w ≠ 0)
    (hpow : ∀ k < h, ∀ l < w, powerAt d k l ≠ 0) (out : CoaddOut)
    (ho : coaddCore lt ((List.ofFn d).map SinglePsf.toCoImg) psfShape procs = .ok out)
    (hpsf : ref.psf = out.Pr.map re) (hcom : centerOfMass ref.psf = ((psfShape : ℝ), (psfShape : ℝ)))
    (hvar : ref.var = 1 / Real.sqrt ((h * w : ℕ) : ℝ))
    (gr : GuardIdle h w ref.psf) (gn : GuardIdle h w new.psf) (A' B' : ℤ)
    (hA' : centerOfMass new.psf = ((A' : ℝ), (B' : ℝ)))
    (zn : ℝ) (hzn : z.2 / z.1 = zn / Real.sqrt (powerAt d 0 0))
include hr hpow ho hpsf gr

omit hc in
theorem chain_ref_hat (k l : ℕ) (hk : k < h) (hl : l < w) :
    ref.psfHat.px k l =
      ((Real.sqrt (powerAt d k l) / Real.sqrt (powerAt d 0 0) / Real.sqrt ((h * w : ℕ) : ℝ) : ℝ) : ℂ) *
        shiftPhase h w ((psfShape : ℝ), (psfShape : ℝ)) k l := by
  have rh : ref.interped.h = h := congrArg Prod.fst hr
  have rw0 : ref.interped.w = w := congrArg Prod.snd hr
  rw [psfHat_idle ref h w rh rw0 gr k l hk hl, hpsf]
  exact coadd_psf_transform lt hn d h w psfShape procs hs hp hp' hb ψ hψ hpow out ho k l hk hl

include hcom in
omit hc in
theorem chain_ref_centred (k l : ℕ) (hk : k < h) (hl : l < w) :
    centredPsf ref k l =
      ((Real.sqrt (powerAt d k l) / Real.sqrt (powerAt d 0 0) / Real.sqrt ((h * w : ℕ) : ℝ) : ℝ) : ℂ) := by
  have rh : ref.interped.h = h := congrArg Prod.fst hr
  have rw0 : ref.interped.w = w := congrArg Prod.snd hr
  unfold centredPsf SubImg.h SubImg.w
  rw [chain_ref_hat lt hn d h w psfShape procs hs hp hp' hb ψ hψ ref hr hpow out ho hpsf gr k l hk hl, rh, rw0, hcom,
    mul_assoc, ← shiftPhase_add]
  have : shiftPhase h w ((psfShape : ℝ) + (negPair ((psfShape : ℝ), (psfShape : ℝ))).1,
      (psfShape : ℝ) + (negPair ((psfShape : ℝ), (psfShape : ℝ))).2) k l = 1 := by
    simp [shiftPhase, negPair, tw_zero]
  rw [this, mul_one]

include hh hw in
omit hn hp hp' hb hr ho hpsf gr in
/-- A star shown by all exposures in proportion to their zero points, in the transform of the coadd. -/
theorem coadd_star_sum (X Y : ℤ) (k l : ℕ) (hk : k < h) (hl : l < w) :
    ∑ m, gainCoadd d h w m k l * (fftOrtho (toC (skyStar h w (ψ m) (A m) (B m) X Y (d m).zp))).px k l =
      ((Real.sqrt (powerAt d k l) / Real.sqrt ((h * w : ℕ) : ℝ) : ℝ) : ℂ) *
        shiftPhase h w ((X : ℝ), (Y : ℝ)) k l := by
  have pos := powerAt_pos d h w hpow k l hk hl
  have term : ∀ m, gainCoadd d h w m k l * (fftOrtho (toC (skyStar h w (ψ m) (A m) (B m) X Y (d m).zp))).px k l =
      (((d m).zp ^ 2 / (d m).var ^ 2 * normSq ((d m).psfHat.px k l) : ℝ) : ℂ) *
        (shiftPhase h w ((X : ℝ), (Y : ℝ)) k l /
          (Real.sqrt (powerAt d k l) * Real.sqrt ((h * w : ℕ) : ℝ) : ℂ)) := by
    intro m
    have e : (fftOrtho (padTo h w (toC (ψ m)))).px k l = (d m).psfHat.px k l := by
      unfold SinglePsf.psfHat
      rw [(hs m).1, (hs m).2.1, hψ m]
    have s : shiftPhase h w ((X : ℝ), (Y : ℝ)) k l =
        shiftPhase h w (((X - A m : ℤ) : ℝ), ((Y - B m : ℤ) : ℝ)) k l * shiftPhase h w (d m).com k l := by
      rw [← shiftPhase_add, hc m]
      congr 1
      push_cast
      simp
    rw [fftOrtho_skyStar h w hh hw, e, s]
    unfold gainCoadd
    have nsq : ((normSq ((d m).psfHat.px k l) : ℝ) : ℂ) =
      (d m).psfHat.px k l * (starRingEnd ℂ) ((d m).psfHat.px k l) := (Complex.mul_conj _).symm
    push_cast
    rw [nsq]
    unfold powerAt
    ring
  simp only [term]
  rw [← Finset.sum_mul, ← Complex.ofReal_sum]
  change ((powerAt d k l : ℝ) : ℂ) * _ = _
  generalize powerAt d k l = Q at pos ⊢
  have hQ : ((Real.sqrt Q : ℝ) : ℂ) * ((Real.sqrt Q : ℝ) : ℂ) = (Q : ℂ) := by
    rw [← Complex.ofReal_mul, Real.mul_self_sqrt pos.le]
  have hQ0 : ((Real.sqrt Q : ℝ) : ℂ) ≠ 0 := by exact_mod_cast (Real.sqrt_pos.2 pos).ne'
  rw [← hQ]
  push_cast
  generalize ((Real.sqrt Q : ℝ) : ℂ) = S at hQ0 ⊢
  rw [mul_div_assoc', mul_comm S ((Real.sqrt ((h : ℝ) * w) : ℂ)), ← div_div, mul_assoc S S, mul_div_right_comm,
    mul_div_right_comm]
  have : ∀ a b : ℂ, S / b / S * (S * a) = S / b * a := by
    intro a b
    field_simp
  rw [this]

include hcom hnw hh hw gn hA' hzn

/-- A star that does not change leaves nothing at any frequency. -/
theorem chain_star_zero (X Y : ℤ) (k l : ℕ) (hk : k < h) (hl : l < w) :
    gainNew ref new (z.2 / z.1) k l * (fftOrtho (toC (skyStar h w new.psf A' B' X Y zn))).px k l +
      ∑ m, gainChain d h w ref new (z.2 / z.1) (some m) k l *
        (fftOrtho (toC (skyStar h w (ψ m) (A m) (B m) X Y (d m).zp))).px k l = 0 := by
  have rh : ref.interped.h = h := congrArg Prod.fst hr
  have rw0 : ref.interped.w = w := congrArg Prod.snd hr
  have nh : new.interped.h = h := congrArg Prod.fst hnw
  have nw : new.interped.w = w := congrArg Prod.snd hnw
  have cs := coadd_star_sum d h w hs ψ hψ A B hc hh hw hpow X Y k l hk hl
  have e : ∑ m, gainChain d h w ref new (z.2 / z.1) (some m) k l *
        (fftOrtho (toC (skyStar h w (ψ m) (A m) (B m) X Y (d m).zp))).px k l =
      gainRef ref new (z.2 / z.1) 0 0 k l * (((Real.sqrt (powerAt d k l) / Real.sqrt ((h * w : ℕ) : ℝ) : ℝ) : ℂ) *
        shiftPhase h w ((X : ℝ), (Y : ℝ)) k l) := by
    rw [← cs, Finset.mul_sum]
    refine Finset.sum_congr rfl fun m _ => ?_
    unfold gainChain
    ring
  rw [e, fftOrtho_skyStar h w hh hw, ← psfHat_idle new h w nh nw gn k l hk hl]
  unfold gainNew gainRef
  rw [chain_ref_centred lt hn d h w psfShape procs hs hp hp' hb ψ hψ ref hr hpow out ho hpsf hcom gr k l hk hl]
  unfold centredPsf SubImg.h SubImg.w
  rw [rh, rw0, nh, nw, hA', hzn]
  have z0 : shiftPhase h w (0, 0) k l = 1 := by simp [shiftPhase, tw_zero]
  have s : shiftPhase h w (((X - A' : ℤ) : ℝ), ((Y - B' : ℤ) : ℝ)) k l =
      shiftPhase h w ((X : ℝ), (Y : ℝ)) k l * shiftPhase h w (negPair ((A' : ℝ), (B' : ℝ))) k l := by
    rw [← shiftPhase_add]
    congr 2
    · simp only [negPair]; push_cast; ring
    · simp only [negPair]; push_cast; ring
  rw [z0, s]
  push_cast
  ring

variable (hmr : ref.mask.HasShape h w) (hmn : new.mask.HasShape h w) (hz : env.zps = .ok z)
    (hf : env.fitted = true ∨ (0 ≤ (centerOfMass new.psf).1 ∧ 0 ≤ (centerOfMass new.psf).2))
    (x : Fin n → Img ℝ) (hx : ∀ m, (x m).h = h ∧ (x m).w = w) (y : Img ℝ) (hy : y.shape = (h, w))
include hmr hmn hz hf hx hy

/-- C177: a sky that does not change, shown by the earlier exposures in proportion to their zero points and by the new
image in proportion to its own, leaves no trace in the difference. -/
theorem chain_constant_sky (t : ℕ → ℕ → ℝ) (i j : ℕ) :
    (chainOf env ⟨false, false, it⟩ lt d psfShape procs ref new
        (fun m => plusImg (x m) (through h w (ψ m) (A m) (B m) fun X Y => (d m).zp * t X Y))
        (plusImg y (through h w new.psf A' B' fun X Y => zn * t X Y))).px i j =
      (chainOf env ⟨false, false, it⟩ lt d psfShape procs ref new x y).px i j := by
  have c := fun x' hx' y' hy' => chain_eq lt hn d h w psfShape procs hs hp hp' hb ψ hψ A B hc env it ref new z hmr hmn hz hf
    hr hnw x' hx' y' hy' i j
  rw [c (fun m => plusImg (x m) (through h w (ψ m) (A m) (B m) fun X Y => (d m).zp * t X Y)) (fun m => hx m)
    (plusImg y (through h w new.psf A' B' fun X Y => zn * t X Y)) hy, c x hx y hy]
  have f : ∀ (g : ℕ → ℕ → ℂ) (s : Img ℝ), s.h = h → s.w = w →
      ∑ a ∈ range h, ∑ b ∈ range w, (s.px a b : ℂ) * impulseResp h w g i j a b =
        (ifftOrtho ⟨h, w, fun k l => g k l * (fftOrtho (toC s)).px k l⟩).px i j := by
    intro g s h1 h2
    subst h1 h2
    exact (filter_eq (toC s) g i j).symm
  have sp : ∀ (g : ℕ → ℕ → ℂ) (s u : Img ℝ),
      ∑ a ∈ range h, ∑ b ∈ range w, ((plusImg s u).px a b : ℂ) * impulseResp h w g i j a b =
        (∑ a ∈ range h, ∑ b ∈ range w, (s.px a b : ℂ) * impulseResp h w g i j a b) +
        ∑ a ∈ range h, ∑ b ∈ range w, (u.px a b : ℂ) * impulseResp h w g i j a b := by
    intro g s u
    simp only [plusImg, Complex.ofReal_add, add_mul, Finset.sum_add_distrib]
  simp only [sp, Finset.sum_add_distrib]
  have key : (∑ a ∈ range h, ∑ b ∈ range w, ((through h w new.psf A' B' fun X Y => zn * t X Y).px a b : ℂ) *
        impulseResp h w (gainNew ref new (z.2 / z.1)) i j a b) +
      ∑ m, ∑ a ∈ range h, ∑ b ∈ range w,
        ((through h w (ψ m) (A m) (B m) fun X Y => (d m).zp * t X Y).px a b : ℂ) *
          impulseResp h w (gainChain d h w ref new (z.2 / z.1) (some m)) i j a b = 0 := by
    simp only [f _ (through _ _ _ _ _ _) rfl rfl]
    rw [← ifftOrtho_sum, ← ifftOrtho_add, ifftOrtho_congr h w _ (fun _ _ => 0 * 0), ifftOrtho_const_mul, zero_mul]
    intro k hk l hl
    have th : ∀ (psf : Img ℝ) (U V : ℤ) (q : ℝ), (fftOrtho (toC (through h w psf U V fun X Y => q * t X Y))).px k l =
        ∑ X ∈ range h, ∑ Y ∈ range w, (t X Y : ℂ) * (fftOrtho (toC (skyStar h w psf U V X Y q))).px k l := by
      intro psf U V q
      rw [fftOrtho_through h w hh hw, Finset.mul_sum]
      refine Finset.sum_congr rfl fun X _ => ?_
      rw [Finset.mul_sum]
      refine Finset.sum_congr rfl fun Y _ => ?_
      rw [fftOrtho_skyStar h w hh hw]
      push_cast
      ring
    simp only [th, Finset.mul_sum]
    rw [Finset.sum_comm (s := univ)]
    simp only [Finset.sum_comm (s := univ)]
    rw [← Finset.sum_add_distrib, mul_zero]
    refine Finset.sum_eq_zero fun X _ => ?_
    rw [← Finset.sum_add_distrib]
    refine Finset.sum_eq_zero fun Y _ => ?_
    have q := chain_star_zero lt hn d h w psfShape procs hs hp hp' hb ψ hψ A B hc ref new z hr hnw hh hw hpow out ho hpsf
      hcom gr gn A' B' hA' zn hzn X Y k l hk hl
    have q2 := congrArg (fun v => (t X Y : ℂ) * v) q
    simp only [mul_add, Finset.mul_sum, mul_zero] at q2
    rw [← q2]
    congr 1
    · ring
    · exact Finset.sum_congr rfl fun m _ => by ring
  linear_combination key

/-- The noise of the exposures; `none` is the new image. -/
def chainSigma {n : ℕ} (d : Fin n → SinglePsf) (new : SubImg) : Option (Fin n) → ℝ
  | none => new.var
  | some m => (d m).var

include hvar in
omit hcom gn hA' ho hpsf gr in
/-- C177: the noise of all exposures makes the noise of the difference white, of variance one. -/
theorem chain_noise_white (hv : ∀ m, (d m).var ≠ 0) (hz0 : zn ≠ 0) (i j i' j' : ℕ) (hi : i < h) (hj : j < w) (hi' : i' < h)
    (hj' : j' < w) :
    ∑ m, ((chainSigma d new m ^ 2 : ℝ) : ℂ) * ∑ a ∈ range h, ∑ b ∈ range w,
      respChain env ⟨false, false, it⟩ lt d psfShape procs ref new x y m i j a b *
        (starRingEnd ℂ) (respChain env ⟨false, false, it⟩ lt d psfShape procs ref new x y m i' j' a b) =
      if i = i' ∧ j = j' then 1 else 0 := by
  have r := fun m i j a ha b hb' => respChain_eq lt hn d h w psfShape procs hs hp hp' hb ψ hψ A B hc env it ref new z hmr hmn
    hz hf hr hnw x hx y hy m i j a b ha hb'
  rw [← white_of_power (Finset.univ : Finset (Option (Fin n))) h w (fun m => chainSigma d new m ^ 2)
    (fun m => gainChain d h w ref new (z.2 / z.1) m) 1 ?_ i j i' j' hi hj hi' hj']
  · refine Finset.sum_congr rfl fun m _ => ?_
    congr 1
    refine Finset.sum_congr rfl fun a ha => Finset.sum_congr rfl fun b hb' => ?_
    rw [r m i j a (mem_range.1 ha) b (mem_range.1 hb'), r m i' j' a (mem_range.1 ha) b (mem_range.1 hb')]
  · intro k hk l hl
    have N0 : (0 : ℝ) < ((h * w : ℕ) : ℝ) := by
      exact_mod_cast Nat.mul_pos (by omega) (by omega)
    have rv : ref.var ^ 2 = 1 / ((h * w : ℕ) : ℝ) := by
      rw [hvar, div_pow, one_pow, Real.sq_sqrt N0.le]
    have rv0 : ref.var ≠ 0 := by
      rw [hvar]
      exact (one_div_pos.2 (Real.sqrt_pos.2 N0)).ne'
    have F0 := Real.sqrt_pos.2 (powerAt_pos d h w hpow 0 0 (by omega) (by omega))
    have b0 : z.2 / z.1 ≠ 0 := by rw [hzn]; exact div_ne_zero hz0 F0.ne'
    have pos := powerAt_pos d h w hpow k l hk hl
    have gp := gain_power ref new (z.2 / z.1) 0 0 k l (Or.inr ⟨rv0, b0⟩)
    have s : ∑ m, (d m).var ^ 2 * normSq (gainCoadd d h w m k l) = 1 / ((h * w : ℕ) : ℝ) := by
      have e : ∀ m, (d m).var ^ 2 * normSq (gainCoadd d h w m k l) =
          (d m).zp ^ 2 / (d m).var ^ 2 * normSq ((d m).psfHat.px k l) / (powerAt d k l * ((h * w : ℕ) : ℝ)) := by
        intro m
        unfold gainCoadd
        rw [normSq_div, normSq_mul, normSq_mul, normSq_mul, normSq_ofReal, normSq_ofReal, normSq_ofReal,
          normSq_shiftPhase, normSq_conj, Real.mul_self_sqrt (zackayPower_nonneg _ _ _),
          Real.mul_self_sqrt (by positivity)]
        have := hv m
        unfold powerAt
        field_simp
      simp only [e]
      rw [← Finset.sum_div]
      change powerAt d k l / _ = _
      field_simp
    have g : ∑ m, chainSigma d new m ^ 2 * normSq (gainChain d h w ref new (z.2 / z.1) m k l) = 1 := by
      rw [Fintype.sum_option]
      simp only [chainSigma, gainChain, normSq_mul]
      rw [← gp, rv, ← s, Finset.sum_mul]
      congr 1
      exact Finset.sum_congr rfl fun m _ => by ring
    exact_mod_cast g

/-- A star of flux one at `(X, Y)` in the new image only. -/
def chainNew (h w : ℕ) {n : ℕ} (new : SubImg) (A' B' X Y : ℤ) : Option (Fin n) → Img ℝ
  | none => skyStar h w new.psf A' B' X Y 1
  | some _ => ⟨h, w, fun _ _ => 0⟩

/-- A star that does not change: its flux is the zero point of each exposure. -/
def chainConstant (h w : ℕ) {n : ℕ} (d : Fin n → SinglePsf) (ψ : Fin n → Img ℝ) (A B : Fin n → ℤ) (new : SubImg) (A' B' : ℤ)
    (zn : ℝ) (X Y : ℤ) : Option (Fin n) → Img ℝ
  | none => skyStar h w new.psf A' B' X Y zn
  | some m => skyStar h w (ψ m) (A m) (B m) X Y (d m).zp

/-- The statistic does not respond to stars that do not change. -/
def IgnoresUnchanged (h w : ℕ) {n : ℕ} (d : Fin n → SinglePsf) (ψ : Fin n → Img ℝ) (A B : Fin n → ℤ) (new : SubImg)
    (A' B' : ℤ) (zn : ℝ) (g : Option (Fin n) → ℕ → ℕ → ℂ) : Prop :=
  ∀ X Y : ℤ, linResp h w g (chainConstant h w d ψ A B new A' B' zn X Y) = 0

/-- The transform of the weights a statistic gives to an exposure. -/
noncomputable def weightHat (h w : ℕ) (g : ℕ → ℕ → ℂ) (k l : ℕ) : ℂ :=
  (fftOrtho ⟨h, w, fun a b => (starRingEnd ℂ) (g a b)⟩).px k l

omit hn hp hp' hb hc hr hpow ho hpsf hcom gr hA' hzn hmr hmn hz hf hx hy in
/-- In the frequency domain a statistic that ignores unchanged stars balances its parts. -/
theorem unchanged_hat (g : Option (Fin n) → ℕ → ℕ → ℂ) (hg : IgnoresUnchanged h w d ψ A B new A' B' zn g)
    (k l : ℕ) (hk : k < h) (hl : l < w) :
    zn * new.psfHat.px k l * shiftPhase h w (((-A' : ℤ) : ℝ), ((-B' : ℤ) : ℝ)) k l *
        (starRingEnd ℂ) (weightHat h w (g none) k l) +
      ∑ m, (d m).zp * (d m).psfHat.px k l * shiftPhase h w (((-A m : ℤ) : ℝ), ((-B m : ℤ) : ℝ)) k l *
        (starRingEnd ℂ) (weightHat h w (g (some m)) k l) = 0 := by
  have nh : new.interped.h = h := congrArg Prod.fst hnw
  have nw : new.interped.w = w := congrArg Prod.snd hnw
  refine dft_injective h w (fun k l =>
    zn * new.psfHat.px k l * shiftPhase h w (((-A' : ℤ) : ℝ), ((-B' : ℤ) : ℝ)) k l *
        (starRingEnd ℂ) (weightHat h w (g none) k l) +
      ∑ m, (d m).zp * (d m).psfHat.px k l * shiftPhase h w (((-A m : ℤ) : ℝ), ((-B m : ℤ) : ℝ)) k l *
        (starRingEnd ℂ) (weightHat h w (g (some m)) k l)) ?_ k l hk hl
  intro X _ Y _
  have z := hg X Y
  unfold linResp at z
  rw [Fintype.sum_option] at z
  simp only [chainConstant] at z
  simp only [weighted_hat h w _ (skyStar _ _ _ _ _ _ _ _) ⟨rfl, rfl⟩] at z
  rw [Finset.sum_comm (s := univ), ← Finset.sum_add_distrib] at z
  change ∑ k ∈ range h, ∑ l ∈ range w, _ * (tw h ((X : ℝ) * k) * tw w ((Y : ℝ) * l)) = 0
  rw [← z]
  refine Finset.sum_congr rfl fun k hk => ?_
  rw [Finset.sum_comm (s := univ), ← Finset.sum_add_distrib]
  refine Finset.sum_congr rfl fun l hl => ?_
  have hpsf : ∀ m, (fftOrtho (padTo h w (toC (ψ m)))).px k l = (d m).psfHat.px k l := by
    intro m
    unfold SinglePsf.psfHat
    rw [(hs m).1, (hs m).2.1, hψ m]
  have sp : ∀ U V : ℤ, shiftPhase h w ((((X : ℤ) - U : ℤ) : ℝ), (((Y : ℤ) - V : ℤ) : ℝ)) k l =
      shiftPhase h w (((-U : ℤ) : ℝ), ((-V : ℤ) : ℝ)) k l * (tw h ((X : ℝ) * k) * tw w ((Y : ℝ) * l)) := by
    intro U V
    have s := shiftPhase_add h w (((X : ℤ) : ℝ), ((Y : ℤ) : ℝ)) (((-U : ℤ) : ℝ), ((-V : ℤ) : ℝ)) k l
    have i0 := shiftPhase_int h w hh hw (X : ℤ) (Y : ℤ) k l
    rw [mul_comm (k : ℝ), mul_comm (l : ℝ)] at i0
    rw [i0, Int.cast_natCast, Int.cast_natCast] at s
    rw [mul_comm, ← s]
    congr 2
    · push_cast; ring
    · push_cast; ring
  simp only [fftOrtho_skyStar h w hh hw, hpsf, sp, ← psfHat_idle new h w nh nw gn k l (mem_range.1 hk) (mem_range.1 hl)]
  rw [add_mul, Finset.sum_mul]
  unfold weightHat
  congr 1
  · ring
  · exact Finset.sum_congr rfl fun m _ => by ring

include hvar in
omit hx hy hmr hmn hz hf hA' hcom hc in
/-- No statistic of all exposures that ignores unchanged stars reaches more than this. -/
theorem unchanged_bound (hv : ∀ m, (d m).var ≠ 0) (hz0 : zn ≠ 0) (g : Option (Fin n) → ℕ → ℕ → ℂ)
    (hg : IgnoresUnchanged h w d ψ A B new A' B' zn g) (X Y : ℤ) :
    normSq (linResp h w g (chainNew h w new A' B' X Y)) ≤ linNoise h w (chainSigma d new) g *
      ∑ k ∈ range h, ∑ l ∈ range w,
        normSq (ref.psfHat.px k l) * normSq (new.psfHat.px k l) / normReal ref new (z.2 / z.1) k l := by
  have nh : new.interped.h = h := congrArg Prod.fst hnw
  have nw : new.interped.w = w := congrArg Prod.snd hnw
  have N0 : (0 : ℝ) < ((h * w : ℕ) : ℝ) := by exact_mod_cast Nat.mul_pos (by omega) (by omega)
  have rv : ref.var ^ 2 = 1 / ((h * w : ℕ) : ℝ) := by
    rw [hvar, div_pow, one_pow, Real.sq_sqrt N0.le]
  have F0 := powerAt_pos d h w hpow 0 0 (by omega) (by omega)
  have noise : linNoise h w (chainSigma d new) g = ∑ c ∈ range h ×ˢ range w,
      (new.var ^ 2 * normSq (weightHat h w (g none) c.1 c.2) +
        ∑ m, (d m).var ^ 2 * normSq (weightHat h w (g (some m)) c.1 c.2)) := by
    have p : ∀ q : ℕ → ℕ → ℂ, ∑ c ∈ range h ×ˢ range w, normSq (weightHat h w q c.1 c.2) =
        ∑ a ∈ range h, ∑ b ∈ range w, normSq (q a b) := by
      intro q
      rw [Finset.sum_product]
      unfold weightHat
      rw [fftOrtho_power]
      simp only [normSq_conj]
    rw [Finset.sum_add_distrib, Finset.sum_comm (t := univ)]
    simp only [← Finset.mul_sum, p]
    unfold linNoise
    rw [Fintype.sum_option]
    simp only [chainSigma, Finset.mul_sum]
  have resp : linResp h w g (chainNew h w new A' B' X Y) = ∑ c ∈ range h ×ˢ range w,
      new.psfHat.px c.1 c.2 * shiftPhase h w (((X - A' : ℤ) : ℝ), ((Y - B' : ℤ) : ℝ)) c.1 c.2 *
        (starRingEnd ℂ) (weightHat h w (g none) c.1 c.2) := by
    unfold linResp
    rw [Fintype.sum_option, Finset.sum_product]
    simp only [chainNew, Complex.ofReal_zero, mul_zero, Finset.sum_const_zero, add_zero]
    rw [weighted_hat h w _ _ ⟨rfl, rfl⟩]
    refine Finset.sum_congr rfl fun k hk => Finset.sum_congr rfl fun l hl => ?_
    rw [fftOrtho_skyStar h w hh hw, ← psfHat_idle new h w nh nw gn k l (mem_range.1 hk) (mem_range.1 hl)]
    unfold weightHat
    push_cast
    ring
  rw [noise, resp, ← Finset.sum_product (s := range h) (t := range w)
    (f := fun c => normSq (ref.psfHat.px c.1 c.2) * normSq (new.psfHat.px c.1 c.2) / normReal ref new (z.2 / z.1) c.1 c.2)]
  have npos : ∀ k l, 0 < normReal ref new (z.2 / z.1) k l := by
    intro k l
    have rv0 : ref.var ≠ 0 := by
      rw [hvar]
      exact (one_div_pos.2 (Real.sqrt_pos.2 N0)).ne'
    obtain ⟨_, _, r, hr, hr'⟩ := subtract_norm_pos ref new (z.2 / z.1) k l
      (Or.inr ⟨rv0, by rw [hzn]; exact div_ne_zero hz0 (Real.sqrt_pos.2 F0).ne'⟩)
    rw [normHat_eq] at hr'
    have hr2 : normReal ref new (z.2 / z.1) k l = r := by exact_mod_cast hr'
    rw [hr2]
    exact hr
  refine response_bound _ _ _ _ (fun c _ => ?_) (fun c _ => ?_) (fun c hc => ?_)
  · exact add_nonneg (mul_nonneg (sq_nonneg _) (normSq_nonneg _))
      (Finset.sum_nonneg fun m _ => mul_nonneg (sq_nonneg _) (normSq_nonneg _))
  · exact div_nonneg (mul_nonneg (normSq_nonneg _) (normSq_nonneg _)) (npos _ _).le
  · rw [Finset.mem_product] at hc
    have hk := mem_range.1 hc.1
    have hl := mem_range.1 hc.2
    have u := unchanged_hat d h w hs ψ hψ A B new hnw hh hw gn A' B' zn g hg c.1 c.2 hk hl
    have pos := powerAt_pos d h w hpow c.1 c.2 hk hl
    set G := weightHat h w (g none) c.1 c.2
    set S := ∑ m, (d m).var ^ 2 * normSq (weightHat h w (g (some m)) c.1 c.2) with hS
    have cs : zn ^ 2 * normSq (new.psfHat.px c.1 c.2) * normSq G ≤ S * powerAt d c.1 c.2 := by
      have u3 := congrArg normSq (eq_neg_of_add_eq_zero_left u)
      rw [normSq_neg] at u3
      simp only [normSq_mul, normSq_shiftPhase, normSq_conj, normSq_ofReal, mul_one] at u3
      rw [pow_two, u3]
      refine response_bound univ _ _ _ (fun m _ => mul_nonneg (sq_nonneg _) (normSq_nonneg _))
        (fun m _ => mul_nonneg (by positivity) (normSq_nonneg _)) (fun m _ => ?_)
      simp only [normSq_mul, normSq_shiftPhase, normSq_conj, normSq_ofReal, mul_one]
      have := hv m
      refine le_of_eq ?_
      field_simp
    have np := npos c.1 c.2
    rw [normSq_mul, normSq_mul, normSq_shiftPhase, normSq_conj, mul_one, ← mul_div_assoc, le_div_iff₀ np]
    have rn : normSq (ref.psfHat.px c.1 c.2) = powerAt d c.1 c.2 / powerAt d 0 0 / ((h * w : ℕ) : ℝ) := by
      rw [chain_ref_hat lt hn d h w psfShape procs hs hp hp' hb ψ hψ ref hr hpow out ho hpsf gr c.1 c.2 hk hl,
        normSq_mul, normSq_shiftPhase, mul_one, normSq_ofReal, ← pow_two, div_pow, div_pow, Real.sq_sqrt pos.le,
        Real.sq_sqrt F0.le, Real.sq_sqrt N0.le]
    unfold normReal
    rw [rn, hzn, rv, div_pow, Real.sq_sqrt F0.le]
    have nn := normSq_nonneg (new.psfHat.px c.1 c.2)
    generalize normSq (new.psfHat.px c.1 c.2) = v at *
    generalize normSq G = γ at *
    generalize powerAt d c.1 c.2 = P at *
    generalize powerAt d 0 0 = Q at *
    generalize ((h * w : ℕ) : ℝ) = N at *
    have e : (new.var ^ 2 * γ + S) * (P / Q / N * v) - v * γ * (new.var ^ 2 * (P / Q / N) + zn ^ 2 / Q * (1 / N) * v) =
        v / Q / N * (S * P - zn ^ 2 * v * γ) := by
      field_simp
      ring
    have f : 0 ≤ v / Q / N * (S * P - zn ^ 2 * v * γ) :=
      mul_nonneg (div_nonneg (div_nonneg nn F0.le) N0.le) (sub_nonneg.2 cs)
    linarith

include hvar

/-- C177: subtracting a coadd loses nothing. Sum the difference against the PSF image that `subtract` returns, centred on a
star at `(X, Y)`. This statistic of all pixels of all exposures ignores the stars that do not change, and among all linear
statistics of all exposures that do so it has the largest ratio of response, to a star in the new image only, to noise. -/
theorem chain_optimal (hv : ∀ m, (d m).var ≠ 0) (hz0 : zn ≠ 0) (X Y : ℤ) :
    ∃ sub, subtract env ⟨false, false, it⟩ ref new = .ok sub ∧
      ∀ T, T = pixelWeights h w
          (fun i j => (sub.P.px (((i : ℤ) - (X - A' - psfShape)) % h).toNat
            (((j : ℤ) - (Y - B' - psfShape)) % w).toNat : ℂ))
          (respChain env ⟨false, false, it⟩ lt d psfShape procs ref new x y) →
        IgnoresUnchanged h w d ψ A B new A' B' zn T ∧
        0 < linNoise h w (chainSigma d new) T ∧
        ∀ g, IgnoresUnchanged h w d ψ A B new A' B' zn g →
          normSq (linResp h w g (chainNew h w new A' B' X Y)) * linNoise h w (chainSigma d new) T ≤
            normSq (linResp h w T (chainNew h w new A' B' X Y)) * linNoise h w (chainSigma d new) g := by
  have N0 : (0 : ℝ) < ((h * w : ℕ) : ℝ) := by exact_mod_cast Nat.mul_pos (by omega) (by omega)
  have rv0 : ref.var ≠ 0 := by
    rw [hvar]
    exact (one_div_pos.2 (Real.sqrt_pos.2 N0)).ne'
  have F0 := powerAt_pos d h w hpow 0 0 (by omega) (by omega)
  have b0 : z.2 / z.1 ≠ 0 := by rw [hzn]; exact div_ne_zero hz0 (Real.sqrt_pos.2 F0).ne'
  obtain ⟨sub, e, k⟩ := subtract_snr env it ref new h w z hmr hmn hz hf hr hnw hh hw gr gn psfShape psfShape A' B'
    (by rw [hcom, Int.cast_natCast]) hA' b0 (Or.inl rv0) X Y
  refine ⟨sub, e, fun T hT => ?_⟩
  obtain ⟨_, pos, eq⟩ := k _ rfl
  have rc := fun m i j a ha b hb' => respChain_eq lt hn d h w psfShape procs hs hp hp' hb ψ hψ A B hc env it ref new z hmr hmn
    hz hf hr hnw x hx y hy m i j a b ha hb'
  have rp := fun i j a ha b hb' => resp_eq env it ref new h w z hmr hmn hz hf hr hnw i j a b ha hb'
  set q : ℕ → ℕ → ℂ := fun i j => (sub.P.px (((i : ℤ) - (X - A' - psfShape)) % h).toNat
    (((j : ℤ) - (Y - B' - psfShape)) % w).toNat : ℂ) with hq
  have noise : linNoise h w (chainSigma d new) T =
      linNoise h w (pairSigma ref new) (pixelWeights h w q (pairResp env ⟨false, false, it⟩ ref new)) := by
    rw [hT, linNoise_pixels h w (chainSigma d new) q _ 1, linNoise_pixels h w (pairSigma ref new) q _ 1]
    · intro i hi j hj i' hi' j' hj'
      have wn := subtract_noise_white env it ref new h w z hmr hmn hz hf hr hnw (Or.inr ⟨rv0, b0⟩) i j i' j' hi hj hi' hj'
      rw [Complex.ofReal_one, ← wn, Fintype.sum_bool]
      unfold pairSigma pairResp
      simp only [if_true, Bool.false_eq_true, if_false, Finset.sum_add_distrib, ← Finset.mul_sum]
    · intro i hi j hj i' hi' j' hj'
      rw [Complex.ofReal_one]
      exact chain_noise_white lt hn d h w psfShape procs hs hp hp' hb ψ hψ A B hc env it ref new z hr hnw hh hw hpow hvar
        zn hzn hmr hmn hz hf x hx y hy hv hz0 i j i' j' hi hj hi' hj'
  have resp : linResp h w T (chainNew h w new A' B' X Y) =
      linResp h w (pixelWeights h w q (pairResp env ⟨false, false, it⟩ ref new)) (newStar h w new A' B' X Y) := by
    rw [hT, linResp_pixels, linResp_pixels]
    refine Finset.sum_congr rfl fun i _ => Finset.sum_congr rfl fun j _ => ?_
    congr 1
    rw [Fintype.sum_option, Fintype.sum_bool]
    simp only [chainNew, newStar, pairResp, if_true, Bool.false_eq_true, if_false, Complex.ofReal_zero, zero_mul,
      Finset.sum_const_zero, add_zero]
    refine Finset.sum_congr rfl fun a ha => Finset.sum_congr rfl fun b hb' => ?_
    rw [rc none i j a (mem_range.1 ha) b (mem_range.1 hb'), (rp i j a (mem_range.1 ha) b (mem_range.1 hb')).1]
    rfl
  refine ⟨?_, by rw [noise]; exact pos, fun g hg => ?_⟩
  · intro U V
    rw [hT, linResp_pixels]
    refine Finset.sum_eq_zero fun i _ => Finset.sum_eq_zero fun j _ => ?_
    have f : ∀ (m : Option (Fin n)) (s : Img ℝ), s.h = h → s.w = w →
        ∑ a ∈ range h, ∑ b ∈ range w, (s.px a b : ℂ) *
            respChain env ⟨false, false, it⟩ lt d psfShape procs ref new x y m i j a b =
          (ifftOrtho ⟨h, w, fun k l => gainChain d h w ref new (z.2 / z.1) m k l * (fftOrtho (toC s)).px k l⟩).px i j := by
      intro m s h1 h2
      rw [Finset.sum_congr rfl fun a ha => Finset.sum_congr rfl fun b hb' => by
        rw [rc m i j a (mem_range.1 ha) b (mem_range.1 hb')]]
      subst h1 h2
      exact (filter_eq (toC s) _ i j).symm
    rw [Fintype.sum_option]
    simp only [chainConstant, f _ (skyStar _ _ _ _ _ _ _ _) rfl rfl]
    rw [← ifftOrtho_sum, ← ifftOrtho_add, ifftOrtho_congr h w _ (fun _ _ => 0 * 0), ifftOrtho_const_mul, zero_mul, mul_zero]
    intro k hk l hl
    rw [mul_zero]
    exact chain_star_zero lt hn d h w psfShape procs hs hp hp' hb ψ hψ A B hc ref new z hr hnw hh hw hpow out ho hpsf
      hcom gr gn A' B' hA' zn hzn U V k l hk hl
  · have bd := unchanged_bound lt hn d h w psfShape procs hs hp hp' hb ψ hψ A B ref new z hr hnw hh hw hpow out ho hpsf
      hvar gr gn A' B' zn hzn hv hz0 g hg X Y
    rw [noise, resp, eq]
    calc _ ≤ _ := mul_le_mul_of_nonneg_right bd pos.le
      _ = _ := by ring

end
end

/-! ## Which coadds qualify -/

/-- On a frame with an odd number of rows and of columns the PSF image of a coadd passes the guard. -/
theorem coadd_guard_idle (lt : List CoImg → List CoImg → Option Bool) {n : ℕ} (hn : 0 < n)
    (d : Fin n → SinglePsf) (h w psfShape : ℕ) (procs : ℤ)
    (hs : ∀ j, (d j).interped.h = h ∧ (d j).interped.w = w ∧ (d j).mask.HasShape h w)
    (hp : procs ≤ n) (hp' : procs ≤ 2 ^ 25) (hb : procs * n ≤ 2 ^ 50)
    (ψ : Fin n → Img ℝ) (hψ : ∀ m, (d m).psf = toC (ψ m))
    (hpow : ∀ k < h, ∀ l < w, powerAt d k l ≠ 0) (out : CoaddOut)
    (ho : coaddCore lt ((List.ofFn d).map SinglePsf.toCoImg) psfShape procs = .ok out)
    (oh : h % 2 = 1) (ow : w % 2 = 1) : GuardIdle h w (out.Pr.map re) := by
  intro k hk l hl
  have hh : h ≠ 0 := by omega
  have hw : w ≠ 0 := by omega
  rw [coadd_psf_transform lt hn d h w psfShape procs hs hp hp' hb ψ hψ hpow out ho k l hk hl, re_ofReal_mul]
  have N0 : (0 : ℝ) < ((h * w : ℕ) : ℝ) := by exact_mod_cast Nat.mul_pos (by omega) (by omega)
  refine mul_ne_zero ?_ ?_
  · exact div_ne_zero (div_ne_zero (Real.sqrt_pos.2 (powerAt_pos d h w hpow k l hk hl)).ne'
      (Real.sqrt_pos.2 (powerAt_pos d h w hpow 0 0 (by omega) (by omega))).ne') (Real.sqrt_pos.2 N0).ne'
  · have i0 := shiftPhase_int h w hh hw (psfShape : ℤ) (psfShape : ℤ) k l
    rw [Int.cast_natCast] at i0
    rw [i0]
    unfold tw
    rw [← Complex.exp_add, ← add_mul, ← Complex.ofReal_add, Complex.exp_ofReal_mul_I_re]
    intro c
    rw [Real.cos_eq_zero_iff] at c
    obtain ⟨m, hm⟩ := c
    have hR : (h : ℝ) ≠ 0 := by exact_mod_cast hh
    have wR : (w : ℝ) ≠ 0 := by exact_mod_cast hw
    have pi0 := Real.pi_ne_zero
    field_simp at hm
    have hm' : -(4 * ((k : ℝ) * psfShape * w + l * psfShape * h)) = h * w * (2 * m + 1) := by linarith
    have hz : -(4 * ((k : ℤ) * psfShape * w + l * psfShape * h)) = h * w * (2 * m + 1) := by exact_mod_cast hm'
    have o : (h * w) % 2 = 1 := by rw [Nat.mul_mod, oh, ow]
    obtain ⟨u, hu⟩ : ∃ u, h * w = 2 * u + 1 := ⟨h * w / 2, by omega⟩
    have hu' : (h : ℤ) * w = 2 * u + 1 := by exact_mod_cast hu
    rw [hu'] at hz
    have : (2 * (u : ℤ) + 1) * (2 * m + 1) = 2 * (2 * u * m + u + m) + 1 := by ring
    omega

/-- On a frame of `2 * psfShape + 1` rows and columns the PSF image of a coadd has its centre of mass at the middle. -/
theorem coadd_psf_centred (lt : List CoImg → List CoImg → Option Bool) {n : ℕ} (hn : 0 < n)
    (d : Fin n → SinglePsf) (psfShape : ℕ) (procs : ℤ)
    (hs : ∀ j, (d j).interped.h = 2 * psfShape + 1 ∧ (d j).interped.w = 2 * psfShape + 1 ∧
      (d j).mask.HasShape (2 * psfShape + 1) (2 * psfShape + 1))
    (hp : procs ≤ n) (hp' : procs ≤ 2 ^ 25) (hb : procs * n ≤ 2 ^ 50) (hpow : powerAt d 0 0 ≠ 0) (out : CoaddOut)
    (ho : coaddCore lt ((List.ofFn d).map SinglePsf.toCoImg) psfShape procs = .ok out) :
    centerOfMass (out.Pr.map re) = ((psfShape : ℝ), (psfShape : ℝ)) := by
  obtain ⟨out', e, ph, pw, f, one⟩ := coadd_returns_psf lt hn d (2 * psfShape + 1) (2 * psfShape + 1) psfShape procs
    (by omega) (by omega) hs hp hp' hb
  rw [ho] at e
  obtain rfl : out = out' := by injection e
  have one' := congrArg re (one hpow)
  simp only [re_sum, one_re] at one'
  set N := 2 * psfShape + 1 with hN
  have N0 : N ≠ 0 := by omega
  have ax : ∀ (k i : ℕ), i < N → tw N (-((k : ℝ) * (((((2 * psfShape - i : ℕ) : ℤ) - psfShape) % N).toNat : ℕ))) =
      (starRingEnd ℂ) (tw N (-((k : ℝ) * ((((i : ℤ) - psfShape) % N).toNat : ℕ)))) := by
    intro k i hi
    have cast : ((2 * psfShape - i : ℕ) : ℤ) - psfShape = -((i : ℤ) - psfShape) := by omega
    rw [conj_tw, neg_neg, cast, tw_emod N N0]
    have c := congrArg (starRingEnd ℂ) (tw_emod N N0 k (-((i : ℤ) - psfShape)))
    rw [conj_tw, conj_tw] at c
    rw [c]
    congr 1
    push_cast
    ring
  have symm : ∀ i < N, ∀ j < N, (out.Pr.px (2 * psfShape - i) (2 * psfShape - j)).re = (out.Pr.px i j).re := by
    intro i hi j hj
    rw [f i hi j hj, f _ (by omega) _ (by omega), ← conj_re]
    congr 1
    rw [map_div₀, map_div₀, conj_ofReal, map_natCast, map_sum]
    congr 2
    refine Finset.sum_congr rfl fun k _ => ?_
    rw [map_sum]
    refine Finset.sum_congr rfl fun l _ => ?_
    rw [map_mul, map_mul, conj_ofReal, ax k i hi, ax l j hj, conj_conj, conj_conj]
  have refl : ∀ g : ℕ → ℕ → ℝ, ∑ i ∈ range N, ∑ j ∈ range N, g (2 * psfShape - i) (2 * psfShape - j) =
      ∑ i ∈ range N, ∑ j ∈ range N, g i j := by
    intro g
    have r1 := Finset.sum_range_reflect (fun i => ∑ j ∈ range N, g i j) N
    rw [← r1]
    refine Finset.sum_congr rfl fun i _ => ?_
    have r2 := Finset.sum_range_reflect (fun j => g (N - 1 - i) j) N
    rw [← r2]
    have : N - 1 = 2 * psfShape := by omega
    rw [this]
  have m1 : ∑ i ∈ range N, ∑ j ∈ range N, (i : ℝ) * (out.Pr.px i j).re = psfShape := by
    have r := refl fun i j => (i : ℝ) * (out.Pr.px i j).re
    have s : ∑ i ∈ range N, ∑ j ∈ range N, ((2 * psfShape - i : ℕ) : ℝ) *
        (out.Pr.px (2 * psfShape - i) (2 * psfShape - j)).re =
        2 * psfShape * (∑ i ∈ range N, ∑ j ∈ range N, (out.Pr.px i j).re) -
          ∑ i ∈ range N, ∑ j ∈ range N, (i : ℝ) * (out.Pr.px i j).re := by
      rw [Finset.mul_sum, ← Finset.sum_sub_distrib]
      refine Finset.sum_congr rfl fun i hi => ?_
      rw [Finset.mul_sum, ← Finset.sum_sub_distrib]
      refine Finset.sum_congr rfl fun j hj => ?_
      have := mem_range.1 hi
      rw [symm i this j (mem_range.1 hj), Nat.cast_sub (by omega)]
      push_cast
      ring
    rw [s, one'] at r
    linarith
  have m2 : ∑ i ∈ range N, ∑ j ∈ range N, (j : ℝ) * (out.Pr.px i j).re = psfShape := by
    have r := refl fun i j => (j : ℝ) * (out.Pr.px i j).re
    have s : ∑ i ∈ range N, ∑ j ∈ range N, ((2 * psfShape - j : ℕ) : ℝ) *
        (out.Pr.px (2 * psfShape - i) (2 * psfShape - j)).re =
        2 * psfShape * (∑ i ∈ range N, ∑ j ∈ range N, (out.Pr.px i j).re) -
          ∑ i ∈ range N, ∑ j ∈ range N, (j : ℝ) * (out.Pr.px i j).re := by
      rw [Finset.mul_sum, ← Finset.sum_sub_distrib]
      refine Finset.sum_congr rfl fun i hi => ?_
      rw [Finset.mul_sum, ← Finset.sum_sub_distrib]
      refine Finset.sum_congr rfl fun j hj => ?_
      have := mem_range.1 hj
      rw [symm i (mem_range.1 hi) j this, Nat.cast_sub (by omega)]
      push_cast
      ring
    rw [s, one'] at r
    linarith
  unfold centerOfMass rsum
  simp only [Img.map, ph, pw]
  rw [one', m1, m2, div_one]

/-! ## Worked instance -/

/-- Two exposures of 3×3 pixels with one-pixel PSFs, zero points 1 and 2 and noise 2. -/
noncomputable def demoNight (m : Fin 2) : SinglePsf where
  interped := ⟨3, 3, fun i j => (i : ℂ) + 10 * j⟩
  psf := ⟨1, 1, fun _ _ => 1⟩
  com := (0, 0)
  zp := (m : ℝ) + 1
  var := 2
  mask := none

/-- The new image. -/
noncomputable def demoTonight : SubImg where
  interped := ⟨3, 3, fun i _ => i⟩
  mask := none
  filled := ⟨3, 3, fun i _ => i⟩
  psf := ⟨1, 1, fun _ _ => 1⟩
  var := 1

theorem demoNight_power (k l : ℕ) : 0 < powerAt demoNight k l := by
  unfold powerAt zackayPower
  have e : ∀ m, (demoNight m).psfHat.px k l = _ := fun m =>
    psfHat_delta (demoNight m) rfl k l (by simp [demoNight]) (by simp [demoNight])
  refine Finset.sum_pos (fun m _ => ?_) ⟨0, mem_univ _⟩
  simp only []
  rw [e, normSq_ofReal]
  have h9 : (0 : ℝ) < Real.sqrt (((demoNight m).interped.h * (demoNight m).interped.w : ℕ) : ℝ) :=
    Real.sqrt_pos.2 (by norm_num [demoNight])
  have z0 : (0 : ℝ) < (demoNight m).zp := by
    change (0 : ℝ) < (m : ℝ) + 1
    positivity
  have v0 : (0 : ℝ) < (demoNight m).var := by
    change (0 : ℝ) < 2
    norm_num
  positivity

/-- A star of flux one at pixel (2, 0) of the new image; the zero point of the new image is three times the flux scale of the
coadd. -/
example (lt : List CoImg → List CoImg → Option Bool) :
    ∃ out, coaddCore lt ((List.ofFn demoNight).map SinglePsf.toCoImg) 1 2 = .ok out ∧
      ∀ ref : SubImg, ref = ⟨out.R.map re, none, out.R.map re, out.Pr.map re, 1 / Real.sqrt ((3 * 3 : ℕ) : ℝ)⟩ →
        ∃ sub, subtract (tinyEnv 1 3) ⟨false, false, true⟩ ref demoTonight = .ok sub ∧
          ∀ T, T = pixelWeights 3 3
              (fun i j => (sub.P.px (((i : ℤ) - (2 - 0 - (1 : ℕ))) % (3 : ℕ)).toNat
                (((j : ℤ) - (0 - 0 - (1 : ℕ))) % (3 : ℕ)).toNat : ℂ))
              (respChain (tinyEnv 1 3) ⟨false, false, true⟩ lt demoNight 1 2 ref demoTonight
                (fun _ => ⟨3, 3, fun i j => i + 10 * j⟩) demoTonight.interped) →
            0 < linNoise 3 3 (chainSigma demoNight demoTonight) T ∧
            IgnoresUnchanged 3 3 demoNight (fun _ => ⟨1, 1, fun _ _ => 1⟩) (fun _ => 0) (fun _ => 0) demoTonight 0 0
              (3 * Real.sqrt (powerAt demoNight 0 0)) T := by
  have hs : ∀ j, (demoNight j).interped.h = 3 ∧ (demoNight j).interped.w = 3 ∧ (demoNight j).mask.HasShape 3 3 :=
    fun _ => ⟨rfl, rfl, fun a q => by cases q⟩
  have hψ : ∀ m, (demoNight m).psf = toC ⟨1, 1, fun _ _ => 1⟩ := fun _ => by simp [demoNight, toC, Img.map]
  have hpow : ∀ k < 3, ∀ l < 3, powerAt demoNight k l ≠ 0 := fun k _ l _ => (demoNight_power k l).ne'
  obtain ⟨out, e, _⟩ := coadd_returns_psf lt (by norm_num) demoNight 3 3 1 2 (by norm_num) (by norm_num) hs (by norm_num)
    (by norm_num) (by norm_num)
  obtain ⟨out2, e2, rh, rw0, _⟩ := coadd_returns_zackay lt (by norm_num) demoNight 3 3 1 2 hs (by norm_num) (by norm_num)
    (by norm_num)
  rw [e] at e2
  obtain rfl : out = out2 := by injection e2
  refine ⟨out, e, fun ref hr => ?_⟩
  have F0 := Real.sqrt_pos.2 (demoNight_power 0 0)
  have centred := coadd_psf_centred lt (by norm_num) demoNight 1 2 hs (by norm_num) (by norm_num) (by norm_num)
    (hpow 0 (by norm_num) 0 (by norm_num)) out e
  have idle := coadd_guard_idle lt (by norm_num) demoNight 3 3 1 2 hs (by norm_num) (by norm_num) (by norm_num)
    (fun _ => ⟨1, 1, fun _ _ => 1⟩) hψ hpow out e (by norm_num) (by norm_num)
  obtain ⟨sub, es, k⟩ := chain_optimal lt (by norm_num) demoNight 3 3 1 2 hs (by norm_num) (by norm_num) (by norm_num)
    (fun _ => ⟨1, 1, fun _ _ => 1⟩) hψ (fun _ => 0) (fun _ => 0) (fun _ => by simp [demoNight])
    (tinyEnv 1 3) true ref demoTonight (1, 3) (by rw [hr]; exact congrArg₂ Prod.mk rh rw0) rfl (by norm_num) (by norm_num)
    hpow out e (by rw [hr])
    (by rw [hr]; exact centred)
    (by rw [hr])
    (by rw [hr]; exact idle)
    (pixel_idle 3 3 (by norm_num) (by norm_num)) 0 0 (by simp [centerOfMass, rsum, demoTonight])
    (3 * Real.sqrt (powerAt demoNight 0 0)) (by field_simp) (by rw [hr]; intro a q; cases q) (fun a q => by cases q) rfl
    (Or.inl rfl) (fun _ => ⟨3, 3, fun i j => i + 10 * j⟩) (fun _ => ⟨rfl, rfl⟩) demoTonight.interped rfl
    (fun _ => by norm_num [demoNight]) (by positivity) 2 0
  exact ⟨sub, es, fun T hT => ⟨(k T hT).2.1, (k T hT).1⟩⟩

end PI
