import Verif.Props.CoaddSymm
import Verif.Props.VarPsfNorm

/-!
# Property C148: the normalisation of the PSFs in coadd
-/

namespace PI

open Complex Finset

/-! ## Multiplying both sums -/

theorem coaddPsf_scaled (h w psfShape : ℕ) (P P' : ℕ → ℕ → ℂ) (c : ℝ) (hc : c ≠ 0)
    (e : ∀ k l, P' k l = ((c ^ 2 : ℝ) : ℂ) * P k l) :
    coaddPsf ⟨h, w, P'⟩ psfShape = coaddPsf ⟨h, w, P⟩ psfShape := by
  have hc1 : ((|c| : ℝ) : ℂ) ≠ 0 := by exact_mod_cast abs_ne_zero.2 hc
  have r : coaddPsfRaw ⟨h, w, P'⟩ psfShape = (coaddPsfRaw ⟨h, w, P⟩ psfShape).map fun z => ((|c| : ℝ) : ℂ) * z := by
    unfold coaddPsfRaw ifftDefault
    refine congrArg (Img.mk h w) ?_
    funext i j
    change (∑ a ∈ range h, ∑ b ∈ range w, csqrt (P' a b) * shiftPhase h w _ a b *
        (tw h (-((a : ℝ) * i)) * tw w (-((b : ℝ) * j)))) / _ =
      ((|c| : ℝ) : ℂ) * ((∑ a ∈ range h, ∑ b ∈ range w, csqrt (P a b) * shiftPhase h w _ a b *
        (tw h (-((a : ℝ) * i)) * tw w (-((b : ℝ) * j)))) / _)
    rw [← mul_div_assoc, Finset.mul_sum]
    refine congrArg₂ _ ?_ rfl
    refine Finset.sum_congr rfl fun a _ => ?_
    rw [Finset.mul_sum]
    refine Finset.sum_congr rfl fun b _ => ?_
    rw [e, csqrt_scale c hc]
    ring
  have si : imSum ((coaddPsfRaw ⟨h, w, P⟩ psfShape).map fun z => ((|c| : ℝ) : ℂ) * z) =
      ((|c| : ℝ) : ℂ) * imSum (coaddPsfRaw ⟨h, w, P⟩ psfShape) := by
    unfold imSum
    rw [Finset.mul_sum]
    refine Finset.sum_congr rfl fun i _ => ?_
    rw [Finset.mul_sum]
    rfl
  unfold coaddPsf
  rw [r, si]
  refine congrArg (Img.mk h w) ?_
  funext i j
  exact mul_div_mul_left _ _ hc1

theorem coaddR_scaled (h w : ℕ) (S S' P P' : ℕ → ℕ → ℂ) (a c : ℝ) (hc : c ≠ 0)
    (eS : ∀ k l, S' k l = (a : ℂ) * S k l) (eP : ∀ k l, P' k l = ((c ^ 2 : ℝ) : ℂ) * P k l) :
    coaddR ⟨h, w, S'⟩ ⟨h, w, P'⟩ = (coaddR ⟨h, w, S⟩ ⟨h, w, P⟩).map fun z => ((a / |c| : ℝ) : ℂ) * z := by
  unfold coaddR ifftDefault
  refine congrArg (Img.mk h w) ?_
  funext i j
  change (∑ k ∈ range h, ∑ l ∈ range w, S' k l / csqrt (P' k l) * (tw h (-((k : ℝ) * i)) * tw w (-((l : ℝ) * j)))) / _ =
    ((a / |c| : ℝ) : ℂ) * ((∑ k ∈ range h, ∑ l ∈ range w, S k l / csqrt (P k l) *
      (tw h (-((k : ℝ) * i)) * tw w (-((l : ℝ) * j)))) / _)
  rw [← mul_div_assoc, Finset.mul_sum]
  refine congrArg₂ _ ?_ rfl
  refine Finset.sum_congr rfl fun k _ => ?_
  rw [Finset.mul_sum]
  refine Finset.sum_congr rfl fun l _ => ?_
  rw [eS, eP, csqrt_scale c hc, mul_div_mul_comm, ofReal_div]
  ring

/-- If the sum over the images is multiplied by `a` and the power by `c²`, the coadd is multiplied by `a / |c|` and its PSF
does not change. -/
theorem coadd_rescaled (lt lt' : List CoImg → List CoImg → Option Bool) (h w psfShape : ℕ) (imgs imgs' : List CoImg)
    (procs procs' : ℤ) (hne : imgs ≠ []) (hne' : imgs' ≠ []) (hall : AllShape imgs h w) (hall' : AllShape imgs' h w)
    (hp : procs ≤ imgs.length) (hp' : procs ≤ 2 ^ 25) (hb : procs * imgs.length ≤ 2 ^ 50)
    (hq : procs' ≤ imgs'.length) (hq' : procs' ≤ 2 ^ 25) (hb' : procs' * imgs'.length ≤ 2 ^ 50)
    (a c : ℝ) (hc : c ≠ 0) (eS : ∀ k l, specS imgs' k l = (a : ℂ) * specS imgs k l)
    (eP : ∀ k l, specP imgs' k l = ((c ^ 2 : ℝ) : ℂ) * specP imgs k l) :
    ∃ out out', coaddCore lt imgs psfShape procs = .ok out ∧ coaddCore lt' imgs' psfShape procs' = .ok out' ∧
      out'.R = out.R.map (fun z => ((a / |c| : ℝ) : ℂ) * z) ∧ out'.Pr = out.Pr ∧
      IsUnionMask h w imgs out.mask ∧ IsUnionMask h w imgs' out'.mask := by
  obtain ⟨out, e, r, m⟩ := coadd_spec lt h w imgs psfShape procs hne hall hp hp' hb
  obtain ⟨out', e', r', m'⟩ := coadd_spec lt' h w imgs' psfShape procs' hne' hall' hq hq' hb'
  refine ⟨out, out', e, e', ?_, ?_, m, m'⟩
  · have h1 : out.R = _ := congrArg Prod.fst r
    have h2 : out'.R = _ := congrArg Prod.fst r'
    rw [h1, h2]
    exact coaddR_scaled h w _ _ _ _ a c hc eS eP
  · have h1 : out.Pr = _ := congrArg Prod.snd r
    have h2 : out'.Pr = _ := congrArg Prod.snd r'
    rw [h1, h2]
    exact coaddPsf_scaled h w psfShape _ _ c hc eP

/-! ## One PSF per image -/

/-- The image object with its PSF array multiplied by `p`; the centre of mass does not change (`psfCentroid_rescale`). -/
noncomputable def SinglePsf.psfTimes (p : ℝ) (d : SinglePsf) : SinglePsf := { d with psf := d.psf.map fun z => (p : ℂ) * z }

/-- The image object with its zero point multiplied by `p`. -/
noncomputable def SinglePsf.zpTimes (p : ℝ) (d : SinglePsf) : SinglePsf := { d with zp := p * d.zp }

theorem psfTimes_hat (p : ℝ) (d : SinglePsf) (k l : ℕ) : (d.psfTimes p).psfHat.px k l = (p : ℂ) * d.psfHat.px k l := by
  refine fftOrtho_smul d.interped.h d.interped.w
    (fun a b => if a < d.psf.h ∧ b < d.psf.w then (p : ℂ) * d.psf.px a b else 0)
    (fun a b => if a < d.psf.h ∧ b < d.psf.w then d.psf.px a b else 0) (p : ℂ) (fun i j => ?_) k l
  split_ifs
  · rfl
  · rw [mul_zero]

theorem psfTimes_sHat (p : ℝ) (d : SinglePsf) (k l : ℕ) :
    (d.psfTimes p).sHatComp.px k l = (p : ℂ) * d.sHatComp.px k l ∧
    (d.zpTimes p).sHatComp.px k l = (p : ℂ) * d.sHatComp.px k l := by
  constructor
  · change ((d.zp / d.var ^ 2 : ℝ) : ℂ) * ((fftOrtho d.interped).px k l * (starRingEnd ℂ) ((d.psfTimes p).psfHat.px k l) *
        shiftPhase d.interped.h d.interped.w d.com k l) =
      p * (((d.zp / d.var ^ 2 : ℝ) : ℂ) * ((fftOrtho d.interped).px k l * (starRingEnd ℂ) (d.psfHat.px k l) *
        shiftPhase d.interped.h d.interped.w d.com k l))
    rw [psfTimes_hat, map_mul, conj_ofReal]
    ring
  · change ((p * d.zp / d.var ^ 2 : ℝ) : ℂ) * ((fftOrtho d.interped).px k l * (starRingEnd ℂ) (d.psfHat.px k l) *
        shiftPhase d.interped.h d.interped.w d.com k l) =
      p * (((d.zp / d.var ^ 2 : ℝ) : ℂ) * ((fftOrtho d.interped).px k l * (starRingEnd ℂ) (d.psfHat.px k l) *
        shiftPhase d.interped.h d.interped.w d.com k l))
    push_cast
    ring

theorem psfTimes_power (p : ℝ) (d : SinglePsf) (k l : ℕ) :
    (((d.psfTimes p).zp / (d.psfTimes p).var) ^ 2 : ℝ) * (d.psfTimes p).psfSqnorm.px k l =
      ((p ^ 2 : ℝ) : ℂ) * ((((d.zp / d.var) ^ 2 : ℝ) : ℂ) * d.psfSqnorm.px k l) ∧
    (((d.zpTimes p).zp / (d.zpTimes p).var) ^ 2 : ℝ) * (d.zpTimes p).psfSqnorm.px k l =
      ((p ^ 2 : ℝ) : ℂ) * ((((d.zp / d.var) ^ 2 : ℝ) : ℂ) * d.psfSqnorm.px k l) := by
  constructor
  · change (((d.zp / d.var) ^ 2 : ℝ) : ℂ) * ((d.psfTimes p).psfHat.px k l * (starRingEnd ℂ) ((d.psfTimes p).psfHat.px k l)) =
      ((p ^ 2 : ℝ) : ℂ) * ((((d.zp / d.var) ^ 2 : ℝ) : ℂ) * (d.psfHat.px k l * (starRingEnd ℂ) (d.psfHat.px k l)))
    rw [psfTimes_hat, map_mul, conj_ofReal]
    push_cast
    ring
  · change (((p * d.zp / d.var) ^ 2 : ℝ) : ℂ) * (d.psfHat.px k l * (starRingEnd ℂ) (d.psfHat.px k l)) =
      ((p ^ 2 : ℝ) : ℂ) * ((((d.zp / d.var) ^ 2 : ℝ) : ℂ) * (d.psfHat.px k l * (starRingEnd ℂ) (d.psfHat.px k l)))
    push_cast
    ring

/-- C148: PSFs multiplied by a factor for each image: `coadd` returns what it returns for zero points multiplied by these
factors. -/
theorem coadd_psf_is_zp (lt lt' : List CoImg → List CoImg → Option Bool) {n : ℕ} (hn : 0 < n)
    (d : Fin n → SinglePsf) (p : Fin n → ℝ) (h w psfShape : ℕ) (procs procs' : ℤ)
    (hs : ∀ j, (d j).interped.h = h ∧ (d j).interped.w = w ∧ (d j).mask.HasShape h w)
    (hp : procs ≤ n) (hp' : procs ≤ 2 ^ 25) (hb : procs * n ≤ 2 ^ 50)
    (hq : procs' ≤ n) (hq' : procs' ≤ 2 ^ 25) (hc : procs' * n ≤ 2 ^ 50) :
    ∃ out out', coaddCore lt ((List.ofFn fun m => (d m).psfTimes (p m)).map SinglePsf.toCoImg) psfShape procs = .ok out ∧
      coaddCore lt' ((List.ofFn fun m => (d m).zpTimes (p m)).map SinglePsf.toCoImg) psfShape procs' = .ok out' ∧
      out.R = out'.R ∧ out.Pr = out'.Pr ∧ (∀ i < h, ∀ j < w, out.mask.marks i j = out'.mask.marks i j) ∧
      (out.mask = none ↔ out'.mask = none) := by
  obtain ⟨out, e, eR, eP, em, en⟩ := coadd_single_spec lt hn (fun m => (d m).psfTimes (p m)) h w psfShape procs hs hp hp' hb
  obtain ⟨out', e', eR', eP', em', en'⟩ := coadd_single_spec lt' hn (fun m => (d m).zpTimes (p m)) h w psfShape procs'
    hs hq hq' hc
  have eS : specS ((List.ofFn fun m => (d m).psfTimes (p m)).map SinglePsf.toCoImg) =
      specS ((List.ofFn fun m => (d m).zpTimes (p m)).map SinglePsf.toCoImg) := by
    funext k l
    rw [specS_ofFn, specS_ofFn]
    exact Finset.sum_congr rfl fun m _ => ((psfTimes_sHat (p m) (d m) k l).1).trans (psfTimes_sHat (p m) (d m) k l).2.symm
  have eW : specP ((List.ofFn fun m => (d m).psfTimes (p m)).map SinglePsf.toCoImg) =
      specP ((List.ofFn fun m => (d m).zpTimes (p m)).map SinglePsf.toCoImg) := by
    funext k l
    rw [specP_ofFn, specP_ofFn]
    exact Finset.sum_congr rfl fun m _ => ((psfTimes_power (p m) (d m) k l).1).trans (psfTimes_power (p m) (d m) k l).2.symm
  refine ⟨out, out', e, e', ?_, ?_, fun i hi j hj => marks_agree _ _ _ _ (em i hi j hj) (em' i hi j hj) fun m => rfl, ?_⟩
  · rw [eR, eR']
    unfold coaddRhat
    rw [eS, eW]
  · rw [eP, eP', eW]
  · rw [en, en']
    rfl

/-- C148: with one factor `p` for all images the PSF of the coadd does not change, and the coadd does not change either if the
factor is positive; a negative factor changes its sign. -/
theorem coadd_psf_common (lt lt' : List CoImg → List CoImg → Option Bool) {n : ℕ} (hn : 0 < n)
    (d : Fin n → SinglePsf) (p : ℝ) (hp0 : p ≠ 0) (h w psfShape : ℕ) (procs procs' : ℤ)
    (hs : ∀ j, (d j).interped.h = h ∧ (d j).interped.w = w ∧ (d j).mask.HasShape h w)
    (hp : procs ≤ n) (hp' : procs ≤ 2 ^ 25) (hb : procs * n ≤ 2 ^ 50)
    (hq : procs' ≤ n) (hq' : procs' ≤ 2 ^ 25) (hc : procs' * n ≤ 2 ^ 50) :
    ∃ out out', coaddCore lt ((List.ofFn d).map SinglePsf.toCoImg) psfShape procs = .ok out ∧
      coaddCore lt' ((List.ofFn fun m => (d m).psfTimes p).map SinglePsf.toCoImg) psfShape procs' = .ok out' ∧
      (0 < p → ∀ i j, out'.R.px i j = out.R.px i j) ∧ (p < 0 → ∀ i j, out'.R.px i j = -out.R.px i j) ∧
      out'.Pr = out.Pr := by
  have ne : ∀ f : Fin n → SinglePsf, (List.ofFn f).map SinglePsf.toCoImg ≠ [] := by
    intro f q
    have := congrArg List.length q
    simp at this
    omega
  obtain ⟨out, out', e, e', eR, eP, -, -⟩ := coadd_rescaled lt lt' h w psfShape ((List.ofFn d).map SinglePsf.toCoImg)
    ((List.ofFn fun m => (d m).psfTimes p).map SinglePsf.toCoImg) procs procs' (ne d) (ne _)
    (allShape_single d h w hs) (allShape_single (fun m => (d m).psfTimes p) h w hs) (by simpa using hp) hp'
    (by simpa using hb) (by simpa using hq) hq' (by simpa using hc) p p hp0
    (fun k l => by
      rw [specS_ofFn, specS_ofFn, Finset.mul_sum]
      exact Finset.sum_congr rfl fun m _ => (psfTimes_sHat p (d m) k l).1)
    (fun k l => by
      rw [specP_ofFn, specP_ofFn, Finset.mul_sum]
      exact Finset.sum_congr rfl fun m _ => (psfTimes_power p (d m) k l).1)
  refine ⟨out, out', e, e', fun h0 i j => ?_, fun h0 i j => ?_, eP⟩
  · rw [eR]
    change ((p / |p| : ℝ) : ℂ) * out.R.px i j = _
    rw [abs_of_pos h0, div_self hp0, ofReal_one, one_mul]
  · rw [eR]
    change ((p / |p| : ℝ) : ℂ) * out.R.px i j = _
    rw [abs_of_neg h0, div_neg, div_self hp0, ofReal_neg, ofReal_one, neg_one_mul]

/-! ## PSFs of one pixel -/

/-- C148: for images whose PSFs are one pixel of value 1 the coadd is, pixel by pixel, the sum of the images weighted with
zero point over noise squared, divided by the root of the summed squares of zero point over noise and by the root of the
number of pixels. -/
theorem coadd_point_mean (lt : List CoImg → List CoImg → Option Bool) {n : ℕ} (hn : 0 < n) (d : Fin n → SinglePsf)
    (h w psfShape : ℕ) (procs : ℤ) (hs : ∀ j, (d j).interped.h = h ∧ (d j).interped.w = w ∧ (d j).mask.HasShape h w)
    (hp : procs ≤ n) (hp' : procs ≤ 2 ^ 25) (hb : procs * n ≤ 2 ^ 50)
    (hd : ∀ m, (d m).psf = ⟨1, 1, fun _ _ => 1⟩) (hcom : ∀ m, (d m).com = (0, 0))
    (hz : ∃ m, (d m).zp / (d m).var ≠ 0) :
    ∃ out, coaddCore lt ((List.ofFn d).map SinglePsf.toCoImg) psfShape procs = .ok out ∧
      ∀ i < h, ∀ j < w, out.R.px i j = (∑ m, (((d m).zp / (d m).var ^ 2 : ℝ) : ℂ) * (d m).interped.px i j) /
        ((Real.sqrt (∑ m, ((d m).zp / (d m).var) ^ 2) * Real.sqrt ((h * w : ℕ) : ℝ) : ℝ) : ℂ) := by
  obtain ⟨out, e, eR, -, -, -⟩ := coadd_single_spec lt hn d h w psfShape procs hs hp hp' hb
  refine ⟨out, e, fun i hi j hj => ?_⟩
  have h0 : h ≠ 0 := by omega
  have w0 : w ≠ 0 := by omega
  have hpos : (0 : ℝ) < ((h * w : ℕ) : ℝ) := by exact_mod_cast Nat.mul_pos (Nat.pos_of_ne_zero h0) (Nat.pos_of_ne_zero w0)
  set s : ℝ := Real.sqrt ((h * w : ℕ) : ℝ) with hsd
  have hs0 : 0 < s := Real.sqrt_pos.2 hpos
  set W : ℝ := Real.sqrt (∑ m, ((d m).zp / (d m).var) ^ 2) with hW
  have hsum : 0 < ∑ m, ((d m).zp / (d m).var) ^ 2 := by
    obtain ⟨m, hm⟩ := hz
    exact Finset.sum_pos' (fun _ _ => sq_nonneg _) ⟨m, Finset.mem_univ m, by positivity⟩
  have hW0 : 0 < W := Real.sqrt_pos.2 hsum
  have hat : ∀ m k l, (d m).psfHat.px k l = ((s⁻¹ : ℝ) : ℂ) := by
    intro m k l
    have := psfHat_delta (d m) (hd m) k l (by rw [(hs m).1]; exact h0) (by rw [(hs m).2.1]; exact w0)
    rw [(hs m).1, (hs m).2.1] at this
    exact this
  let y : Img ℂ := ⟨h, w, fun i j => ∑ m, (((d m).zp / (d m).var ^ 2 : ℝ) : ℂ) * (d m).interped.px i j⟩
  have hy : ∀ k l, (dft y).px k l = ∑ m, (((d m).zp / (d m).var ^ 2 : ℝ) : ℂ) * (dft (d m).interped).px k l := by
    intro k l
    change ∑ i ∈ range h, ∑ j ∈ range w, (∑ m, (((d m).zp / (d m).var ^ 2 : ℝ) : ℂ) * (d m).interped.px i j) *
      (tw h ((k : ℝ) * i) * tw w ((l : ℝ) * j)) = _
    have : ∀ m, (dft (d m).interped).px k l = ∑ i ∈ range h, ∑ j ∈ range w, (d m).interped.px i j *
        (tw h ((k : ℝ) * i) * tw w ((l : ℝ) * j)) := by
      intro m
      rw [← (hs m).1, ← (hs m).2.1]
      rfl
    simp only [this, Finset.mul_sum, Finset.sum_mul]
    refine Eq.trans ?_ Finset.sum_comm
    refine Finset.sum_congr rfl fun i _ => ?_
    rw [Finset.sum_comm]
    exact Finset.sum_congr rfl fun j _ => Finset.sum_congr rfl fun m _ => by ring
  have hR : ∀ k l, coaddRhat ((List.ofFn d).map SinglePsf.toCoImg) k l = (dft y).px k l / ((s : ℂ) * (W : ℂ)) := by
    intro k l
    have h1 : specS ((List.ofFn d).map SinglePsf.toCoImg) k l = (dft y).px k l / (s : ℂ) * ((s⁻¹ : ℝ) : ℂ) := by
      rw [specS_ofFn, hy, Finset.sum_div, Finset.sum_mul]
      refine Finset.sum_congr rfl fun m _ => ?_
      change (((d m).zp / (d m).var ^ 2 : ℝ) : ℂ) * ((fftOrtho (d m).interped).px k l *
        (starRingEnd ℂ) ((d m).psfHat.px k l) * shiftPhase (d m).interped.h (d m).interped.w (d m).com k l) = _
      have hph : shiftPhase (d m).interped.h (d m).interped.w (d m).com k l = 1 := by
        rw [hcom]; simp [shiftPhase, tw_zero]
      have hf : (fftOrtho (d m).interped).px k l = (dft (d m).interped).px k l / (s : ℂ) := by
        rw [hsd, ← (hs m).1, ← (hs m).2.1]
        rfl
      rw [hph, hat, hf, conj_ofReal]
      ring
    have h2 : specP ((List.ofFn d).map SinglePsf.toCoImg) k l = (((W * s⁻¹) ^ 2 : ℝ) : ℂ) * 1 := by
      rw [specP_ofFn]
      have : ∀ m, (d m).psfSqnorm.px k l = (((s⁻¹) ^ 2 : ℝ) : ℂ) := by
        intro m
        change (d m).psfHat.px k l * (starRingEnd ℂ) ((d m).psfHat.px k l) = _
        rw [hat, conj_ofReal]
        push_cast
        ring
      simp only [this]
      rw [← Finset.sum_mul, mul_one, mul_pow, hW, Real.sq_sqrt hsum.le]
      push_cast
      rfl
    have c1 : csqrt (1 : ℂ) = 1 := by unfold csqrt; simp
    unfold coaddRhat
    rw [h1, h2, csqrt_scale _ (by positivity), abs_of_pos (by positivity), c1]
    have a1 : (s : ℂ) ≠ 0 := by exact_mod_cast hs0.ne'
    have a2 : (W : ℂ) ≠ 0 := by exact_mod_cast hW0.ne'
    push_cast
    field_simp
  rw [eR]
  change (∑ k ∈ range h, ∑ l ∈ range w, coaddRhat _ k l * (tw h (-((k : ℝ) * i)) * tw w (-((l : ℝ) * j)))) /
    ((h * w : ℕ) : ℂ) = y.px i j / _
  have hdft := idftSum_dft y i j hi hj
  have hsum2 : ∑ k ∈ range h, ∑ l ∈ range w, coaddRhat ((List.ofFn d).map SinglePsf.toCoImg) k l *
      (tw h (-((k : ℝ) * i)) * tw w (-((l : ℝ) * j))) = (idftSum (dft y)).px i j / ((s : ℂ) * (W : ℂ)) := by
    change _ = (∑ k ∈ range h, ∑ l ∈ range w, (dft y).px k l * (tw h (-((k : ℝ) * i)) * tw w (-((l : ℝ) * j)))) / _
    rw [Finset.sum_div]
    refine Finset.sum_congr rfl fun k _ => ?_
    rw [Finset.sum_div]
    refine Finset.sum_congr rfl fun l _ => ?_
    rw [hR]
    ring
  rw [hsum2, hdft]
  have a1 : (s : ℂ) ≠ 0 := by exact_mod_cast hs0.ne'
  have a2 : (W : ℂ) ≠ 0 := by exact_mod_cast hW0.ne'
  have a3 : ((h * w : ℕ) : ℂ) ≠ 0 := by exact_mod_cast hpos.ne'
  have a4 : (y.h : ℂ) * y.w = ((h * w : ℕ) : ℂ) := by push_cast; rfl
  push_cast at a3 a4 ⊢
  field_simp
  rw [mul_assoc, a4]

/-- C148: hence with PSFs of one pixel of values `p m` the weights of the images are `p m` times zero point over noise
squared: they are the right ones, up to a common factor, only for PSFs of equal totals. -/
theorem coadd_point_weights (lt : List CoImg → List CoImg → Option Bool) {n : ℕ} (hn : 0 < n) (d : Fin n → SinglePsf)
    (p : Fin n → ℝ) (h w psfShape : ℕ) (procs : ℤ)
    (hs : ∀ j, (d j).interped.h = h ∧ (d j).interped.w = w ∧ (d j).mask.HasShape h w)
    (hp : procs ≤ n) (hp' : procs ≤ 2 ^ 25) (hb : procs * n ≤ 2 ^ 50)
    (hd : ∀ m, (d m).psf = ⟨1, 1, fun _ _ => 1⟩) (hcom : ∀ m, (d m).com = (0, 0))
    (hz : ∃ m, p m * (d m).zp / (d m).var ≠ 0) :
    ∃ out, coaddCore lt ((List.ofFn fun m => (d m).psfTimes (p m)).map SinglePsf.toCoImg) psfShape procs = .ok out ∧
      ∀ i < h, ∀ j < w, out.R.px i j = (∑ m, ((p m * (d m).zp / (d m).var ^ 2 : ℝ) : ℂ) * (d m).interped.px i j) /
        ((Real.sqrt (∑ m, (p m * (d m).zp / (d m).var) ^ 2) * Real.sqrt ((h * w : ℕ) : ℝ) : ℝ) : ℂ) := by
  obtain ⟨out, out', e, e', eR, -, -, -⟩ := coadd_psf_is_zp lt lt hn d p h w psfShape procs procs hs hp hp' hb hp hp' hb
  obtain ⟨out2, e2, r⟩ := coadd_point_mean lt hn (fun m => (d m).zpTimes (p m)) h w psfShape procs hs hp hp' hb hd hcom hz
  rw [e'] at e2
  cases e2
  exact ⟨out, e, fun i hi j hj => by rw [eR]; exact r i hi j hj⟩

/-! ## Variable PSFs -/

/-- The same PSF described by a basis multiplied by `c` and coefficient fields divided by it. -/
noncomputable def VarPsf.basisTimes (c : ℝ) (d : VarPsf) : VarPsf :=
  { d with terms := rescaledTerms (d.terms.map fun t => (c, t)) }

/-- C148: for variable PSFs the scale of the basis, which no one but the coadd can see, divides the coadd: bases multiplied
by `c`, with coefficient fields divided by `c`, describe the same PSFs, but the coadd is divided by `|c|`; its PSF is the
same. -/
theorem coadd_basis_scale (lt lt' : List CoImg → List CoImg → Option Bool) (ds : List VarPsf) (hne : ds ≠ []) (c : ℝ)
    (hc : c ≠ 0) (h w psfShape : ℕ) (procs procs' : ℤ)
    (hs : ∀ d ∈ ds, d.interped.h = h ∧ d.interped.w = w ∧ d.mask.HasShape h w)
    (hp : procs ≤ ds.length) (hp' : procs ≤ 2 ^ 25) (hb : procs * ds.length ≤ 2 ^ 50)
    (hq : procs' ≤ ds.length) (hq' : procs' ≤ 2 ^ 25) (hb' : procs' * ds.length ≤ 2 ^ 50) :
    ∃ out out', coaddCore lt (ds.map VarPsf.toCoImg) psfShape procs = .ok out ∧
      coaddCore lt' (ds.map fun d => (d.basisTimes c).toCoImg) psfShape procs' = .ok out' ∧
      (∀ i j, out'.R.px i j = out.R.px i j / ((|c| : ℝ) : ℂ)) ∧ out'.Pr = out.Pr := by
  have hall : AllShape (ds.map VarPsf.toCoImg) h w := by
    intro im him
    obtain ⟨d, hd, rfl⟩ := List.mem_map.1 him
    exact hs d hd
  have hall' : AllShape (ds.map fun d => (d.basisTimes c).toCoImg) h w := by
    intro im him
    obtain ⟨d, hd, rfl⟩ := List.mem_map.1 him
    exact hs d hd
  obtain ⟨out, out', e, e', eR, eP, -, -⟩ := coadd_rescaled lt lt' h w psfShape (ds.map VarPsf.toCoImg)
    (ds.map fun d => (d.basisTimes c).toCoImg) procs procs' (by simpa using hne) (by simpa using hne) hall hall'
    (by simpa using hp) hp' (by simpa using hb) (by simpa using hq) hq' (by simpa using hb') 1 c hc
    (fun k l => by
      unfold specS
      rw [List.map_map, List.map_map, ofReal_one, one_mul]
      refine congrArg List.sum (List.map_congr_left fun d _ => ?_)
      exact varpsf_filter_rescale d _ _ (by
        intro q hq
        obtain ⟨t, _, rfl⟩ := List.mem_map.1 hq
        exact hc) (by rw [List.map_map]; exact (List.map_id _).symm) rfl k l)
    (fun k l => by
      unfold specP
      rw [List.map_map, List.map_map, ← List.sum_map_mul_left]
      refine congrArg List.sum (List.map_congr_left fun d _ => ?_)
      change (((d.zp / d.var) ^ 2 : ℝ) : ℂ) * (d.basisTimes c).psfSqnorm.px k l = _ * ((((d.zp / d.var) ^ 2 : ℝ) : ℂ) * _)
      rw [varpsf_power_rescale d (d.basisTimes c) c rfl k l]
      change _ = _ * (_ * d.psfSqnorm.px k l)
      ring)
  refine ⟨out, out', e, e', fun i j => ?_, eP⟩
  rw [eR]
  change ((1 / |c| : ℝ) : ℂ) * out.R.px i j = _
  push_cast
  rw [one_div, div_eq_inv_mul]

/-! ## Two exposures -/

/-- Two exposures of one frame with PSFs of one pixel, with the same zero point and noise. -/
noncomputable def pointPair (u v : ℕ → ℝ) (m : Fin 2) : SinglePsf where
  interped := ⟨1, 4, fun _ j => ((if m.val = 0 then u j else v j : ℝ) : ℂ)⟩
  psf := ⟨1, 1, fun _ _ => 1⟩
  com := (0, 0)
  zp := 1
  var := 1
  mask := none

/-- The coadd of the pair is their sum over `√8`; with the second PSF tripled, the second exposure has three times the weight
of the first, although it is not better. -/
theorem pointPair_weights (lt : List CoImg → List CoImg → Option Bool) (u v : ℕ → ℝ) : ∃ out out',
    coaddCore lt ((List.ofFn (pointPair u v)).map SinglePsf.toCoImg) 1 1 = .ok out ∧
    coaddCore lt ((List.ofFn fun m => (pointPair u v m).psfTimes (1 + 2 * m.val)).map SinglePsf.toCoImg) 1 2 = .ok out' ∧
    (∀ j < 4, out.R.px 0 j = ((u j + v j : ℝ) : ℂ) / ((Real.sqrt 2 * 2 : ℝ) : ℂ)) ∧
    (∀ j < 4, out'.R.px 0 j = ((u j + 3 * v j : ℝ) : ℂ) / ((Real.sqrt 10 * 2 : ℝ) : ℂ)) := by
  have hs : ∀ m, (pointPair u v m).interped.h = 1 ∧ (pointPair u v m).interped.w = 4 ∧
      (pointPair u v m).mask.HasShape 1 4 := fun m => ⟨rfl, rfl, by intro a ha; cases ha⟩
  have h4 : Real.sqrt ((1 * 4 : ℕ) : ℝ) = 2 := by
    rw [show ((1 * 4 : ℕ) : ℝ) = 2 ^ 2 by norm_num]
    exact Real.sqrt_sq (by norm_num)
  obtain ⟨out, e, r⟩ := coadd_point_mean lt (by norm_num) (pointPair u v) 1 4 1 1 hs (by norm_num) (by norm_num) (by norm_num)
    (fun _ => rfl) (fun _ => rfl) ⟨0, by simp [pointPair]⟩
  obtain ⟨out', e', r'⟩ := coadd_point_weights lt (by norm_num) (pointPair u v) (fun m => 1 + 2 * m.val) 1 4 1 2 hs
    (by norm_num) (by norm_num) (by norm_num) (fun _ => rfl) (fun _ => rfl) ⟨0, by simp [pointPair]⟩
  refine ⟨out, out', e, e', fun j hj => ?_, fun j hj => ?_⟩
  · rw [r 0 (by norm_num) j hj, h4, Fin.sum_univ_two, Fin.sum_univ_two]
    simp [pointPair]
    norm_num
  · rw [r' 0 (by norm_num) j hj, h4, Fin.sum_univ_two, Fin.sum_univ_two]
    simp [pointPair]
    norm_num

end PI
