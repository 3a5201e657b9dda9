import Verif.Props.CoaddResult
import Verif.Props.Units

/-!
# Property C126: coadd of transposed, moved and rescaled images
-/

namespace PI

open Complex Finset

theorem specS_ofFn {n : ℕ} (d : Fin n → SinglePsf) (k l : ℕ) :
    specS ((List.ofFn d).map SinglePsf.toCoImg) k l = ∑ m, (d m).sHatComp.px k l := by
  unfold specS
  rw [List.map_map, List.map_ofFn, List.sum_ofFn]
  rfl

theorem specP_ofFn {n : ℕ} (d : Fin n → SinglePsf) (k l : ℕ) :
    specP ((List.ofFn d).map SinglePsf.toCoImg) k l =
      ∑ m, ((((d m).zp / (d m).var) ^ 2 : ℝ) : ℂ) * (d m).psfSqnorm.px k l := by
  unfold specP
  rw [List.map_map, List.map_ofFn, List.sum_ofFn]
  rfl

/-- What `coadd` returns for images with a single PSF, in one place. -/
theorem coadd_single_spec (lt : List CoImg → List CoImg → Option Bool) {n : ℕ} (hn : 0 < n)
    (d : Fin n → SinglePsf) (h w psfShape : ℕ) (procs : ℤ)
    (hs : ∀ j, (d j).interped.h = h ∧ (d j).interped.w = w ∧ (d j).mask.HasShape h w)
    (hp : procs ≤ n) (hp' : procs ≤ 2 ^ 25) (hb : procs * n ≤ 2 ^ 50) :
    ∃ out, coaddCore lt ((List.ofFn d).map SinglePsf.toCoImg) psfShape procs = .ok out ∧
      out.R = ifftDefault ⟨h, w, coaddRhat ((List.ofFn d).map SinglePsf.toCoImg)⟩ ∧
      out.Pr = coaddPsf ⟨h, w, specP ((List.ofFn d).map SinglePsf.toCoImg)⟩ psfShape ∧
      (∀ i < h, ∀ j < w, (out.mask.marks i j = true ↔ ∃ m, (d m).mask.marks i j = true)) ∧
      (out.mask = none ↔ ∀ m, ∀ i < h, ∀ j < w, (d m).mask.marks i j = false) := by
  have hl : ((List.ofFn d).map SinglePsf.toCoImg).length = n := by simp
  obtain ⟨out, e, r, m⟩ := coadd_spec lt h w ((List.ofFn d).map SinglePsf.toCoImg) psfShape procs
    (by intro q; rw [q] at hl; simp at hl; omega) (allShape_single d h w hs) (by rw [hl]; exact hp) hp' (by rw [hl]; exact hb)
  have mem : ∀ p : CoImg → Prop, (∃ im ∈ (List.ofFn d).map SinglePsf.toCoImg, p im) ↔ ∃ j, p (d j).toCoImg := by
    intro p
    simp only [List.mem_map, List.mem_ofFn]
    constructor
    · rintro ⟨_, ⟨_, ⟨j, rfl⟩, rfl⟩, hj⟩
      exact ⟨j, hj⟩
    · rintro ⟨j, hj⟩
      exact ⟨_, ⟨_, ⟨j, rfl⟩, rfl⟩, hj⟩
  refine ⟨out, e, congrArg Prod.fst r, congrArg Prod.snd r, fun i hi j hj => ?_, ?_⟩
  · rw [m.2.1 i hi j hj, mem fun im => im.mask.marks i j = true]
    rfl
  · rw [m.2.2]
    constructor
    · intro q j
      exact q (d j).toCoImg (List.mem_map.2 ⟨_, List.mem_ofFn.2 ⟨j, rfl⟩, rfl⟩)
    · intro q im him
      obtain ⟨_, hx, rfl⟩ := List.mem_map.1 him
      obtain ⟨j, rfl⟩ := List.mem_ofFn.1 hx
      exact q j

/-- Two unions of masks agree if the masks do. -/
theorem marks_agree {n : ℕ} (f g : Fin n → Bool) (a b : Bool) (hf : a = true ↔ ∃ m, f m = true)
    (hg : b = true ↔ ∃ m, g m = true) (e : ∀ m, f m = g m) : a = b := by
  rw [Bool.eq_iff_iff, hf, hg]
  simp only [e]

/-! ## Transposition -/

/-- The image object of the transposed arrays. -/
def SinglePsf.tr (d : SinglePsf) : SinglePsf := ⟨d.interped.tr, d.psf.tr, d.com.swap, d.zp, d.var, d.mask.tr⟩

theorem tr_singleHat (d : SinglePsf) : d.tr.psfHat = d.psfHat.tr := by
  unfold SinglePsf.psfHat
  rw [← tr_fftOrtho, ← tr_padTo]
  rfl

theorem tr_sHatComp (d : SinglePsf) (k l : ℕ) : d.tr.sHatComp.px k l = d.sHatComp.px l k := by
  change _ * ((fftOrtho d.interped.tr).px k l * (starRingEnd ℂ) (d.tr.psfHat.px k l) *
      shiftPhase d.interped.w d.interped.h d.com.swap k l) =
    _ * ((fftOrtho d.interped).px l k * (starRingEnd ℂ) (d.psfHat.px l k) * shiftPhase d.interped.h d.interped.w d.com l k)
  rw [tr_singleHat, tr_fftOrtho, tr_shiftPhase]
  rfl

/-- C126: transposing every image (pixels, PSF and its centre, mask) transposes the coadd, its PSF and its mask. -/
theorem coadd_transpose (lt lt' : List CoImg → List CoImg → Option Bool) {n : ℕ} (hn : 0 < n)
    (d : Fin n → SinglePsf) (h w psfShape : ℕ) (procs procs' : ℤ)
    (hs : ∀ j, (d j).interped.h = h ∧ (d j).interped.w = w ∧ (d j).mask.HasShape h w)
    (hp : procs ≤ n) (hp' : procs ≤ 2 ^ 25) (hb : procs * n ≤ 2 ^ 50)
    (hq : procs' ≤ n) (hq' : procs' ≤ 2 ^ 25) (hc : procs' * n ≤ 2 ^ 50) :
    ∃ out out', coaddCore lt ((List.ofFn d).map SinglePsf.toCoImg) psfShape procs = .ok out ∧
      coaddCore lt' ((List.ofFn fun m => (d m).tr).map SinglePsf.toCoImg) psfShape procs' = .ok out' ∧
      out'.R = out.R.tr ∧ out'.Pr = out.Pr.tr ∧
      (∀ i < w, ∀ j < h, out'.mask.marks i j = out.mask.marks j i) ∧ (out'.mask = none ↔ out.mask = none) := by
  obtain ⟨out, e, eR, eP, em, en⟩ := coadd_single_spec lt hn d h w psfShape procs hs hp hp' hb
  obtain ⟨out', e', eR', eP', em', en'⟩ := coadd_single_spec lt' hn (fun m => (d m).tr) w h psfShape procs'
    (fun m => ⟨(hs m).2.1, (hs m).1, by
      intro a ha
      have hm := (hs m).2.2
      change Option.map Img.tr (d m).mask = some a at ha
      obtain ⟨a0, h0, rfl⟩ := Option.map_eq_some_iff.1 ha
      exact ⟨(hm a0 h0).2, (hm a0 h0).1⟩⟩) hq hq' hc
  have eS : ∀ k l, specS ((List.ofFn fun m => (d m).tr).map SinglePsf.toCoImg) k l =
      specS ((List.ofFn d).map SinglePsf.toCoImg) l k := by
    intro k l
    rw [specS_ofFn, specS_ofFn]
    exact Finset.sum_congr rfl fun m _ => tr_sHatComp (d m) k l
  have eW : ∀ k l, specP ((List.ofFn fun m => (d m).tr).map SinglePsf.toCoImg) k l =
      specP ((List.ofFn d).map SinglePsf.toCoImg) l k := by
    intro k l
    rw [specP_ofFn, specP_ofFn]
    refine Finset.sum_congr rfl fun m _ => ?_
    change _ * ((d m).tr.psfHat.px k l * (starRingEnd ℂ) ((d m).tr.psfHat.px k l)) = _
    rw [tr_singleHat]
    rfl
  refine ⟨out, out', e, e', ?_, ?_, fun i hi j hj => ?_, ?_⟩
  · rw [eR, eR', ← tr_ifftDefault]
    unfold coaddRhat
    simp only [eS, eW]
    rfl
  · rw [eP, eP']
    have q : (⟨w, h, specP ((List.ofFn fun m => (d m).tr).map SinglePsf.toCoImg)⟩ : Img ℂ) =
        (Img.mk h w (specP ((List.ofFn d).map SinglePsf.toCoImg))).tr := by
      refine congrArg (Img.mk w h) ?_
      funext k l
      exact eW k l
    rw [q]
    have r : coaddPsfRaw (Img.mk h w (specP ((List.ofFn d).map SinglePsf.toCoImg))).tr psfShape =
        (coaddPsfRaw (Img.mk h w (specP ((List.ofFn d).map SinglePsf.toCoImg))) psfShape).tr := by
      unfold coaddPsfRaw
      rw [← tr_ifftDefault, ← tr_fourierShift]
      rfl
    unfold coaddPsf
    rw [r, tr_imSum, tr_map]
  · exact marks_agree _ _ _ _ (em' i hi j hj) (em j hj i hi) fun m => tr_marks _ i j
  · rw [en, en']
    constructor
    · intro q m i hi j hj
      rw [← q m j hj i hi]
      exact (tr_marks _ _ _).symm
    · intro q m i hi j hj
      rw [← q m j hj i hi]
      exact tr_marks _ _ _

/-! ## Moving all images -/

/-- The image object of the rolled arrays. -/
def SinglePsf.rolled (d : SinglePsf) (s t : ℤ) : SinglePsf := { d with interped := d.interped.rolled s t, mask := d.mask.rolled s t }

theorem rolled_sHatComp (d : SinglePsf) (s t : ℤ) (h0 : d.interped.h ≠ 0) (w0 : d.interped.w ≠ 0) (k l : ℕ) :
    (d.rolled s t).sHatComp.px k l = d.sHatComp.px k l * shiftPhase d.interped.h d.interped.w ((s : ℝ), (t : ℝ)) k l := by
  change ((d.zp / d.var ^ 2 : ℝ) : ℂ) * ((fftOrtho (d.interped.rolled s t)).px k l * (starRingEnd ℂ) (d.psfHat.px k l) *
      shiftPhase d.interped.h d.interped.w d.com k l) =
    ((d.zp / d.var ^ 2 : ℝ) : ℂ) * ((fftOrtho d.interped).px k l * (starRingEnd ℂ) (d.psfHat.px k l) *
      shiftPhase d.interped.h d.interped.w d.com k l) * _
  rw [fftOrtho_rolled _ _ _ h0 w0]
  ring

/-- C126: rolling every image by the same number of pixels rolls the coadd and its mask and leaves its PSF. -/
theorem coadd_rolled (lt lt' : List CoImg → List CoImg → Option Bool) {n : ℕ} (hn : 0 < n)
    (d : Fin n → SinglePsf) (s t : ℤ) (h w psfShape : ℕ) (h0 : h ≠ 0) (w0 : w ≠ 0) (procs procs' : ℤ)
    (hs : ∀ j, (d j).interped.h = h ∧ (d j).interped.w = w ∧ (d j).mask.HasShape h w)
    (hp : procs ≤ n) (hp' : procs ≤ 2 ^ 25) (hb : procs * n ≤ 2 ^ 50)
    (hq : procs' ≤ n) (hq' : procs' ≤ 2 ^ 25) (hc : procs' * n ≤ 2 ^ 50) :
    ∃ out out', coaddCore lt ((List.ofFn d).map SinglePsf.toCoImg) psfShape procs = .ok out ∧
      coaddCore lt' ((List.ofFn fun m => (d m).rolled s t).map SinglePsf.toCoImg) psfShape procs' = .ok out' ∧
      out'.R.Same (out.R.rolled s t) ∧ out'.Pr = out.Pr ∧
      (∀ i < h, ∀ j < w, out'.mask.marks i j = out.mask.marks (backBy h s i) (backBy w t j)) ∧
      (out'.mask = none ↔ out.mask = none) := by
  obtain ⟨out, e, eR, eP, em, en⟩ := coadd_single_spec lt hn d h w psfShape procs hs hp hp' hb
  obtain ⟨out', e', eR', eP', em', en'⟩ := coadd_single_spec lt' hn (fun m => (d m).rolled s t) h w psfShape procs'
    (fun m => ⟨(hs m).1, (hs m).2.1, by
      intro a ha
      have hm := (hs m).2.2
      obtain ⟨a0, h0, rfl⟩ := Option.map_eq_some_iff.1 ha
      exact hm a0 h0⟩) hq hq' hc
  have eS : ∀ k l, specS ((List.ofFn fun m => (d m).rolled s t).map SinglePsf.toCoImg) k l =
      specS ((List.ofFn d).map SinglePsf.toCoImg) k l * shiftPhase h w ((s : ℝ), (t : ℝ)) k l := by
    intro k l
    rw [specS_ofFn, specS_ofFn, Finset.sum_mul]
    refine Finset.sum_congr rfl fun m _ => ?_
    rw [rolled_sHatComp _ _ _ (by rw [(hs m).1]; exact h0) (by rw [(hs m).2.1]; exact w0), (hs m).1, (hs m).2.1]
  have eW : specP ((List.ofFn fun m => (d m).rolled s t).map SinglePsf.toCoImg) =
      specP ((List.ofFn d).map SinglePsf.toCoImg) := by
    funext k l
    rw [specP_ofFn, specP_ofFn]
    rfl
  have hm : ∀ m i j, ((d m).rolled s t).mask.marks i j = (d m).mask.marks (backBy h s i) (backBy w t j) :=
    fun m i j => marks_rolled _ h w (hs m).2.2 s t i j
  refine ⟨out, out', e, e', ?_, by rw [eP, eP', eW], fun i hi j hj => ?_, ?_⟩
  · rw [eR, eR']
    refine ⟨rfl, rfl, ?_⟩
    intro i hi j hj
    change i < h at hi
    change j < w at hj
    have q := idftSum_shift_roll ⟨h, w, coaddRhat ((List.ofFn d).map SinglePsf.toCoImg)⟩ s t i j hi hj
    have r : (⟨h, w, coaddRhat ((List.ofFn fun m => (d m).rolled s t).map SinglePsf.toCoImg)⟩ : Img ℂ) =
        fourierShift ⟨h, w, coaddRhat ((List.ofFn d).map SinglePsf.toCoImg)⟩ ((s : ℝ), (t : ℝ)) := by
      unfold fourierShift coaddRhat
      refine congrArg (Img.mk h w) ?_
      funext k l
      rw [eS, eW]
      exact mul_div_right_comm _ _ _
    rw [r]
    change (idftSum _).px i j / _ = (idftSum _).px _ _ / _
    rw [q]
    rfl
  · exact marks_agree _ _ _ _ (em' i hi j hj) (em _ (backBy_lt h s i h0) _ (backBy_lt w t j w0)) fun m => hm m i j
  · rw [en, en']
    constructor
    · intro q m i hi j hj
      obtain ⟨k, hk, ek⟩ := backBy_onto h s i hi
      obtain ⟨l, hl, el⟩ := backBy_onto w t j hj
      have := q m k hk l hl
      rw [hm, ek, el] at this
      exact this
    · intro q m i hi j hj
      rw [hm]
      exact q m _ (backBy_lt h s i h0) _ (backBy_lt w t j w0)

/-! ## Units -/

/-- The image object in another unit, its zero point multiplied by `c` too. -/
noncomputable def SinglePsf.times (k c : ℝ) (d : SinglePsf) : SinglePsf :=
  { d with interped := d.interped.map fun z => (k : ℂ) * z, zp := c * (k * d.zp), var := k * d.var }

theorem times_fft (x : Img ℂ) (k : ℂ) (a b : ℕ) :
    (fftOrtho (x.map fun z => k * z)).px a b = k * (fftOrtho x).px a b := by
  change (∑ i ∈ range x.h, ∑ j ∈ range x.w, k * x.px i j * (tw x.h ((a : ℝ) * i) * tw x.w ((b : ℝ) * j))) / _ =
    k * ((∑ i ∈ range x.h, ∑ j ∈ range x.w, x.px i j * (tw x.h ((a : ℝ) * i) * tw x.w ((b : ℝ) * j))) / _)
  rw [← mul_div_assoc, Finset.mul_sum]
  refine congrArg₂ _ ?_ rfl
  refine Finset.sum_congr rfl fun i _ => ?_
  rw [Finset.mul_sum]
  exact Finset.sum_congr rfl fun j _ => by ring

theorem times_sHatComp (k c : ℝ) (hk : k ≠ 0) (d : SinglePsf) (a b : ℕ) :
    (d.times k c).sHatComp.px a b = c * d.sHatComp.px a b := by
  change ((c * (k * d.zp) / (k * d.var) ^ 2 : ℝ) : ℂ) * ((fftOrtho (d.interped.map fun z => (k : ℂ) * z)).px a b *
      (starRingEnd ℂ) (d.psfHat.px a b) * shiftPhase d.interped.h d.interped.w d.com a b) =
    c * (((d.zp / d.var ^ 2 : ℝ) : ℂ) * ((fftOrtho d.interped).px a b * (starRingEnd ℂ) (d.psfHat.px a b) *
      shiftPhase d.interped.h d.interped.w d.com a b))
  have hk0 : (k : ℂ) ≠ 0 := by exact_mod_cast hk
  have e : c * (k * d.zp) / (k * d.var) ^ 2 = c * (d.zp / d.var ^ 2) / k := by
    rw [mul_pow, show c * (k * d.zp) = k * (c * d.zp) by ring, pow_two k, mul_assoc, mul_div_mul_left _ _ hk,
      mul_comm k, ← div_div, mul_div_assoc]
  rw [times_fft, e]
  push_cast
  field_simp

/-- C126: each image in a unit of its own (pixels, noise and zero point times `k m`), with all zero points times a common
`c`: the coadd, its PSF and its mask do not change. -/
theorem coadd_units (lt lt' : List CoImg → List CoImg → Option Bool) {n : ℕ} (hn : 0 < n)
    (d : Fin n → SinglePsf) (k : Fin n → ℝ) (c : ℝ) (hk : ∀ m, k m ≠ 0) (hc0 : 0 < c) (h w psfShape : ℕ) (procs procs' : ℤ)
    (hs : ∀ j, (d j).interped.h = h ∧ (d j).interped.w = w ∧ (d j).mask.HasShape h w)
    (hp : procs ≤ n) (hp' : procs ≤ 2 ^ 25) (hb : procs * n ≤ 2 ^ 50)
    (hq : procs' ≤ n) (hq' : procs' ≤ 2 ^ 25) (hc : procs' * n ≤ 2 ^ 50) :
    ∃ out out', coaddCore lt ((List.ofFn d).map SinglePsf.toCoImg) psfShape procs = .ok out ∧
      coaddCore lt' ((List.ofFn fun m => (d m).times (k m) c).map SinglePsf.toCoImg) psfShape procs' = .ok out' ∧
      out'.R = out.R ∧ out'.Pr = out.Pr ∧ (∀ i < h, ∀ j < w, out'.mask.marks i j = out.mask.marks i j) ∧
      (out'.mask = none ↔ out.mask = none) := by
  obtain ⟨out, e, eR, eP, em, en⟩ := coadd_single_spec lt hn d h w psfShape procs hs hp hp' hb
  obtain ⟨out', e', eR', eP', em', en'⟩ := coadd_single_spec lt' hn (fun m => (d m).times (k m) c) h w psfShape procs'
    hs hq hq' hc
  have hc1 : (c : ℂ) ≠ 0 := by exact_mod_cast hc0.ne'
  have eS : ∀ a b, specS ((List.ofFn fun m => (d m).times (k m) c).map SinglePsf.toCoImg) a b =
      c * specS ((List.ofFn d).map SinglePsf.toCoImg) a b := by
    intro a b
    rw [specS_ofFn, specS_ofFn, Finset.mul_sum]
    exact Finset.sum_congr rfl fun m _ => times_sHatComp (k m) c (hk m) (d m) a b
  have eW : ∀ a b, specP ((List.ofFn fun m => (d m).times (k m) c).map SinglePsf.toCoImg) a b =
      ((c ^ 2 : ℝ) : ℂ) * specP ((List.ofFn d).map SinglePsf.toCoImg) a b := by
    intro a b
    rw [specP_ofFn, specP_ofFn, Finset.mul_sum]
    refine Finset.sum_congr rfl fun m _ => ?_
    change (((c * (k m * (d m).zp) / (k m * (d m).var)) ^ 2 : ℝ) : ℂ) * (d m).psfSqnorm.px a b = _
    rw [show c * (k m * (d m).zp) / (k m * (d m).var) = c * ((d m).zp / (d m).var) by
      rw [mul_div_assoc, mul_div_mul_left _ _ (hk m)], mul_pow, ofReal_mul, mul_assoc]
  have eQ : ∀ a b, csqrt (specP ((List.ofFn fun m => (d m).times (k m) c).map SinglePsf.toCoImg) a b) =
      c * csqrt (specP ((List.ofFn d).map SinglePsf.toCoImg) a b) := by
    intro a b
    rw [eW, csqrt_scale c hc0.ne', abs_of_pos hc0]
  refine ⟨out, out', e, e', ?_, ?_, fun i hi j hj => marks_agree _ _ _ _ (em' i hi j hj) (em i hi j hj) fun m => rfl, ?_⟩
  · rw [eR, eR']
    unfold coaddRhat
    simp only [eS, eQ, mul_div_mul_left _ _ hc1]
  · rw [eP, eP']
    set P := specP ((List.ofFn d).map SinglePsf.toCoImg) with hP
    have r : coaddPsfRaw ⟨h, w, specP ((List.ofFn fun m => (d m).times (k m) c).map SinglePsf.toCoImg)⟩ psfShape =
        (coaddPsfRaw ⟨h, w, P⟩ psfShape).map fun z => (c : ℂ) * z := by
      unfold coaddPsfRaw ifftDefault
      refine congrArg (Img.mk h w) ?_
      funext i j
      change (∑ a ∈ range h, ∑ b ∈ range w, csqrt (specP _ a b) * shiftPhase h w _ a b *
          (tw h (-((a : ℝ) * i)) * tw w (-((b : ℝ) * j)))) / _ =
        c * ((∑ a ∈ range h, ∑ b ∈ range w, csqrt (P a b) * shiftPhase h w _ a b *
          (tw h (-((a : ℝ) * i)) * tw w (-((b : ℝ) * j)))) / _)
      rw [← mul_div_assoc, Finset.mul_sum]
      refine congrArg₂ _ ?_ rfl
      refine Finset.sum_congr rfl fun a _ => ?_
      rw [Finset.mul_sum]
      refine Finset.sum_congr rfl fun b _ => ?_
      rw [eQ]
      ring
    unfold coaddPsf
    rw [r]
    have si : imSum ((coaddPsfRaw ⟨h, w, P⟩ psfShape).map fun z => (c : ℂ) * z) = c * imSum (coaddPsfRaw ⟨h, w, P⟩ psfShape) := by
      unfold imSum
      rw [Finset.mul_sum]
      refine Finset.sum_congr rfl fun i _ => ?_
      rw [Finset.mul_sum]
      rfl
    rw [si]
    refine congrArg (Img.mk h w) ?_
    funext i j
    exact mul_div_mul_left _ _ hc1
  · rw [en, en']
    rfl

/-- Two exposures of three pixels, the second three times as long and with a masked pixel. -/
noncomputable def twoExposures (m : Fin 2) : SinglePsf where
  interped := ⟨1, 3, fun _ j => if j = m.val then 5 else 1⟩
  psf := ⟨1, 2, fun _ j => if j = 0 then 2 / 3 else 1 / 3⟩
  com := (0, 1 / 3)
  zp := 1 + 2 * m.val
  var := 1 + m.val
  mask := if m.val = 0 then none else some ⟨1, 3, fun _ j => decide (j = 2)⟩

theorem twoExposures_shape (m : Fin 2) : (twoExposures m).interped.h = 1 ∧ (twoExposures m).interped.w = 3 ∧
    (twoExposures m).mask.HasShape 1 3 := by
  refine ⟨rfl, rfl, ?_⟩
  intro a ha
  fin_cases m
  · cases ha
  · cases ha
    exact ⟨rfl, rfl⟩

/-- Rolled by one pixel, the coadd of the two exposures has its masked pixel at the left edge instead of the right, and
what was the pixel in the middle is the last. -/
theorem twoExposures_rolled (lt : List CoImg → List CoImg → Option Bool) :
    ∃ out out', coaddCore lt ((List.ofFn twoExposures).map SinglePsf.toCoImg) 0 1 = .ok out ∧
      coaddCore lt ((List.ofFn fun m => (twoExposures m).rolled 0 1).map SinglePsf.toCoImg) 0 2 = .ok out' ∧
      out'.R.px 0 2 = out.R.px 0 1 ∧ out'.Pr = out.Pr ∧ out.mask.marks 0 2 = true ∧ out'.mask.marks 0 0 = true ∧
      out'.mask.marks 0 2 = false := by
  obtain ⟨out, out', e, e', hR, hP, hm, _⟩ := coadd_rolled lt lt (by norm_num) twoExposures 0 1 1 3 0 (by norm_num) (by norm_num)
    1 2 twoExposures_shape (by norm_num) (by norm_num) (by norm_num) (by norm_num) (by norm_num) (by norm_num)
  obtain ⟨out2, e2, r, _, k1, _⟩ := coadd_single_spec lt (by norm_num) twoExposures 1 3 0 1 twoExposures_shape (by norm_num)
    (by norm_num) (by norm_num)
  rw [e] at e2
  cases e2
  have dims : out.R.h = 1 ∧ out.R.w = 3 := by rw [r]; exact ⟨rfl, rfl⟩
  have m2 : out.mask.marks 0 2 = true := (k1 0 (by norm_num) 2 (by norm_num)).2 ⟨1, by simp [twoExposures, NMask.marks]⟩
  have m1 : out.mask.marks 0 1 = false := by
    by_contra h
    obtain ⟨m, hm⟩ := (k1 0 (by norm_num) 1 (by norm_num)).1 (by simpa using h)
    fin_cases m <;> simp [twoExposures, NMask.marks] at hm
  refine ⟨out, out', e, e', ?_, hP, m2, ?_, ?_⟩
  · rw [hR.2.2 0 (by rw [hR.1]; change 0 < out.R.h; omega) 2 (by rw [hR.2.1]; change 2 < out.R.w; omega)]
    change out.R.px (backBy out.R.h 0 0) (backBy out.R.w 1 2) = _
    rw [dims.1, dims.2]
    rfl
  · rw [hm 0 (by norm_num) 0 (by norm_num)]
    exact m2
  · rw [hm 0 (by norm_num) 2 (by norm_num)]
    exact m1

/-- The second exposure in thirds of a count, all zero points doubled: nothing changes. -/
example (lt : List CoImg → List CoImg → Option Bool) :
    ∃ out out', coaddCore lt ((List.ofFn twoExposures).map SinglePsf.toCoImg) 0 1 = .ok out ∧
      coaddCore lt ((List.ofFn fun m => (twoExposures m).times (1 + 2 * m.val) 2).map SinglePsf.toCoImg) 0 2 = .ok out' ∧
      out'.R = out.R ∧ out'.Pr = out.Pr := by
  obtain ⟨out, out', e, e', hR, hP, _⟩ := coadd_units lt lt (by norm_num) twoExposures (fun m => 1 + 2 * m.val) 2
    (fun m => by positivity) (by norm_num) 1 3 0 1 2 twoExposures_shape (by norm_num) (by norm_num) (by norm_num) (by norm_num)
    (by norm_num) (by norm_num)
  exact ⟨out, out', e, e', hR, hP⟩

end PI
