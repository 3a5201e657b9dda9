import Verif.Model.VarPsf
import Verif.Lemmas.Corr
import Verif.Props.CoaddResult

/-!
# Properties C92–C96: images with a variable PSF in the matched filter and in `coadd`

The specification objects are the PSF that a constant combination of basis elements stands for
(`combinedPsf`) and circular correlation (`circCorr`).
-/

namespace PI
open Complex Finset

/-! ## C92: constant coefficient fields -/

/-- The sum of the pixels of a PSF. -/
noncomputable def psfTotal (p : Img ℝ) : ℝ := ∑ a ∈ range p.h, ∑ b ∈ range p.w, p.px a b

/-- Basis elements with coefficients that do not depend on the position. -/
def constTerms (ts : List (ℝ × Img ℝ)) : List PsfTerm := ts.map fun p => ⟨fun _ _ => p.1, p.2⟩

/-- The PSF such a combination stands for, on the grid of the image: the weighted sum of the elements,
divided by its total. -/
noncomputable def combinedPsf (ts : List (ℝ × Img ℝ)) (h w : ℕ) : Img ℝ :=
  ⟨h, w, fun i j => (ts.map fun p => p.1 * if i < p.2.h ∧ j < p.2.w then p.2.px i j else 0).sum /
    (ts.map fun p => p.1 * psfTotal p.2).sum⟩

/-- C92: with constant fields the normalisation image is the same everywhere, edges included: the total
of the combination. -/
theorem varpsf_normal_constant (d : VarPsf) (ts : List (ℝ × Img ℝ)) (ht : d.terms = constTerms ts) (i j : ℕ) :
    d.normalImg.px i j = (ts.map fun p => p.1 * psfTotal p.2).sum := by
  change (d.terms.map fun t => (ndConvolve ⟨d.interped.h, d.interped.w, t.field⟩ t.psf).px i j).sum = _
  rw [ht, constTerms, List.map_map]
  refine congrArg List.sum (List.map_congr_left fun p _ => ?_)
  change ∑ a ∈ range p.2.h, ∑ b ∈ range p.2.w, p.2.px a b * p.1 = _
  rw [psfTotal, Finset.mul_sum]
  refine Finset.sum_congr rfl fun a _ => ?_
  rw [Finset.mul_sum]
  exact Finset.sum_congr rfl fun b _ => mul_comm _ _

theorem fftOrtho_congr (h w : ℕ) (f g : ℕ → ℕ → ℂ) (hfg : ∀ i < h, ∀ j < w, f i j = g i j) :
    fftOrtho ⟨h, w, f⟩ = fftOrtho ⟨h, w, g⟩ := by
  have : dft ⟨h, w, f⟩ = dft ⟨h, w, g⟩ := by
    unfold dft
    congr 1
    funext k l
    refine Finset.sum_congr rfl fun i hi => Finset.sum_congr rfl fun j hj => ?_
    change f i j * _ = g i j * _
    rw [hfg i (mem_range.1 hi) j (mem_range.1 hj)]
  unfold fftOrtho
  rw [this]

theorem fftOrtho_smul (h w : ℕ) (f g : ℕ → ℕ → ℂ) (c : ℂ) (hfg : ∀ i j, f i j = c * g i j) (k l : ℕ) :
    (fftOrtho ⟨h, w, f⟩).px k l = c * (fftOrtho ⟨h, w, g⟩).px k l := by
  change (∑ i ∈ range h, ∑ j ∈ range w, f i j * _) / _ = c * ((∑ i ∈ range h, ∑ j ∈ range w, g i j * _) / _)
  rw [← mul_div_assoc, Finset.mul_sum]
  congr 1
  refine Finset.sum_congr rfl fun i _ => ?_
  rw [Finset.mul_sum]
  refine Finset.sum_congr rfl fun j _ => ?_
  rw [hfg, mul_assoc]

theorem fftOrtho_listSum {α : Type} (h w : ℕ) (ts : List α) (f : α → ℕ → ℕ → ℂ) (k l : ℕ) :
    (fftOrtho ⟨h, w, fun i j => (ts.map fun p => f p i j).sum⟩).px k l =
      (ts.map fun p => (fftOrtho ⟨h, w, f p⟩).px k l).sum := by
  induction ts with
  | nil =>
    change (∑ i ∈ range h, ∑ j ∈ range w, (0 : ℂ) * _) / _ = 0
    simp
  | cons p ts ih =>
    rw [List.map_cons, List.sum_cons, ← ih]
    change (∑ i ∈ range h, ∑ j ∈ range w, (f p i j + (ts.map fun p => f p i j).sum) * _) / _ =
      (∑ i ∈ range h, ∑ j ∈ range w, _) / _ + (∑ i ∈ range h, ∑ j ∈ range w, _) / _
    rw [← add_div, ← Finset.sum_add_distrib]
    congr 1
    refine Finset.sum_congr rfl fun i _ => ?_
    rw [← Finset.sum_add_distrib]
    exact Finset.sum_congr rfl fun j _ => add_mul _ _ _

/-- The transform of the combined PSF is the combination of the transforms. -/
theorem combinedPsf_hat (ts : List (ℝ × Img ℝ)) (h w k l : ℕ) :
    (fftOrtho (padTo h w (combinedPsf ts h w).toC)).px k l =
      (ts.map fun p => ((p.1 / (ts.map fun q => q.1 * psfTotal q.2).sum : ℝ) : ℂ) *
        (fftOrtho (padTo h w p.2.toC)).px k l).sum := by
  set N : ℝ := (ts.map fun q => q.1 * psfTotal q.2).sum with hN
  have e1 : (fftOrtho (padTo h w (combinedPsf ts h w).toC)).px k l =
      (fftOrtho ⟨h, w, fun i j => (ts.map fun p => ((p.1 / N : ℝ) : ℂ) *
        (padTo h w p.2.toC).px i j).sum⟩).px k l := by
    change (∑ i ∈ range h, ∑ j ∈ range w, _) / _ = (∑ i ∈ range h, ∑ j ∈ range w, _) / _
    congr 1
    refine Finset.sum_congr rfl fun i hi => Finset.sum_congr rfl fun j hj => ?_
    congr 1
    change (if i < h ∧ j < w then (((combinedPsf ts h w).px i j : ℝ) : ℂ) else 0) = _
    rw [if_pos ⟨mem_range.1 hi, mem_range.1 hj⟩]
    change (((ts.map fun p => p.1 * if i < p.2.h ∧ j < p.2.w then p.2.px i j else 0).sum / N : ℝ) : ℂ) =
      (ts.map fun p => ((p.1 / N : ℝ) : ℂ) * (padTo h w p.2.toC).px i j).sum
    clear_value N
    clear hN
    induction ts with
    | nil => simp
    | cons p ts ih =>
      rw [List.map_cons, List.sum_cons, List.map_cons, List.sum_cons, ← ih]
      have : (padTo h w p.2.toC).px i j = if i < p.2.h ∧ j < p.2.w then ((p.2.px i j : ℝ) : ℂ) else 0 := rfl
      rw [this]
      split_ifs
      · push_cast; ring
      · push_cast; ring
  rw [e1, fftOrtho_listSum h w ts (fun p i j => ((p.1 / N : ℝ) : ℂ) * (padTo h w p.2.toC).px i j)]
  refine congrArg List.sum (List.map_congr_left fun p _ => ?_)
  exact fftOrtho_smul h w _ (padTo h w p.2.toC).px _ (fun _ _ => rfl) k l

/-- The single-PSF image a constant combination should be equivalent to: the combined PSF. Its centre is
left open. -/
noncomputable def combinedImage (d : VarPsf) (ts : List (ℝ × Img ℝ)) (c : ℝ × ℝ) : SinglePsf where
  interped := d.interped.toC
  psf := (combinedPsf ts d.interped.h d.interped.w).toC
  com := c
  zp := d.zp
  var := d.var
  mask := d.mask

theorem varpsf_filter_com (d : VarPsf) (ts : List (ℝ × Img ℝ)) (ht : d.terms = constTerms ts) (k l : ℕ) :
    d.sHatComp.px k l = (combinedImage d ts d.com).sHatComp.px k l := by
  set N : ℝ := (ts.map fun q => q.1 * psfTotal q.2).sum with hN
  have term : ∀ p : ℝ × Img ℝ, (d.termHat ⟨fun _ _ => p.1, p.2⟩).px k l =
      (fftOrtho d.interped.toC).px k l * shiftPhase d.interped.h d.interped.w d.com k l *
        (starRingEnd ℂ) (((p.1 / N : ℝ) : ℂ) * (d.psfHat p.2).px k l) := by
    intro p
    change (fftOrtho (⟨d.interped.h, d.interped.w, fun i j =>
        ((d.interped.px i j * p.1 / d.normalImg.px i j : ℝ) : ℂ)⟩ : Img ℂ)).px k l *
        (starRingEnd ℂ) ((d.psfHat p.2).px k l) * shiftPhase d.interped.h d.interped.w d.com k l = _
    rw [fftOrtho_smul d.interped.h d.interped.w _ d.interped.toC.px ((p.1 / N : ℝ) : ℂ) (by
      intro i j
      rw [varpsf_normal_constant d ts ht i j, ← hN]
      change _ = _ * ((d.interped.px i j : ℝ) : ℂ)
      push_cast
      ring), map_mul, Complex.conj_ofReal]
    change _ * (fftOrtho d.interped.toC).px k l * _ * _ = _
    ring
  change ((d.zp / d.var ^ 2 : ℝ) : ℂ) * (d.terms.map fun t => (d.termHat t).px k l).sum =
    ((d.zp / d.var ^ 2 : ℝ) : ℂ) * ((fftOrtho d.interped.toC).px k l *
      (starRingEnd ℂ) ((combinedImage d ts d.com).psfHat.px k l) *
      shiftPhase d.interped.h d.interped.w d.com k l)
  congr 1
  have hhat : (combinedImage d ts d.com).psfHat.px k l =
      (ts.map fun p => ((p.1 / N : ℝ) : ℂ) * (d.psfHat p.2).px k l).sum :=
    combinedPsf_hat ts d.interped.h d.interped.w k l
  rw [hhat, ht, constTerms, List.map_map]
  simp only [Function.comp_def, term]
  clear_value N
  clear hN hhat term ht
  induction ts with
  | nil => simp
  | cons p ts ih =>
    simp only [List.map_cons, List.sum_cons, map_add] at ih ⊢
    rw [ih]
    ring

/-- C92: with constant fields the matched filter is that of the combined PSF, but recentred by the centre
of mass of the *first basis element*. -/
theorem varpsf_filter_constant (d : VarPsf) (p : ℝ × Img ℝ) (ts : List (ℝ × Img ℝ)) (ht : d.terms = constTerms (p :: ts))
    (k l : ℕ) :
    d.sHatComp.px k l = (combinedImage d (p :: ts) (psfCentroid p.2)).sHatComp.px k l := by
  have hc : d.com = psfCentroid p.2 := by
    unfold VarPsf.com
    rw [ht]
    rfl
  rw [varpsf_filter_com d (p :: ts) ht, hc]

/-- C92: the PSF power of such an image is the sum of the powers of the basis elements, whatever the
coefficient fields are. -/
theorem varpsf_power (d : VarPsf) (k l : ℕ) :
    d.psfSqnorm.px k l =
      (((d.terms.map fun t => Complex.normSq ((d.psfHat t.psf).px k l)).sum : ℝ) : ℂ) := by
  change (d.terms.map fun t => (d.psfHat t.psf).px k l * (starRingEnd ℂ) ((d.psfHat t.psf).px k l)).sum = _
  induction d.terms with
  | nil => simp
  | cons t ts ih =>
    rw [List.map_cons, List.sum_cons, List.map_cons, List.sum_cons, ih, Complex.mul_conj]
    push_cast
    ring

theorem listSum_normSq_nonneg {α : Type} (ts : List α) (f : α → ℂ) :
    0 ≤ (ts.map fun t => Complex.normSq (f t)).sum := by
  refine List.sum_nonneg fun x hx => ?_
  rw [List.mem_map] at hx
  obtain ⟨t, _, rfl⟩ := hx
  exact Complex.normSq_nonneg _

/-! ## C93: what this does to the coadd -/

/-- The specified `R_hat` of images with variable PSFs is a sum over the square root of a real. -/
theorem varpsf_specP (ds : List VarPsf) (k l : ℕ) :
    specP (ds.map VarPsf.toCoImg) k l =
      (((ds.map fun d => (d.zp / d.var) ^ 2 *
        (d.terms.map fun t => Complex.normSq ((d.psfHat t.psf).px k l)).sum).sum : ℝ) : ℂ) := by
  unfold specP
  rw [List.map_map]
  induction ds with
  | nil => simp
  | cons d ds ih =>
    rw [List.map_cons, List.sum_cons, List.map_cons, List.sum_cons, ih]
    change (((d.zp / d.var) ^ 2 : ℝ) : ℂ) * d.psfSqnorm.px k l + _ = _
    rw [varpsf_power]
    push_cast
    ring

/-- An image with the constant PSF `p` (`a_fields == [None]`). -/
noncomputable def singleImage (d : VarPsf) (p : Img ℝ) : SinglePsf where
  interped := d.interped.toC
  psf := p.toC
  com := psfCentroid p
  zp := d.zp
  var := d.var
  mask := d.mask

/-- Combining copies of one PSF of total one gives that PSF. -/
theorem combinedPsf_copies (p : Img ℝ) (cs : List ℝ) (h w : ℕ) (hc : cs.sum ≠ 0) (hp : psfTotal p = 1) (i j : ℕ) :
    (combinedPsf (cs.map fun c => (c, p)) h w).px i j = if i < p.h ∧ j < p.w then p.px i j else 0 := by
  have hs : ∀ z : ℝ, ((cs.map fun c => (c, p)).map fun q : ℝ × Img ℝ => q.1 * z).sum = cs.sum * z := by
    intro z
    rw [List.map_map]
    have := List.sum_map_mul_right cs (fun c => c) z
    rw [List.map_id'] at this
    exact this
  have hA : ((cs.map fun c => (c, p)).map fun q : ℝ × Img ℝ =>
      q.1 * if i < q.2.h ∧ j < q.2.w then q.2.px i j else 0).sum =
      cs.sum * if i < p.h ∧ j < p.w then p.px i j else 0 := by
    rw [← hs]
    simp only [List.map_map]
    rfl
  have hB : ((cs.map fun c => (c, p)).map fun q : ℝ × Img ℝ => q.1 * psfTotal q.2).sum =
      cs.sum * psfTotal p := by
    rw [← hs]
    simp only [List.map_map]
    rfl
  change _ / _ = _
  rw [hA, hB, hp, mul_one, mul_div_cancel_left₀ _ hc]

/-- C93: describing the constant PSF `p` by several copies of it, with any coefficients of non-zero sum,
divides every pixel of the coadd by the square root of the number of copies. -/
theorem coadd_split_psf (lt : List CoImg → List CoImg → Option Bool) (d : VarPsf) (p : Img ℝ) (cs : List ℝ)
    (psfShape : ℕ) (ht : d.terms = constTerms (cs.map fun c => (c, p))) (hc : cs.sum ≠ 0) (hp : psfTotal p = 1)
    (hm : d.mask.HasShape d.interped.h d.interped.w) :
    ∃ one many, coaddCore lt [(singleImage d p).toCoImg] psfShape 1 = .ok one ∧
      coaddCore lt [d.toCoImg] psfShape 1 = .ok many ∧
      ∀ i j, many.R.px i j = one.R.px i j / ((Real.sqrt cs.length : ℝ) : ℂ) := by
  have hne : cs ≠ [] := by rintro rfl; simp at hc
  have hall : ∀ e : CoImg, e.h = d.interped.h → e.w = d.interped.w → e.mask = d.mask →
      AllShape [e] d.interped.h d.interped.w := by
    intro e h1 h2 h3 im him
    rw [List.mem_singleton] at him
    subst him
    exact ⟨h1, h2, h3 ▸ hm⟩
  obtain ⟨one, e1, o1, _⟩ := coadd_spec lt d.interped.h d.interped.w [(singleImage d p).toCoImg] psfShape 1
    (by simp) (hall _ rfl rfl rfl) (by simp) (by norm_num) (by norm_num)
  obtain ⟨many, e2, o2, _⟩ := coadd_spec lt d.interped.h d.interped.w [d.toCoImg] psfShape 1
    (by simp) (hall _ rfl rfl rfl) (by simp) (by norm_num) (by norm_num)
  have hR1 : one.R = ifftDefault ⟨d.interped.h, d.interped.w, coaddRhat [(singleImage d p).toCoImg]⟩ := by
    rw [← coadd_R_eq d.interped.h d.interped.w _ psfShape, ← o1]
  have hR2 : many.R = ifftDefault ⟨d.interped.h, d.interped.w, coaddRhat [d.toCoImg]⟩ := by
    rw [← coadd_R_eq d.interped.h d.interped.w _ psfShape, ← o2]
  refine ⟨one, many, e1, e2, ?_⟩
  have hcom : d.com = psfCentroid p := by
    unfold VarPsf.com
    rw [ht]
    obtain ⟨c, cs', rfl⟩ := List.exists_cons_of_ne_nil hne
    rfl
  have hhat : (combinedImage d (cs.map fun c => (c, p)) d.com).psfHat = (singleImage d p).psfHat := by
    refine fftOrtho_congr d.interped.h d.interped.w _ _ fun i hi j hj => ?_
    change (if i < d.interped.h ∧ j < d.interped.w then
      (((combinedPsf (cs.map fun c => (c, p)) d.interped.h d.interped.w).px i j : ℝ) : ℂ) else 0) =
      if i < p.h ∧ j < p.w then ((p.px i j : ℝ) : ℂ) else 0
    rw [if_pos ⟨hi, hj⟩, combinedPsf_copies p cs _ _ hc hp]
    split_ifs <;> simp
  have hS : ∀ k l, d.sHatComp.px k l = (singleImage d p).sHatComp.px k l := by
    intro k l
    rw [varpsf_filter_com d _ ht]
    change _ * (_ * (starRingEnd ℂ) ((combinedImage d (cs.map fun c => (c, p)) d.com).psfHat.px k l) *
      shiftPhase d.interped.h d.interped.w d.com k l) = _
    rw [hhat, hcom]
    rfl
  have hP2 : ∀ k l, specP [d.toCoImg] k l = ((cs.length * ((d.zp / d.var) ^ 2 *
      Complex.normSq ((d.psfHat p).px k l)) : ℝ) : ℂ) := by
    intro k l
    have := varpsf_specP [d] k l
    rw [List.map_singleton] at this
    rw [this]
    congr 1
    rw [List.map_singleton, List.sum_singleton, ht]
    unfold constTerms
    rw [List.map_map, List.map_map]
    have : (((fun t : PsfTerm => Complex.normSq ((d.psfHat t.psf).px k l)) ∘
        (fun q : ℝ × Img ℝ => (⟨fun _ _ => q.1, q.2⟩ : PsfTerm))) ∘ fun c => (c, p)) =
        fun _ : ℝ => Complex.normSq ((d.psfHat p).px k l) := rfl
    rw [this, List.map_const', List.sum_replicate, nsmul_eq_mul]
    ring
  have hP1 : ∀ k l, specP [(singleImage d p).toCoImg] k l = (((d.zp / d.var) ^ 2 *
      Complex.normSq ((d.psfHat p).px k l) : ℝ) : ℂ) := by
    intro k l
    change (((d.zp / d.var) ^ 2 : ℝ) : ℂ) * ((d.psfHat p).px k l * (starRingEnd ℂ) ((d.psfHat p).px k l)) + 0 = _
    rw [add_zero, Complex.mul_conj]
    push_cast
    rfl
  have hrat : ∀ k l, coaddRhat [d.toCoImg] k l =
      coaddRhat [(singleImage d p).toCoImg] k l / ((Real.sqrt cs.length : ℝ) : ℂ) := by
    intro k l
    have hq : 0 ≤ (d.zp / d.var) ^ 2 * Complex.normSq ((d.psfHat p).px k l) :=
      mul_nonneg (sq_nonneg _) (Complex.normSq_nonneg _)
    unfold coaddRhat
    rw [hP2, hP1, csqrt_ofReal_nonneg _ hq, csqrt_ofReal_nonneg _ (mul_nonneg (Nat.cast_nonneg _) hq),
      Real.sqrt_mul (Nat.cast_nonneg _)]
    have hs : specS [d.toCoImg] k l = specS [(singleImage d p).toCoImg] k l := by
      change d.sHatComp.px k l + 0 = (singleImage d p).sHatComp.px k l + 0
      rw [hS]
    rw [hs, div_div]
    push_cast
    rw [mul_comm]
  intro i j
  rw [hR1, hR2]
  change (∑ k ∈ range d.interped.h, ∑ l ∈ range d.interped.w, coaddRhat [d.toCoImg] k l * _) / _ =
    (∑ k ∈ range d.interped.h, ∑ l ∈ range d.interped.w, coaddRhat [(singleImage d p).toCoImg] k l * _) / _ / _
  rw [div_right_comm _ _ ((Real.sqrt cs.length : ℝ) : ℂ)]
  congr 1
  rw [Finset.sum_div]
  refine Finset.sum_congr rfl fun k _ => ?_
  rw [Finset.sum_div]
  refine Finset.sum_congr rfl fun l _ => ?_
  rw [hrat]
  rw [mul_comm, ← mul_div_assoc, mul_comm]

theorem shiftPhase_zero (h w : ℕ) (c : ℝ × ℝ) (hh : h ≠ 0) (hw : w ≠ 0) : shiftPhase h w c 0 0 = 1 := by
  have : ∀ n : ℕ, n ≠ 0 → sfreq n 0 = 0 := by
    intro n hn
    unfold sfreq
    rw [if_pos (by omega)]
    rfl
  unfold shiftPhase
  rw [this h hh, this w hw]
  simp [tw_zero]

/-- The zero-frequency coefficient is the sum of the pixels over the square root of their number. -/
theorem fftOrtho_zero (x : Img ℂ) :
    (fftOrtho x).px 0 0 = imSum x / ((Real.sqrt ((x.h * x.w : ℕ) : ℝ) : ℝ) : ℂ) := by
  change (∑ i ∈ range x.h, ∑ j ∈ range x.w, _) / _ = _
  congr 1
  refine Finset.sum_congr rfl fun i _ => Finset.sum_congr rfl fun j _ => ?_
  simp [tw_zero]

/-- A PSF that fits in the image keeps its total under zero-padding. -/
theorem padTo_sum (h w : ℕ) (p : Img ℝ) (hh : p.h ≤ h) (hw : p.w ≤ w) :
    imSum (padTo h w p.toC) = ((psfTotal p : ℝ) : ℂ) := by
  change ∑ i ∈ range h, ∑ j ∈ range w, (if i < p.h ∧ j < p.w then ((p.px i j : ℝ) : ℂ) else 0) = _
  unfold psfTotal
  push_cast
  symm
  have hsub : range p.h ⊆ range h := Finset.range_subset_range.2 hh
  have hsubw : range p.w ⊆ range w := Finset.range_subset_range.2 hw
  rw [← Finset.sum_subset hsub (fun i _ hi => by
    rw [mem_range] at hi
    exact Finset.sum_eq_zero fun j _ => if_neg (by omega))]
  refine Finset.sum_congr rfl fun i hi => ?_
  rw [← Finset.sum_subset hsubw (fun j _ hj => by
    rw [mem_range] at hj
    exact if_neg (by omega))]
  refine Finset.sum_congr rfl fun j hj => ?_
  rw [if_pos ⟨mem_range.1 hi, mem_range.1 hj⟩]

/-- C93: the total brightness of the coadd of images whose PSFs are constant combinations of basis elements
of total one. The numbers of basis elements enter under the square root, although the PSFs themselves all
have total one. -/
theorem coadd_total_brightness (lt : List CoImg → List CoImg → Option Bool)
    (ds : List (VarPsf × List (ℝ × Img ℝ))) (h w psfShape : ℕ) (procs : ℤ) (hne : ds ≠ [])
    (hh : h ≠ 0) (hw : w ≠ 0)
    (hs : ∀ d ∈ ds, d.1.interped.h = h ∧ d.1.interped.w = w ∧ d.1.mask.HasShape h w)
    (ht : ∀ d ∈ ds, d.1.terms = constTerms d.2)
    (hc : ∀ d ∈ ds, (d.2.map Prod.fst).sum ≠ 0)
    (hu : ∀ d ∈ ds, ∀ p ∈ d.2, psfTotal p.2 = 1 ∧ p.2.h ≤ h ∧ p.2.w ≤ w)
    (hp : procs ≤ ds.length) (hp' : procs ≤ 2 ^ 25) (hb : procs * ds.length ≤ 2 ^ 50) :
    ∃ out, coaddCore lt (ds.map fun d => d.1.toCoImg) psfShape procs = .ok out ∧
      ∑ i ∈ range h, ∑ j ∈ range w, out.R.px i j =
        ((((ds.map fun d => d.1.zp / d.1.var ^ 2 * ∑ i ∈ range h, ∑ j ∈ range w, d.1.interped.px i j).sum) /
          (Real.sqrt ((h * w : ℕ) : ℝ) *
            Real.sqrt (ds.map fun d => d.1.zp ^ 2 / d.1.var ^ 2 * (d.2.length : ℝ)).sum) : ℝ) : ℂ) := by
  have hall : AllShape (ds.map fun d => d.1.toCoImg) h w := by
    intro im him
    rw [List.mem_map] at him
    obtain ⟨d, hd, rfl⟩ := him
    exact hs d hd
  obtain ⟨out, e, ho, -⟩ := coadd_spec lt h w (ds.map fun d => d.1.toCoImg) psfShape procs
    (by simpa using hne) hall (by simpa using hp) hp' (by simpa using hb)
  have hR : out.R = ifftDefault ⟨h, w, coaddRhat (ds.map fun d => d.1.toCoImg)⟩ := by
    rw [← coadd_R_eq h w _ psfShape, ← ho]
  refine ⟨out, e, ?_⟩
  have hn : 0 < ((h * w : ℕ) : ℝ) := by exact_mod_cast Nat.pos_of_ne_zero (Nat.mul_ne_zero hh hw)
  set r : ℝ := Real.sqrt ((h * w : ℕ) : ℝ) with hr
  have hr0 : 0 < r := Real.sqrt_pos.2 hn
  have hrr : r * r = ((h * w : ℕ) : ℝ) := Real.mul_self_sqrt hn.le
  -- the transform of a unit PSF at zero
  have hhat : ∀ d ∈ ds, ∀ p ∈ d.2, (d.1.psfHat p.2).px 0 0 = ((r⁻¹ : ℝ) : ℂ) := by
    intro d hd p hpm
    obtain ⟨u1, u2, u3⟩ := hu d hd p hpm
    obtain ⟨s1, s2, _⟩ := hs d hd
    unfold VarPsf.psfHat
    rw [fftOrtho_zero, padTo_sum _ _ _ (by omega) (by omega), u1]
    change _ / ((Real.sqrt ((d.1.interped.h * d.1.interped.w : ℕ) : ℝ) : ℝ) : ℂ) = _
    rw [s1, s2, ← hr]
    push_cast
    rw [one_div]
  have hS : ∀ d ∈ ds, d.1.sHatComp.px 0 0 =
      ((d.1.zp / d.1.var ^ 2 * ∑ i ∈ range h, ∑ j ∈ range w, d.1.interped.px i j : ℝ) : ℂ) *
        ((r⁻¹ * r⁻¹ : ℝ) : ℂ) := by
    intro d hd
    obtain ⟨s1, s2, _⟩ := hs d hd
    rw [varpsf_filter_com d.1 d.2 (ht d hd)]
    change ((d.1.zp / d.1.var ^ 2 : ℝ) : ℂ) * ((fftOrtho d.1.interped.toC).px 0 0 *
      (starRingEnd ℂ) ((combinedImage d.1 d.2 d.1.com).psfHat.px 0 0) *
      shiftPhase d.1.interped.h d.1.interped.w d.1.com 0 0) = _
    have hcomb : (combinedImage d.1 d.2 d.1.com).psfHat.px 0 0 = ((r⁻¹ : ℝ) : ℂ) := by
      have := combinedPsf_hat d.2 d.1.interped.h d.1.interped.w 0 0
      change (fftOrtho (padTo d.1.interped.h d.1.interped.w _)).px 0 0 = _
      change (fftOrtho (padTo d.1.interped.h d.1.interped.w
        (combinedPsf d.2 d.1.interped.h d.1.interped.w).toC)).px 0 0 = _
      rw [this]
      have hN : (d.2.map fun q => q.1 * psfTotal q.2).sum = (d.2.map Prod.fst).sum := by
        refine congrArg List.sum (List.map_congr_left fun q hq => ?_)
        rw [(hu d hd q hq).1, mul_one]
      rw [hN]
      have e2 : (d.2.map fun p => ((p.1 / (d.2.map Prod.fst).sum : ℝ) : ℂ) *
          (fftOrtho (padTo d.1.interped.h d.1.interped.w p.2.toC)).px 0 0) =
          d.2.map fun p => (((d.2.map Prod.fst).sum : ℝ) : ℂ)⁻¹ * ((p.1 : ℝ) : ℂ) * ((r⁻¹ : ℝ) : ℂ) := by
        refine List.map_congr_left fun p hpm => ?_
        have := hhat d hd p hpm
        unfold VarPsf.psfHat at this
        rw [this]
        push_cast
        ring
      rw [e2, List.sum_map_mul_right, List.sum_map_mul_left]
      have e3 : (d.2.map fun p => ((p.1 : ℝ) : ℂ)).sum = (((d.2.map Prod.fst).sum : ℝ) : ℂ) := by
        induction d.2 with
        | nil => simp
        | cons q qs ih => simp only [List.map_cons, List.sum_cons, ih]; push_cast; rfl
      rw [e3, inv_mul_cancel₀ (by exact_mod_cast hc d hd), one_mul]
    rw [hcomb, shiftPhase_zero _ _ _ (by omega) (by omega), fftOrtho_zero, Complex.conj_ofReal]
    have e4 : imSum d.1.interped.toC = ((∑ i ∈ range h, ∑ j ∈ range w, d.1.interped.px i j : ℝ) : ℂ) := by
      push_cast
      change ∑ i ∈ range d.1.interped.h, ∑ j ∈ range d.1.interped.w, ((d.1.interped.px i j : ℝ) : ℂ) = _
      rw [s1, s2]
    rw [e4]
    change _ * (_ / ((Real.sqrt ((d.1.interped.h * d.1.interped.w : ℕ) : ℝ) : ℝ) : ℂ) * _ * _) = _
    rw [s1, s2, ← hr]
    push_cast
    ring
  have hP : specP (ds.map fun d => d.1.toCoImg) 0 0 =
      (((ds.map fun d => d.1.zp ^ 2 / d.1.var ^ 2 * (d.2.length : ℝ)).sum * (r⁻¹ * r⁻¹) : ℝ) : ℂ) := by
    have h1 := varpsf_specP (ds.map Prod.fst) 0 0
    rw [List.map_map, List.map_map] at h1
    have h2 : (ds.map fun d => d.1.toCoImg) = ds.map (VarPsf.toCoImg ∘ Prod.fst) := rfl
    rw [h2, h1, ← List.sum_map_mul_right]
    congr 2
    refine List.map_congr_left fun d hd => ?_
    change (d.1.zp / d.1.var) ^ 2 * (d.1.terms.map fun t => Complex.normSq ((d.1.psfHat t.psf).px 0 0)).sum = _
    rw [ht d hd, constTerms, List.map_map]
    have e5 : (d.2.map ((fun t : PsfTerm => Complex.normSq ((d.1.psfHat t.psf).px 0 0)) ∘
        fun p : ℝ × Img ℝ => (⟨fun _ _ => p.1, p.2⟩ : PsfTerm))) = d.2.map fun _ => r⁻¹ * r⁻¹ := by
      refine List.map_congr_left fun p hpm => ?_
      change Complex.normSq ((d.1.psfHat p.2).px 0 0) = _
      rw [hhat d hd p hpm, Complex.normSq_ofReal]
    rw [e5, List.map_const', List.sum_replicate, nsmul_eq_mul, div_pow]
    ring
  have hsum : specS (ds.map fun d => d.1.toCoImg) 0 0 =
      (((ds.map fun d => d.1.zp / d.1.var ^ 2 * ∑ i ∈ range h, ∑ j ∈ range w, d.1.interped.px i j).sum *
        (r⁻¹ * r⁻¹) : ℝ) : ℂ) := by
    unfold specS
    rw [List.map_map]
    have e6 : (ds.map ((fun im : CoImg => im.sHat 0 0) ∘ fun d : VarPsf × List (ℝ × Img ℝ) => d.1.toCoImg)) =
        ds.map fun d => ((d.1.zp / d.1.var ^ 2 * ∑ i ∈ range h, ∑ j ∈ range w, d.1.interped.px i j : ℝ) : ℂ) *
          ((r⁻¹ * r⁻¹ : ℝ) : ℂ) := List.map_congr_left fun d hd => hS d hd
    rw [e6, List.sum_map_mul_right]
    push_cast
    congr 1
    clear e6 hP hS hhat hR ho e hall hs ht hc hu hne hp hb
    induction ds with
    | nil => simp
    | cons d ds ih => simp only [List.map_cons, List.sum_cons, ih]; push_cast; rfl
  rw [hR]
  have htot : ∑ i ∈ range h, ∑ j ∈ range w,
      (ifftDefault ⟨h, w, coaddRhat (ds.map fun d => d.1.toCoImg)⟩).px i j =
      coaddRhat (ds.map fun d => d.1.toCoImg) 0 0 := by
    have := sum_idftSum ⟨h, w, coaddRhat (ds.map fun d => d.1.toCoImg)⟩ hh hw
    change ∑ i ∈ range h, ∑ j ∈ range w, (idftSum ⟨h, w, coaddRhat (ds.map fun d => d.1.toCoImg)⟩).px i j /
      ((h * w : ℕ) : ℂ) = _
    simp only [← Finset.sum_div]
    rw [this]
    have hne' : (h : ℂ) * (w : ℂ) ≠ 0 := by exact_mod_cast Nat.mul_ne_zero hh hw
    push_cast
    exact mul_div_cancel_right₀ _ hne'
  have hQ : 0 ≤ (ds.map fun d => d.1.zp ^ 2 / d.1.var ^ 2 * (d.2.length : ℝ)).sum := by
    refine List.sum_nonneg fun x hx => ?_
    rw [List.mem_map] at hx
    obtain ⟨d, _, rfl⟩ := hx
    positivity
  rw [htot, coaddRhat, hsum, hP, csqrt_ofReal_nonneg _ (mul_nonneg hQ (by positivity)),
    Real.sqrt_mul hQ, Real.sqrt_mul_self (by positivity), ← Complex.ofReal_div]
  congr 1
  generalize (ds.map fun d => d.1.zp ^ 2 / d.1.var ^ 2 * (d.2.length : ℝ)).sum = Q
  rcases eq_or_ne (Real.sqrt Q) 0 with h0 | h0
  · rw [h0]; simp
  · field_simp

/-! ## C94: the matched filter finds a star -/

theorem idftSum_map_mul (X : Img ℂ) (c : ℂ) (i j : ℕ) :
    (idftSum (X.map fun z => c * z)).px i j = c * (idftSum X).px i j := by
  change ∑ k ∈ range X.h, ∑ l ∈ range X.w, _ = c * ∑ k ∈ range X.h, ∑ l ∈ range X.w, _
  rw [Finset.mul_sum]
  refine Finset.sum_congr rfl fun k _ => ?_
  rw [Finset.mul_sum]
  exact Finset.sum_congr rfl fun l _ => mul_assoc _ _ _

/-- The inverse transform of the product of one orthonormal transform with the conjugate of another,
shifted by whole pixels. -/
theorem ifftOrtho_corr (x y : Img ℂ) (hh : y.h = x.h) (hw : y.w = x.w) (a b : ℤ) (i j : ℕ)
    (hi : i < x.h) (hj : j < x.w) :
    (ifftOrtho (fourierShift ((fftOrtho x).zip (fun m p => m * (starRingEnd ℂ) p) (fftOrtho y))
      ((a : ℝ), (b : ℝ)))).px i j =
      circCorr x.h x.w x.px y.px (((i : ℤ) - a) % x.h).toNat (((j : ℤ) - b) % x.w).toNat /
        ((Real.sqrt ((x.h * x.w : ℕ) : ℝ) : ℝ) : ℂ) := by
  have hn : 0 < ((x.h * x.w : ℕ) : ℝ) := by
    exact_mod_cast Nat.pos_of_ne_zero (Nat.mul_ne_zero (by omega) (by omega))
  set r : ℝ := Real.sqrt ((x.h * x.w : ℕ) : ℝ) with hr
  have hr0 : 0 < r := Real.sqrt_pos.2 hn
  have hrr : r * r = ((x.h * x.w : ℕ) : ℝ) := Real.mul_self_sqrt hn.le
  have e : (fftOrtho x).zip (fun m p => m * (starRingEnd ℂ) p) (fftOrtho y) =
      ((dft x).zip (fun m p => m * (starRingEnd ℂ) p) (dft y)).map fun z => ((r * r : ℝ) : ℂ)⁻¹ * z := by
    unfold fftOrtho Img.zip Img.map
    congr 1
    funext k l
    change (dft x).px k l / (r : ℂ) * (starRingEnd ℂ) ((dft y).px k l / ((Real.sqrt ((y.h * y.w : ℕ) : ℝ) : ℝ) : ℂ)) = _
    rw [hh, hw, ← hr, map_div₀, Complex.conj_ofReal]
    push_cast
    rw [mul_inv]
    ring
  change (idftSum _).px i j / (r : ℂ) = _
  congr 1
  have hroll := idftSum_shift_roll ((fftOrtho x).zip (fun m p => m * (starRingEnd ℂ) p) (fftOrtho y)) a b i j hi hj
  rw [hroll, e, idftSum_map_mul, idftSum_dft_mul_conj x y hh hw (by omega) (by omega), hrr]
  push_cast
  have hne : (x.h : ℂ) * (x.w : ℂ) ≠ 0 := by
    exact_mod_cast Nat.mul_ne_zero (n := x.h) (m := x.w) (by omega) (by omega)
  rw [← mul_assoc, inv_mul_cancel₀ hne, one_mul]
  rfl

/-- C94: the filtered image of an image with a constant PSF whose centre of mass is a whole pixel: the
circular correlation of image and PSF, moved back by the centre, times `zp / var²`, over the square root
of the number of pixels. -/
theorem filtered_is_correlation (d : SinglePsf) (a b : ℤ) (hc : d.com = ((a : ℝ), (b : ℝ))) (i j : ℕ)
    (hi : i < d.interped.h) (hj : j < d.interped.w) :
    (ifftOrtho d.sHatComp).px i j = ((d.zp / d.var ^ 2 : ℝ) : ℂ) *
      (circCorr d.interped.h d.interped.w d.interped.px (padTo d.interped.h d.interped.w d.psf).px
        (((i : ℤ) - a) % d.interped.h).toNat (((j : ℤ) - b) % d.interped.w).toNat /
        ((Real.sqrt ((d.interped.h * d.interped.w : ℕ) : ℝ) : ℝ) : ℂ)) := by
  rw [← ifftOrtho_corr d.interped (padTo d.interped.h d.interped.w d.psf) rfl rfl a b i j hi hj, ← hc]
  change (idftSum ((fourierShift _ d.com).map fun z => ((d.zp / d.var ^ 2 : ℝ) : ℂ) * z)).px i j / _ =
    _ * ((idftSum _).px i j / _)
  rw [idftSum_map_mul, mul_div_assoc]
  rfl

/-- The zero-padded pixels of a PSF. -/
def padPx (p : Img ℝ) (a b : ℕ) : ℝ := if a < p.h ∧ b < p.w then p.px a b else 0

theorem mod_roll (h p u a : ℕ) (hp : p < h) : (u + a) % h = (p + ((u + (h - p)) + a) % h) % h := by
  rw [Nat.add_mod_mod, show p + (u + (h - p) + a) = u + a + h by omega, Nat.add_mod_right]

/-- C94: a star of flux `c`, drawn with the corner of its PSF stamp at `(p, q)` (wrapping around the edges)
on an otherwise empty image. The filtered image is largest at the star's centre, `(p, q)` plus the centre
of mass of the PSF, and its value there is known. -/
theorem filtered_star (d : VarPsf) (psf : Img ℝ) (A B p q : ℕ) (c : ℝ)
    (hcom : psfCentroid psf = ((A : ℝ), (B : ℝ))) (hp : p < d.interped.h) (hq : q < d.interped.w)
    (hc : 0 ≤ c) (hz : 0 ≤ d.zp)
    (hstar : ∀ a < d.interped.h, ∀ b < d.interped.w,
      d.interped.px ((p + a) % d.interped.h) ((q + b) % d.interped.w) = c * padPx psf a b) :
    (filteredImg (singleImage d psf).sHatComp).px ((p + A) % d.interped.h) ((q + B) % d.interped.w) =
      d.zp / d.var ^ 2 * (c * (∑ a ∈ range d.interped.h, ∑ b ∈ range d.interped.w, padPx psf a b ^ 2)) /
        Real.sqrt ((d.interped.h * d.interped.w : ℕ) : ℝ) ∧
    ∀ i < d.interped.h, ∀ j < d.interped.w, (filteredImg (singleImage d psf).sHatComp).px i j ≤
      (filteredImg (singleImage d psf).sHatComp).px ((p + A) % d.interped.h) ((q + B) % d.interped.w) := by
  set h := d.interped.h with hh
  set w := d.interped.w with hw
  -- the image at any pixel
  have himg : ∀ u v a b, d.interped.px ((u + a) % h) ((v + b) % w) =
      c * padPx psf ((u + (h - p) + a) % h) ((v + (w - q) + b) % w) := by
    intro u v a b
    rw [mod_roll h p u a hp, mod_roll w q v b hq]
    exact hstar _ (Nat.mod_lt _ (by omega)) _ (Nat.mod_lt _ (by omega))
  have hval : ∀ i < h, ∀ j < w, (filteredImg (singleImage d psf).sHatComp).px i j =
      d.zp / d.var ^ 2 * (c * ∑ a ∈ range h, ∑ b ∈ range w,
        padPx psf (((((i : ℤ) - A) % h).toNat + (h - p) + a) % h) (((((j : ℤ) - B) % w).toNat + (w - q) + b) % w) *
          padPx psf a b) / Real.sqrt ((h * w : ℕ) : ℝ) := by
    intro i hi j hj
    change ((ifftOrtho (singleImage d psf).sHatComp).px i j).re = _
    rw [filtered_is_correlation (singleImage d psf) A B (by
      change psfCentroid psf = _
      rw [hcom]; push_cast; rfl) i j hi hj]
    have e : circCorr h w (fun i j => ((d.interped.px i j : ℝ) : ℂ)) (padTo h w psf.toC).px
        (((i : ℤ) - A) % h).toNat (((j : ℤ) - B) % w).toNat =
        ((c * ∑ a ∈ range h, ∑ b ∈ range w,
        padPx psf (((((i : ℤ) - A) % h).toNat + (h - p) + a) % h) (((((j : ℤ) - B) % w).toNat + (w - q) + b) % w) *
          padPx psf a b : ℝ) : ℂ) := by
      unfold circCorr
      push_cast
      rw [Finset.mul_sum]
      refine Finset.sum_congr rfl fun a _ => ?_
      rw [Finset.mul_sum]
      refine Finset.sum_congr rfl fun b _ => ?_
      rw [himg]
      have : (padTo h w psf.toC).px a b = ((padPx psf a b : ℝ) : ℂ) := by
        change (if a < psf.h ∧ b < psf.w then ((psf.px a b : ℝ) : ℂ) else 0) = _
        unfold padPx
        split_ifs <;> simp
      rw [this, Complex.conj_ofReal]
      push_cast
      ring
    change (((d.zp / d.var ^ 2 : ℝ) : ℂ) * (circCorr h w (fun i j => ((d.interped.px i j : ℝ) : ℂ))
      (padTo h w psf.toC).px (((i : ℤ) - A) % h).toNat (((j : ℤ) - B) % w).toNat / ((Real.sqrt ((h * w : ℕ) : ℝ) : ℝ) : ℂ))).re = _
    rw [e, ← Complex.ofReal_div, ← Complex.ofReal_mul, Complex.ofReal_re]
    ring
  have hpeak : (filteredImg (singleImage d psf).sHatComp).px ((p + A) % h) ((q + B) % w) =
      d.zp / d.var ^ 2 * (c * (∑ a ∈ range h, ∑ b ∈ range w, padPx psf a b ^ 2)) / Real.sqrt ((h * w : ℕ) : ℝ) := by
    rw [hval _ (Nat.mod_lt _ (by omega)) _ (Nat.mod_lt _ (by omega))]
    have back : ∀ n s t : ℕ, s < n → ((((((s + t) % n : ℕ) : ℤ) - t) % n).toNat) = s := by
      intro n s t hs
      push_cast
      rw [Int.emod_sub_emod, add_sub_cancel_right, Int.emod_eq_of_lt (by omega) (by omega)]
      rfl
    rw [back h p A hp, back w q B hq]
    congr 3
    refine Finset.sum_congr rfl fun a ha => Finset.sum_congr rfl fun b hb => ?_
    rw [show p + (h - p) + a = a + h by omega, show q + (w - q) + b = b + w by omega, Nat.add_mod_right,
      Nat.add_mod_right, Nat.mod_eq_of_lt (mem_range.1 ha), Nat.mod_eq_of_lt (mem_range.1 hb)]
    ring
  refine ⟨hpeak, fun i hi j hj => ?_⟩
  rw [hpeak, hval i hi j hj]
  refine div_le_div_of_nonneg_right ?_ (Real.sqrt_nonneg _)
  refine mul_le_mul_of_nonneg_left ?_ (by positivity)
  exact mul_le_mul_of_nonneg_left (autocorr_le h w (padPx psf) _ _) hc

/-- A 5x5 image with one star of flux 8 whose 3x3 PSF has its centre at `(1, 1)`: the hypotheses of
`filtered_star` are met with the stamp corner at `(4, 3)`, and the filtered image peaks at pixel
`(0, 4)`, the star's centre across the edge. -/
noncomputable def starPsf : Img ℝ := ⟨3, 3, fun i j => if i = 1 ∧ j = 1 then 3 / 4 else if i = 1 ∧ j = 0 then 1 / 8
  else if i = 1 ∧ j = 2 then 1 / 8 else 0⟩

noncomputable def starDemo : VarPsf where
  interped := ⟨5, 5, fun i j => 8 * padPx starPsf ((i + 1) % 5) ((j + 2) % 5)⟩
  terms := []
  zp := 1
  var := 2
  mask := none

example : ∀ i < 5, ∀ j < 5, (filteredImg (singleImage starDemo starPsf).sHatComp).px i j ≤
    (filteredImg (singleImage starDemo starPsf).sHatComp).px 0 4 := by
  have hcom : psfCentroid starPsf = (((1 : ℕ) : ℝ), ((1 : ℕ) : ℝ)) := by
    unfold psfCentroid starPsf
    simp only [Finset.sum_range_succ, Finset.sum_range_zero]
    norm_num
  refine (filtered_star starDemo starPsf 1 1 4 3 8 hcom (by simp [starDemo]) (by simp [starDemo])
    (by norm_num) (by norm_num [starDemo]) ?_).2
  intro a ha b hb
  have ha' : a < 5 := ha
  have hb' : b < 5 := hb
  change 8 * padPx starPsf (((4 + a) % 5 + 1) % 5) (((3 + b) % 5 + 2) % 5) = _
  rw [show ((4 + a) % 5 + 1) % 5 = a by omega, show ((3 + b) % 5 + 2) % 5 = b by omega]

/-! ## C95: the squared PSF -/

theorem ifftShift_add (h w : ℕ) (f g : ℕ → ℕ → ℂ) (c : ℝ × ℝ) (i j : ℕ) :
    (ifftOrtho (fourierShift ⟨h, w, fun k l => f k l + g k l⟩ c)).px i j =
      (ifftOrtho (fourierShift ⟨h, w, f⟩ c)).px i j + (ifftOrtho (fourierShift ⟨h, w, g⟩ c)).px i j := by
  unfold ifftOrtho idftSum fourierShift Img.map
  simp only
  rw [← add_div, ← Finset.sum_add_distrib]
  congr 1
  refine Finset.sum_congr rfl fun k _ => ?_
  rw [← Finset.sum_add_distrib]
  refine Finset.sum_congr rfl fun l _ => ?_
  ring

theorem ifftShift_listSum {α : Type} (h w : ℕ) (ts : List α) (f : α → ℕ → ℕ → ℂ) (c : ℝ × ℝ) (i j : ℕ) :
    (ifftOrtho (fourierShift ⟨h, w, fun k l => (ts.map fun t => f t k l).sum⟩ c)).px i j =
      (ts.map fun t => (ifftOrtho (fourierShift ⟨h, w, f t⟩ c)).px i j).sum := by
  induction ts with
  | nil => simp [ifftOrtho, idftSum, fourierShift, Img.map]
  | cons t ts ih =>
    rw [List.map_cons, List.sum_cons, ← ih, ← ifftShift_add]
    rfl

/-- C95: for a stamp of even size the squared PSF is the sum of the autocorrelations of the basis elements,
rolled by half the stamp, over the square root of the number of pixels. -/
theorem pSqnorm_even (d : VarPsf) (A B : ℕ) (i j : ℕ) (hi : i < d.interped.h) (hj : j < d.interped.w) :
    (d.pSqnorm (2 * A, 2 * B)).px i j = (((d.terms.map fun t =>
      ∑ a ∈ range d.interped.h, ∑ b ∈ range d.interped.w,
        padPx t.psf (((((i : ℤ) - A) % d.interped.h).toNat + a) % d.interped.h)
          (((((j : ℤ) - B) % d.interped.w).toNat + b) % d.interped.w) * padPx t.psf a b).sum /
      Real.sqrt ((d.interped.h * d.interped.w : ℕ) : ℝ) : ℝ) : ℂ) := by
  have e0 : ((((2 * A : ℕ) : ℝ) / 2, ((2 * B : ℕ) : ℝ) / 2) : ℝ × ℝ) = (((A : ℤ) : ℝ), ((B : ℤ) : ℝ)) := by
    push_cast
    rw [mul_div_cancel_left₀ _ two_ne_zero, mul_div_cancel_left₀ _ two_ne_zero]
  change (ifftOrtho (fourierShift d.psfSqnorm (((2 * A : ℕ) : ℝ) / 2, ((2 * B : ℕ) : ℝ) / 2))).px i j = _
  rw [e0]
  have hterm : ∀ t : PsfTerm, (ifftOrtho (fourierShift ((d.psfHat t.psf).zip (fun m p => m * (starRingEnd ℂ) p)
        (d.psfHat t.psf)) (((A : ℤ) : ℝ), ((B : ℤ) : ℝ)))).px i j =
      (((∑ a ∈ range d.interped.h, ∑ b ∈ range d.interped.w,
        padPx t.psf (((((i : ℤ) - A) % d.interped.h).toNat + a) % d.interped.h)
          (((((j : ℤ) - B) % d.interped.w).toNat + b) % d.interped.w) * padPx t.psf a b) /
        Real.sqrt ((d.interped.h * d.interped.w : ℕ) : ℝ) : ℝ) : ℂ) := by
    intro t
    have hpad : ∀ a b, (padTo d.interped.h d.interped.w t.psf.toC).px a b = ((padPx t.psf a b : ℝ) : ℂ) := by
      intro a b
      change (if a < t.psf.h ∧ b < t.psf.w then ((t.psf.px a b : ℝ) : ℂ) else 0) = _
      unfold padPx
      split_ifs <;> simp
    unfold VarPsf.psfHat
    rw [ifftOrtho_corr (padTo d.interped.h d.interped.w t.psf.toC) _ rfl rfl A B i j hi hj]
    rw [Complex.ofReal_div]
    congr 1
    unfold circCorr
    push_cast
    refine Finset.sum_congr rfl fun a _ => Finset.sum_congr rfl fun b _ => ?_
    rw [hpad, hpad, Complex.conj_ofReal]
    rfl
  refine (ifftShift_listSum d.interped.h d.interped.w d.terms
    (fun t k l => (d.psfHat t.psf).px k l * (starRingEnd ℂ) ((d.psfHat t.psf).px k l)) _ i j).trans ?_
  have hterm' : ∀ t : PsfTerm, (ifftOrtho (fourierShift ⟨d.interped.h, d.interped.w,
      fun k l => (d.psfHat t.psf).px k l * (starRingEnd ℂ) ((d.psfHat t.psf).px k l)⟩
      (((A : ℤ) : ℝ), ((B : ℤ) : ℝ)))).px i j = _ := hterm
  simp only [hterm']
  clear hterm hterm'
  induction d.terms with
  | nil => simp
  | cons t ts ih =>
    rw [List.map_cons, List.sum_cons, List.map_cons, List.sum_cons, ih, ← Complex.ofReal_add, ← add_div]

/-- C95: for a stamp of even size the squared PSF is real, and largest half a stamp from the corner. -/
theorem pSqnorm_even_peak (d : VarPsf) (A B : ℕ) (hA : A < d.interped.h) (hB : B < d.interped.w)
    (i j : ℕ) (hi : i < d.interped.h) (hj : j < d.interped.w) :
    ((d.pSqnorm (2 * A, 2 * B)).px i j).im = 0 ∧
    ((d.pSqnorm (2 * A, 2 * B)).px i j).re ≤ ((d.pSqnorm (2 * A, 2 * B)).px A B).re ∧
    ((d.pSqnorm (2 * A, 2 * B)).px A B).re = (d.terms.map fun t =>
      ∑ a ∈ range d.interped.h, ∑ b ∈ range d.interped.w, padPx t.psf a b ^ 2).sum /
      Real.sqrt ((d.interped.h * d.interped.w : ℕ) : ℝ) := by
  have hpk : ((d.pSqnorm (2 * A, 2 * B)).px A B).re = (d.terms.map fun t =>
      ∑ a ∈ range d.interped.h, ∑ b ∈ range d.interped.w, padPx t.psf a b ^ 2).sum /
      Real.sqrt ((d.interped.h * d.interped.w : ℕ) : ℝ) := by
    rw [pSqnorm_even d A B A B hA hB, Complex.ofReal_re]
    congr 2
    refine List.map_congr_left fun t _ => ?_
    refine Finset.sum_congr rfl fun a ha => Finset.sum_congr rfl fun b hb => ?_
    rw [sub_self, sub_self, Int.zero_emod, Int.zero_emod, Int.toNat_zero, zero_add, zero_add,
      Nat.mod_eq_of_lt (mem_range.1 ha), Nat.mod_eq_of_lt (mem_range.1 hb), sq]
  refine ⟨by rw [pSqnorm_even d A B i j hi hj, Complex.ofReal_im], ?_, hpk⟩
  rw [hpk, pSqnorm_even d A B i j hi hj, Complex.ofReal_re]
  refine div_le_div_of_nonneg_right ?_ (Real.sqrt_nonneg _)
  exact List.sum_le_sum fun t _ => autocorr_le _ _ (padPx t.psf) _ _

/-- C95: for every stamp size, even or odd, reflecting a pixel of the squared PSF in half the stamp gives the
complex conjugate. -/
theorem pSqnorm_symmetric (d : VarPsf) (s t i j i' j' : ℕ) (hi' : (i : ℤ) + i' ≡ s [ZMOD d.interped.h])
    (hj' : (j : ℤ) + j' ≡ t [ZMOD d.interped.w]) (h0 : d.interped.h ≠ 0) (w0 : d.interped.w ≠ 0) :
    (d.pSqnorm (s, t)).px i' j' = (starRingEnd ℂ) ((d.pSqnorm (s, t)).px i j) := by
  have axis : ∀ (n k p p' z : ℕ), n ≠ 0 → (p : ℤ) + p' ≡ z [ZMOD n] →
      tw n ((sfreq n k : ℝ) * ((z : ℝ) / 2)) * tw n (-((k : ℝ) * p')) =
        (starRingEnd ℂ) (tw n ((sfreq n k : ℝ) * ((z : ℝ) / 2)) * tw n (-((k : ℝ) * p))) := by
    intro n k p p' z hn hm
    have e1 : ∀ m : ℕ, tw n (-((k : ℝ) * m)) = tw n ((sfreq n k : ℝ) * ((-(m : ℤ) : ℤ) : ℝ)) := by
      intro m
      rw [tw_sfreq n hn]
      push_cast
      rw [mul_neg]
    obtain ⟨u, hu⟩ := hm.symm.dvd
    have hz : (z : ℝ) = (p : ℝ) + p' - n * u := by
      have : (z : ℤ) = (p : ℤ) + p' - n * u := by linarith
      exact_mod_cast this
    rw [e1, e1, ← tw_add n, ← tw_add n, conj_tw, hz]
    push_cast
    rw [show -((sfreq n k : ℝ) * (((p : ℝ) + p' - n * u) / 2) + (sfreq n k : ℝ) * -(p : ℝ)) =
      ((sfreq n k : ℝ) * (((p : ℝ) + p' - n * u) / 2) + (sfreq n k : ℝ) * -(p' : ℝ)) +
        (n : ℝ) * ((sfreq n k * u : ℤ) : ℝ) by push_cast; ring, tw_add n _ ((n : ℝ) * _), tw_period n hn, mul_one]
  change (∑ k ∈ range d.interped.h, ∑ l ∈ range d.interped.w, d.psfSqnorm.px k l *
    shiftPhase d.interped.h d.interped.w ((s : ℝ) / 2, (t : ℝ) / 2) k l *
      (tw d.interped.h (-((k : ℝ) * i')) * tw d.interped.w (-((l : ℝ) * j')))) /
        ((Real.sqrt ((d.interped.h * d.interped.w : ℕ) : ℝ) : ℝ) : ℂ) =
    (starRingEnd ℂ) ((∑ k ∈ range d.interped.h, ∑ l ∈ range d.interped.w, d.psfSqnorm.px k l *
    shiftPhase d.interped.h d.interped.w ((s : ℝ) / 2, (t : ℝ) / 2) k l *
      (tw d.interped.h (-((k : ℝ) * i)) * tw d.interped.w (-((l : ℝ) * j)))) /
        ((Real.sqrt ((d.interped.h * d.interped.w : ℕ) : ℝ) : ℝ) : ℂ))
  rw [map_div₀, Complex.conj_ofReal, map_sum]
  congr 1
  refine Finset.sum_congr rfl fun k _ => ?_
  rw [map_sum]
  refine Finset.sum_congr rfl fun l _ => ?_
  rw [varpsf_power]
  unfold shiftPhase
  have a1 := axis d.interped.h k i i' s h0 hi'
  have a2 := axis d.interped.w l j j' t w0 hj'
  rw [show ∀ (a b c e f : ℂ), a * (b * c) * (e * f) = a * ((b * e) * (c * f)) by intros; ring, a1, a2,
    show ∀ (a b c e f : ℂ), a * (b * c) * (e * f) = a * ((b * e) * (c * f)) by intros; ring, map_mul (starRingEnd ℂ) (Complex.ofReal _),
    Complex.conj_ofReal, map_mul (starRingEnd ℂ) (_ * _) (_ * _)]

/-- C95: with the usual odd stamp the squared PSF has no central pixel: the two pixels next to the centre
along the diagonal have the same modulus. -/
theorem pSqnorm_odd_no_centre (d : VarPsf) (A B : ℕ) (h0 : d.interped.h ≠ 0) (w0 : d.interped.w ≠ 0) :
    ‖(d.pSqnorm (2 * A + 1, 2 * B + 1)).px A B‖ = ‖(d.pSqnorm (2 * A + 1, 2 * B + 1)).px (A + 1) (B + 1)‖ := by
  rw [pSqnorm_symmetric d (2 * A + 1) (2 * B + 1) A B (A + 1) (B + 1)
    (by have : (A : ℤ) + (A + 1 : ℕ) = (2 * A + 1 : ℕ) := by push_cast; ring
        rw [this])
    (by have : (B : ℤ) + (B + 1 : ℕ) = (2 * B + 1 : ℕ) := by push_cast; ring
        rw [this]) h0 w0, Complex.norm_conj]

/-! ## C96: the PSF that `coadd` returns -/

/-- C96: the PSF `coadd` returns for images with real single PSFs is real, symmetric about the pixel whose
coordinates are the stamp size (modulo the shape), and largest there. -/
theorem coadd_psf_peak (lt : List CoImg → List CoImg → Option Bool) {n : ℕ} (hn : 0 < n)
    (d : Fin n → SinglePsf) (h w s : ℕ) (procs : ℤ) (hh : h ≠ 0) (hw : w ≠ 0)
    (hs : ∀ j, (d j).interped.h = h ∧ (d j).interped.w = w ∧ (d j).mask.HasShape h w)
    (hreal : ∀ j, ∃ p : Img ℝ, (d j).psf = p.toC)
    (hp : procs ≤ n) (hp' : procs ≤ 2 ^ 25) (hb : procs * n ≤ 2 ^ 50) :
    ∃ out, coaddCore lt ((List.ofFn d).map SinglePsf.toCoImg) s procs = .ok out ∧
      ∀ i < h, ∀ j < w, (out.Pr.px i j).im = 0 ∧
        |(out.Pr.px i j).re| ≤ (out.Pr.px (s % h) (s % w)).re ∧
        ∀ i' < h, ∀ j' < w, (i : ℤ) + i' ≡ 2 * s [ZMOD h] → (j : ℤ) + j' ≡ 2 * s [ZMOD w] →
          out.Pr.px i' j' = out.Pr.px i j := by
  obtain ⟨out, e, _, _, hpx, _⟩ := coadd_returns_psf lt hn d h w s procs hh hw hs hp hp' hb
  refine ⟨out, e, ?_⟩
  set ρ : ℕ → ℕ → ℝ := fun k l =>
    Real.sqrt (zackayPower (fun j => (d j).zp) (fun j => (d j).var) (fun j => (d j).psfHat.px k l)) with hρ
  set X : Img ℂ := ⟨h, w, fun k l => ((ρ k l : ℝ) : ℂ)⟩ with hX
  have hpx' : ∀ i < h, ∀ j < w, out.Pr.px i j =
      (idftSum X).px (((i : ℤ) - s) % h).toNat (((j : ℤ) - s) % w).toNat / ((h * w : ℕ) : ℂ) / ((ρ 0 0 : ℝ) : ℂ) :=
    fun i hi j hj => hpx i hi j hj
  have hherm : Hermitian X := by
    intro k hk l hl
    change ((ρ (negIdx h k) (negIdx w l) : ℝ) : ℂ) = (starRingEnd ℂ) ((ρ k l : ℝ) : ℂ)
    rw [Complex.conj_ofReal]
    have : ∀ j, Complex.normSq ((d j).psfHat.px (negIdx h k) (negIdx w l)) =
        Complex.normSq ((d j).psfHat.px k l) := by
      intro j
      obtain ⟨p, hpj⟩ := hreal j
      obtain ⟨s1, s2, _⟩ := hs j
      have hH := hermitian_fftOrtho (padTo (d j).interped.h (d j).interped.w (d j).psf) (by
        intro a _ b _
        rw [hpj]
        change (starRingEnd ℂ) (if _ then ((p.px a b : ℝ) : ℂ) else 0) = if _ then ((p.px a b : ℝ) : ℂ) else 0
        split_ifs <;> simp)
      have := hH k (by change k < (d j).interped.h; rw [s1]; exact hk) l (by
        change l < (d j).interped.w; rw [s2]; exact hl)
      change (d j).psfHat.px (negIdx (d j).interped.h k) (negIdx (d j).interped.w l) =
        (starRingEnd ℂ) ((d j).psfHat.px k l) at this
      rw [s1, s2] at this
      rw [this, Complex.normSq_conj]
    simp only [hρ, zackayPower, this]
  have hρ0 : ∀ k l, 0 ≤ ρ k l := fun k l => Real.sqrt_nonneg _
  have hre : ∀ u v, ∃ x : ℝ, (idftSum X).px u v = (x : ℂ) := by
    intro u v
    have := idftSum_real X hherm u v
    exact ⟨((idftSum X).px u v).re, (Complex.conj_eq_iff_re.1 this).symm⟩
  have hbound : ∀ u v, ‖(idftSum X).px u v‖ ≤ ∑ k ∈ range h, ∑ l ∈ range w, ρ k l := by
    intro u v
    change ‖∑ k ∈ range h, ∑ l ∈ range w, ((ρ k l : ℝ) : ℂ) * (tw h _ * tw w _)‖ ≤ _
    refine (norm_sum_le _ _).trans (Finset.sum_le_sum fun k _ => (norm_sum_le _ _).trans
      (Finset.sum_le_sum fun l _ => ?_))
    rw [norm_mul, norm_mul, norm_tw, norm_tw, mul_one, mul_one, Complex.norm_real, Real.norm_eq_abs,
      abs_of_nonneg (hρ0 k l)]
  have hzero : (idftSum X).px 0 0 = ((∑ k ∈ range h, ∑ l ∈ range w, ρ k l : ℝ) : ℂ) := by
    push_cast
    change ∑ k ∈ range h, ∑ l ∈ range w, ((ρ k l : ℝ) : ℂ) *
      (tw h (-((k : ℝ) * ((0 : ℕ) : ℝ))) * tw w (-((l : ℝ) * ((0 : ℕ) : ℝ)))) = _
    simp [tw_zero]
  have hcen : ∀ m : ℕ, m ≠ 0 → ((((s % m : ℕ) : ℤ) - s) % m).toNat = 0 := by
    intro m hm
    have : (((s % m : ℕ) : ℤ) - s) % m = 0 := by
      push_cast
      rw [Int.emod_sub_emod, sub_self, Int.zero_emod]
    rw [this]; rfl
  intro i hi j hj
  obtain ⟨x, hx⟩ := hre (((i : ℤ) - s) % h).toNat (((j : ℤ) - s) % w).toNat
  have hval : out.Pr.px i j = ((x / ((h * w : ℕ) : ℝ) / ρ 0 0 : ℝ) : ℂ) := by
    rw [hpx' i hi j hj, hx]; push_cast; rfl
  have hvalc : out.Pr.px (s % h) (s % w) =
      (((∑ k ∈ range h, ∑ l ∈ range w, ρ k l) / ((h * w : ℕ) : ℝ) / ρ 0 0 : ℝ) : ℂ) := by
    rw [hpx' _ (Nat.mod_lt _ (by omega)) _ (Nat.mod_lt _ (by omega)), hcen h hh, hcen w hw, hzero]
    push_cast; rfl
  refine ⟨by rw [hval, Complex.ofReal_im], ?_, ?_⟩
  · rw [hval, hvalc, Complex.ofReal_re, Complex.ofReal_re, abs_div, abs_div, abs_of_nonneg (hρ0 0 0),
      abs_of_nonneg (Nat.cast_nonneg (h * w) : (0 : ℝ) ≤ _)]
    have := hbound (((i : ℤ) - s) % h).toNat (((j : ℤ) - s) % w).toNat
    rw [hx, Complex.norm_real, Real.norm_eq_abs] at this
    exact div_le_div_of_nonneg_right (div_le_div_of_nonneg_right this (Nat.cast_nonneg _)) (hρ0 0 0)
  · intro i' hi' j' hj' mi mj
    rw [hpx' i' hi' j' hj', hpx' i hi j hj]
    congr 2
    have hconj : (starRingEnd ℂ) ((idftSum X).px (((i : ℤ) - s) % h).toNat (((j : ℤ) - s) % w).toNat) =
        (idftSum X).px (((i : ℤ) - s) % h).toNat (((j : ℤ) - s) % w).toNat := by
      rw [hx, Complex.conj_ofReal]
    rw [← hconj]
    have axis : ∀ (m k p p' : ℕ), m ≠ 0 → (p : ℤ) + p' ≡ 2 * s [ZMOD m] →
        tw m (-((k : ℝ) * ((((p' : ℤ) - s) % m).toNat : ℕ))) =
          (starRingEnd ℂ) (tw m (-((k : ℝ) * ((((p : ℤ) - s) % m).toNat : ℕ)))) := by
      intro m k p p' hm hmod
      have e1 : ∀ z : ℤ, tw m (-((k : ℝ) * (((z % m).toNat : ℕ) : ℝ))) = tw m (-((k : ℝ) * z)) := by
        intro z
        have hnn : (0 : ℤ) ≤ z % m := Int.emod_nonneg _ (by exact_mod_cast hm)
        have hcast : (((z % m).toNat : ℕ) : ℝ) = ((z % m : ℤ) : ℝ) := by
          exact_mod_cast Int.toNat_of_nonneg hnn
        have hr : ((z % m : ℤ) : ℝ) = (z : ℝ) - m * ((z / m : ℤ) : ℝ) := by
          have := Int.mul_ediv_add_emod z m
          have : z % m = z - m * (z / m) := by omega
          rw [this]; push_cast; ring
        rw [hcast, hr, show -((k : ℝ) * ((z : ℝ) - m * ((z / m : ℤ) : ℝ))) =
          -((k : ℝ) * z) + (m : ℝ) * ((k * (z / m) : ℤ) : ℝ) by push_cast; ring, tw_add m (-((k : ℝ) * z)),
          tw_period m hm, mul_one]
      rw [e1, e1, conj_tw]
      obtain ⟨u, hu⟩ := hmod.symm.dvd
      have hz : (p' : ℝ) = 2 * s - p + m * u := by
        have : (p' : ℤ) = 2 * s - p + m * u := by linarith
        exact_mod_cast this
      push_cast
      rw [hz, show -((k : ℝ) * ((2 : ℝ) * s - p + m * u - s)) =
        - -((k : ℝ) * ((p : ℝ) - s)) + (m : ℝ) * ((-(k * u) : ℤ) : ℝ) by push_cast; ring,
        tw_add m (- -((k : ℝ) * ((p : ℝ) - s))), tw_period m hm, mul_one]
    change ∑ k ∈ range h, ∑ l ∈ range w, ((ρ k l : ℝ) : ℂ) * (tw h _ * tw w _) =
      (starRingEnd ℂ) (∑ k ∈ range h, ∑ l ∈ range w, ((ρ k l : ℝ) : ℂ) * (tw h _ * tw w _))
    rw [map_sum]
    refine Finset.sum_congr rfl fun k _ => ?_
    rw [map_sum]
    refine Finset.sum_congr rfl fun l _ => ?_
    rw [map_mul, map_mul, Complex.conj_ofReal, axis h k i i' hh mi, axis w l j j' hw mj]

/-! ## Worked instances -/

/-- The star image with its PSF described by two equal basis elements. -/
noncomputable def splitDemo : VarPsf := { starDemo with terms := constTerms ([1, 2].map fun c => (c, starPsf)) }

theorem starPsf_total : psfTotal starPsf = 1 := by
  unfold psfTotal starPsf
  simp only [Finset.sum_range_succ, Finset.sum_range_zero]
  norm_num

example (lt : List CoImg → List CoImg → Option Bool) :
    ∃ one many, coaddCore lt [(singleImage splitDemo starPsf).toCoImg] 3 1 = .ok one ∧
      coaddCore lt [splitDemo.toCoImg] 3 1 = .ok many ∧
      ∀ i j, many.R.px i j = one.R.px i j / ((Real.sqrt (2 : ℕ) : ℝ) : ℂ) :=
  coadd_split_psf lt splitDemo starPsf [1, 2] 3 rfl (by norm_num) starPsf_total (by intro m hm; cases hm)

/-- The total of the coadd of that image: the total of the image, 8, over `2 √25 √2`. -/
example (lt : List CoImg → List CoImg → Option Bool) :
    ∃ out, coaddCore lt [splitDemo.toCoImg] 3 1 = .ok out ∧
      ∑ i ∈ range 5, ∑ j ∈ range 5, out.R.px i j = ((1 / 2 ^ 2 * 8 / (Real.sqrt 25 * Real.sqrt (1 / 2 ^ 2 * 2)) : ℝ) : ℂ) := by
  obtain ⟨out, e, h⟩ := coadd_total_brightness lt [(splitDemo, [1, 2].map fun c => (c, starPsf))] 5 5 3 1
    (by simp) (by norm_num) (by norm_num)
    (by intro d hd; rw [List.mem_singleton] at hd; subst hd; exact ⟨rfl, rfl, by intro m hm; cases hm⟩)
    (by intro d hd; rw [List.mem_singleton] at hd; subst hd; rfl)
    (by intro d hd; rw [List.mem_singleton] at hd; subst hd; norm_num)
    (by
      intro d hd p hp
      rw [List.mem_singleton] at hd
      subst hd
      have : p.2 = starPsf := by
        simp only [List.map_cons, List.map_nil, List.mem_cons, List.not_mem_nil, or_false] at hp
        rcases hp with rfl | rfl <;> rfl
      rw [this]
      exact ⟨starPsf_total, by norm_num [starPsf], by norm_num [starPsf]⟩)
    (by norm_num) (by norm_num) (by norm_num)
  refine ⟨out, e, ?_⟩
  rw [h]
  have htot : ∑ i ∈ range 5, ∑ j ∈ range 5, splitDemo.interped.px i j = 8 := by
    simp only [splitDemo, starDemo, padPx, starPsf, Finset.sum_range_succ, Finset.sum_range_zero]
    norm_num
  congr 1
  simp only [List.map_cons, List.map_nil, List.sum_cons, List.sum_nil, add_zero, List.length_cons,
    List.length_nil, htot]
  norm_num [splitDemo, starDemo]

end PI
