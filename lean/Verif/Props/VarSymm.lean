import Verif.Props.VarNoise
import Verif.Props.Turn
import Verif.Props.CoaddPsfScale

/-!
# Property C175: coadd of transposed, turned and rescaled images whose PSFs vary
-/

namespace PI

open Complex Finset

theorem specS_ofVar {n : ℕ} (d : Fin n → VarPsf) (k l : ℕ) :
    specS ((List.ofFn d).map VarPsf.toCoImg) k l = ∑ m, (d m).sHatComp.px k l := by
  unfold specS
  rw [List.map_map, List.map_ofFn, List.sum_ofFn]
  rfl

theorem specP_ofVar {n : ℕ} (d : Fin n → VarPsf) (k l : ℕ) :
    specP ((List.ofFn d).map VarPsf.toCoImg) k l = ((varPower d k l : ℝ) : ℂ) := by
  unfold specP varPower
  rw [List.map_map, List.map_ofFn, List.sum_ofFn]
  push_cast
  refine Finset.sum_congr rfl fun m _ => ?_
  change _ * (d m).psfSqnorm.px k l = _
  rw [psfSqnorm_power]
  rfl

theorem varPower_nonneg {n : ℕ} (d : Fin n → VarPsf) (k l : ℕ) : 0 ≤ varPower d k l :=
  Finset.sum_nonneg fun _ _ => mul_nonneg (sq_nonneg _) (basisPower_nonneg _ _ _)

theorem allShape_var {n : ℕ} (d : Fin n → VarPsf) (h w : ℕ)
    (hs : ∀ j, (d j).interped.h = h ∧ (d j).interped.w = w ∧ (d j).mask.HasShape h w) :
    AllShape ((List.ofFn d).map VarPsf.toCoImg) h w := by
  intro im him
  rw [List.mem_map] at him
  obtain ⟨e, he, rfl⟩ := him
  rw [List.mem_ofFn] at he
  obtain ⟨m, rfl⟩ := he
  exact hs m

/-- What `coadd` returns for images whose PSFs vary, in one place. -/
theorem coadd_var_spec (lt : List CoImg → List CoImg → Option Bool) {n : ℕ} (hn : 0 < n)
    (d : Fin n → VarPsf) (h w psfShape : ℕ) (procs : ℤ)
    (hs : ∀ j, (d j).interped.h = h ∧ (d j).interped.w = w ∧ (d j).mask.HasShape h w)
    (hp : procs ≤ n) (hp' : procs ≤ 2 ^ 25) (hb : procs * n ≤ 2 ^ 50) :
    ∃ out, coaddCore lt ((List.ofFn d).map VarPsf.toCoImg) psfShape procs = .ok out ∧
      out.R = ifftDefault ⟨h, w, coaddRhat ((List.ofFn d).map VarPsf.toCoImg)⟩ ∧
      out.Pr = coaddPsf ⟨h, w, specP ((List.ofFn d).map VarPsf.toCoImg)⟩ psfShape ∧
      (∀ i < h, ∀ j < w, (out.mask.marks i j = true ↔ ∃ m, (d m).mask.marks i j = true)) ∧
      (out.mask = none ↔ ∀ m, ∀ i < h, ∀ j < w, (d m).mask.marks i j = false) := by
  have hl : ((List.ofFn d).map VarPsf.toCoImg).length = n := by simp
  obtain ⟨out, e, r, m⟩ := coadd_spec lt h w ((List.ofFn d).map VarPsf.toCoImg) psfShape procs
    (by intro q; rw [q] at hl; simp at hl; omega) (allShape_var d h w hs) (by rw [hl]; exact hp) hp' (by rw [hl]; exact hb)
  have mem : ∀ p : CoImg → Prop, (∃ im ∈ (List.ofFn d).map VarPsf.toCoImg, p im) ↔ ∃ j, p (d j).toCoImg := by
    intro p
    simp only [List.mem_map, List.mem_ofFn]
    constructor
    · rintro ⟨_, ⟨_, ⟨j, rfl⟩, rfl⟩, hj⟩
      exact ⟨j, hj⟩
    · rintro ⟨j, hj⟩
      exact ⟨_, ⟨_, ⟨j, rfl⟩, rfl⟩, hj⟩
  refine ⟨out, e, congrArg Prod.fst r, congrArg Prod.snd r, fun i hi j hj => ?_, ?_⟩
  · rw [m.2.1 i hi j hj, mem fun im => im.mask.marks i j = true]
    rfl
  · rw [m.2.2]
    constructor
    · intro q j
      exact q (d j).toCoImg (List.mem_map.2 ⟨_, List.mem_ofFn.2 ⟨j, rfl⟩, rfl⟩)
    · intro q im him
      obtain ⟨_, hx, rfl⟩ := List.mem_map.1 him
      obtain ⟨j, rfl⟩ := List.mem_ofFn.1 hx
      exact q j

/-! ## Transposition -/

/-- A basis element and its coefficients with the axes exchanged. -/
def PsfTerm.tr (t : PsfTerm) : PsfTerm := ⟨fun i j => t.field j i, t.psf.tr⟩

/-- The image object of the transposed arrays. -/
def VarPsf.tr (d : VarPsf) : VarPsf := ⟨d.interped.tr, d.terms.map PsfTerm.tr, d.zp, d.var, d.mask.tr⟩

theorem tr_ndConvolve (h w : ℕ) (f : ℕ → ℕ → ℝ) (k : Img ℝ) (i j : ℕ) :
    (ndConvolve ⟨w, h, fun i j => f j i⟩ k.tr).px i j = (ndConvolve ⟨h, w, f⟩ k).px j i := by
  change ∑ a ∈ range k.w, ∑ b ∈ range k.h, k.px b a * f (reflectZ h ((j : ℤ) + (k.h / 2 : ℕ) - b))
      (reflectZ w ((i : ℤ) + (k.w / 2 : ℕ) - a)) =
    ∑ b ∈ range k.h, ∑ a ∈ range k.w, k.px b a * f (reflectZ h ((j : ℤ) + (k.h / 2 : ℕ) - b))
      (reflectZ w ((i : ℤ) + (k.w / 2 : ℕ) - a))
  exact Finset.sum_comm

theorem tr_normalImg (d : VarPsf) (i j : ℕ) : d.tr.normalImg.px i j = d.normalImg.px j i := by
  change ((d.terms.map PsfTerm.tr).map fun t => (ndConvolve ⟨d.interped.w, d.interped.h, t.field⟩ t.psf).px i j).sum =
    (d.terms.map fun t => (ndConvolve ⟨d.interped.h, d.interped.w, t.field⟩ t.psf).px j i).sum
  rw [List.map_map]
  exact congrArg List.sum (List.map_congr_left fun t _ => tr_ndConvolve _ _ t.field t.psf i j)

theorem tr_psfCentroid (p : Img ℝ) : psfCentroid p.tr = (psfCentroid p).swap := by
  have e : ∀ f : ℕ → ℕ → ℝ, ∑ i ∈ range p.w, ∑ j ∈ range p.h, f j i = ∑ i ∈ range p.h, ∑ j ∈ range p.w, f i j :=
    fun f => Finset.sum_comm
  refine Prod.ext ?_ ?_
  · change (∑ i ∈ range p.w, ∑ j ∈ range p.h, (i : ℝ) * p.px j i) / (∑ i ∈ range p.w, ∑ j ∈ range p.h, p.px j i) =
      (∑ i ∈ range p.h, ∑ j ∈ range p.w, (j : ℝ) * p.px i j) / _
    rw [e fun a b => (b : ℝ) * p.px a b, e fun a b => p.px a b]
  · change (∑ i ∈ range p.w, ∑ j ∈ range p.h, (j : ℝ) * p.px j i) / (∑ i ∈ range p.w, ∑ j ∈ range p.h, p.px j i) =
      (∑ i ∈ range p.h, ∑ j ∈ range p.w, (i : ℝ) * p.px i j) / _
    rw [e fun a b => (a : ℝ) * p.px a b, e fun a b => p.px a b]

theorem tr_varCom (d : VarPsf) : d.tr.com = d.com.swap := by
  obtain ⟨x, ts, zp, v, m⟩ := d
  cases ts with
  | nil => rfl
  | cons t ts => exact tr_psfCentroid t.psf

theorem tr_varHat (d : VarPsf) (p : Img ℝ) : d.tr.psfHat p.tr = (d.psfHat p).tr := by
  unfold VarPsf.psfHat
  rw [← tr_fftOrtho, ← tr_padTo]
  rfl

theorem tr_termHat (d : VarPsf) (t : PsfTerm) (k l : ℕ) : (d.tr.termHat t.tr).px k l = (d.termHat t).px l k := by
  change (fftOrtho _).px k l * (starRingEnd ℂ) ((d.tr.psfHat t.psf.tr).px k l) *
      shiftPhase d.interped.w d.interped.h d.tr.com k l =
    (fftOrtho _).px l k * (starRingEnd ℂ) ((d.psfHat t.psf).px l k) * shiftPhase d.interped.h d.interped.w d.com l k
  rw [tr_varHat, tr_varCom, tr_shiftPhase]
  refine congrArg₂ _ (congrArg₂ _ ?_ rfl) rfl
  have q : (⟨d.tr.interped.h, d.tr.interped.w, fun i j => d.tr.interped.px i j * t.tr.field i j / d.tr.normalImg.px i j⟩ :
      Img ℝ).toC = ((⟨d.interped.h, d.interped.w, fun i j => d.interped.px i j * t.field i j / d.normalImg.px i j⟩ :
      Img ℝ).toC).tr := by
    refine congrArg (Img.mk _ _) ?_
    funext i j
    change ((d.interped.px j i * t.field j i / d.tr.normalImg.px i j : ℝ) : ℂ) = _
    rw [tr_normalImg]
    rfl
  rw [q, tr_fftOrtho]
  rfl

theorem tr_varSHat (d : VarPsf) (k l : ℕ) : d.tr.sHatComp.px k l = d.sHatComp.px l k := by
  change ((d.zp / d.var ^ 2 : ℝ) : ℂ) * ((d.terms.map PsfTerm.tr).map fun t => (d.tr.termHat t).px k l).sum =
    ((d.zp / d.var ^ 2 : ℝ) : ℂ) * (d.terms.map fun t => (d.termHat t).px l k).sum
  rw [List.map_map]
  exact congrArg _ (congrArg List.sum (List.map_congr_left fun t _ => tr_termHat d t k l))

theorem tr_basisPower (d : VarPsf) (k l : ℕ) : basisPower d.tr k l = basisPower d l k := by
  change ((d.terms.map PsfTerm.tr).map fun t => normSq ((d.tr.psfHat t.psf).px k l)).sum =
    (d.terms.map fun t => normSq ((d.psfHat t.psf).px l k)).sum
  rw [List.map_map]
  refine congrArg List.sum (List.map_congr_left fun t _ => ?_)
  change normSq ((d.tr.psfHat t.psf.tr).px k l) = _
  rw [tr_varHat]
  rfl

/-- C175: transposing every image (pixels, basis elements, coefficient fields, mask) transposes the coadd, its PSF and its
mask. -/
theorem coadd_var_transpose (lt lt' : List CoImg → List CoImg → Option Bool) {n : ℕ} (hn : 0 < n)
    (d : Fin n → VarPsf) (h w psfShape : ℕ) (procs procs' : ℤ)
    (hs : ∀ j, (d j).interped.h = h ∧ (d j).interped.w = w ∧ (d j).mask.HasShape h w)
    (hp : procs ≤ n) (hp' : procs ≤ 2 ^ 25) (hb : procs * n ≤ 2 ^ 50)
    (hq : procs' ≤ n) (hq' : procs' ≤ 2 ^ 25) (hc : procs' * n ≤ 2 ^ 50) :
    ∃ out out', coaddCore lt ((List.ofFn d).map VarPsf.toCoImg) psfShape procs = .ok out ∧
      coaddCore lt' ((List.ofFn fun m => (d m).tr).map VarPsf.toCoImg) psfShape procs' = .ok out' ∧
      out'.R = out.R.tr ∧ out'.Pr = out.Pr.tr ∧
      (∀ i < w, ∀ j < h, out'.mask.marks i j = out.mask.marks j i) ∧ (out'.mask = none ↔ out.mask = none) := by
  obtain ⟨out, e, eR, eP, em, en⟩ := coadd_var_spec lt hn d h w psfShape procs hs hp hp' hb
  obtain ⟨out', e', eR', eP', em', en'⟩ := coadd_var_spec lt' hn (fun m => (d m).tr) w h psfShape procs'
    (fun m => ⟨(hs m).2.1, (hs m).1, by
      intro a ha
      have hm := (hs m).2.2
      change Option.map Img.tr (d m).mask = some a at ha
      obtain ⟨a0, h0, rfl⟩ := Option.map_eq_some_iff.1 ha
      exact ⟨(hm a0 h0).2, (hm a0 h0).1⟩⟩) hq hq' hc
  have eS : ∀ k l, specS ((List.ofFn fun m => (d m).tr).map VarPsf.toCoImg) k l =
      specS ((List.ofFn d).map VarPsf.toCoImg) l k := by
    intro k l
    rw [specS_ofVar, specS_ofVar]
    exact Finset.sum_congr rfl fun m _ => tr_varSHat (d m) k l
  have eW : ∀ k l, specP ((List.ofFn fun m => (d m).tr).map VarPsf.toCoImg) k l =
      specP ((List.ofFn d).map VarPsf.toCoImg) l k := by
    intro k l
    rw [specP_ofVar, specP_ofVar]
    refine congrArg _ (Finset.sum_congr rfl fun m _ => ?_)
    rw [tr_basisPower]
    rfl
  refine ⟨out, out', e, e', ?_, ?_, fun i hi j hj => ?_, ?_⟩
  · rw [eR, eR', ← tr_ifftDefault]
    unfold coaddRhat
    simp only [eS, eW]
    rfl
  · rw [eP, eP']
    have q : (⟨w, h, specP ((List.ofFn fun m => (d m).tr).map VarPsf.toCoImg)⟩ : Img ℂ) =
        (Img.mk h w (specP ((List.ofFn d).map VarPsf.toCoImg))).tr := by
      refine congrArg (Img.mk w h) ?_
      funext k l
      exact eW k l
    rw [q]
    have r : coaddPsfRaw (Img.mk h w (specP ((List.ofFn d).map VarPsf.toCoImg))).tr psfShape =
        (coaddPsfRaw (Img.mk h w (specP ((List.ofFn d).map VarPsf.toCoImg))) psfShape).tr := by
      unfold coaddPsfRaw
      rw [← tr_ifftDefault, ← tr_fourierShift]
      rfl
    unfold coaddPsf
    rw [r, tr_imSum, tr_map]
  · exact marks_agree _ _ _ _ (em' i hi j hj) (em j hj i hi) fun m => tr_marks _ i j
  · rw [en, en']
    constructor
    · intro q m i hi j hj
      rw [← q m j hj i hi]
      exact (tr_marks _ _ _).symm
    · intro q m i hi j hj
      rw [← q m j hj i hi]
      exact tr_marks _ _ _

/-! ## Half a turn -/

/-- A basis element and its coefficients turned by half a turn in a frame of `h × w` pixels. -/
def PsfTerm.turned (t : PsfTerm) (h w : ℕ) : PsfTerm := ⟨fun i j => t.field (h - 1 - i) (w - 1 - j), t.psf.turned⟩

/-- The image object of the turned arrays. -/
def VarPsf.turned (d : VarPsf) : VarPsf :=
  ⟨d.interped.turned, d.terms.map fun t => t.turned d.interped.h d.interped.w, d.zp, d.var, d.mask.turned⟩

/-- Stamps of one shape with odd sides, not larger than the image; the first has a total. -/
structure VarPsf.Turnable (d : VarPsf) (h w : ℕ) : Prop where
  sh : d.interped.h = h
  sw : d.interped.w = w
  stamps : ∃ m n, 2 * m + 1 ≤ h ∧ 2 * n + 1 ≤ w ∧ ∀ t ∈ d.terms, t.psf.h = 2 * m + 1 ∧ t.psf.w = 2 * n + 1
  total : ∀ t ∈ d.terms.head?, rsum t.psf ≠ 0

theorem reflectZ_turn (n : ℕ) (n0 : n ≠ 0) (z : ℤ) : reflectZ n ((n : ℤ) - 1 - z) = n - 1 - reflectZ n z := by
  unfold reflectZ
  have b : (0 : ℤ) < (2 * n : ℕ) := by push_cast; omega
  have p0 := Int.emod_nonneg z b.ne'
  have p1 := Int.emod_lt_of_pos z b
  have q0 := Int.emod_nonneg ((n : ℤ) - 1 - z) b.ne'
  have q1 := Int.emod_lt_of_pos ((n : ℤ) - 1 - z) b
  have r : (((n : ℤ) - 1 - z) % (2 * n : ℕ) + z % (2 * n : ℕ)) % (2 * n : ℕ) = n - 1 := by
    rw [← Int.add_emod]
    rw [show (n : ℤ) - 1 - z + z = n - 1 by ring]
    exact Int.emod_eq_of_lt (by omega) (by push_cast; omega)
  generalize z % (2 * n : ℕ) = u at *
  generalize ((n : ℤ) - 1 - z) % (2 * n : ℕ) = v at *
  have s : v + u = n - 1 ∨ v + u = 3 * n - 1 := by
    rcases lt_or_ge (v + u) ((2 * n : ℕ) : ℤ) with q | q
    · rw [Int.emod_eq_of_lt (by omega) q] at r
      exact Or.inl r
    · rw [← Int.sub_emod_right, Int.emod_eq_of_lt (by omega) (by omega)] at r
      right
      push_cast at r
      omega
  push_cast at p1 q1
  simp only
  split_ifs <;> omega

theorem reflectZ_lt (n : ℕ) (n0 : n ≠ 0) (z : ℤ) : reflectZ n z < n := by
  unfold reflectZ
  have b : (0 : ℤ) < (2 * n : ℕ) := by push_cast; omega
  have p0 := Int.emod_nonneg z b.ne'
  have p1 := Int.emod_lt_of_pos z b
  push_cast at p1
  simp only
  split_ifs <;> omega

theorem turned_ndConvolve (h w : ℕ) (h0 : h ≠ 0) (w0 : w ≠ 0) (f : ℕ → ℕ → ℝ) (k : Img ℝ) (m n : ℕ) (hm : k.h = 2 * m + 1)
    (hn : k.w = 2 * n + 1) (i j : ℕ) (hi : i < h) (hj : j < w) :
    (ndConvolve ⟨h, w, fun i j => f (h - 1 - i) (w - 1 - j)⟩ k.turned).px i j =
      (ndConvolve ⟨h, w, f⟩ k).px (h - 1 - i) (w - 1 - j) := by
  change ∑ a ∈ range k.h, ∑ b ∈ range k.w, k.px (k.h - 1 - a) (k.w - 1 - b) *
      f (h - 1 - reflectZ h ((i : ℤ) + (k.h / 2 : ℕ) - a)) (w - 1 - reflectZ w ((j : ℤ) + (k.w / 2 : ℕ) - b)) =
    ∑ a ∈ range k.h, ∑ b ∈ range k.w, k.px a b *
      f (reflectZ h (((h - 1 - i : ℕ) : ℤ) + (k.h / 2 : ℕ) - a)) (reflectZ w (((w - 1 - j : ℕ) : ℤ) + (k.w / 2 : ℕ) - b))
  rw [hm, hn, ← Finset.sum_range_reflect]
  refine Finset.sum_congr rfl fun a ha => ?_
  rw [← Finset.sum_range_reflect]
  refine Finset.sum_congr rfl fun b hb => ?_
  rw [mem_range] at ha hb
  rw [show 2 * m + 1 - 1 - (2 * m + 1 - 1 - a) = a by omega, show 2 * n + 1 - 1 - (2 * n + 1 - 1 - b) = b by omega,
    ← reflectZ_turn h h0, ← reflectZ_turn w w0]
  congr 3 <;> push_cast <;> omega

theorem turned_normalImg (d : VarPsf) (h w : ℕ) (h0 : h ≠ 0) (w0 : w ≠ 0) (hd : d.Turnable h w) (i j : ℕ) (hi : i < h)
    (hj : j < w) : d.turned.normalImg.px i j = d.normalImg.px (h - 1 - i) (w - 1 - j) := by
  obtain ⟨rfl, rfl, ⟨m, n, _, _, hst⟩, _⟩ := hd
  change ((d.terms.map fun t => t.turned d.interped.h d.interped.w).map fun t =>
      (ndConvolve ⟨d.interped.h, d.interped.w, t.field⟩ t.psf).px i j).sum =
    (d.terms.map fun t => (ndConvolve ⟨d.interped.h, d.interped.w, t.field⟩ t.psf).px _ _).sum
  rw [List.map_map]
  exact congrArg List.sum (List.map_congr_left fun t ht =>
    turned_ndConvolve _ _ h0 w0 t.field t.psf m n (hst t ht).1 (hst t ht).2 i j hi hj)

theorem turned_varHat (d : VarPsf) (h w : ℕ) (h0 : h ≠ 0) (w0 : w ≠ 0) (hd : d.Turnable h w) (t : PsfTerm)
    (ht : t ∈ d.terms) (k l : ℕ) : (d.turned.psfHat t.psf.turned).px k l =
      (starRingEnd ℂ) ((d.psfHat t.psf).px k l) * turnPhase h w t.psf.h t.psf.w k l := by
  obtain ⟨rfl, rfl, ⟨m, n, fm, fn, hst⟩, _⟩ := hd
  exact padded_turned t.psf.toC d.interped.h d.interped.w h0 w0 ((hst t ht).1.trans_le fm) ((hst t ht).2.trans_le fn)
    (fun i _ j _ => Complex.conj_ofReal _) k l

theorem turned_varCom (d : VarPsf) (h w : ℕ) (hd : d.Turnable h w) (t : PsfTerm) (ht : t ∈ d.terms) :
    d.turned.com = ((t.psf.h : ℝ) - 1 - d.com.1, (t.psf.w : ℝ) - 1 - d.com.2) := by
  obtain ⟨_, _, ⟨m, n, _, _, hst⟩, htot⟩ := hd
  obtain ⟨x, ts, zp, v, mk⟩ := d
  cases ts with
  | nil => cases ht
  | cons t0 ts =>
    have a := hst t ht
    have b := hst t0 List.mem_cons_self
    rw [a.1, a.2, ← b.1, ← b.2]
    exact com_turned t0.psf (htot t0 rfl)

theorem turned_termHat (d : VarPsf) (h w : ℕ) (h0 : h ≠ 0) (w0 : w ≠ 0) (hd : d.Turnable h w) (t : PsfTerm)
    (ht : t ∈ d.terms) (k l : ℕ) : (d.turned.termHat (t.turned h w)).px k l =
      (starRingEnd ℂ) ((d.termHat t).px k l) * turnPhase h w h w k l := by
  have a := turned_varHat d h w h0 w0 hd t ht k l
  have c := turned_varCom d h w hd t ht
  have nn := turned_normalImg d h w h0 w0 hd
  obtain ⟨rfl, rfl, -, -⟩ := hd
  set X : Img ℂ := (⟨d.interped.h, d.interped.w, fun i j => d.interped.px i j * t.field i j / d.normalImg.px i j⟩ :
    Img ℝ).toC with hX
  have b := fftOrtho_turned X h0 w0 (fun i _ j _ => Complex.conj_ofReal _) k l
  have e : (fftOrtho (⟨d.interped.h, d.interped.w, fun i j => d.turned.interped.px i j *
      (t.turned d.interped.h d.interped.w).field i j / d.turned.normalImg.px i j⟩ : Img ℝ).toC) = fftOrtho X.turned := by
    refine fftOrtho_congr d.interped.h d.interped.w _ _ fun i hi j hj => ?_
    change ((d.interped.px (d.interped.h - 1 - i) (d.interped.w - 1 - j) * t.field (d.interped.h - 1 - i)
      (d.interped.w - 1 - j) / d.turned.normalImg.px i j : ℝ) : ℂ) = _
    rw [nn i j hi hj]
    rfl
  change (fftOrtho _).px k l * (starRingEnd ℂ) ((d.turned.psfHat t.psf.turned).px k l) *
      shiftPhase d.interped.h d.interped.w d.turned.com k l =
    (starRingEnd ℂ) ((fftOrtho X).px k l * (starRingEnd ℂ) ((d.psfHat t.psf).px k l) *
      shiftPhase d.interped.h d.interped.w d.com k l) * _
  have q : shiftPhase d.interped.h d.interped.w d.turned.com k l =
      turnPhase d.interped.h d.interped.w t.psf.h t.psf.w k l *
        (starRingEnd ℂ) (shiftPhase d.interped.h d.interped.w d.com k l) := by
    have s : (starRingEnd ℂ) (shiftPhase d.interped.h d.interped.w d.com k l) =
        shiftPhase d.interped.h d.interped.w (negPair d.com) k l := by
      unfold shiftPhase negPair
      rw [map_mul, conj_tw, conj_tw]
      simp only [mul_neg]
    unfold turnPhase
    rw [s, ← shiftPhase_add, c]
    unfold negPair
    push_cast
    congr 2
  have p := shiftPhase_conj_mul d.interped.h d.interped.w ((((t.psf.h : ℤ) - 1 : ℤ) : ℝ), (((t.psf.w : ℤ) - 1 : ℤ) : ℝ)) k l
  have e2 := congrArg (fun y : Img ℂ => y.px k l) (e.trans rfl)
  refine (congrArg (fun z => z * (starRingEnd ℂ) ((d.turned.psfHat t.psf.turned).px k l) *
    shiftPhase d.interped.h d.interped.w d.turned.com k l) (e2.trans b)).trans ?_
  simp only [a, q, map_mul, Complex.conj_conj]
  unfold turnPhase
  change (starRingEnd ℂ) ((fftOrtho X).px k l) * shiftPhase d.interped.h d.interped.w
    ((((d.interped.h : ℤ) - 1 : ℤ) : ℝ), (((d.interped.w : ℤ) - 1 : ℤ) : ℝ)) k l * _ * _ = _
  linear_combination ((starRingEnd ℂ) ((fftOrtho X).px k l) * (d.psfHat t.psf).px k l *
    (starRingEnd ℂ) (shiftPhase d.interped.h d.interped.w d.com k l) *
    shiftPhase d.interped.h d.interped.w ((((d.interped.h : ℤ) - 1 : ℤ) : ℝ), (((d.interped.w : ℤ) - 1 : ℤ) : ℝ)) k l) * p

theorem turned_varSHat (d : VarPsf) (h w : ℕ) (h0 : h ≠ 0) (w0 : w ≠ 0) (hd : d.Turnable h w) (k l : ℕ) :
    d.turned.sHatComp.px k l = (starRingEnd ℂ) (d.sHatComp.px k l) * turnPhase h w h w k l := by
  have key : (((d.terms.map fun t => t.turned d.interped.h d.interped.w).map fun t => (d.turned.termHat t).px k l)).sum =
      (starRingEnd ℂ) ((d.terms.map fun t => (d.termHat t).px k l).sum) * turnPhase h w h w k l := by
    rw [List.map_map, map_list_sum, List.map_map, ← List.sum_map_mul_right]
    refine congrArg List.sum (List.map_congr_left fun t ht => ?_)
    have := turned_termHat d h w h0 w0 hd t ht k l
    obtain ⟨rfl, rfl, -, -⟩ := hd
    exact this
  change ((d.zp / d.var ^ 2 : ℝ) : ℂ) * _ = (starRingEnd ℂ) (((d.zp / d.var ^ 2 : ℝ) : ℂ) * _) * _
  rw [map_mul, Complex.conj_ofReal, mul_assoc]
  exact congrArg _ key

theorem turned_basisPower (d : VarPsf) (h w : ℕ) (h0 : h ≠ 0) (w0 : w ≠ 0) (hd : d.Turnable h w) (k l : ℕ) :
    basisPower d.turned k l = basisPower d k l := by
  change ((d.terms.map fun t => t.turned d.interped.h d.interped.w).map fun t => normSq ((d.turned.psfHat t.psf).px k l)).sum =
    (d.terms.map fun t => normSq ((d.psfHat t.psf).px k l)).sum
  rw [List.map_map]
  refine congrArg List.sum (List.map_congr_left fun t ht => ?_)
  change normSq ((d.turned.psfHat t.psf.turned).px k l) = _
  rw [turned_varHat d h w h0 w0 hd t ht k l]
  unfold turnPhase
  rw [normSq_mul, normSq_shiftPhase, normSq_conj, mul_one]

/-- C175: half a turn of every image turns the coadd and its mask and leaves its PSF as it is, if the stamps have odd sides. -/
theorem coadd_var_turned (lt lt' : List CoImg → List CoImg → Option Bool) {n : ℕ} (hn : 0 < n)
    (d : Fin n → VarPsf) (h w psfShape : ℕ) (h0 : h ≠ 0) (w0 : w ≠ 0) (procs procs' : ℤ)
    (hd : ∀ m, (d m).Turnable h w) (hmask : ∀ m, (d m).mask.HasShape h w)
    (hp : procs ≤ n) (hp' : procs ≤ 2 ^ 25) (hb : procs * n ≤ 2 ^ 50)
    (hq : procs' ≤ n) (hq' : procs' ≤ 2 ^ 25) (hc : procs' * n ≤ 2 ^ 50) :
    ∃ out out', coaddCore lt ((List.ofFn d).map VarPsf.toCoImg) psfShape procs = .ok out ∧
      coaddCore lt' ((List.ofFn fun m => (d m).turned).map VarPsf.toCoImg) psfShape procs' = .ok out' ∧
      out'.Pr = out.Pr ∧ (∀ i < h, ∀ j < w, out'.R.px i j = (starRingEnd ℂ) (out.R.px (h - 1 - i) (w - 1 - j)) ∧
        out'.mask.marks i j = out.mask.marks (h - 1 - i) (w - 1 - j)) ∧ (out'.mask = none ↔ out.mask = none) := by
  obtain ⟨out, e, eR, eP, em, en⟩ := coadd_var_spec lt hn d h w psfShape procs
    (fun m => ⟨(hd m).sh, (hd m).sw, hmask m⟩) hp hp' hb
  obtain ⟨out', e', eR', eP', em', en'⟩ := coadd_var_spec lt' hn (fun m => (d m).turned) h w psfShape procs'
    (fun m => ⟨(hd m).sh, (hd m).sw, by
      intro a ha
      obtain ⟨a0, h0, rfl⟩ := Option.map_eq_some_iff.1 ha
      exact hmask m a0 h0⟩) hq hq' hc
  have eS : ∀ k l, specS ((List.ofFn fun m => (d m).turned).map VarPsf.toCoImg) k l =
      (starRingEnd ℂ) (specS ((List.ofFn d).map VarPsf.toCoImg) k l) * turnPhase h w h w k l := by
    intro k l
    rw [specS_ofVar, specS_ofVar, map_sum, Finset.sum_mul]
    exact Finset.sum_congr rfl fun m _ => turned_varSHat (d m) h w h0 w0 (hd m) k l
  have eW : specP ((List.ofFn fun m => (d m).turned).map VarPsf.toCoImg) =
      specP ((List.ofFn d).map VarPsf.toCoImg) := by
    funext k l
    rw [specP_ofVar, specP_ofVar]
    refine congrArg _ (Finset.sum_congr rfl fun m _ => ?_)
    rw [turned_basisPower (d m) h w h0 w0 (hd m) k l]
    rfl
  have conjW : ∀ k l, (starRingEnd ℂ) (csqrt (specP ((List.ofFn d).map VarPsf.toCoImg) k l)) =
      csqrt (specP ((List.ofFn d).map VarPsf.toCoImg) k l) := by
    intro k l
    rw [specP_ofVar, csqrt_ofReal_nonneg _ (varPower_nonneg _ _ _), Complex.conj_ofReal]
  have hm : ∀ m i j, (d m).turned.mask.marks i j = (d m).mask.marks (h - 1 - i) (w - 1 - j) :=
    fun m i j => marks_turned _ h w (hmask m) i j
  refine ⟨out, out', e, e', by rw [eP, eP', eW], fun i hi j hj => ⟨?_, ?_⟩, ?_⟩
  · rw [eR, eR']
    have r := ifftDefault_mirror h w (coaddRhat ((List.ofFn d).map VarPsf.toCoImg))
      (coaddRhat ((List.ofFn fun m => (d m).turned).map VarPsf.toCoImg)) ((h : ℤ) - 1) ((w : ℤ) - 1) h0 w0
      (fun k _ l _ => by
        unfold coaddRhat
        rw [eS, eW, map_div₀, conjW]
        exact mul_div_right_comm _ _ _) i j
    rw [turnAt_last h i hi, turnAt_last w j hj] at r
    exact r
  · exact marks_agree _ _ _ _ (em' i hi j hj) (em (h - 1 - i) (by omega) (w - 1 - j) (by omega)) fun m => hm m i j
  · rw [en, en']
    constructor
    · intro q m i hi j hj
      have := q m (h - 1 - i) (by omega) (w - 1 - j) (by omega)
      rw [hm, show h - 1 - (h - 1 - i) = i by omega, show w - 1 - (w - 1 - j) = j by omega] at this
      exact this
    · intro q m i hi j hj
      rw [hm]
      exact q m _ (by omega) _ (by omega)

/-! ## Units -/

/-- The image in another unit: pixels and noise times `k`, zero point times `k c`, coefficient fields times `f`. -/
noncomputable def VarPsf.times (d : VarPsf) (k c f : ℝ) : VarPsf :=
  ⟨⟨d.interped.h, d.interped.w, fun i j => k * d.interped.px i j⟩, d.terms.map fun t => ⟨fun i j => f * t.field i j, t.psf⟩,
    c * (k * d.zp), k * d.var, d.mask⟩

theorem times_normalImg (d : VarPsf) (k c f : ℝ) (i j : ℕ) : (d.times k c f).normalImg.px i j = f * d.normalImg.px i j := by
  change ((d.terms.map fun t => (⟨fun i j => f * t.field i j, t.psf⟩ : PsfTerm)).map fun t =>
      (ndConvolve ⟨d.interped.h, d.interped.w, t.field⟩ t.psf).px i j).sum =
    f * (d.terms.map fun t => (ndConvolve ⟨d.interped.h, d.interped.w, t.field⟩ t.psf).px i j).sum
  rw [List.map_map, ← List.sum_map_mul_left]
  refine congrArg List.sum (List.map_congr_left fun t _ => ?_)
  change ∑ a ∈ range t.psf.h, ∑ b ∈ range t.psf.w, t.psf.px a b * (f * t.field _ _) =
    f * ∑ a ∈ range t.psf.h, ∑ b ∈ range t.psf.w, t.psf.px a b * t.field _ _
  rw [Finset.mul_sum]
  refine Finset.sum_congr rfl fun a _ => ?_
  rw [Finset.mul_sum]
  exact Finset.sum_congr rfl fun b _ => by ring

theorem times_varCom (d : VarPsf) (k c f : ℝ) : (d.times k c f).com = d.com := by
  obtain ⟨x, ts, zp, v, m⟩ := d
  cases ts <;> rfl

theorem times_varSHat (d : VarPsf) (k c f : ℝ) (hk : k ≠ 0) (hf : f ≠ 0) (a b : ℕ) :
    (d.times k c f).sHatComp.px a b = c * d.sHatComp.px a b := by
  have t1 : ∀ t : PsfTerm, ((d.times k c f).termHat ⟨fun i j => f * t.field i j, t.psf⟩).px a b = k * (d.termHat t).px a b := by
    intro t
    have e := fftOrtho_smul d.interped.h d.interped.w
      (fun i j => ((k * d.interped.px i j * (f * t.field i j) / (d.times k c f).normalImg.px i j : ℝ) : ℂ))
      (fun i j => ((d.interped.px i j * t.field i j / d.normalImg.px i j : ℝ) : ℂ)) k (fun i j => by
        rw [times_normalImg, ← ofReal_mul]
        congr 1
        rw [show k * d.interped.px i j * (f * t.field i j) = f * (k * (d.interped.px i j * t.field i j)) by ring,
          mul_div_mul_left _ _ hf, mul_div_assoc]) a b
    change (fftOrtho ⟨d.interped.h, d.interped.w, fun i j =>
        ((k * d.interped.px i j * (f * t.field i j) / (d.times k c f).normalImg.px i j : ℝ) : ℂ)⟩).px a b *
        (starRingEnd ℂ) ((d.psfHat t.psf).px a b) * shiftPhase d.interped.h d.interped.w (d.times k c f).com a b =
      k * ((fftOrtho ⟨d.interped.h, d.interped.w, fun i j =>
        ((d.interped.px i j * t.field i j / d.normalImg.px i j : ℝ) : ℂ)⟩).px a b *
        (starRingEnd ℂ) ((d.psfHat t.psf).px a b) * shiftPhase d.interped.h d.interped.w d.com a b)
    rw [e, times_varCom]
    ring
  change ((c * (k * d.zp) / (k * d.var) ^ 2 : ℝ) : ℂ) *
      ((d.terms.map fun t => (⟨fun i j => f * t.field i j, t.psf⟩ : PsfTerm)).map fun t => ((d.times k c f).termHat t).px a b).sum =
    c * (((d.zp / d.var ^ 2 : ℝ) : ℂ) * (d.terms.map fun t => (d.termHat t).px a b).sum)
  have e : c * (k * d.zp) / (k * d.var) ^ 2 = c * (d.zp / d.var ^ 2) / k := by
    rw [mul_pow, show c * (k * d.zp) = k * (c * d.zp) by ring, pow_two k, mul_assoc, mul_div_mul_left _ _ hk,
      mul_comm k, ← div_div, mul_div_assoc]
  have hk0 : (k : ℂ) ≠ 0 := by exact_mod_cast hk
  have e2 : ((d.terms.map fun t => (⟨fun i j => f * t.field i j, t.psf⟩ : PsfTerm)).map fun t =>
      ((d.times k c f).termHat t).px a b).sum = k * (d.terms.map fun t => (d.termHat t).px a b).sum := by
    rw [List.map_map, ← List.sum_map_mul_left]
    exact congrArg List.sum (List.map_congr_left fun t _ => t1 t)
  rw [e2, e]
  push_cast
  field_simp

theorem times_basisPower (d : VarPsf) (k c f : ℝ) (a b : ℕ) : basisPower (d.times k c f) a b = basisPower d a b := by
  change ((d.terms.map fun t => (⟨fun i j => f * t.field i j, t.psf⟩ : PsfTerm)).map fun t =>
    normSq ((d.psfHat t.psf).px a b)).sum = _
  rw [List.map_map]
  rfl

theorem union_same {n : ℕ} {h w : ℕ} {d d' : Fin n → VarPsf} {M M' : NMask}
    (m : IsUnionMask h w ((List.ofFn d).map VarPsf.toCoImg) M) (m' : IsUnionMask h w ((List.ofFn d').map VarPsf.toCoImg) M')
    (e : ∀ j, (d' j).mask = (d j).mask) :
    (∀ i < h, ∀ j < w, M'.marks i j = M.marks i j) ∧ (M' = none ↔ M = none) := by
  have mem : ∀ (g : Fin n → VarPsf) (p : CoImg → Prop), (∃ im ∈ (List.ofFn g).map VarPsf.toCoImg, p im) ↔
      ∃ j, p (g j).toCoImg := by
    intro g p
    simp only [List.mem_map, List.mem_ofFn]
    constructor
    · rintro ⟨_, ⟨_, ⟨j, rfl⟩, rfl⟩, hj⟩
      exact ⟨j, hj⟩
    · rintro ⟨j, hj⟩
      exact ⟨_, ⟨_, ⟨j, rfl⟩, rfl⟩, hj⟩
  have all : ∀ (g : Fin n → VarPsf) (p : NMask → Prop), (∀ im ∈ (List.ofFn g).map VarPsf.toCoImg, p im.mask) ↔
      ∀ j, p (g j).mask := by
    intro g p
    constructor
    · intro q j
      exact q (g j).toCoImg (List.mem_map.2 ⟨_, List.mem_ofFn.2 ⟨j, rfl⟩, rfl⟩)
    · intro q im him
      obtain ⟨_, hx, rfl⟩ := List.mem_map.1 him
      obtain ⟨j, rfl⟩ := List.mem_ofFn.1 hx
      exact q j
  refine ⟨fun i hi j hj => ?_, ?_⟩
  · rw [Bool.eq_iff_iff, m.2.1 i hi j hj, m'.2.1 i hi j hj, mem d fun im => im.mask.marks i j = true,
      mem d' fun im => im.mask.marks i j = true]
    refine exists_congr fun q => ?_
    change (d' q).mask.marks i j = true ↔ (d q).mask.marks i j = true
    rw [e]
  · rw [m.2.2, m'.2.2, all d fun M => ∀ i < h, ∀ j < w, M.marks i j = false,
      all d' fun M => ∀ i < h, ∀ j < w, M.marks i j = false]
    refine forall_congr' fun q => ?_
    rw [e]

/-- C175: each image in a unit of its own (pixels, noise and zero point times `k m`), all zero points times a common `c`, the
coefficient fields of each image times a number of its own: the coadd, its PSF and its mask do not change. -/
theorem coadd_var_units (lt lt' : List CoImg → List CoImg → Option Bool) {n : ℕ} (hn : 0 < n)
    (d : Fin n → VarPsf) (k f : Fin n → ℝ) (c : ℝ) (hk : ∀ m, k m ≠ 0) (hf : ∀ m, f m ≠ 0) (hc0 : 0 < c) (h w psfShape : ℕ)
    (procs procs' : ℤ) (hs : ∀ j, (d j).interped.h = h ∧ (d j).interped.w = w ∧ (d j).mask.HasShape h w)
    (hp : procs ≤ n) (hp' : procs ≤ 2 ^ 25) (hb : procs * n ≤ 2 ^ 50)
    (hq : procs' ≤ n) (hq' : procs' ≤ 2 ^ 25) (hc : procs' * n ≤ 2 ^ 50) :
    ∃ out out', coaddCore lt ((List.ofFn d).map VarPsf.toCoImg) psfShape procs = .ok out ∧
      coaddCore lt' ((List.ofFn fun m => (d m).times (k m) c (f m)).map VarPsf.toCoImg) psfShape procs' = .ok out' ∧
      out'.R = out.R ∧ out'.Pr = out.Pr ∧ (∀ i < h, ∀ j < w, out'.mask.marks i j = out.mask.marks i j) ∧
      (out'.mask = none ↔ out.mask = none) := by
  have ne : ∀ g : Fin n → VarPsf, (List.ofFn g).map VarPsf.toCoImg ≠ [] := by
    intro g q
    have := congrArg List.length q
    simp at this
    omega
  have ln : ∀ g : Fin n → VarPsf, ((List.ofFn g).map VarPsf.toCoImg).length = n := fun g => by simp
  obtain ⟨out, out', e, e', eR, eP, m, m'⟩ := coadd_rescaled lt lt' h w psfShape ((List.ofFn d).map VarPsf.toCoImg)
    ((List.ofFn fun m => (d m).times (k m) c (f m)).map VarPsf.toCoImg) procs procs' (ne _) (ne _) (allShape_var d h w hs)
    (allShape_var _ h w hs) (by rw [ln]; exact hp) hp' (by rw [ln]; exact hb) (by rw [ln]; exact hq) hq'
    (by rw [ln]; exact hc) c c hc0.ne'
    (fun a b => by
      rw [specS_ofVar, specS_ofVar, Finset.mul_sum]
      exact Finset.sum_congr rfl fun m _ => times_varSHat (d m) (k m) c (f m) (hk m) (hf m) a b)
    (fun a b => by
      rw [specP_ofVar, specP_ofVar, ← ofReal_mul]
      congr 1
      unfold varPower
      rw [Finset.mul_sum]
      refine Finset.sum_congr rfl fun m _ => ?_
      rw [times_basisPower]
      change (c * (k m * (d m).zp) / (k m * (d m).var)) ^ 2 * _ = _
      rw [show c * (k m * (d m).zp) / (k m * (d m).var) = c * ((d m).zp / (d m).var) by
        rw [mul_div_assoc, mul_div_mul_left _ _ (hk m)], mul_pow, mul_assoc])
  obtain ⟨u1, u2⟩ := union_same m m' fun _ => rfl
  refine ⟨out, out', e, e', ?_, eP, u1, u2⟩
  rw [eR, abs_of_pos hc0, div_self hc0.ne', ofReal_one]
  simp only [one_mul]
  rfl

/-! ## The order of the basis -/

/-- The same image with the elements of the basis behind the first in another order. -/
def SameBasis (d d' : VarPsf) : Prop :=
  d'.interped = d.interped ∧ d'.zp = d.zp ∧ d'.var = d.var ∧ d'.mask = d.mask ∧
    ∃ t ts ts', d.terms = t :: ts ∧ d'.terms = t :: ts' ∧ ts.Perm ts'

theorem sameBasis_sHat (d d' : VarPsf) (hd : SameBasis d d') :
    d'.sHatComp = d.sHatComp ∧ ∀ k l, basisPower d' k l = basisPower d k l := by
  obtain ⟨x, ds, zp, v, mk⟩ := d
  obtain ⟨x', ds', zp', v', mk'⟩ := d'
  obtain ⟨e1, e2, e3, e4, t, ts, ts', e5, e6, pm⟩ := hd
  simp only at e1 e2 e3 e4 e5 e6
  subst e1 e2 e3 e4 e5 e6
  have pm' : (t :: ts).Perm (t :: ts') := pm.cons t
  have nn : (VarPsf.mk x' (t :: ts') zp' v' mk').normalImg = (VarPsf.mk x' (t :: ts) zp' v' mk').normalImg := by
    refine congrArg (Img.mk _ _) ?_
    funext i j
    exact ((pm'.map _).sum_eq).symm
  have th : ∀ s, (VarPsf.mk x' (t :: ts') zp' v' mk').termHat s = (VarPsf.mk x' (t :: ts) zp' v' mk').termHat s := by
    intro s
    unfold VarPsf.termHat
    rw [nn]
    rfl
  refine ⟨?_, fun k l => ?_⟩
  · refine congrArg (Img.mk _ _) ?_
    funext k l
    refine congrArg _ ?_
    simp only [th]
    exact ((pm'.map _).sum_eq).symm
  · exact ((pm'.map _).sum_eq).symm

/-- C175: only the first element of a basis has a special place; the order of the others does not matter. -/
theorem coadd_basis_order (lt lt' : List CoImg → List CoImg → Option Bool) {n : ℕ} (hn : 0 < n)
    (d d' : Fin n → VarPsf) (hd : ∀ m, SameBasis (d m) (d' m)) (h w psfShape : ℕ) (procs procs' : ℤ)
    (hs : ∀ j, (d j).interped.h = h ∧ (d j).interped.w = w ∧ (d j).mask.HasShape h w)
    (hp : procs ≤ n) (hp' : procs ≤ 2 ^ 25) (hb : procs * n ≤ 2 ^ 50)
    (hq : procs' ≤ n) (hq' : procs' ≤ 2 ^ 25) (hc : procs' * n ≤ 2 ^ 50) :
    ∃ out out', coaddCore lt ((List.ofFn d).map VarPsf.toCoImg) psfShape procs = .ok out ∧
      coaddCore lt' ((List.ofFn d').map VarPsf.toCoImg) psfShape procs' = .ok out' ∧
      out'.R = out.R ∧ out'.Pr = out.Pr ∧ (∀ i < h, ∀ j < w, out'.mask.marks i j = out.mask.marks i j) ∧
      (out'.mask = none ↔ out.mask = none) := by
  have ne : ∀ g : Fin n → VarPsf, (List.ofFn g).map VarPsf.toCoImg ≠ [] := by
    intro g q
    have := congrArg List.length q
    simp at this
    omega
  have ln : ∀ g : Fin n → VarPsf, ((List.ofFn g).map VarPsf.toCoImg).length = n := fun g => by simp
  obtain ⟨out, out', e, e', eR, eP, m, m'⟩ := coadd_rescaled lt lt' h w psfShape ((List.ofFn d).map VarPsf.toCoImg)
    ((List.ofFn d').map VarPsf.toCoImg) procs procs' (ne _) (ne _) (allShape_var d h w hs)
    (allShape_var d' h w fun j => by rw [(hd j).1, (hd j).2.2.2.1]; exact hs j) (by rw [ln]; exact hp) hp'
    (by rw [ln]; exact hb) (by rw [ln]; exact hq) hq' (by rw [ln]; exact hc) 1 1 one_ne_zero
    (fun a b => by
      rw [specS_ofVar, specS_ofVar, ofReal_one, one_mul]
      exact Finset.sum_congr rfl fun m _ => by rw [(sameBasis_sHat _ _ (hd m)).1])
    (fun a b => by
      rw [specP_ofVar, specP_ofVar, one_pow, ofReal_one, one_mul]
      congr 1
      unfold varPower
      refine Finset.sum_congr rfl fun m _ => ?_
      rw [(sameBasis_sHat _ _ (hd m)).2, (hd m).2.1, (hd m).2.2.1])
  obtain ⟨u1, u2⟩ := union_same m m' fun j => (hd j).2.2.2.1
  refine ⟨out, out', e, e', ?_, eP, u1, u2⟩
  rw [eR, abs_one, div_one, ofReal_one]
  simp only [one_mul]
  rfl

/-! ## An even stamp -/

/-- One row of two pixels of value 1; one basis element, a stamp of two pixels with all light in the first; coefficients 1
and 2. -/
noncomputable def evenStamp : VarPsf where
  interped := ⟨1, 2, fun _ _ => 1⟩
  terms := [⟨fun _ j => j + 1, ⟨1, 2, fun _ j => if j = 0 then 1 else 0⟩⟩]
  zp := 1
  var := 1
  mask := none

/-- The sum of the pixels of R is the coefficient of frequency zero. -/
theorem ifftDefault_two_total (X : ℕ → ℕ → ℂ) : (ifftDefault ⟨1, 2, X⟩).px 0 0 + (ifftDefault ⟨1, 2, X⟩).px 0 1 = X 0 0 := by
  change (∑ a ∈ range 1, ∑ b ∈ range 2, X a b * (tw 1 (-((a : ℝ) * (0 : ℕ))) * tw 2 (-((b : ℝ) * (0 : ℕ))))) / ((1 * 2 : ℕ) : ℂ) +
    (∑ a ∈ range 1, ∑ b ∈ range 2, X a b * (tw 1 (-((a : ℝ) * (0 : ℕ))) * tw 2 (-((b : ℝ) * (1 : ℕ))))) / ((1 * 2 : ℕ) : ℂ) = X 0 0
  have t : tw 2 (-1) = -1 := by
    have := tw_neg_mul 2 1
    rw [tw_two_one] at this
    linear_combination -this
  simp only [sum_range_succ, range_zero, sum_empty, Nat.cast_zero, Nat.cast_one, mul_zero, neg_zero, tw_zero, mul_one,
    one_mul, zero_add, t]
  push_cast
  ring

theorem evenStamp_rhat (lt : List CoImg → List CoImg → Option Bool) (d : VarPsf) (x : ℝ) (hx : d.interped.h = 1)
    (hw : d.interped.w = 2) (hz : d.zp = 1) (hv : d.var = 1) (hm : d.mask = none) (t : PsfTerm) (ht : d.terms = [t])
    (th : t.psf.h = 1) (tw' : t.psf.w = 2) (t1 : t.psf.px 0 0 + t.psf.px 0 1 = 1)
    (hsum : d.interped.px 0 0 * t.field 0 0 / d.normalImg.px 0 0 + d.interped.px 0 1 * t.field 0 1 / d.normalImg.px 0 1 = x) :
    ∃ out, coaddCore lt ((List.ofFn fun _ : Fin 1 => d).map VarPsf.toCoImg) 3 1 = .ok out ∧
      out.R.px 0 0 + out.R.px 0 1 = ((x / Real.sqrt 2 : ℝ) : ℂ) := by
  obtain ⟨out, e, eR, -, -, -⟩ := coadd_var_spec lt (n := 1) (by norm_num) (fun _ => d) 1 2 3 1
    (fun _ => ⟨hx, hw, by intro a q; rw [hm] at q; cases q⟩) (by norm_num) (by norm_num) (by norm_num)
  refine ⟨out, e, ?_⟩
  rw [eR, ifftDefault_two_total]
  have s2 : (0 : ℝ) < Real.sqrt 2 := Real.sqrt_pos.2 (by norm_num)
  have ph : (d.psfHat t.psf).px 0 0 = ((1 / Real.sqrt 2 : ℝ) : ℂ) := by
    unfold VarPsf.psfHat
    rw [hx, hw]
    change (∑ i ∈ range 1, ∑ j ∈ range 2, (if i < t.psf.h ∧ j < t.psf.w then ((t.psf.px i j : ℝ) : ℂ) else 0) *
      (tw 1 (((0 : ℕ) : ℝ) * i) * tw 2 (((0 : ℕ) : ℝ) * j))) / ((Real.sqrt ((1 * 2 : ℕ) : ℝ) : ℝ) : ℂ) = _
    rw [th, tw']
    simp only [sum_range_succ, range_zero, sum_empty, Nat.cast_zero, zero_mul, tw_zero, mul_one, zero_add]
    rw [if_pos (by norm_num), if_pos (by norm_num), ← ofReal_add, t1]
    push_cast
    norm_num
  have sh : d.sHatComp.px 0 0 = ((x / Real.sqrt 2 * (1 / Real.sqrt 2) : ℝ) : ℂ) := by
    change ((d.zp / d.var ^ 2 : ℝ) : ℂ) * (d.terms.map fun t => (d.termHat t).px 0 0).sum = _
    rw [hz, hv, ht, List.map_singleton, List.sum_singleton]
    have g : (fftOrtho (⟨d.interped.h, d.interped.w, fun i j => d.interped.px i j * t.field i j / d.normalImg.px i j⟩ :
        Img ℝ).toC).px 0 0 = ((x / Real.sqrt 2 : ℝ) : ℂ) := by
      rw [hx, hw]
      change (∑ i ∈ range 1, ∑ j ∈ range 2, ((d.interped.px i j * t.field i j / d.normalImg.px i j : ℝ) : ℂ) *
        (tw 1 (((0 : ℕ) : ℝ) * i) * tw 2 (((0 : ℕ) : ℝ) * j))) / ((Real.sqrt ((1 * 2 : ℕ) : ℝ) : ℝ) : ℂ) = _
      simp only [sum_range_succ, range_zero, sum_empty, Nat.cast_zero, zero_mul, tw_zero, mul_one, zero_add]
      rw [← ofReal_add, hsum]
      push_cast
      norm_num
    have sp : shiftPhase d.interped.h d.interped.w d.com 0 0 = 1 := by
      rw [hx, hw]
      unfold shiftPhase
      simp [tw_zero, sfreq]
    change _ * ((fftOrtho _).px 0 0 * (starRingEnd ℂ) ((d.psfHat t.psf).px 0 0) *
      shiftPhase d.interped.h d.interped.w d.com 0 0) = _
    rw [sp, ph, Complex.conj_ofReal]
    refine (congrArg (fun z => ((1 / 1 ^ 2 : ℝ) : ℂ) * (z * ((1 / Real.sqrt 2 : ℝ) : ℂ) * 1)) g).trans ?_
    push_cast
    ring
  unfold coaddRhat
  rw [specS_ofVar, specP_ofVar, csqrt_ofReal_nonneg _ (varPower_nonneg _ _ _), Fin.sum_univ_one, sh, ← ofReal_div]
  congr 1
  have vp : varPower (fun _ : Fin 1 => d) 0 0 = (1 / Real.sqrt 2) ^ 2 := by
    unfold varPower basisPower
    rw [Fin.sum_univ_one, hz, hv, ht, List.map_singleton, List.sum_singleton, ph, normSq_ofReal]
    ring
  rw [vp, Real.sqrt_sq (by positivity), mul_div_assoc, div_self (by positivity), mul_one]

/-- C175, the side of the stamps: with an even stamp, turning all arrays does not turn the coadd. The values of R sum to
`(3/2)/√2` before and to `2/√2` after. -/
theorem coadd_even_not_turned (lt lt' : List CoImg → List CoImg → Option Bool) : ∃ out out',
    coaddCore lt ((List.ofFn fun _ : Fin 1 => evenStamp).map VarPsf.toCoImg) 3 1 = .ok out ∧
    coaddCore lt' ((List.ofFn fun _ : Fin 1 => evenStamp.turned).map VarPsf.toCoImg) 3 1 = .ok out' ∧
    out.R.px 0 0 + out.R.px 0 1 = ((3 / 2 / Real.sqrt 2 : ℝ) : ℂ) ∧
    out'.R.px 0 0 + out'.R.px 0 1 = ((2 / Real.sqrt 2 : ℝ) : ℂ) ∧
    ¬ ∀ i < 1, ∀ j < 2, out'.R.px i j = (starRingEnd ℂ) (out.R.px (1 - 1 - i) (2 - 1 - j)) := by
  have r : reflectZ 1 0 = 0 ∧ reflectZ 2 0 = 0 ∧ reflectZ 2 1 = 1 ∧ reflectZ 2 2 = 1 := by decide
  obtain ⟨r0, r1, r2, r3⟩ := r
  have n1 : ∀ j < 2, evenStamp.normalImg.px 0 j = 2 := by
    intro j hj
    change (∑ a ∈ range 1, ∑ b ∈ range 2, (if b = 0 then (1 : ℝ) else 0) *
      (((reflectZ 2 ((j : ℤ) + (2 / 2 : ℕ) - b) : ℕ) : ℝ) + 1)) + 0 = 2
    interval_cases j <;> simp [r2, r3] <;> norm_num
  have n2 : evenStamp.turned.normalImg.px 0 0 = 2 ∧ evenStamp.turned.normalImg.px 0 1 = 1 := by
    have q : ∀ j : ℕ, evenStamp.turned.normalImg.px 0 j = (∑ a ∈ range 1, ∑ b ∈ range 2,
        (if 2 - 1 - b = 0 then (1 : ℝ) else 0) * (((2 - 1 - reflectZ 2 ((j : ℤ) + (2 / 2 : ℕ) - b) : ℕ) : ℝ) + 1)) + 0 :=
      fun j => rfl
    constructor
    · rw [q]
      simp [sum_range_succ, r1]
      norm_num
    · rw [q]
      simp [sum_range_succ, r2]
  obtain ⟨out, e, h1⟩ := evenStamp_rhat lt evenStamp (3 / 2) rfl rfl rfl rfl rfl _ rfl rfl rfl (by simp) (by
    rw [n1 0 (by norm_num), n1 1 (by norm_num)]
    change (1 : ℝ) * (((0 : ℕ) : ℝ) + 1) / 2 + 1 * (((1 : ℕ) : ℝ) + 1) / 2 = 3 / 2
    norm_num)
  obtain ⟨out', e', h2⟩ := evenStamp_rhat lt' evenStamp.turned 2 rfl rfl rfl rfl rfl _ rfl rfl rfl (by
    change (if 2 - 1 - 0 = 0 then (1 : ℝ) else 0) + (if 2 - 1 - 1 = 0 then (1 : ℝ) else 0) = 1
    norm_num) (by
    rw [n2.1, n2.2]
    change (1 : ℝ) * (((2 - 1 - 0 : ℕ) : ℝ) + 1) / 2 + 1 * (((2 - 1 - 1 : ℕ) : ℝ) + 1) / 1 = 2
    norm_num)
  refine ⟨out, out', e, e', h1, h2, fun q => ?_⟩
  have a := q 0 (by norm_num) 0 (by norm_num)
  have b := q 0 (by norm_num) 1 (by norm_num)
  have c : out'.R.px 0 0 + out'.R.px 0 1 = (starRingEnd ℂ) (out.R.px 0 0 + out.R.px 0 1) := by
    rw [a, b, map_add, add_comm]
  rw [h1, h2, Complex.conj_ofReal] at c
  have s2 : (0 : ℝ) < Real.sqrt 2 := Real.sqrt_pos.2 (by norm_num)
  have := (div_left_inj' s2.ne').1 (Complex.ofReal_injective c)
  norm_num at this

/-! ## Two exposures -/

/-- Two exposures of four pixels whose PSF leans to the right along the row, the second with a masked pixel. -/
noncomputable def leaningPair (m : Fin 2) : VarPsf where
  interped := ⟨1, 4, fun _ j => if j = m.val then 5 else 1⟩
  terms := [⟨fun _ _ => 1, ⟨1, 3, fun _ j => if j = 1 then 1 / 2 else 1 / 4⟩⟩,
    ⟨fun _ j => (j : ℝ) / 8, ⟨1, 3, fun _ j => (j : ℝ) - 1⟩⟩, ⟨fun _ j => (j : ℝ) ^ 2, ⟨1, 3, fun _ j => if j = 1 then 1 else 0⟩⟩]
  zp := 1 + m.val
  var := 2 + m.val
  mask := if m.val = 0 then none else some ⟨1, 4, fun _ j => decide (j = 2)⟩

theorem leaningPair_mask (m : Fin 2) : (leaningPair m).mask.HasShape 1 4 := by
  intro a ha
  fin_cases m
  · cases ha
  · cases ha
    exact ⟨rfl, rfl⟩

theorem leaningPair_turnable (m : Fin 2) : (leaningPair m).Turnable 1 4 := by
  refine ⟨rfl, rfl, ⟨0, 1, by norm_num, by norm_num, ?_⟩, ?_⟩
  · intro t ht
    have : t ∈ [_, _, _] := ht
    simp only [List.mem_cons, List.not_mem_nil, or_false] at this
    rcases this with rfl | rfl | rfl <;> exact ⟨rfl, rfl⟩
  · intro t ht
    cases ht
    change ∑ i ∈ range 1, ∑ j ∈ range 3, (if j = 1 then (1 / 2 : ℝ) else 1 / 4) ≠ 0
    norm_num [sum_range_succ]

example (lt : List CoImg → List CoImg → Option Bool) : ∃ out out',
    coaddCore lt ((List.ofFn leaningPair).map VarPsf.toCoImg) 3 1 = .ok out ∧
    coaddCore lt ((List.ofFn fun m => (leaningPair m).turned).map VarPsf.toCoImg) 3 2 = .ok out' ∧
    out'.R.px 0 0 = (starRingEnd ℂ) (out.R.px 0 3) ∧ out'.mask.marks 0 1 = out.mask.marks 0 2 := by
  obtain ⟨out, out', e, e', _, r, _⟩ := coadd_var_turned lt lt (by norm_num) leaningPair 1 4 3 one_ne_zero (by norm_num) 1 2
    leaningPair_turnable leaningPair_mask (by norm_num) (by norm_num) (by norm_num) (by norm_num) (by norm_num) (by norm_num)
  exact ⟨out, out', e, e', (r 0 (by norm_num) 0 (by norm_num)).1, (r 0 (by norm_num) 1 (by norm_num)).2⟩

example (lt : List CoImg → List CoImg → Option Bool) : ∃ out out',
    coaddCore lt ((List.ofFn leaningPair).map VarPsf.toCoImg) 3 1 = .ok out ∧
    coaddCore lt ((List.ofFn fun m => (leaningPair m).times (1 + m.val) 3 (-2)).map VarPsf.toCoImg) 3 2 = .ok out' ∧
    out'.R = out.R := by
  obtain ⟨out, out', e, e', r, _⟩ := coadd_var_units lt lt (by norm_num) leaningPair (fun m => 1 + m.val) (fun _ => -2) 3
    (fun m => by positivity) (fun _ => by norm_num) (by norm_num) 1 4 3 1 2 (fun m => ⟨rfl, rfl, leaningPair_mask m⟩)
    (by norm_num) (by norm_num) (by norm_num) (by norm_num) (by norm_num) (by norm_num)
  exact ⟨out, out', e, e', r⟩

/-- The second and the third element exchanged. -/
example (m : Fin 2) : SameBasis (leaningPair m) { leaningPair m with terms := [⟨fun _ _ => 1, ⟨1, 3, fun _ j => if j = 1 then 1 / 2 else 1 / 4⟩⟩,
    ⟨fun _ j => (j : ℝ) ^ 2, ⟨1, 3, fun _ j => if j = 1 then 1 else 0⟩⟩, ⟨fun _ j => (j : ℝ) / 8, ⟨1, 3, fun _ j => (j : ℝ) - 1⟩⟩] } :=
  ⟨rfl, rfl, rfl, rfl, _, _, _, rfl, rfl, List.Perm.swap _ _ _⟩

end PI
