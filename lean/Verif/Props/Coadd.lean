import Verif.Lemmas.Coadd
import Verif.Lemmas.DFT

/-!
# Properties C04, C06–C12: `operations.coadd`

Worker counts are bounded (`p ≤ 2^25`, `p * len ≤ 2^50`) only because of the binary64 model of
`chunk_it`.
-/

namespace PI

open Complex

/-! ## Specification of the accumulated sums (independent of chunks and workers) -/

/-- `S_hat` should be the plain sum over the images. -/
noncomputable def specS (imgs : List CoImg) (i j : ℕ) : ℂ := (imgs.map fun im => im.sHat i j).sum

/-- `P_hat` should be the weighted sum over the images. -/
noncomputable def specP (imgs : List CoImg) (i j : ℕ) : ℂ :=
  (imgs.map fun im => (((im.zp / im.var) ^ 2 : ℝ) : ℂ) * im.psfSq i j).sum

/-- The result `coadd` should return for images of shape `(h, w)`, up to its mask. -/
noncomputable def specOut (h w : ℕ) (imgs : List CoImg) (psfShape : ℕ) : Img ℂ × Img ℂ :=
  (coaddR ⟨h, w, specS imgs⟩ ⟨h, w, specP imgs⟩, coaddPsf ⟨h, w, specP imgs⟩ psfShape)

/-- A mask is the union of the images' masks, in numpy's shrunk form. -/
def IsUnionMask (h w : ℕ) (imgs : List CoImg) (m : NMask) : Prop :=
  m.HasShape h w ∧
  (∀ i < h, ∀ j < w, (m.marks i j = true ↔ ∃ im ∈ imgs, im.mask.marks i j = true)) ∧
  (m = none ↔ ∀ im ∈ imgs, ∀ i < h, ∀ j < w, im.mask.marks i j = false)

theorem isUnionMask_of (h w : ℕ) (imgs : List CoImg) (m : NMask) (hs : m.HasShape h w)
    (hm : ∀ i < h, ∀ j < w, (m.marks i j = true ↔ ∃ im ∈ imgs, im.mask.marks i j = true))
    (hn : m = none ↔ ∀ i < h, ∀ j < w, m.marks i j = false) : IsUnionMask h w imgs m := by
  refine ⟨hs, hm, ?_⟩
  rw [hn]
  constructor
  · intro hf im him i hi j hj
    by_contra hne
    have : m.marks i j = true := (hm i hi j hj).2 ⟨im, him, by simpa using hne⟩
    rw [hf i hi j hj] at this
    exact absurd this (by simp)
  · intro hf i hi j hj
    by_contra hne
    obtain ⟨im, him, ht⟩ := (hm i hi j hj).1 (by simpa using hne)
    rw [hf im him i hi j hj] at ht
    exact absurd ht (by simp)

theorem acc_eq_of_spec {h w : ℕ} {imgs : List CoImg} {acc : Acc} (hs : AccSpec h w imgs acc) :
    acc.S = ⟨h, w, specS imgs⟩ ∧ acc.P = ⟨h, w, specP imgs⟩ := by
  obtain ⟨S, P, m⟩ := acc
  obtain ⟨Sh, Sw, Spx⟩ := S
  obtain ⟨Ph, Pw, Ppx⟩ := P
  obtain ⟨h1, h2, h3, h4, h5, h6, _⟩ := hs
  simp only at h1 h2 h3 h4 h5 h6
  subst h1 h2 h3 h4
  constructor
  · change Img.mk Ph Pw Spx = _
    rw [show Spx = specS imgs from funext fun i => funext fun j => h5 i j]
  · change Img.mk Ph Pw Ppx = _
    rw [show Ppx = specP imgs from funext fun i => funext fun j => h6 i j]

/-- Sequential accumulation computes the specified sums. -/
theorem accSequential_spec (h w : ℕ) (imgs : List CoImg) (hne : imgs ≠ [])
    (hall : AllShape imgs h w) :
    ∃ acc, accSequential (h, w) imgs = .ok acc ∧ AccSpec h w imgs acc ∧
      IsUnionMask h w imgs acc.mask := by
  rw [accSequential_eq]
  obtain ⟨acc, e, hs, hm, hn⟩ := processChunk_ok h w imgs hne hall
  exact ⟨acc, e, hs, isUnionMask_of h w imgs _ hs.mshape hm hn⟩

/-- Parallel accumulation over any list of non-empty chunks that together hold the images. -/
theorem parallel_chunks_spec (h w : ℕ) (imgs : List CoImg) (chunks : List (List CoImg))
    (hne : imgs ≠ []) (hall : AllShape imgs h w) (hperm : chunks.flatten.Perm imgs)
    (hchunks : [] ∉ chunks) :
    ∃ results acc, chunks.mapM (processChunk (h, w)) = .ok results ∧
      results.foldlM combineStep
        ⟨Img.const h w 0, Img.const h w 0, some (Img.const h w false)⟩ = .ok acc ∧
      AccSpec h w imgs acc ∧ IsUnionMask h w imgs acc.mask := by
  have hsub : ∀ c ∈ chunks, AllShape c h w := by
    intro c hc im him
    exact hall im (hperm.subset (List.mem_flatten.2 ⟨c, hc, him⟩))
  obtain ⟨res, hres, hf⟩ := mapM_ok (processChunk (h, w)) chunks
    (fun c acc => AccSpec h w c acc ∧
      ∀ i < h, ∀ j < w, (acc.mask.marks i j = true ↔ ∃ im ∈ c, im.mask.marks i j = true))
    (by
      intro c hc
      obtain ⟨acc, e, hs, hm, _⟩ := processChunk_ok h w c
        (fun h0 => hchunks (h0 ▸ hc)) (hsub c hc)
      exact ⟨acc, e, hs, hm⟩)
  have hshape : ∀ r ∈ res, (r.S.h = h ∧ r.S.w = w) ∧ (r.P.h = h ∧ r.P.w = w) ∧
      r.mask.HasShape h w := by
    intro r hr
    obtain ⟨c, hs, _⟩ := forall₂_right _ _ _ hf r hr
    exact ⟨⟨hs.sh, hs.sw⟩, ⟨hs.ph, hs.pw⟩, hs.mshape⟩
  obtain ⟨acc, e, k1, k2, k3, k4, kS, kP, km, kmk, kn⟩ := foldl_combine h w res hshape
    ⟨Img.const h w 0, Img.const h w 0, some (Img.const h w false)⟩ ⟨rfl, rfl⟩ ⟨rfl, rfl⟩
    (by intro a ha; cases ha; exact ⟨rfl, rfl⟩)
  have hresne : res ≠ [] := by
    rintro rfl
    have : chunks = [] := by cases hf; rfl
    subst this
    simp at hperm
    exact hne hperm
  have hsum : ∀ (f : CoImg → ℂ) (g : Acc → ℂ),
      (∀ c a, (AccSpec h w c a ∧
        ∀ i < h, ∀ j < w, (a.mask.marks i j = true ↔ ∃ im ∈ c, im.mask.marks i j = true)) →
        g a = (c.map f).sum) → (res.map g).sum = (imgs.map f).sum := by
    intro f g hfg
    rw [← (hperm.map f).sum_eq]
    clear kS kP kmk kn hresne hshape e hres hperm hsub hchunks
    induction hf with
    | nil => simp
    | cons hh _ ih =>
      simp only [List.map_cons, List.sum_cons, List.flatten_cons, List.map_append, List.sum_append]
      rw [hfg _ _ hh, ih]
  refine ⟨res, acc, hres, e, ⟨k1, k2, k3, k4, ?_, ?_, km⟩, ?_⟩
  · intro i j
    rw [kS, hsum (fun im => im.sHat i j) (fun r => r.S.px i j) (fun c a hh => hh.1.s i j)]
    simp [Img.const]
  · intro i j
    rw [kP, hsum (fun im => (((im.zp / im.var) ^ 2 : ℝ) : ℂ) * im.psfSq i j)
      (fun r => r.P.px i j) (fun c a hh => hh.1.p i j)]
    simp [Img.const]
  · apply isUnionMask_of h w imgs _ km _ (kn hresne)
    intro i hi j hj
    rw [kmk i hi j hj]
    have h0 : NMask.marks (some (Img.const h w false)) i j = false := rfl
    rw [h0]
    simp only [Bool.false_eq_true, false_or]
    have : (∃ r ∈ res, r.mask.marks i j = true) ↔
        ∃ im ∈ chunks.flatten, im.mask.marks i j = true := by
      clear kS kP kmk kn hresne hshape e hres hperm hsub hchunks hsum
      induction hf with
      | nil => simp
      | cons hh _ ih =>
        simp only [List.mem_cons, List.flatten_cons, List.mem_append, or_and_right,
          exists_or]
        rw [ih, exists_eq_left, hh.2 i hi j hj]
    rw [this]
    constructor
    · rintro ⟨im, him, ht⟩; exact ⟨im, hperm.subset him, ht⟩
    · rintro ⟨im, him, ht⟩; exact ⟨im, hperm.symm.subset him, ht⟩

theorem accParallel_spec (lt : List CoImg → List CoImg → Option Bool) (h w : ℕ)
    (imgs : List CoImg) (p : ℕ) (hall : AllShape imgs h w) (hp : 1 ≤ p) (hpk : p ≤ imgs.length)
    (hp' : p ≤ 2 ^ 25) (hb : p * imgs.length ≤ 2 ^ 50) :
    ∃ acc, accParallel lt (h, w) imgs p = .ok acc ∧ AccSpec h w imgs acc ∧
      IsUnionMask h w imgs acc.mask := by
  have hne : imgs ≠ [] := by
    rintro rfl; simp at hpk; omega
  obtain ⟨chunks, hc, _⟩ := chunk_it_count lt imgs p (p + 2) hne hp hp' (by omega)
  have hperm := chunk_it_elements_once lt imgs p (p + 2) chunks hc
  have hempty := chunk_it_empty_iff lt imgs p (p + 2) hne hp hp' hb (by omega) chunks hc
  obtain ⟨res, acc, h1, h2, h3, h4⟩ := parallel_chunks_spec h w imgs chunks hne hall hperm
    (fun hin => by have := hempty.1 hin; omega)
  refine ⟨acc, ?_, h3, h4⟩
  unfold accParallel
  rw [hc]
  change (do let results ← chunks.mapM (processChunk (h, w)); _) = _
  rw [h1]
  exact h2

/-- For any admissible number of workers `coadd` returns the specified images and the union
mask. -/
theorem coadd_spec (lt : List CoImg → List CoImg → Option Bool) (h w : ℕ)
    (imgs : List CoImg) (psfShape : ℕ) (n : ℤ) (hne : imgs ≠ []) (hall : AllShape imgs h w)
    (hn : n ≤ imgs.length) (hn' : n ≤ 2 ^ 25) (hb : n * imgs.length ≤ 2 ^ 50) :
    ∃ out, coaddCore lt imgs psfShape n = .ok out ∧
      (out.R, out.Pr) = specOut h w imgs psfShape ∧ IsUnionMask h w imgs out.mask := by
  have hgs := globalShape_same imgs hne h w (fun im him => ⟨(hall im him).1, (hall im him).2.1⟩)
  have fin : ∀ acc : Acc, AccSpec h w imgs acc →
      ((finishCoadd psfShape acc).R, (finishCoadd psfShape acc).Pr) = specOut h w imgs psfShape := by
    intro acc hs
    obtain ⟨e1, e2⟩ := acc_eq_of_spec hs
    simp only [finishCoadd, specOut, e1, e2]
  by_cases h1 : 1 < n
  · obtain ⟨acc, e, hs, hm⟩ := accParallel_spec lt h w imgs n.toNat hall (by omega) (by omega)
      (by omega) (by
        have : ((n.toNat * imgs.length : ℕ) : ℤ) ≤ 2 ^ 50 := by
          push_cast; rw [Int.toNat_of_nonneg (by omega)]; exact hb
        exact_mod_cast this)
    refine ⟨finishCoadd psfShape acc, ?_, fin acc hs, hm⟩
    unfold coaddCore
    rw [hgs]
    simp only [bind, Except.bind, if_pos h1, e]
    rfl
  · obtain ⟨acc, e, hs, hm⟩ := accSequential_spec h w imgs hne hall
    refine ⟨finishCoadd psfShape acc, ?_, fin acc hs, hm⟩
    unfold coaddCore
    rw [hgs]
    simp only [bind, Except.bind, if_neg h1, e]
    rfl

/-! ## C04 -/

/-- C04: `n_procs = p` workers give the same `R`, `P_r` and the same mask (as a set of pixels and
as `nomask` or array) as `n_procs = 1`. -/
theorem coadd_parallel_eq_sequential (lt : List CoImg → List CoImg → Option Bool) (h w : ℕ)
    (imgs : List CoImg) (psfShape p : ℕ) (hall : AllShape imgs h w) (hp : 1 ≤ p)
    (hpk : p ≤ imgs.length) (hp' : p ≤ 2 ^ 25) (hb : p * imgs.length ≤ 2 ^ 50) :
    ∃ par seq, coaddCore lt imgs psfShape p = .ok par ∧ coaddCore lt imgs psfShape 1 = .ok seq ∧
      par.R = seq.R ∧ par.Pr = seq.Pr ∧
      (∀ i < h, ∀ j < w, par.mask.marks i j = seq.mask.marks i j) ∧
      (par.mask = none ↔ seq.mask = none) := by
  have hne : imgs ≠ [] := by rintro rfl; simp at hpk; omega
  have hl : 1 ≤ imgs.length := List.length_pos_iff.2 hne
  obtain ⟨par, e1, r1, m1⟩ := coadd_spec lt h w imgs psfShape p hne hall (by omega)
    (by exact_mod_cast hp') (by exact_mod_cast hb)
  have hb1 : (1 : ℤ) * imgs.length ≤ 2 ^ 50 := by
    have : 1 * imgs.length ≤ p * imgs.length := Nat.mul_le_mul_right _ hp
    have h2 : 1 * imgs.length ≤ 2 ^ 50 := this.trans hb
    exact_mod_cast h2
  obtain ⟨seq, e2, r2, m2⟩ := coadd_spec lt h w imgs psfShape 1 hne hall (by omega) (by norm_num) hb1
  have hr : (par.R, par.Pr) = (seq.R, seq.Pr) := by rw [r1, r2]
  refine ⟨par, seq, e1, e2, (Prod.mk.inj hr).1, (Prod.mk.inj hr).2, ?_, ?_⟩
  · intro i hi j hj
    rw [Bool.eq_iff_iff, m1.2.1 i hi j hj, m2.2.1 i hi j hj]
  · rw [m1.2.2, m2.2.2]

/-! ## C06 -/

theorem accParallel_more_workers (lt : List CoImg → List CoImg → Option Bool) (h w : ℕ)
    (imgs : List CoImg) (p : ℕ) (hne : imgs ≠ []) (hall : AllShape imgs h w)
    (hpk : imgs.length < p) (hp' : p ≤ 2 ^ 25) (hb : p * imgs.length ≤ 2 ^ 50) :
    accParallel lt (h, w) imgs p = .error .IndexError := by
  obtain ⟨chunks, hc, _⟩ := chunk_it_count lt imgs p (p + 2) hne (by omega) hp' (by omega)
  have hperm := chunk_it_elements_once lt imgs p (p + 2) chunks hc
  have hempty := (chunk_it_empty_iff lt imgs p (p + 2) hne (by omega) hp' hb (by omega) chunks hc).2 hpk
  have herr : chunks.mapM (processChunk (h, w)) = .error .IndexError := by
    apply mapM_error
    · intro c hcm
      by_cases h0 : c = []
      · subst h0; right; rfl
      · left
        obtain ⟨acc, e, _⟩ := processChunk_ok h w c h0
          (fun im him => hall im (hperm.subset (List.mem_flatten.2 ⟨c, hcm, him⟩)))
        exact ⟨acc, e⟩
    · exact ⟨[], hempty, rfl⟩
  unfold accParallel
  rw [hc]
  change (do let results ← chunks.mapM (processChunk (h, w)); _) = _
  rw [herr]
  rfl

/-- C06: on `k ≥ 1` images of one shape, `coadd` with `p ≥ 2` workers succeeds iff `p ≤ k`, and
raises IndexError otherwise. -/
theorem coadd_workers_iff (lt : List CoImg → List CoImg → Option Bool) (h w : ℕ)
    (imgs : List CoImg) (psfShape p : ℕ) (hne : imgs ≠ []) (hall : AllShape imgs h w) (hp : 2 ≤ p)
    (hp' : p ≤ 2 ^ 25) (hb : p * imgs.length ≤ 2 ^ 50) :
    ((∃ out, coaddCore lt imgs psfShape p = .ok out) ↔ p ≤ imgs.length) ∧
      (imgs.length < p → coaddCore lt imgs psfShape p = .error .IndexError) := by
  have herr : imgs.length < p → coaddCore lt imgs psfShape p = .error .IndexError := by
    intro hlt
    unfold coaddCore
    rw [globalShape_same imgs hne h w (fun im him => ⟨(hall im him).1, (hall im him).2.1⟩)]
    have h1 : (1 : ℤ) < p := by omega
    simp only [bind, Except.bind, if_pos h1, Int.toNat_natCast,
      accParallel_more_workers lt h w imgs p hne hall hlt hp' hb]
  refine ⟨⟨?_, ?_⟩, herr⟩
  · rintro ⟨out, hout⟩
    by_contra hlt
    rw [herr (by omega)] at hout
    simp at hout
  · intro hle
    obtain ⟨out, e, _⟩ := coadd_spec lt h w imgs psfShape p hne hall (by exact_mod_cast hle)
      (by exact_mod_cast hp') (by exact_mod_cast hb)
    exact ⟨out, e⟩

/-- C06: `coadd([img])` with the default `n_procs=2` raises IndexError. -/
theorem coadd_single_default_fails (lt : List CoImg → List CoImg → Option Bool) (im : CoImg)
    (psfShape : ℕ) (hm : im.mask.HasShape im.h im.w) :
    coaddCore lt [im] psfShape 2 = .error .IndexError := by
  have := (coadd_workers_iff lt im.h im.w [im] psfShape 2 (by simp)
    (by intro x hx; simp at hx; subst hx; exact ⟨rfl, rfl, hm⟩) (le_refl _)
    (by norm_num) (by norm_num)).2 (by simp)
  simpa using this

/-! ## C07 -/

/-- C07: the returned mask is the union of the input masks; it is `nomask` exactly when no pixel
of any image is masked. -/
theorem coadd_mask_union (lt : List CoImg → List CoImg → Option Bool) (h w : ℕ)
    (imgs : List CoImg) (psfShape : ℕ) (n : ℤ) (hne : imgs ≠ []) (hall : AllShape imgs h w)
    (hn : n ≤ imgs.length) (hn' : n ≤ 2 ^ 25) (hb : n * imgs.length ≤ 2 ^ 50) (out : CoaddOut)
    (hout : coaddCore lt imgs psfShape n = .ok out) :
    (∀ i < h, ∀ j < w, (out.mask.marks i j = true ↔ ∃ im ∈ imgs, im.mask.marks i j = true)) ∧
      (out.mask = none ↔ ∀ im ∈ imgs, ∀ i < h, ∀ j < w, im.mask.marks i j = false) := by
  obtain ⟨o, e, _, hm⟩ := coadd_spec lt h w imgs psfShape n hne hall hn hn' hb
  rw [e] at hout
  obtain rfl := Except.ok.inj hout
  exact ⟨hm.2.1, hm.2.2⟩

/-! ## C08 -/

/-- C08: the order of the images (and the worker counts and chunk comparisons used) does not
matter. -/
theorem coadd_order_independent (lt lt' : List CoImg → List CoImg → Option Bool) (h w : ℕ)
    (imgs imgs' : List CoImg) (psfShape : ℕ) (n n' : ℤ) (hne : imgs ≠ [])
    (hall : AllShape imgs h w) (hperm : imgs.Perm imgs')
    (hn : n ≤ imgs.length) (hn1 : n ≤ 2 ^ 25) (hb : n * imgs.length ≤ 2 ^ 50)
    (hn' : n' ≤ imgs.length) (hn1' : n' ≤ 2 ^ 25) (hb' : n' * imgs.length ≤ 2 ^ 50) :
    ∃ a b, coaddCore lt imgs psfShape n = .ok a ∧ coaddCore lt' imgs' psfShape n' = .ok b ∧
      a.R = b.R ∧ a.Pr = b.Pr ∧ (∀ i < h, ∀ j < w, a.mask.marks i j = b.mask.marks i j) ∧
      (a.mask = none ↔ b.mask = none) := by
  obtain ⟨a, e1, r1, m1⟩ := coadd_spec lt h w imgs psfShape n hne hall hn hn1 hb
  have hlen := hperm.length_eq
  have hne' : imgs' ≠ [] := by
    rintro rfl; exact hne (List.perm_nil.1 hperm)
  obtain ⟨b, e2, r2, m2⟩ := coadd_spec lt' h w imgs' psfShape n' hne'
    (fun im him => hall im (hperm.symm.subset him)) (by rwa [← hlen]) hn1' (by rwa [← hlen])
  have hs : specOut h w imgs psfShape = specOut h w imgs' psfShape := by
    have hS : specS imgs = specS imgs' := by
      funext i j; exact (hperm.map _).sum_eq
    have hP : specP imgs = specP imgs' := by
      funext i j; exact (hperm.map _).sum_eq
    simp only [specOut, hS, hP]
  have hr : (a.R, a.Pr) = (b.R, b.Pr) := by rw [r1, r2, hs]
  refine ⟨a, b, e1, e2, (Prod.mk.inj hr).1, (Prod.mk.inj hr).2, ?_, ?_⟩
  · intro i hi j hj
    rw [Bool.eq_iff_iff, m1.2.1 i hi j hj, m2.2.1 i hi j hj]
    exact ⟨fun ⟨x, hx, ht⟩ => ⟨x, hperm.subset hx, ht⟩,
      fun ⟨x, hx, ht⟩ => ⟨x, hperm.symm.subset hx, ht⟩⟩
  · rw [m1.2.2, m2.2.2]
    exact ⟨fun hf x hx => hf x (hperm.symm.subset hx), fun hf x hx => hf x (hperm.subset hx)⟩

/-! ## C10 -/

/-- C10: the returned PSF image sums to 1 unless its un-normalised sum vanishes. -/
theorem coadd_psf_sum_one (P : Img ℂ) (psfShape : ℕ) (hne : imSum (coaddPsfRaw P psfShape) ≠ 0) :
    imSum (coaddPsf P psfShape) = 1 := by
  have : imSum (coaddPsf P psfShape)
      = imSum (coaddPsfRaw P psfShape) / imSum (coaddPsfRaw P psfShape) := by
    conv_lhs => rw [imSum]
    conv_rhs => rw [imSum]
    simp only [coaddPsf, Img.map, div_eq_mul_inv, ← Finset.sum_mul]
    rfl
  rw [this, div_self hne]

/-- C10: the un-normalised sum is the square root of the weighted PSF power at zero frequency, so
it vanishes only if `P_hat` does there. -/
theorem coadd_psf_raw_sum (P : Img ℂ) (psfShape : ℕ) (hh : P.h ≠ 0) (hw : P.w ≠ 0) :
    imSum (coaddPsfRaw P psfShape) = csqrt (P.px 0 0) := by
  have hs := sum_idftSum (fourierShift (P.map csqrt) ((psfShape : ℝ), (psfShape : ℝ))) hh hw
  have hpx : (fourierShift (P.map csqrt) ((psfShape : ℝ), (psfShape : ℝ))).px 0 0
      = csqrt (P.px 0 0) := by
    have h1 : sfreq P.h 0 = 0 := by
      unfold sfreq; rw [if_pos (by omega)]; rfl
    have h2 : sfreq P.w 0 = 0 := by
      unfold sfreq; rw [if_pos (by omega)]; rfl
    simp only [fourierShift, Img.map, shiftPhase, h1, h2]
    simp [tw_zero]
  rw [hpx] at hs
  have hne : ((P.h * P.w : ℕ) : ℂ) ≠ 0 := by
    exact_mod_cast Nat.mul_ne_zero hh hw
  rw [imSum]
  simp only [coaddPsfRaw, ifftDefault, Img.map, div_eq_mul_inv, ← Finset.sum_mul]
  change (∑ i ∈ Finset.range P.h, ∑ j ∈ Finset.range P.w,
    (idftSum (fourierShift (P.map csqrt) ((psfShape : ℝ), (psfShape : ℝ)))).px i j)
      * ((P.h * P.w : ℕ) : ℂ)⁻¹ = _
  have hs' : (∑ i ∈ Finset.range P.h, ∑ j ∈ Finset.range P.w,
    (idftSum (fourierShift (P.map csqrt) ((psfShape : ℝ), (psfShape : ℝ)))).px i j)
      = csqrt (P.px 0 0) * (P.h * P.w) := hs
  rw [hs']
  push_cast at hne ⊢
  field_simp

end PI
