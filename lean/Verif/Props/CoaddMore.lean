import Verif.Props.Coadd
import Mathlib.Analysis.SpecialFunctions.Pow.Real

/-! # Properties C09, C11, C12 and worked instances for the `coadd` theorems -/

namespace PI

open Complex

/-! ## C09 -/

/-- Zackay & Ofek's proper coaddition at one frequency, written for transforms `M j` (image),
`P j` (PSF), flux zero points `F j` and noise `σ j`; independent of the code's intermediate
quantities. -/
noncomputable def zackayR {n : ℕ} (F σ : Fin n → ℝ) (M P : Fin n → ℂ) : ℂ :=
  (∑ j, ((F j / σ j ^ 2 : ℝ) : ℂ) * ((starRingEnd ℂ) (P j) * M j)) /
    ((Real.sqrt (∑ j, F j ^ 2 / σ j ^ 2 * Complex.normSq (P j)) : ℝ) : ℂ)

theorem csqrt_ofReal_nonneg (x : ℝ) (hx : 0 ≤ x) : csqrt (x : ℂ) = ((Real.sqrt x : ℝ) : ℂ) := by
  rw [csqrt, Real.sqrt_eq_rpow, Complex.ofReal_cpow hx]
  norm_num

/-- The Fourier transform of `R` before the inverse transform. -/
noncomputable def coaddRhat (imgs : List CoImg) (k l : ℕ) : ℂ :=
  specS imgs k l / csqrt (specP imgs k l)

/-- `R` is the (default-normalised) inverse transform of `coaddRhat`. -/
theorem coadd_R_eq (h w : ℕ) (imgs : List CoImg) (psfShape : ℕ) :
    (specOut h w imgs psfShape).1 = ifftDefault ⟨h, w, coaddRhat imgs⟩ := rfl

/-- C09: for images with a single PSF, `R_hat` is Zackay & Ofek's proper coadd, each image
transform carrying the phase that recentres it by its own PSF's centre of mass. -/
theorem coadd_is_zackay {n : ℕ} (d : Fin n → SinglePsf) (k l : ℕ) :
    coaddRhat ((List.ofFn d).map SinglePsf.toCoImg) k l =
      zackayR (fun j => (d j).zp) (fun j => (d j).var)
        (fun j => (fftOrtho (d j).interped).px k l *
          shiftPhase (d j).interped.h (d j).interped.w (d j).com k l)
        (fun j => (d j).psfHat.px k l) := by
  have hS : specS ((List.ofFn d).map SinglePsf.toCoImg) k l =
      ∑ j, (((d j).zp / (d j).var ^ 2 : ℝ) : ℂ) * ((starRingEnd ℂ) ((d j).psfHat.px k l) *
        ((fftOrtho (d j).interped).px k l *
          shiftPhase (d j).interped.h (d j).interped.w (d j).com k l)) := by
    unfold specS
    rw [List.map_map, List.map_ofFn, List.sum_ofFn]
    refine Finset.sum_congr rfl fun j _ => ?_
    simp only [Function.comp, SinglePsf.toCoImg, SinglePsf.sHatComp, fourierShift, Img.map, Img.zip]
    change _ * (_ * shiftPhase (d j).interped.h (d j).interped.w (d j).com k l) = _
    ring
  have hP : specP ((List.ofFn d).map SinglePsf.toCoImg) k l =
      ((∑ j, (d j).zp ^ 2 / (d j).var ^ 2 * Complex.normSq ((d j).psfHat.px k l) : ℝ) : ℂ) := by
    unfold specP
    rw [List.map_map, List.map_ofFn, List.sum_ofFn]
    push_cast
    refine Finset.sum_congr rfl fun j _ => ?_
    simp only [Function.comp, SinglePsf.toCoImg, SinglePsf.psfSqnorm, Img.map]
    rw [Complex.mul_conj, div_pow]
  unfold coaddRhat zackayR
  rw [hS, hP, csqrt_ofReal_nonneg]
  exact Finset.sum_nonneg fun j _ => mul_nonneg (by positivity) (Complex.normSq_nonneg _)

theorem specS_replicate (n : ℕ) (im : CoImg) (k l : ℕ) :
    specS (List.replicate n im) k l = n * im.sHat k l := by
  simp [specS, List.map_replicate, List.sum_replicate]

theorem specP_replicate (n : ℕ) (im : CoImg) (k l : ℕ) :
    specP (List.replicate n im) k l = n * ((((im.zp / im.var) ^ 2 : ℝ) : ℂ) * im.psfSq k l) := by
  simp [specP, List.map_replicate, List.sum_replicate]

/-- C09: coadding `n ≥ 1` copies of an image multiplies `R_hat` by `√n`, at every frequency where
the PSF power is a non-negative real (which `psf_hat_sqnorm` always is). -/
theorem coadd_copies (n : ℕ) (hn : 1 ≤ n) (im : CoImg) (k l : ℕ) (q : ℝ) (hq : 0 ≤ q)
    (him : im.psfSq k l = (q : ℂ)) :
    coaddRhat (List.replicate n im) k l = ((Real.sqrt n : ℝ) : ℂ) * coaddRhat [im] k l := by
  have h1 := specS_replicate 1 im k l
  have h2 := specP_replicate 1 im k l
  simp only [List.replicate_one, Nat.cast_one, one_mul] at h1 h2
  unfold coaddRhat
  rw [specS_replicate, specP_replicate, h1, h2, him]
  set c : ℝ := (im.zp / im.var) ^ 2 * q with hc
  have hc0 : 0 ≤ c := mul_nonneg (by positivity) hq
  have e1 : (((im.zp / im.var) ^ 2 : ℝ) : ℂ) * (q : ℂ) = ((c : ℝ) : ℂ) := by
    rw [hc]; push_cast; rfl
  have e2 : (n : ℂ) * (((im.zp / im.var) ^ 2 : ℝ) : ℂ) * (q : ℂ) = (((n : ℝ) * c : ℝ) : ℂ) := by
    rw [hc]; push_cast; ring
  rw [← mul_assoc, e1, e2, csqrt_ofReal_nonneg _ (by positivity), csqrt_ofReal_nonneg _ hc0,
    Real.sqrt_mul (by positivity)]
  have hn0 : (0 : ℝ) < n := by exact_mod_cast hn
  have hs : ((Real.sqrt n : ℝ) : ℂ) ≠ 0 := by
    exact_mod_cast (Real.sqrt_pos.2 hn0).ne'
  have hnn : (n : ℂ) = ((Real.sqrt n : ℝ) : ℂ) * ((Real.sqrt n : ℝ) : ℂ) := by
    rw [sqrt_mul_self_cast]
  rw [Complex.ofReal_mul]
  by_cases hz : ((Real.sqrt c : ℝ) : ℂ) = 0
  · simp [hz]
  · rw [hnn]; field_simp

/-- `psf_hat_sqnorm()` of a single-PSF image is a non-negative real at every frequency. -/
theorem singlePsf_sqnorm (d : SinglePsf) (k l : ℕ) :
    d.toCoImg.psfSq k l = ((Complex.normSq (d.psfHat.px k l) : ℝ) : ℂ) := by
  simp [SinglePsf.toCoImg, SinglePsf.psfSqnorm, Img.map, Complex.mul_conj]

/-! ## C11 -/

/-- A chunk containing an image of another shape makes the worker raise ValueError. -/
theorem processChunk_bad (h w : ℕ) (hh : 0 < h) (hw : 0 < w) (chunk : List CoImg)
    (hge : ∀ im ∈ chunk, h ≤ im.h ∧ w ≤ im.w)
    (hmask : ∀ im ∈ chunk, im.mask.HasShape im.h im.w)
    (hbad : ∃ im ∈ chunk, ¬ (im.h = h ∧ im.w = w)) :
    processChunk (h, w) chunk = .error .ValueError := by
  have step_bad : ∀ (acc : Acc) (im : CoImg), acc.S.h = h → acc.S.w = w → h ≤ im.h → w ≤ im.w →
      ¬ (im.h = h ∧ im.w = w) → accStep acc im = .error .ValueError := by
    intro acc im h1 h2 h3 h4 h5
    unfold accStep
    rw [addOut_bad im.comp acc.S (by simpa [CoImg.comp, h1, h2] using h5)
      (by simpa [CoImg.comp, h1] using h3) (by simpa [CoImg.comp, h2] using h4)
      (by omega) (by omega)]
    rfl
  have fold_bad : ∀ (l : List CoImg) (acc : Acc), acc.S.h = h ∧ acc.S.w = w →
      acc.P.h = h ∧ acc.P.w = w → acc.mask.HasShape h w →
      (∀ im ∈ l, h ≤ im.h ∧ w ≤ im.w) → (∀ im ∈ l, im.mask.HasShape im.h im.w) →
      (∃ im ∈ l, ¬ (im.h = h ∧ im.w = w)) → l.foldlM accStep acc = .error .ValueError := by
    intro l
    induction l with
    | nil => rintro _ _ _ _ _ _ ⟨x, hx, _⟩; simp at hx
    | cons im rest ih =>
      intro acc hS hP hm hg hmk hex
      rw [List.foldlM_cons]
      by_cases hok : im.h = h ∧ im.w = w
      · obtain ⟨a1, e1, eS, eP, hm1, _, _⟩ := accStep_ok h w acc im hS hP hm
          ⟨hok.1, hok.2, by have := hmk im (by simp); rwa [hok.1, hok.2] at this⟩
        rw [e1]
        apply ih a1 (by simp [eS]) (by simp [eP]) hm1 (fun x hx => hg x (by simp [hx]))
          (fun x hx => hmk x (by simp [hx]))
        obtain ⟨x, hx, hb⟩ := hex
        rcases List.mem_cons.1 hx with rfl | hx
        · exact absurd hok hb
        · exact ⟨x, hx, hb⟩
      · rw [step_bad acc im hS.1 hS.2 (hg im (by simp)).1 (hg im (by simp)).2 hok]
        rfl
  match chunk with
  | [] => obtain ⟨x, hx, _⟩ := hbad; simp at hx
  | im0 :: rest =>
    by_cases hok : im0.h = h ∧ im0.w = w
    · have hm0 : im0.mask.HasShape h w := by
        have := hmask im0 (by simp); rwa [hok.1, hok.2] at this
      exact fold_bad (im0 :: rest) ⟨Img.const h w 0, Img.const h w 0, im0.mask⟩ ⟨rfl, rfl⟩
        ⟨rfl, rfl⟩ hm0 hge hmask hbad
    · unfold processChunk
      simp only
      rw [List.foldlM_cons, step_bad _ im0 rfl rfl (hge im0 (by simp)).1 (hge im0 (by simp)).2 hok]
      rfl

/-- C11: images whose shapes are not all equal make `coadd` raise ValueError, sequentially and
with any admissible number of workers. -/
theorem coadd_mixed_shapes (lt : List CoImg → List CoImg → Option Bool) (imgs : List CoImg)
    (psfShape : ℕ) (n : ℤ) (hpos : ∀ im ∈ imgs, 0 < im.h ∧ 0 < im.w)
    (hmask : ∀ im ∈ imgs, im.mask.HasShape im.h im.w)
    (hmixed : ∃ a ∈ imgs, ∃ b ∈ imgs, ¬ (a.h = b.h ∧ a.w = b.w))
    (hn : n ≤ imgs.length) (hn' : n ≤ 2 ^ 25) (hb : n * imgs.length ≤ 2 ^ 50) :
    coaddCore lt imgs psfShape n = .error .ValueError := by
  have hne : imgs ≠ [] := by rintro rfl; obtain ⟨a, ha, _⟩ := hmixed; simp at ha
  obtain ⟨h, w, hgs, hge, ⟨x, hx, hxh⟩, ⟨y, hy, hyw⟩⟩ := globalShape_spec imgs hne
  have hh : 0 < h := hxh ▸ (hpos x hx).1
  have hw : 0 < w := hyw ▸ (hpos y hy).2
  have hbad : ∃ im ∈ imgs, ¬ (im.h = h ∧ im.w = w) := by
    obtain ⟨a, ha, b, hb, hab⟩ := hmixed
    by_contra hcon
    have h1 : a.h = h ∧ a.w = w := by by_contra h'; exact hcon ⟨a, ha, h'⟩
    have h2 : b.h = h ∧ b.w = w := by by_contra h'; exact hcon ⟨b, hb, h'⟩
    exact hab ⟨h1.1.trans h2.1.symm, h1.2.trans h2.2.symm⟩
  unfold coaddCore
  rw [hgs]
  by_cases h1 : 1 < n
  · have hlen : n.toNat ≤ imgs.length := by omega
    have hb' : n.toNat * imgs.length ≤ 2 ^ 50 := by
      have : ((n.toNat * imgs.length : ℕ) : ℤ) ≤ 2 ^ 50 := by
        push_cast; rw [Int.toNat_of_nonneg (by omega)]; exact hb
      exact_mod_cast this
    obtain ⟨chunks, hc, _⟩ := chunk_it_count lt imgs n.toNat (n.toNat + 2) hne (by omega)
      (by omega) (by omega)
    have hperm := chunk_it_elements_once lt imgs n.toNat (n.toNat + 2) chunks hc
    have hempty := chunk_it_empty_iff lt imgs n.toNat (n.toNat + 2) hne (by omega) (by omega) hb'
      (by omega) chunks hc
    have hsub : ∀ c ∈ chunks, ∀ im ∈ c, im ∈ imgs := fun c hcm im him =>
      hperm.subset (List.mem_flatten.2 ⟨c, hcm, him⟩)
    have herr : chunks.mapM (processChunk (h, w)) = .error .ValueError := by
      apply mapM_error
      · intro c hcm
        by_cases hall : ∀ im ∈ c, im.h = h ∧ im.w = w
        · left
          obtain ⟨acc, e, _⟩ := processChunk_ok h w c
            (fun h0 => by have := hempty.1 (h0 ▸ hcm); omega)
            (fun im him => ⟨(hall im him).1, (hall im him).2, by
              have := hmask im (hsub c hcm im him)
              rwa [(hall im him).1, (hall im him).2] at this⟩)
          exact ⟨acc, e⟩
        · right
          apply processChunk_bad h w hh hw c (fun im him => hge im (hsub c hcm im him))
            (fun im him => hmask im (hsub c hcm im him))
          by_contra hcon
          exact hall fun im him => by by_contra h'; exact hcon ⟨im, him, h'⟩
      · obtain ⟨im, him, hb⟩ := hbad
        obtain ⟨c, hcm, himc⟩ := List.mem_flatten.1 (hperm.symm.subset him)
        exact ⟨c, hcm, processChunk_bad h w hh hw c (fun im him => hge im (hsub c hcm im him))
          (fun im him => hmask im (hsub c hcm im him)) ⟨im, himc, hb⟩⟩
    have hpar : accParallel lt (h, w) imgs n.toNat = .error .ValueError := by
      unfold accParallel
      rw [hc]
      change (do let results ← chunks.mapM (processChunk (h, w)); _) = _
      rw [herr]
      rfl
    simp only [bind, Except.bind, if_pos h1, hpar]
  · simp only [bind, Except.bind, if_neg h1, accSequential_eq,
      processChunk_bad h w hh hw imgs hge hmask hbad]

/-- C11: images of one shape give results of that shape. -/
theorem coadd_result_shape (lt : List CoImg → List CoImg → Option Bool) (h w : ℕ)
    (imgs : List CoImg) (psfShape : ℕ) (n : ℤ) (hne : imgs ≠ []) (hall : AllShape imgs h w)
    (hn : n ≤ imgs.length) (hn' : n ≤ 2 ^ 25) (hb : n * imgs.length ≤ 2 ^ 50) :
    ∃ out, coaddCore lt imgs psfShape n = .ok out ∧ out.R.shape = (h, w) ∧
      out.Pr.shape = (h, w) := by
  obtain ⟨out, e, hr, _⟩ := coadd_spec lt h w imgs psfShape n hne hall hn hn' hb
  have h1 := (Prod.mk.inj hr).1
  have h2 := (Prod.mk.inj hr).2
  refine ⟨out, e, ?_, ?_⟩
  · rw [h1]; rfl
  · rw [h2]; rfl

/-! ## C12 -/

/-- C12: the conversion loop keeps length, order and every SingleImage; when no constructor
raises, every other element is replaced by the image built from it; when one raises, everything
before it has already been replaced in the caller's list and the rest is untouched. -/
theorem coadd_wraps_in_place {ρ ω : Type} (mk : ρ → Py ω) (l : List (Elem ρ ω)) :
    (wrapList mk l).1.length = l.length ∧
    (∀ (k : ℕ) o, l[k]? = some (Elem.obj o) → (wrapList mk l).1[k]? = some (Elem.obj o)) ∧
    ((wrapList mk l).2 = .ok () →
      (∀ (k : ℕ) x, l[k]? = some (Elem.raw x) → ∃ o, mk x = .ok o ∧ (wrapList mk l).1[k]? = some (Elem.obj o))) ∧
    (∀ e, (wrapList mk l).2 = .error e →
      ∃ (k : ℕ) (x : ρ), l[k]? = some (Elem.raw x) ∧ mk x = .error e ∧
        (∀ k' < k, ∃ o, (wrapList mk l).1[k']? = some (Elem.obj o)) ∧
        (∀ k', k ≤ k' → (wrapList mk l).1[k']? = l[k']?)) := by
  induction l with
  | nil => simp [wrapList]
  | cons a rest ih =>
    obtain ⟨i1, i2, i3, i4⟩ := ih
    cases a with
    | obj o =>
      simp only [wrapList]
      refine ⟨by simp [i1], ?_, ?_, ?_⟩
      · intro k o' hk
        cases k with
        | zero => simpa using hk
        | succ k => simpa using i2 k o' (by simpa using hk)
      · intro hok k x hk
        cases k with
        | zero => simp at hk
        | succ k => simpa using i3 hok k x (by simpa using hk)
      · intro e he
        obtain ⟨k, x, h1, h2, h3, h4⟩ := i4 e he
        refine ⟨k + 1, x, by simpa using h1, h2, ?_, ?_⟩
        · intro k' hk'
          cases k' with
          | zero => exact ⟨o, by simp⟩
          | succ k' => simpa using h3 k' (by omega)
        · intro k' hk'
          cases k' with
          | zero => omega
          | succ k' => simpa using h4 k' (by omega)
    | raw x =>
      cases hx : mk x with
      | ok o =>
        simp only [wrapList, hx]
        refine ⟨by simp [i1], ?_, ?_, ?_⟩
        · intro k o' hk
          cases k with
          | zero => simp at hk
          | succ k => simpa using i2 k o' (by simpa using hk)
        · intro hok k y hk
          cases k with
          | zero =>
            have : x = y := by simpa using hk
            subst this
            exact ⟨o, hx, by simp⟩
          | succ k => simpa using i3 hok k y (by simpa using hk)
        · intro e he
          obtain ⟨k, y, h1, h2, h3, h4⟩ := i4 e he
          refine ⟨k + 1, y, by simpa using h1, h2, ?_, ?_⟩
          · intro k' hk'
            cases k' with
            | zero => exact ⟨o, by simp⟩
            | succ k' => simpa using h3 k' (by omega)
          · intro k' hk'
            cases k' with
            | zero => omega
            | succ k' => simpa using h4 k' (by omega)
      | error e =>
        simp only [wrapList, hx]
        refine ⟨trivial, fun k o h => h, by simp, ?_⟩
        intro e' he'
        cases he'
        exact ⟨0, x, by simp, hx, by simp, fun _ _ => trivial⟩

/-- C12: the aligned list has the same length, starts with the very same first image, and every
other image was registered against that first image. -/
theorem align_for_coadd_spec {ω : Type} (reg : ω → ω → Py ω) (imgs out : List ω)
    (h : alignForCoadd reg imgs = .ok out) :
    ∃ ref rest out', imgs = ref :: rest ∧ out = ref :: out' ∧ out'.length = rest.length ∧
      ∀ (k : ℕ) a, rest[k]? = some a → ∃ o, reg a ref = .ok o ∧ out'[k]? = some o := by
  match imgs with
  | [] => simp [alignForCoadd] at h
  | ref :: rest =>
    unfold alignForCoadd at h
    simp only at h
    have key : ∀ (l ys : List ω), l.mapM (fun a => reg a ref) = .ok ys →
        ys.length = l.length ∧ ∀ (k : ℕ) a, l[k]? = some a → ∃ o, reg a ref = .ok o ∧ ys[k]? = some o := by
      intro l
      induction l with
      | nil =>
        intro ys hy
        have : ys = [] := by simpa [pure, Except.pure] using hy.symm
        subst this; simp
      | cons a l ih =>
        intro ys hy
        rw [List.mapM_cons] at hy
        cases ha : reg a ref with
        | error e => rw [ha] at hy; simp [bind, Except.bind] at hy
        | ok o =>
          rw [ha] at hy
          cases hl : l.mapM (fun a => reg a ref) with
          | error e => rw [hl] at hy; simp [bind, Except.bind] at hy
          | ok zs =>
            rw [hl] at hy
            have : ys = o :: zs := by simpa [bind, Except.bind, pure, Except.pure] using hy.symm
            subst this
            obtain ⟨j1, j2⟩ := ih zs hl
            refine ⟨by simp [j1], ?_⟩
            intro k b hk
            cases k with
            | zero =>
              have : a = b := by simpa using hk
              subst this; exact ⟨o, ha, by simp⟩
            | succ k => simpa using j2 k b (by simpa using hk)
    cases hm : rest.mapM (fun a => reg a ref) with
    | error e => rw [hm] at h; simp [Except.map] at h
    | ok ys =>
      rw [hm] at h
      have : out = ref :: ys := by simpa [Except.map] using h.symm
      subst this
      obtain ⟨j1, j2⟩ := key rest ys hm
      exact ⟨ref, rest, ys, rfl, rfl, j1, j2⟩

/-- An empty list cannot be aligned. -/
theorem align_for_coadd_nil {ω : Type} (reg : ω → ω → Py ω) :
    alignForCoadd reg [] = .error .IndexError := rfl

/-! ## Worked instances (hypotheses of the theorems above are satisfiable) -/

/-- A 1×2 image with one masked pixel. -/
noncomputable def demoIm (v : ℂ) (m : Bool) : CoImg :=
  ⟨1, 2, fun i j => v + i + 2 * j, fun _ _ => 4, 2, 1, some ⟨1, 2, fun _ j => m && decide (j = 1)⟩⟩

example : AllShape [demoIm 1 true, demoIm 2 false, demoIm 5 false] 1 2 := by
  intro im him
  simp only [List.mem_cons, List.not_mem_nil, or_false] at him
  rcases him with rfl | rfl | rfl <;>
    exact ⟨rfl, rfl, by intro a ha; cases ha; exact ⟨rfl, rfl⟩⟩

example : specS [demoIm 1 true, demoIm 2 false, demoIm 5 false] 0 1 = 14 := by
  simp [specS, demoIm]; norm_num

example : specP [demoIm 1 true, demoIm 2 false, demoIm 5 false] 0 1 = 48 := by
  simp [specP, demoIm]; norm_num

/-- mixed shapes meeting C11's hypotheses -/
example : ∃ a ∈ [demoIm 1 true, { demoIm 1 true with h := 3, mask := none }],
    ∃ b ∈ [demoIm 1 true, { demoIm 1 true with h := 3, mask := none }],
      ¬ (a.h = b.h ∧ a.w = b.w) :=
  ⟨_, List.mem_cons_self, { demoIm 1 true with h := 3, mask := none }, by simp, by simp [demoIm]⟩

example : (wrapList (fun n : ℕ => if n = 7 then .error .ValueError else .ok (n * 10))
      [.raw 1, .obj 5, .raw 7, .raw 2]).1.length = 4 ∧
    (wrapList (fun n : ℕ => if n = 7 then .error .ValueError else .ok (n * 10))
      [.raw 1, .obj 5, .raw 7, .raw 2]).2 = .error .ValueError := by
  constructor <;> rfl

end PI
