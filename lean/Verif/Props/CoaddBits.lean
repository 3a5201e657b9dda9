import Verif.Model.CoaddBits
import Verif.Props.CoaddFloat
import Verif.Props.Bits
import Verif.Props.Coadd

/-!
# Property C200: what holds of a coadd to the last bit
-/

namespace PI

open Complex Finset

/-- What is asked of an addition: true of floating-point numbers (zeros of either sign are one number). -/
structure CoArith.Sums {F : Type} (A : CoArith F) : Prop where
  add_comm : ∀ x y, A.add x y = A.add y x
  add_zero : ∀ x, A.add x A.zero = x

/-- Doubling and halving commute with rounding as long as nothing overflows or underflows. -/
structure CoArith.Doubling {F : Type} (A : CoArith F) (dbl : F → F) : Prop where
  pix : A.toPixArith.Doubling dbl
  zero : dbl A.zero = A.zero
  conj : ∀ x, A.conj (dbl x) = dbl (A.conj x)
  div_left : ∀ x y, A.div (dbl x) y = dbl (A.div x y)
  div_right : ∀ x y, dbl (A.div x (dbl y)) = A.div x y
  ifftD : ∀ X, A.ifftD (X.map dbl) = (A.ifftD X).map dbl
  total : ∀ X, A.total (X.map dbl) = dbl (A.total X)

section
variable {F : Type} (A : CoArith F)

/-! ## Order and processes -/

/-- C200: one image for every worker gives what one process gives, to the last bit. -/
theorem bits_workers (S : A.Sums) (h w ps : ℕ) (imgs : List (PixCo F))
    (hc : ∀ d ∈ imgs, (coComp A d).shape = (h, w)) (hp : ∀ d ∈ imgs, (coWt A d).shape = (h, w)) :
    coMany A h w ps (imgs.map fun d => [d]) = coOne A h w ps imgs := by
  have key : ∀ f : PixCo F → Img F, (∀ d ∈ imgs, (f d).shape = (h, w)) → coPar A h w f (imgs.map fun d => [d]) = coSeq A h w f imgs := by
    intro f hf
    unfold coPar coSeq
    rw [List.map_map]
    congr 1
    refine List.map_congr_left fun d hd => ?_
    have e := hf d hd
    have e1 : (f d).h = h := congrArg Prod.fst e
    have e2 : (f d).w = w := congrArg Prod.snd e
    change (⟨h, w, fun k l => A.add ((f d).px k l) A.zero⟩ : Img F) = f d
    simp only [S.add_zero]
    rw [← e1, ← e2]
  unfold coMany coOne
  rw [key _ hc, key _ hp]

/-- C200: two images may be exchanged. -/
theorem bits_order (S : A.Sums) (h w ps : ℕ) (d e : PixCo F) : coOne A h w ps [d, e] = coOne A h w ps [e, d] := by
  have key : ∀ f : PixCo F → Img F, coSeq A h w f [d, e] = coSeq A h w f [e, d] := by
    intro f
    change (⟨h, w, fun k l => A.add ((f e).px k l) (A.add ((f d).px k l) A.zero)⟩ : Img F) =
      ⟨h, w, fun k l => A.add ((f d).px k l) (A.add ((f e).px k l) A.zero)⟩
    congr 1
    funext k l
    rw [S.add_zero, S.add_zero, S.add_comm]
  unfold coOne
  rw [key, key]

/-- C200: and for two images it does not matter whether two workers or one add them up, nor whose result comes first. -/
theorem bits_two (S : A.Sums) (h w ps : ℕ) (d e : PixCo F) :
    coMany A h w ps [[d], [e]] = coOne A h w ps [d, e] ∧ coMany A h w ps [[e], [d]] = coOne A h w ps [d, e] ∧
      coMany A h w ps [[d, e]] = coOne A h w ps [d, e] ∧ coMany A h w ps [[e, d]] = coOne A h w ps [d, e] := by
  have k1 : ∀ (f : PixCo F → Img F) (x y : PixCo F), coPar A h w f [[x], [y]] = coSeq A h w f [x, y] := by
    intro f x y
    change (⟨h, w, fun k l => A.add (A.add ((f y).px k l) A.zero) (A.add (A.add ((f x).px k l) A.zero) A.zero)⟩ : Img F) =
      ⟨h, w, fun k l => A.add ((f y).px k l) (A.add ((f x).px k l) A.zero)⟩
    simp only [S.add_zero]
  have k2 : ∀ (f : PixCo F → Img F) (x y : PixCo F), coPar A h w f [[x, y]] = coSeq A h w f [x, y] := by
    intro f x y
    change (⟨h, w, fun k l => A.add (A.add ((f y).px k l) (A.add ((f x).px k l) A.zero)) A.zero⟩ : Img F) =
      ⟨h, w, fun k l => A.add ((f y).px k l) (A.add ((f x).px k l) A.zero)⟩
    simp only [S.add_zero]
  have m1 : ∀ x y, coMany A h w ps [[x], [y]] = coOne A h w ps [x, y] := by
    intro x y
    unfold coMany coOne
    rw [k1, k1]
  have m2 : ∀ x y, coMany A h w ps [[x, y]] = coOne A h w ps [x, y] := by
    intro x y
    unfold coMany coOne
    rw [k2, k2]
  exact ⟨m1 d e, (m1 e d).trans (bits_order A S h w ps e d), m2 d e, (m2 e d).trans (bits_order A S h w ps e d)⟩

/-- C200: asked for as many chunks as there are images, `chunk_it` gives one image to each. -/
theorem chunk_singletons {α : Type} (seq : List α) (fuel : ℕ) (hs : seq ≠ []) (hl : seq.length ≤ 2 ^ 25) (hf : seq.length + 1 < fuel) :
    chunkIt floatArith (fun _ _ => none) seq seq.length fuel = .ok (seq.map fun d => [d]) := by
  have hL : 1 ≤ seq.length := List.length_pos_iff.2 hs
  have one : fl64 ((seq.length : ℚ) / (seq.length : ℕ)) = 1 := by
    rw [div_self (by exact_mod_cast (by omega : seq.length ≠ 0))]
    have := fl64_natCast 1 (by norm_num)
    simpa using this
  have ls : ∀ k ≤ 2 ^ 25 + 1, lastSeq 1 k = k := by
    intro k
    induction k with
    | zero => exact fun _ => rfl
    | succ k ih =>
      intro hk
      change fl64 (lastSeq 1 k + 1) = _
      rw [ih (by omega)]
      have := fl64_natCast (k + 1) (by omega)
      push_cast at this
      push_cast
      exact this
  obtain ⟨m, hm, hlt, hraw⟩ := chunk_raw_float_closed seq seq.length fuel hs hL hl hf
  rw [one] at hlt hraw
  have hm' : m = seq.length := by
    rcases hm with h | h
    · exact h
    · have := hlt seq.length (by omega)
      rw [ls _ (by omega)] at this
      exact absurd this (lt_irrefl _)
  have e : ((List.range m).map fun k => pySlice seq (pyInt (lastSeq 1 k)) (pyInt (lastSeq 1 (k + 1)))) = seq.map fun d => [d] := by
    rw [hm']
    refine List.ext_getElem (by simp) fun k h1 h2 => ?_
    have hk : k < seq.length := by simpa using h1
    have pi : ∀ n : ℕ, pyInt (n : ℚ) = n := by
      intro n
      unfold pyInt
      rw [if_pos (by positivity)]
      exact Int.floor_natCast n
    rw [List.getElem_map, List.getElem_map, List.getElem_range, ls _ (by omega), ls _ (by omega), pi, pi]
    have b1 : sliceBound seq.length ((k + 1 : ℕ) : ℤ) = k + 1 := by
      unfold sliceBound
      rw [if_neg (by omega)]
      simp only [Int.toNat_natCast]
      omega
    have b2 : sliceBound seq.length (k : ℤ) = k := by
      unfold sliceBound
      rw [if_neg (by omega)]
      simp only [Int.toNat_natCast]
      omega
    unfold pySlice
    rw [b1, b2]
    refine List.ext_getElem ?_ fun n q1 q2 => ?_
    · simp
      omega
    · simp at q2
      subst q2
      simp
  have srt : ∀ out : List (List α), (sortedDesc (fun _ _ => none) out).getD out = out := by
    intro out
    rcases out with _ | ⟨x, _ | ⟨y, ys⟩⟩
    · rfl
    · rfl
    · change ((sortedDesc (fun _ _ => none) (y :: ys)).bind (insertDesc (fun _ _ => none) x)).getD _ = _
      rcases hq : sortedDesc (fun _ _ => none) (y :: ys) with _ | l
      · rfl
      · have p := sortedDesc_perm _ _ _ hq
        rcases l with _ | ⟨z, zs⟩
        · exact absurd p.length_eq (by simp)
        · rfl
  unfold chunkIt
  rw [hraw, e]
  exact congrArg Except.ok (srt _)

/-! ## Units -/

variable {A} {dbl : F → F} (B : A.Doubling dbl)

include B in
theorem coLoop_dbl (h w : ℕ) (xs ys : List (Img F)) (hxy : List.Forall₂ (fun x y : Img F => ∀ k l, y.px k l = dbl (x.px k l)) xs ys) :
    coLoop A h w ys = (coLoop A h w xs).map dbl := by
  have gen : ∀ s t : Img F, t = s.map dbl → s.h = h → s.w = w →
      ys.foldl (fun S x => (⟨h, w, fun k l => A.add (x.px k l) (S.px k l)⟩ : Img F)) t =
        (xs.foldl (fun S x => (⟨h, w, fun k l => A.add (x.px k l) (S.px k l)⟩ : Img F)) s).map dbl := by
    induction hxy with
    | nil => exact fun s t e _ _ => e
    | cons e _ ih =>
      intro s t q h1 h2
      refine ih _ _ ?_ rfl rfl
      rw [q]
      change (⟨h, w, fun k l => A.add _ (dbl (s.px k l))⟩ : Img F) = ⟨h, w, fun k l => dbl (A.add _ (s.px k l))⟩
      congr 1
      funext k l
      rw [e, B.pix.add]
  refine gen _ _ ?_ rfl rfl
  unfold Img.map
  simp only [B.zero]

include B in
theorem coSeq_dbl (h w : ℕ) (f f' : PixCo F → Img F) (t : PixCo F → PixCo F)
    (ht : ∀ d k l, (f' (t d)).px k l = dbl ((f d).px k l)) (imgs : List (PixCo F)) :
    coSeq A h w f' (imgs.map t) = (coSeq A h w f imgs).map dbl := by
  unfold coSeq
  refine coLoop_dbl B h w _ _ ?_
  induction imgs with
  | nil => exact .nil
  | cons d ds ih => exact .cons (ht d) ih

include B in
theorem coPar_dbl (h w : ℕ) (f f' : PixCo F → Img F) (t : PixCo F → PixCo F)
    (ht : ∀ d k l, (f' (t d)).px k l = dbl ((f d).px k l)) (chunks : List (List (PixCo F))) :
    coPar A h w f' (chunks.map (List.map t)) = (coPar A h w f chunks).map dbl := by
  unfold coPar
  refine coLoop_dbl B h w _ _ ?_
  induction chunks with
  | nil => exact .nil
  | cons c cs ih => exact .cons (fun k l => by rw [coSeq_dbl B h w f f' t ht]; rfl) ih

include B in
/-- Twice the S and four times the P give the same images. -/
theorem coOut_dbl (ps : ℕ) (S P : Img F) : coOut A ps (S.map dbl) ((P.map dbl).map dbl) = coOut A ps S P := by
  have e1 : ((P.map dbl).map dbl).map A.sqrt = (P.map A.sqrt).map dbl := by
    unfold Img.map
    simp only [B.pix.sqrt]
  have e2 : coRaw A ps ((P.map dbl).map dbl) = (coRaw A ps P).map dbl := by
    unfold coRaw
    rw [e1, B.pix.shift, B.ifftD]
  unfold coOut
  rw [e2, B.total]
  congr 1
  · congr 1
    unfold Img.zip Img.map
    congr 1
    funext k l
    simp only []
    rw [B.pix.sqrt, B.pix.div]
  · unfold Img.map
    congr 1
    funext k l
    exact B.pix.div _ _

include B in
/-- If a change of the images doubles what each of them adds to S and multiplies what it adds to P by four, it changes no bit of the
results. -/
theorem coadd_dbl (h w ps : ℕ) (t : PixCo F → PixCo F) (hS : ∀ d k l, (coComp A (t d)).px k l = dbl ((coComp A d).px k l))
    (hP : ∀ d k l, (coWt A (t d)).px k l = dbl (dbl ((coWt A d).px k l))) :
    (∀ imgs, coOne A h w ps (imgs.map t) = coOne A h w ps imgs) ∧
      ∀ chunks, coMany A h w ps (chunks.map (List.map t)) = coMany A h w ps chunks := by
  constructor
  · intro imgs
    unfold coOne
    rw [coSeq_dbl B h w _ _ t hS imgs, ← coOut_dbl B ps (coSeq A h w (coComp A) imgs) (coSeq A h w (coWt A) imgs)]
    congr 1
    have a := coSeq_dbl B h w (fun d => (coWt A d).map dbl) (coWt A) t hP imgs
    have b := coSeq_dbl B h w (coWt A) (fun d => (coWt A d).map dbl) id (fun _ _ _ => rfl) imgs
    rw [List.map_id] at b
    rw [a, b]
  · intro chunks
    unfold coMany
    rw [coPar_dbl B h w _ _ t hS chunks, ← coOut_dbl B ps (coPar A h w (coComp A) chunks) (coPar A h w (coWt A) chunks)]
    congr 1
    have a := coPar_dbl B h w (fun d => (coWt A d).map dbl) (coWt A) t hP chunks
    have b := coPar_dbl B h w (coWt A) (fun d => (coWt A d).map dbl) id (fun _ _ _ => rfl) chunks
    rw [List.map_id_fun, List.map_id] at b
    rw [a, b]

/-- The image with twice the zero point. -/
def PixCo.zpTwice (dbl : F → F) (d : PixCo F) : PixCo F := { d with zp := dbl d.zp }

/-- The image with twice the PSF. -/
def PixCo.psfTwice (dbl : F → F) (d : PixCo F) : PixCo F := { d with psf := d.psf.map dbl }

/-- The image in units half as large. -/
def PixCo.inUnits (dbl : F → F) (d : PixCo F) : PixCo F := { d with interped := d.interped.map dbl, var := dbl d.var }

include B in
/-- C200: only the ratios of the zero points matter, to the last bit: doubling all of them changes nothing. -/
theorem bits_coadd_zp (h w ps : ℕ) :
    (∀ imgs, coOne A h w ps (imgs.map (PixCo.zpTwice dbl)) = coOne A h w ps imgs) ∧
      ∀ chunks, coMany A h w ps (chunks.map (List.map (PixCo.zpTwice dbl))) = coMany A h w ps chunks := by
  refine coadd_dbl B h w ps _ (fun d k l => ?_) fun d k l => ?_
  · change A.mul (A.div (dbl d.zp) (A.sq d.var)) _ = dbl (A.mul (A.div d.zp (A.sq d.var)) _)
    rw [B.div_left, B.pix.mul_left]
    rfl
  · change A.mul (A.sq (A.div (dbl d.zp) d.var)) _ = dbl (dbl (A.mul (A.sq (A.div d.zp d.var)) _))
    rw [B.div_left, B.pix.sq, B.pix.mul_left, B.pix.mul_left]
    rfl

include B in
/-- C200: nor does the normalisation of the PSFs: doubling all of them, at the same centres, changes nothing. -/
theorem bits_coadd_psf (h w ps : ℕ) :
    (∀ imgs, coOne A h w ps (imgs.map (PixCo.psfTwice dbl)) = coOne A h w ps imgs) ∧
      ∀ chunks, coMany A h w ps (chunks.map (List.map (PixCo.psfTwice dbl))) = coMany A h w ps chunks := by
  have hp : ∀ d : PixCo F, coPsfHat A (d.psfTwice dbl) = (coPsfHat A d).map dbl := fun d => B.pix.fft _ _ _
  refine coadd_dbl B h w ps _ (fun d k l => ?_) fun d k l => ?_
  · unfold coComp
    rw [hp]
    have e : (A.fft (d.psfTwice dbl).interped.h (d.psfTwice dbl).interped.w (d.psfTwice dbl).interped).zip (fun m p => A.mul m (A.conj p))
        ((coPsfHat A d).map dbl) =
        ((A.fft d.interped.h d.interped.w d.interped).zip (fun m p => A.mul m (A.conj p)) (coPsfHat A d)).map dbl := by
      unfold Img.zip Img.map
      simp only [B.conj, B.pix.mul_right]
      rfl
    rw [e, B.pix.shift]
    exact B.pix.mul_right _ _
  · unfold coWt
    rw [hp]
    change A.mul _ (A.mul (dbl _) (A.conj (dbl _))) = _
    rw [B.conj, B.pix.mul_left, B.pix.mul_right, B.pix.mul_right, B.pix.mul_right]
    rfl

include B in
/-- C200: nor do the units of the pixels and the noise. -/
theorem bits_coadd_units (h w ps : ℕ) :
    (∀ imgs, coOne A h w ps (imgs.map (PixCo.inUnits dbl)) = coOne A h w ps imgs) ∧
      ∀ chunks, coMany A h w ps (chunks.map (List.map (PixCo.inUnits dbl))) = coMany A h w ps chunks := by
  have hS : ∀ (d : PixCo F) k l, (coComp A d).px k l = dbl ((coComp A (d.inUnits dbl)).px k l) := by
    intro d k l
    have e : (A.fft (d.inUnits dbl).interped.h (d.inUnits dbl).interped.w (d.inUnits dbl).interped).zip (fun m p => A.mul m (A.conj p))
        (coPsfHat A (d.inUnits dbl)) =
        ((A.fft d.interped.h d.interped.w d.interped).zip (fun m p => A.mul m (A.conj p)) (coPsfHat A d)).map dbl := by
      change (A.fft d.interped.h d.interped.w (d.interped.map dbl)).zip (fun m p => A.mul m (A.conj p)) (coPsfHat A d) = _
      rw [B.pix.fft]
      unfold Img.zip Img.map
      simp only [B.pix.mul_left]
    unfold coComp
    rw [e, B.pix.shift]
    change A.mul (A.div d.zp (A.sq d.var)) _ = dbl (A.mul (A.div d.zp (A.sq (dbl d.var))) (dbl _))
    rw [B.pix.mul_right, B.pix.sq, ← B.pix.mul_left, ← B.pix.mul_left, B.div_right, B.div_right]
    rfl
  have hP : ∀ (d : PixCo F) k l, (coWt A d).px k l = dbl (dbl ((coWt A (d.inUnits dbl)).px k l)) := by
    intro d k l
    change A.mul (A.sq (A.div d.zp d.var)) _ = dbl (dbl (A.mul (A.sq (A.div d.zp (dbl d.var))) _))
    rw [← B.pix.mul_left, ← B.pix.mul_left, ← B.pix.sq, B.div_right]
    rfl
  constructor
  · intro imgs
    unfold coOne
    have a := coSeq_dbl B h w (fun d => coComp A (d.inUnits dbl)) (coComp A) id hS imgs
    have b := coSeq_dbl B h w (fun d => (coWt A (d.inUnits dbl)).map dbl) (coWt A) id hP imgs
    have c := coSeq_dbl B h w (fun d => coWt A (d.inUnits dbl)) (fun d => (coWt A (d.inUnits dbl)).map dbl) id (fun _ _ _ => rfl) imgs
    rw [List.map_id] at a b c
    rw [a, b, c, coOut_dbl B]
    unfold coSeq
    simp only [List.map_map]
    rfl
  · intro chunks
    unfold coMany
    have a := coPar_dbl B h w (fun d => coComp A (d.inUnits dbl)) (coComp A) id hS chunks
    have b := coPar_dbl B h w (fun d => (coWt A (d.inUnits dbl)).map dbl) (coWt A) id hP chunks
    have c := coPar_dbl B h w (fun d => coWt A (d.inUnits dbl)) (fun d => (coWt A (d.inUnits dbl)).map dbl) id (fun _ _ _ => rfl) chunks
    rw [List.map_id_fun, List.map_id] at a b c
    rw [a, b, c, coOut_dbl B]
    unfold coPar coSeq
    simp only [List.map_map]
    congr 2
    · exact List.map_congr_left fun c _ => by
        simp only [Function.comp_apply, List.map_map]
        rfl
    · exact List.map_congr_left fun c _ => by
        simp only [Function.comp_apply, List.map_map]
        rfl

end

/-! ## The exact coadd -/

/-- What `coadd` reads of an image, as exact numbers. -/
noncomputable def SinglePsf.toPixCo (d : SinglePsf) : PixCo ℂ := ⟨d.interped, d.psf, ((d.com.1 : ℂ), (d.com.2 : ℂ)), d.zp, d.var⟩

theorem fft_padSelf (x : Img ℂ) : fftOrtho (padTo x.h x.w x) = fftOrtho x := by
  unfold fftOrtho Img.map
  congr 1
  funext k l
  congr 1
  change ∑ i ∈ range x.h, ∑ j ∈ range x.w, (if i < x.h ∧ j < x.w then x.px i j else 0) * _ =
    ∑ i ∈ range x.h, ∑ j ∈ range x.w, x.px i j * _
  refine Finset.sum_congr rfl fun i hi => Finset.sum_congr rfl fun j hj => ?_
  rw [if_pos ⟨mem_range.1 hi, mem_range.1 hj⟩]
  rfl

theorem coComp_exact (d : SinglePsf) : coComp exactCo d.toPixCo = d.sHatComp := by
  unfold coComp SinglePsf.sHatComp coPsfHat
  change (fourierShift ((fftOrtho (padTo d.interped.h d.interped.w d.interped)).zip _ _) ((d.com.1 : ℂ).re, (d.com.2 : ℂ).re)).map _ = _
  rw [fft_padSelf]
  have e : ((d.zp / d.var ^ 2 : ℝ) : ℂ) = (d.zp : ℂ) / (d.var : ℂ) ^ 2 := by push_cast; rfl
  rw [e]
  rfl

theorem coWt_exact (d : SinglePsf) : coWt exactCo d.toPixCo = d.toCoImg.weighted := by
  unfold coWt CoImg.weighted
  have e : (((d.toCoImg.zp / d.toCoImg.var) ^ 2 : ℝ) : ℂ) = ((d.zp : ℂ) / (d.var : ℂ)) ^ 2 := by push_cast; rfl
  rw [e]
  rfl

theorem coLoop_exact (h w : ℕ) (xs : List (Img ℂ)) :
    coLoop exactCo h w xs = ⟨h, w, fun k l => (xs.map fun x => x.px k l).sum⟩ := by
  have gen : ∀ s : ℕ → ℕ → ℂ, xs.foldl (fun S x => (⟨h, w, fun k l => exactCo.add (x.px k l) (S.px k l)⟩ : Img ℂ)) ⟨h, w, s⟩ =
      ⟨h, w, fun k l => s k l + (xs.map fun x => x.px k l).sum⟩ := by
    induction xs with
    | nil => intro s; simp
    | cons x xs ih =>
      intro s
      rw [List.foldl_cons, ih]
      congr 1
      funext k l
      change x.px k l + s k l + _ = _
      rw [List.map_cons, List.sum_cons]
      ring
  unfold coLoop
  have := gen fun _ _ => 0
  simp only [zero_add] at this
  exact this

/-- C200: in exact arithmetic these operations give the R and the P_r that `coadd` returns, with any number of processes and however the
images are divided among them. -/
theorem bits_coadd_exact (lt : List CoImg → List CoImg → Option Bool) (h w : ℕ) (ds : List SinglePsf) (ps : ℕ) (n : ℤ)
    (hne : ds ≠ []) (hall : AllShape (ds.map SinglePsf.toCoImg) h w) (hn : n ≤ ds.length) (hn' : n ≤ 2 ^ 25)
    (hb : n * ds.length ≤ 2 ^ 50) (chunks : List (List SinglePsf)) (hch : chunks.flatten.Perm ds) :
    ∃ out, coaddCore lt (ds.map SinglePsf.toCoImg) ps n = .ok out ∧
      (out.R, out.Pr) = coOne exactCo h w ps (ds.map SinglePsf.toPixCo) ∧
      (out.R, out.Pr) = coMany exactCo h w ps (chunks.map (List.map SinglePsf.toPixCo)) := by
  obtain ⟨out, e, q, _⟩ := coadd_spec lt h w (ds.map SinglePsf.toCoImg) ps n (by simpa using hne) hall (by simpa using hn) hn'
    (by simpa using hb)
  have one : coOne exactCo h w ps (ds.map SinglePsf.toPixCo) = specOut h w (ds.map SinglePsf.toCoImg) ps := by
    have s1 : coSeq exactCo h w (coComp exactCo) (ds.map SinglePsf.toPixCo) = ⟨h, w, specS (ds.map SinglePsf.toCoImg)⟩ := by
      unfold coSeq
      rw [coLoop_exact]
      congr 1
      funext k l
      unfold specS
      simp only [List.map_map]
      congr 1
      refine List.map_congr_left fun d _ => ?_
      simp only [Function.comp_apply, coComp_exact]
      rfl
    have s2 : coSeq exactCo h w (coWt exactCo) (ds.map SinglePsf.toPixCo) = ⟨h, w, specP (ds.map SinglePsf.toCoImg)⟩ := by
      unfold coSeq
      rw [coLoop_exact]
      congr 1
      funext k l
      unfold specP
      simp only [List.map_map]
      congr 1
      refine List.map_congr_left fun d _ => ?_
      simp only [Function.comp_apply, coWt_exact]
      rfl
    unfold coOne
    rw [s1, s2]
    unfold coOut specOut coaddR coaddPsf
    rfl
  have many : coMany exactCo h w ps (chunks.map (List.map SinglePsf.toPixCo)) = coOne exactCo h w ps (ds.map SinglePsf.toPixCo) := by
    have key : ∀ f : PixCo ℂ → Img ℂ, coPar exactCo h w f (chunks.map (List.map SinglePsf.toPixCo)) =
        coSeq exactCo h w f (ds.map SinglePsf.toPixCo) := by
      intro f
      unfold coPar coSeq
      rw [coLoop_exact, coLoop_exact]
      congr 1
      funext k l
      simp only [List.map_map]
      have p := ((hch.map fun d => (f d.toPixCo).px k l).sum_eq)
      have r : (ds.map ((fun x : Img ℂ => x.px k l) ∘ f ∘ SinglePsf.toPixCo)) = ds.map fun d => (f d.toPixCo).px k l := rfl
      rw [r, ← p, List.map_flatten, List.sum_flatten, List.map_map]
      congr 1
      refine List.map_congr_left fun c _ => ?_
      simp only [Function.comp_apply, List.map_map]
      rw [coLoop_exact]
      simp only [List.map_map]
      rfl
    unfold coMany coOne
    rw [key, key]
  exact ⟨out, e, by rw [q, one], by rw [q, many, one]⟩

/-! ## Rounding after every operation -/

section
variable {rd : ℝ → ℝ} (R : Rounds rd)

/-- C200: whatever the rounding, the laws of the sums hold. -/
theorem roundCo_sums : (roundCo R).Sums where
  add_comm := fun x y => (roundPix_sound R).add_comm x y
  add_zero := fun x => by
    change Machine.of R (x.1 + rdC rd 0) = x
    rw [rdC_zero R, add_zero, Machine.of_val]

theorem ifftDefault_scaled (c : ℂ) (X : Img ℂ) (i j : ℕ) : (ifftDefault (X.map fun z => c * z)).px i j = c * (ifftDefault X).px i j := by
  change (∑ k ∈ range X.h, ∑ l ∈ range X.w, (c * X.px k l) * _) / _ = c * ((∑ k ∈ range X.h, ∑ l ∈ range X.w, X.px k l * _) / _)
  rw [mul_div_assoc', Finset.mul_sum]
  congr 1
  refine Finset.sum_congr rfl fun k _ => ?_
  rw [Finset.mul_sum]
  exact Finset.sum_congr rfl fun l _ => mul_assoc _ _ _

/-- C200: and so do those of doubling. -/
theorem roundCo_doubling : (roundCo R).Doubling (Machine.double R) where
  pix := roundPix_doubling R
  zero := Subtype.ext (by
    change 2 * rdC rd 0 = rdC rd 0
    rw [rdC_zero R, mul_zero])
  conj := fun x => Subtype.ext (by
    change rdC rd ((starRingEnd ℂ) (2 * x.1)) = 2 * rdC rd ((starRingEnd ℂ) x.1)
    rw [← rdC_double R, map_mul, conj_ofNat])
  div_left := fun x y => Subtype.ext (by
    change rdC rd (2 * x.1 / y.1) = 2 * rdC rd (x.1 / y.1)
    rw [mul_div_assoc, rdC_double R])
  div_right := fun x y => Subtype.ext (by
    change 2 * rdC rd (x.1 / (2 * y.1)) = rdC rd (x.1 / y.1)
    rw [← rdC_double R]
    congr 1
    rw [mul_div_assoc', mul_div_mul_left _ _ (by norm_num : (2 : ℂ) ≠ 0)])
  ifftD := fun X => by
    change (⟨X.h, X.w, _⟩ : Img (Machine rd)) = ⟨X.h, X.w, _⟩
    congr 1
    funext i j
    refine Subtype.ext ?_
    change rdC rd ((ifftDefault ((X.map Subtype.val).map fun z => 2 * z)).px i j) = 2 * rdC rd ((ifftDefault (X.map Subtype.val)).px i j)
    rw [ifftDefault_scaled, rdC_double R]
  total := fun X => Subtype.ext (by
    change rdC rd (∑ i ∈ range X.h, ∑ j ∈ range X.w, 2 * (X.px i j).1) = 2 * rdC rd (∑ i ∈ range X.h, ∑ j ∈ range X.w, (X.px i j).1)
    rw [← rdC_double R, Finset.mul_sum]
    congr 1
    exact Finset.sum_congr rfl fun i _ => (Finset.mul_sum _ _ _).symm)

end

/-! ## Double precision -/

theorem roundEvenR_eq : roundEvenR = nearestEven := by
  funext t
  unfold roundEvenR nearestEven
  simp only [Int.even_iff]

theorem nearestEven_neg (t : ℝ) : nearestEven (-t) = -nearestEven t := by
  by_cases hi : t = ⌊t⌋
  · rw [hi, ← Int.cast_neg, nearestEven_whole.whole, nearestEven_whole.whole]
  · have f : ⌊-t⌋ = -⌊t⌋ - 1 := by
      rw [Int.floor_eq_iff]
      push_cast
      have a := Int.floor_le t
      have b := Int.lt_floor_add_one t
      have c : (⌊t⌋ : ℝ) < t := lt_of_le_of_ne a (Ne.symm hi)
      constructor <;> linarith
    unfold nearestEven
    rw [f]
    push_cast
    rcases lt_trichotomy (t - ⌊t⌋) (1 / 2) with h | h | h
    · rw [if_pos h, if_neg (by linarith), if_pos (by linarith)]
      ring
    · have a1 : ¬ (-t - (-(⌊t⌋ : ℝ) - 1) < 1 / 2) := by linarith
      have a2 : ¬ (1 / 2 < -t - (-(⌊t⌋ : ℝ) - 1)) := by linarith
      have a3 : ¬ (t - (⌊t⌋ : ℝ) < 1 / 2) := by linarith
      have a4 : ¬ (1 / 2 < t - (⌊t⌋ : ℝ)) := by linarith
      rw [if_neg a1, if_neg a2, if_neg a3, if_neg a4]
      by_cases p : Even ⌊t⌋
      · have p' : ¬ Even (-⌊t⌋ - 1) := by
          rw [Int.not_even_iff_odd]
          exact p.neg.sub_odd odd_one
        rw [if_pos p, if_neg p']
        ring
      · have p' : Even (-⌊t⌋ - 1) := by
          rw [Int.not_even_iff_odd] at p
          exact p.neg.sub_odd odd_one
        rw [if_neg p, if_pos p']
        ring
    · rw [if_pos (by linarith), if_neg (by linarith), if_pos h]
      ring

/-- C200: the rounding of C164 (binary64) is one of these. -/
theorem rnd64_digits : rnd64 = digits nearestEven 52 := by
  have pos : ∀ x : ℝ, 0 < x → rnd64 x = digitsPos nearestEven 52 x := by
    intro x hx
    unfold rnd64 digitsPos
    rw [if_neg hx.ne', roundEvenR_eq, abs_of_pos hx]
    congr 3
    rw [div_eq_mul_inv, ← zpow_neg]
    congr 2
    push_cast
    ring
  funext x
  rcases lt_trichotomy x 0 with h | h | h
  · have : rnd64 x = -rnd64 (-x) := by
      unfold rnd64
      rw [if_neg h.ne, if_neg (by linarith), abs_neg, roundEvenR_eq, neg_mul, nearestEven_neg]
      push_cast
      ring
    rw [this, pos _ (by linarith)]
    unfold digits
    rw [if_pos h]
  · subst h
    have : rnd64 0 = 0 := if_pos rfl
    rw [this, (digits_rounds nearestEven_whole 52).zero]
  · rw [pos x h]
    unfold digits
    rw [if_neg (by linarith)]

theorem rnd64_rounds : Rounds rnd64 := by
  rw [rnd64_digits]
  exact double_rounds

/-- In double precision: the two images of a pair, added up by one process or two, in either order, and in other units. -/
example (ps : ℕ) (d e : PixCo (Machine rnd64)) :
    coMany (roundCo rnd64_rounds) 2048 2048 ps [[e], [d]] = coOne (roundCo rnd64_rounds) 2048 2048 ps [d, e] ∧
      coOne (roundCo rnd64_rounds) 2048 2048 ps ([d, e].map (PixCo.inUnits (Machine.double rnd64_rounds))) =
        coOne (roundCo rnd64_rounds) 2048 2048 ps [d, e] :=
  ⟨(bits_two _ (roundCo_sums _) 2048 2048 ps d e).2.1, (bits_coadd_units (roundCo_doubling _) 2048 2048 ps).1 _⟩

/-- C200: with rounding, images of one shape need no more: one worker for every image gives the digits that one process gives. -/
theorem bits_workers_round {rd : ℝ → ℝ} (R : Rounds rd) (h w ps : ℕ) (imgs : List (PixCo (Machine rd)))
    (hs : ∀ d ∈ imgs, d.interped.shape = (h, w)) : coMany (roundCo R) h w ps (imgs.map fun d => [d]) = coOne (roundCo R) h w ps imgs :=
  bits_workers (roundCo R) (roundCo_sums R) h w ps imgs (fun d hd => hs d hd) fun d hd => hs d hd

/-- Three images of two pixels and their three workers, in double precision. -/
example : let d : ℝ → PixCo (Machine rnd64) := fun x => ⟨⟨1, 2, fun _ j => .of rnd64_rounds ((x + j : ℝ) : ℂ)⟩,
      ⟨1, 1, fun _ _ => .of rnd64_rounds 1⟩, (.of rnd64_rounds 0, .of rnd64_rounds 0), .of rnd64_rounds 1, .of rnd64_rounds 3⟩
    coMany (roundCo rnd64_rounds) 1 2 1 [[d 1], [d 10], [d (1 / 3)]] = coOne (roundCo rnd64_rounds) 1 2 1 [d 1, d 10, d (1 / 3)] := by
  intro d
  exact bits_workers_round rnd64_rounds 1 2 1 [d 1, d 10, d (1 / 3)] (by simp [d, Img.shape])

/-- Two images of two pixels, in exact arithmetic. -/
example : let d : ℝ → SinglePsf := fun x => ⟨⟨1, 2, fun _ j => ((x + j : ℝ) : ℂ)⟩, ⟨1, 1, fun _ _ => 1⟩, (0, 0), 1, 3, none⟩
    ∃ out, coaddCore (fun _ _ => none) ([d 1, d 10].map SinglePsf.toCoImg) 1 2 = .ok out ∧
      (out.R, out.Pr) = coOne exactCo 1 2 1 ([d 1, d 10].map SinglePsf.toPixCo) := by
  intro d
  obtain ⟨out, e, q, _⟩ := bits_coadd_exact (fun _ _ => none) 1 2 [d 1, d 10] 1 2 (by simp)
    (by
      intro im him
      simp only [List.map_cons, List.map_nil, List.mem_cons, List.not_mem_nil, or_false] at him
      rcases him with rfl | rfl <;> exact ⟨rfl, rfl, fun a q => by cases q⟩) (by simp) (by norm_num) (by simp) [[d 10], [d 1]] (by
        simpa using List.Perm.swap (d 1) (d 10) [])
  exact ⟨out, e, q⟩

/-- An image of one pixel. -/
noncomputable def onePix (x : ℝ) : Img (Machine rnd64) := ⟨1, 1, fun _ _ => .of rnd64_rounds (x : ℂ)⟩

/-- C200: three terms may not be exchanged: in double precision `2 ** 53` swallows a 1 that is added to it, but not two that were added up
before. -/
theorem bits_order_three :
    ((coLoop (roundCo rnd64_rounds) 1 1 [onePix (2 ^ 53), onePix 1, onePix 1]).px 0 0).1 = (2 ^ 53 : ℝ) ∧
      ((coLoop (roundCo rnd64_rounds) 1 1 [onePix 1, onePix 1, onePix (2 ^ 53)]).px 0 0).1 = (2 ^ 53 + 2 : ℝ) := by
  have ex : ∀ m : ℤ, |m| ≤ 2 ^ 53 → rnd64 m = m := by
    intro m hm
    have := rnd64_exactOn 0 m hm
    simpa using this
  have z : rnd64 0 = 0 := rnd64_rounds.zero
  have o : rnd64 1 = 1 := rnd64_rounds.one
  have two : rnd64 (1 + 1) = 2 := by
    have := ex 2 (by norm_num)
    push_cast at this
    rw [← this]
    norm_num
  have big : rnd64 (2 ^ 53) = 2 ^ 53 := by
    rw [show (2 : ℝ) ^ 53 = ((9007199254740992 : ℤ) : ℝ) by norm_num]
    exact ex _ (by norm_num)
  have more : rnd64 (2 ^ 53 + 2) = 2 ^ 53 + 2 := by
    rw [show (2 : ℝ) ^ 53 + 2 = 2 * ((4503599627370497 : ℤ) : ℝ) by norm_num, rnd64_rounds.double]
    rw [ex _ (by norm_num)]
  constructor
  · change rdC rnd64 (rdC rnd64 ((1 : ℝ) : ℂ) + rdC rnd64 (rdC rnd64 ((1 : ℝ) : ℂ) + rdC rnd64 (rdC rnd64 ((2 ^ 53 : ℝ) : ℂ) + rdC rnd64 0))) = _
    unfold rdC
    apply Complex.ext
    · simp only [add_re, ofReal_re, zero_re, o, z, big, add_zero, rnd64_tie]
    · simp only [add_im, ofReal_im, zero_im, z, add_zero]
  · change rdC rnd64 (rdC rnd64 ((2 ^ 53 : ℝ) : ℂ) + rdC rnd64 (rdC rnd64 ((1 : ℝ) : ℂ) + rdC rnd64 (rdC rnd64 ((1 : ℝ) : ℂ) + rdC rnd64 0))) = _
    unfold rdC
    apply Complex.ext
    · simp only [add_re, ofReal_re, zero_re, o, z, big, add_zero, two, more]
    · simp only [add_im, ofReal_im, zero_im, z, add_zero]

end PI
