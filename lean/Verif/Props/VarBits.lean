import Verif.Model.VarBits
import Verif.Props.CoaddBits

/-!
# Property C202: what holds of a coadd of images with a variable PSF to the last bit
-/

namespace PI

open Complex Finset

/-- The laws of doubling, with those of `scipy.ndimage.convolve`. -/
structure VaArith.Doubling {F : Type} (A : VaArith F) (dbl : F → F) : Prop where
  co : A.toCoArith.Doubling dbl
  conv_left : ∀ a p k l, (A.conv (a.map dbl) p).px k l = dbl ((A.conv a p).px k l)
  conv_right : ∀ a p k l, (A.conv a (p.map dbl)).px k l = dbl ((A.conv a p).px k l)

section
variable {F : Type} {A : VaArith F}

/-- C202: as many processes as images give what one process gives. -/
theorem bits_var_workers (S : A.toCoArith.Sums) (h w ps : ℕ) (imgs : List (PixVarCo F)) (hs : ∀ d ∈ imgs, d.interped.shape = (h, w)) :
    vaMany A h w ps (imgs.map fun d => [d]) = vaOne A h w ps imgs := by
  have shp : ∀ (h w : ℕ) (xs : List (Img F)), (coLoop A.toCoArith h w xs).h = h ∧ (coLoop A.toCoArith h w xs).w = w := by
    intro h w xs
    unfold coLoop
    have : ∀ s : Img F, s.h = h ∧ s.w = w →
        (xs.foldl (fun S x => (⟨h, w, fun k l => A.add (x.px k l) (S.px k l)⟩ : Img F)) s).h = h ∧
        (xs.foldl (fun S x => (⟨h, w, fun k l => A.add (x.px k l) (S.px k l)⟩ : Img F)) s).w = w := by
      induction xs with
      | nil => exact fun s q => q
      | cons x xs ih => exact fun s _ => ih _ ⟨rfl, rfl⟩
    exact this _ ⟨rfl, rfl⟩
  have key : ∀ f : PixVarCo F → Img F, (∀ d ∈ imgs, (f d).h = h ∧ (f d).w = w) →
      coLoop A.toCoArith h w ((imgs.map fun d => [d]).map fun c => coLoop A.toCoArith h w (c.map f)) = coLoop A.toCoArith h w (imgs.map f) := by
    intro f hf
    rw [List.map_map]
    congr 1
    refine List.map_congr_left fun d hd => ?_
    change (⟨h, w, fun k l => A.add ((f d).px k l) A.zero⟩ : Img F) = f d
    simp only [S.add_zero]
    rw [← (hf d hd).1, ← (hf d hd).2]
  have e : ∀ d ∈ imgs, d.interped.h = h ∧ d.interped.w = w := fun d hd => ⟨congrArg Prod.fst (hs d hd), congrArg Prod.snd (hs d hd)⟩
  unfold vaMany vaOne
  rw [key _ fun d hd => ?_, key _ fun d hd => ?_]
  · have := shp d.interped.h d.interped.w (d.terms.map fun t => (vaPsfHat A d t).map fun p => A.mul p (A.conj p))
    exact ⟨this.1.trans (e d hd).1, this.2.trans (e d hd).2⟩
  · have := shp d.interped.h d.interped.w (d.terms.map (vaConv A d))
    exact ⟨this.1.trans (e d hd).1, this.2.trans (e d hd).2⟩

/-- C202: two images may be exchanged. -/
theorem bits_var_order (S : A.toCoArith.Sums) (h w ps : ℕ) (d e : PixVarCo F) : vaOne A h w ps [d, e] = vaOne A h w ps [e, d] := by
  have key : ∀ x y : Img F, coLoop A.toCoArith h w [x, y] = coLoop A.toCoArith h w [y, x] := by
    intro x y
    change (⟨h, w, fun k l => A.add (y.px k l) (A.add (x.px k l) A.zero)⟩ : Img F) =
      ⟨h, w, fun k l => A.add (x.px k l) (A.add (y.px k l) A.zero)⟩
    congr 1
    funext k l
    rw [S.add_zero, S.add_zero, S.add_comm]
  unfold vaOne
  simp only [List.map_cons, List.map_nil]
  rw [key, key (vaWt A d)]

variable {dbl : F → F} (B : A.Doubling dbl)

include B in
theorem coLoop_map_dbl {ι : Type} (h w : ℕ) (f g : ι → Img F) (hfg : ∀ x k l, (g x).px k l = dbl ((f x).px k l)) (xs : List ι) :
    coLoop A.toCoArith h w (xs.map g) = (coLoop A.toCoArith h w (xs.map f)).map dbl := by
  refine coLoop_dbl B.co h w _ _ ?_
  induction xs with
  | nil => exact .nil
  | cons d ds ih => exact .cons (hfg d) ih

include B in
/-- The sums when each term becomes twice as large. -/
theorem vaSums_dbl (h w : ℕ) (f g : PixVarCo F → Img F) (hfg : ∀ d k l, (g d).px k l = dbl ((f d).px k l)) :
    (∀ imgs : List (PixVarCo F), coLoop A.toCoArith h w (imgs.map g) = (coLoop A.toCoArith h w (imgs.map f)).map dbl) ∧
      ∀ chunks : List (List (PixVarCo F)), coLoop A.toCoArith h w (chunks.map fun c => coLoop A.toCoArith h w (c.map g)) =
        (coLoop A.toCoArith h w (chunks.map fun c => coLoop A.toCoArith h w (c.map f))).map dbl :=
  ⟨coLoop_map_dbl B h w f g hfg, coLoop_map_dbl B h w _ _ fun c k l => by
    rw [coLoop_map_dbl B h w f g hfg]
    rfl⟩

/-- The image with twice the zero point. -/
def PixVarCo.zpTwice (dbl : F → F) (d : PixVarCo F) : PixVarCo F := { d with zp := dbl d.zp }

/-- The image in units half as large. -/
def PixVarCo.inUnits (dbl : F → F) (d : PixVarCo F) : PixVarCo F := { d with interped := d.interped.map dbl, var := dbl d.var }

/-- The image with twice the coefficient fields. -/
def PixVarCo.fieldTwice (dbl : F → F) (d : PixVarCo F) : PixVarCo F := { d with terms := d.terms.map fun t => ⟨t.field.map dbl, t.psf⟩ }

/-- The image with twice the PSFs of the basis. -/
def PixVarCo.psfTwice (dbl : F → F) (d : PixVarCo F) : PixVarCo F := { d with terms := d.terms.map fun t => ⟨t.field, t.psf.map dbl⟩ }

include B in
/-- C202: doubling the zero points of all images changes nothing. -/
theorem bits_var_zp (h w ps : ℕ) :
    (∀ imgs, vaOne A h w ps (imgs.map (PixVarCo.zpTwice dbl)) = vaOne A h w ps imgs) ∧
      ∀ chunks, vaMany A h w ps (chunks.map (List.map (PixVarCo.zpTwice dbl))) = vaMany A h w ps chunks := by
  have hS : ∀ (d : PixVarCo F) k l, (vaComp A (d.zpTwice dbl)).px k l = dbl ((vaComp A d).px k l) := by
    intro d k l
    change A.mul (A.div (dbl d.zp) (A.sq d.var)) _ = dbl (A.mul (A.div d.zp (A.sq d.var)) _)
    rw [B.co.div_left, B.co.pix.mul_left]
    rfl
  have hP : ∀ (d : PixVarCo F) k l, (vaWt A (d.zpTwice dbl)).px k l = dbl (dbl ((vaWt A d).px k l)) := by
    intro d k l
    change A.mul (A.sq (A.div (dbl d.zp) d.var)) _ = dbl (dbl (A.mul (A.sq (A.div d.zp d.var)) _))
    rw [B.co.div_left, B.co.pix.sq, B.co.pix.mul_left, B.co.pix.mul_left]
    rfl
  have a := vaSums_dbl B h w (vaComp A) (fun d => vaComp A (d.zpTwice dbl)) hS
  have b := vaSums_dbl B h w (fun d => (vaWt A d).map dbl) (fun d => vaWt A (d.zpTwice dbl)) hP
  have c := vaSums_dbl B h w (vaWt A) (fun d => (vaWt A d).map dbl) fun _ _ _ => rfl
  constructor
  · intro imgs
    unfold vaOne
    simp only [List.map_map, Function.comp_def]
    rw [a.1, b.1, c.1, coOut_dbl B.co]
  · intro chunks
    unfold vaMany
    simp only [List.map_map, Function.comp_def]
    rw [a.2, b.2, c.2, coOut_dbl B.co]

include B in
/-- C202: nor do the units of the pixels and the noise. -/
theorem bits_var_units (h w ps : ℕ) :
    (∀ imgs, vaOne A h w ps (imgs.map (PixVarCo.inUnits dbl)) = vaOne A h w ps imgs) ∧
      ∀ chunks, vaMany A h w ps (chunks.map (List.map (PixVarCo.inUnits dbl))) = vaMany A h w ps chunks := by
  have hc : ∀ (d : PixVarCo F) (t : PixTerm F), vaConv A (d.inUnits dbl) t = (vaConv A d t).map dbl := by
    intro d t
    have e : vaWeighted A (d.inUnits dbl) t = (vaWeighted A d t).map dbl := by
      unfold vaWeighted Img.map
      change (⟨d.interped.h, d.interped.w, fun i j => A.div (A.mul (dbl (d.interped.px i j)) (t.field.px i j)) _⟩ : Img F) = _
      simp only [B.co.pix.mul_left, B.co.div_left]
      rfl
    unfold vaConv
    rw [e]
    change A.shift ((A.fft d.interped.h d.interped.w ((vaWeighted A d t).map dbl)).zip _ (vaPsfHat A d t)) d.com = _
    rw [B.co.pix.fft, ← B.co.pix.shift]
    congr 1
    unfold Img.zip Img.map
    simp only [B.co.pix.mul_left]
  have hS : ∀ (d : PixVarCo F) k l, (vaComp A d).px k l = dbl ((vaComp A (d.inUnits dbl)).px k l) := by
    intro d k l
    have e : coLoop A.toCoArith (d.inUnits dbl).interped.h (d.inUnits dbl).interped.w ((d.inUnits dbl).terms.map (vaConv A (d.inUnits dbl))) =
        (coLoop A.toCoArith d.interped.h d.interped.w (d.terms.map (vaConv A d))).map dbl :=
      coLoop_map_dbl B _ _ (vaConv A d) (vaConv A (d.inUnits dbl)) (fun t k l => by rw [hc]; rfl) d.terms
    unfold vaComp
    rw [e]
    change A.mul (A.div d.zp (A.sq d.var)) _ = dbl (A.mul (A.div d.zp (A.sq (dbl d.var))) (dbl _))
    rw [B.co.pix.mul_right, B.co.pix.sq, ← B.co.pix.mul_left, ← B.co.pix.mul_left, B.co.div_right, B.co.div_right]
  have hP : ∀ (d : PixVarCo F) k l, (vaWt A d).px k l = dbl (dbl ((vaWt A (d.inUnits dbl)).px k l)) := by
    intro d k l
    change A.mul (A.sq (A.div d.zp d.var)) _ = dbl (dbl (A.mul (A.sq (A.div d.zp (dbl d.var))) _))
    rw [← B.co.pix.mul_left, ← B.co.pix.mul_left, ← B.co.pix.sq, B.co.div_right]
    rfl
  have a := vaSums_dbl B h w (fun d => vaComp A (d.inUnits dbl)) (vaComp A) hS
  have b := vaSums_dbl B h w (fun d => (vaWt A (d.inUnits dbl)).map dbl) (vaWt A) hP
  have c := vaSums_dbl B h w (fun d => vaWt A (d.inUnits dbl)) (fun d => (vaWt A (d.inUnits dbl)).map dbl) fun _ _ _ => rfl
  constructor
  · intro imgs
    unfold vaOne
    simp only [List.map_map, Function.comp_def]
    rw [a.1, b.1, c.1, coOut_dbl B.co]
  · intro chunks
    unfold vaMany
    simp only [List.map_map, Function.comp_def]
    rw [a.2, b.2, c.2, coOut_dbl B.co]

include B in
/-- C202: nor does a factor of the coefficient fields. -/
theorem bits_var_fields (h w ps : ℕ) :
    (∀ imgs, vaOne A h w ps (imgs.map (PixVarCo.fieldTwice dbl)) = vaOne A h w ps imgs) ∧
      ∀ chunks, vaMany A h w ps (chunks.map (List.map (PixVarCo.fieldTwice dbl))) = vaMany A h w ps chunks := by
  have hN : ∀ d : PixVarCo F, vaNormal A (d.fieldTwice dbl) = (vaNormal A d).map dbl := by
    intro d
    unfold vaNormal
    change coLoop A.toCoArith d.interped.h d.interped.w ((d.terms.map fun t => (⟨t.field.map dbl, t.psf⟩ : PixTerm F)).map _) = _
    rw [List.map_map]
    exact coLoop_map_dbl B _ _ _ _ (fun t k l => B.conv_left _ _ k l) d.terms
  have hS : ∀ d : PixVarCo F, vaComp A (d.fieldTwice dbl) = vaComp A d := by
    intro d
    unfold vaComp
    change (coLoop A.toCoArith d.interped.h d.interped.w ((d.terms.map fun t => (⟨t.field.map dbl, t.psf⟩ : PixTerm F)).map _)).map _ = _
    rw [List.map_map]
    congr 2
    refine List.map_congr_left fun t _ => ?_
    have e : vaWeighted A (d.fieldTwice dbl) ⟨t.field.map dbl, t.psf⟩ = vaWeighted A d t := by
      unfold vaWeighted
      rw [hN]
      change (⟨d.interped.h, d.interped.w, fun i j => A.div (A.mul (d.interped.px i j) (dbl (t.field.px i j))) (dbl _)⟩ : Img F) = _
      simp only [B.co.pix.mul_right, B.co.pix.div]
    change vaConv A (d.fieldTwice dbl) ⟨t.field.map dbl, t.psf⟩ = _
    unfold vaConv
    rw [e]
    rfl
  have hP : ∀ d : PixVarCo F, vaWt A (d.fieldTwice dbl) = vaWt A d := by
    intro d
    unfold vaWt
    change (coLoop A.toCoArith d.interped.h d.interped.w ((d.terms.map fun t => (⟨t.field.map dbl, t.psf⟩ : PixTerm F)).map _)).map _ = _
    rw [List.map_map]
    rfl
  constructor
  · intro imgs
    unfold vaOne
    simp only [List.map_map, Function.comp_def, hS, hP]
  · intro chunks
    unfold vaMany
    simp only [List.map_map, Function.comp_def, hS, hP]

include B in
theorem coOut_quad (ps : ℕ) (S P : Img F) :
    ((coOut A.toCoArith ps S ((P.map dbl).map dbl)).1.map dbl, (coOut A.toCoArith ps S ((P.map dbl).map dbl)).2) = coOut A.toCoArith ps S P := by
  have e := coOut_dbl B.co ps S P
  refine Prod.ext ?_ ?_
  · change (A.ifftD (S.zip (fun s p => A.div s (A.sqrt p)) ((P.map dbl).map dbl))).map dbl = A.ifftD (S.zip (fun s p => A.div s (A.sqrt p)) P)
    rw [← B.co.ifftD]
    congr 1
    unfold Img.zip Img.map
    simp only [B.co.pix.sqrt, B.co.div_right]
  · have q : (coOut A.toCoArith ps (S.map dbl) ((P.map dbl).map dbl)).2 = (coOut A.toCoArith ps S P).2 := congrArg Prod.snd e
    exact q

include B in
/-- C202: but a factor of the PSFs of the basis does: with PSFs twice as large, at the same centres, R is half as large, digit by digit, and
P_r is the same. -/
theorem bits_var_psf (h w ps : ℕ) :
    (∀ imgs, ((vaOne A h w ps (imgs.map (PixVarCo.psfTwice dbl))).1.map dbl, (vaOne A h w ps (imgs.map (PixVarCo.psfTwice dbl))).2) =
        vaOne A h w ps imgs) ∧
      ∀ chunks, ((vaMany A h w ps (chunks.map (List.map (PixVarCo.psfTwice dbl)))).1.map dbl,
        (vaMany A h w ps (chunks.map (List.map (PixVarCo.psfTwice dbl)))).2) = vaMany A h w ps chunks := by
  have hN : ∀ d : PixVarCo F, vaNormal A (d.psfTwice dbl) = (vaNormal A d).map dbl := by
    intro d
    unfold vaNormal
    change coLoop A.toCoArith d.interped.h d.interped.w ((d.terms.map fun t => (⟨t.field, t.psf.map dbl⟩ : PixTerm F)).map _) = _
    rw [List.map_map]
    exact coLoop_map_dbl B _ _ _ _ (fun t k l => B.conv_right _ _ k l) d.terms
  have hp : ∀ (d : PixVarCo F) (t : PixTerm F), vaPsfHat A (d.psfTwice dbl) ⟨t.field, t.psf.map dbl⟩ = (vaPsfHat A d t).map dbl :=
    fun d t => B.co.pix.fft _ _ _
  have hS : ∀ d : PixVarCo F, vaComp A (d.psfTwice dbl) = vaComp A d := by
    intro d
    unfold vaComp
    change (coLoop A.toCoArith d.interped.h d.interped.w ((d.terms.map fun t => (⟨t.field, t.psf.map dbl⟩ : PixTerm F)).map _)).map _ = _
    rw [List.map_map]
    congr 2
    refine List.map_congr_left fun t _ => ?_
    have e : (vaWeighted A (d.psfTwice dbl) ⟨t.field, t.psf.map dbl⟩).map dbl = vaWeighted A d t := by
      unfold vaWeighted
      rw [hN]
      change (⟨d.interped.h, d.interped.w, fun i j => dbl (A.div (A.mul (d.interped.px i j) (t.field.px i j)) (dbl _))⟩ : Img F) = _
      simp only [B.co.div_right]
    change vaConv A (d.psfTwice dbl) ⟨t.field, t.psf.map dbl⟩ = _
    unfold vaConv
    rw [hp, ← e, B.co.pix.fft]
    change A.shift _ d.com = A.shift _ d.com
    congr 1
    unfold Img.zip Img.map
    simp only [B.co.conj, B.co.pix.mul_left, B.co.pix.mul_right]
    rfl
  have hP : ∀ (d : PixVarCo F) k l, (vaWt A (d.psfTwice dbl)).px k l = dbl (dbl ((vaWt A d).px k l)) := by
    intro d k l
    have e : coLoop A.toCoArith d.interped.h d.interped.w ((d.psfTwice dbl).terms.map fun t => (vaPsfHat A (d.psfTwice dbl) t).map fun p => A.mul p (A.conj p)) =
        ((coLoop A.toCoArith d.interped.h d.interped.w (d.terms.map fun t => (vaPsfHat A d t).map fun p => A.mul p (A.conj p))).map dbl).map dbl := by
      change coLoop A.toCoArith d.interped.h d.interped.w ((d.terms.map fun t => (⟨t.field, t.psf.map dbl⟩ : PixTerm F)).map _) = _
      rw [List.map_map, ← coLoop_map_dbl B d.interped.h d.interped.w _ (fun t => ((vaPsfHat A d t).map fun p => A.mul p (A.conj p)).map dbl)
        (fun _ _ _ => rfl) d.terms]
      refine coLoop_map_dbl B _ _ _ _ (fun t k l => ?_) d.terms
      change ((vaPsfHat A (d.psfTwice dbl) ⟨t.field, t.psf.map dbl⟩).map fun p => A.mul p (A.conj p)).px k l = _
      rw [hp]
      change A.mul (dbl _) (A.conj (dbl _)) = dbl (dbl (A.mul _ (A.conj _)))
      rw [B.co.conj, B.co.pix.mul_left, B.co.pix.mul_right]
    unfold vaWt
    change A.mul (A.sq (A.div d.zp d.var)) ((coLoop A.toCoArith d.interped.h d.interped.w _).px k l) = _
    rw [e]
    change A.mul _ (dbl (dbl _)) = _
    rw [B.co.pix.mul_right, B.co.pix.mul_right]
    rfl
  have b := vaSums_dbl B h w (fun d => (vaWt A d).map dbl) (fun d => vaWt A (d.psfTwice dbl)) hP
  have c := vaSums_dbl B h w (vaWt A) (fun d => (vaWt A d).map dbl) fun _ _ _ => rfl
  constructor
  · intro imgs
    unfold vaOne
    simp only [List.map_map, Function.comp_def, hS]
    rw [b.1, c.1, coOut_quad B]
  · intro chunks
    unfold vaMany
    simp only [List.map_map, Function.comp_def, hS]
    rw [b.2, c.2, coOut_quad B]

end

/-! ## The exact coadd -/

/-- What `coadd` reads of an image, as exact numbers. -/
noncomputable def VarPsf.toPixVarCo (d : VarPsf) : PixVarCo ℂ :=
  ⟨d.interped.toC, d.terms.map fun t => ⟨(⟨d.interped.h, d.interped.w, t.field⟩ : Img ℝ).toC, t.psf.toC⟩, ((d.com.1 : ℂ), (d.com.2 : ℂ)), d.zp, d.var⟩

theorem ofReal_listSum (l : List ℝ) : ((l.sum : ℝ) : ℂ) = (l.map fun x : ℝ => (x : ℂ)).sum := by
  induction l with
  | nil => simp
  | cons x l ih => simp [ih]

theorem vaNormal_exact (d : VarPsf) : vaNormal exactVa d.toPixVarCo = d.normalImg.toC := by
  unfold vaNormal
  change coLoop exactCo d.interped.h d.interped.w _ = _
  rw [coLoop_exact]
  change _ = (⟨d.interped.h, d.interped.w, fun i j => (((d.terms.map _).sum : ℝ) : ℂ)⟩ : Img ℂ)
  congr 1
  funext k l
  unfold VarPsf.toPixVarCo
  simp only [List.map_map]
  rw [ofReal_listSum, List.map_map]
  rfl

theorem vaConv_exact (d : VarPsf) (t : PsfTerm) :
    vaConv exactVa d.toPixVarCo ⟨(⟨d.interped.h, d.interped.w, t.field⟩ : Img ℝ).toC, t.psf.toC⟩ = d.termHat t := by
  unfold vaConv VarPsf.termHat
  have e : vaWeighted exactVa d.toPixVarCo ⟨(⟨d.interped.h, d.interped.w, t.field⟩ : Img ℝ).toC, t.psf.toC⟩ =
      (⟨d.interped.h, d.interped.w, fun i j => d.interped.px i j * t.field i j / d.normalImg.px i j⟩ : Img ℝ).toC := by
    unfold vaWeighted
    rw [vaNormal_exact]
    change (⟨d.interped.h, d.interped.w, fun i j => ((d.interped.px i j : ℂ) * (t.field i j : ℂ)) / (d.normalImg.px i j : ℂ)⟩ : Img ℂ) =
      ⟨d.interped.h, d.interped.w, fun i j => ((d.interped.px i j * t.field i j / d.normalImg.px i j : ℝ) : ℂ)⟩
    congr 1
    funext i j
    push_cast
    rfl
  rw [e]
  have f := fft_padSelf (⟨d.interped.h, d.interped.w, fun i j => d.interped.px i j * t.field i j / d.normalImg.px i j⟩ : Img ℝ).toC
  rw [← f]
  rfl

theorem vaComp_exact (d : VarPsf) : vaComp exactVa d.toPixVarCo = d.sHatComp := by
  unfold vaComp VarPsf.sHatComp
  change (coLoop exactCo d.interped.h d.interped.w ((d.terms.map fun t => _).map _)).map _ = _
  rw [coLoop_exact, List.map_map]
  change (⟨d.interped.h, d.interped.w, fun k l => ((d.zp : ℂ) / (d.var : ℂ) ^ 2) * _⟩ : Img ℂ) = _
  congr 1
  funext k l
  simp only [List.map_map]
  push_cast
  congr 2
  refine List.map_congr_left fun t _ => ?_
  simp only [Function.comp_apply]
  rw [vaConv_exact]

theorem vaWt_exact (d : VarPsf) : vaWt exactVa d.toPixVarCo = d.toCoImg.weighted := by
  unfold vaWt CoImg.weighted
  change (coLoop exactCo d.interped.h d.interped.w ((d.terms.map fun t => _).map _)).map _ = _
  rw [coLoop_exact, List.map_map]
  change (⟨d.interped.h, d.interped.w, fun k l => ((d.zp : ℂ) / (d.var : ℂ)) ^ 2 * _⟩ : Img ℂ) =
    ⟨d.interped.h, d.interped.w, fun k l => (((d.zp / d.var) ^ 2 : ℝ) : ℂ) * (d.terms.map _).sum⟩
  congr 1
  funext k l
  simp only [List.map_map]
  push_cast
  rfl

/-- C202: in exact arithmetic these operations give the R and the P_r that `coadd` returns. -/
theorem bits_var_exact (lt : List CoImg → List CoImg → Option Bool) (h w : ℕ) (ds : List VarPsf) (ps : ℕ) (n : ℤ)
    (hne : ds ≠ []) (hall : AllShape (ds.map VarPsf.toCoImg) h w) (hn : n ≤ ds.length) (hn' : n ≤ 2 ^ 25)
    (hb : n * ds.length ≤ 2 ^ 50) (chunks : List (List VarPsf)) (hch : chunks.flatten.Perm ds) :
    ∃ out, coaddCore lt (ds.map VarPsf.toCoImg) ps n = .ok out ∧
      (out.R, out.Pr) = vaOne exactVa h w ps (ds.map VarPsf.toPixVarCo) ∧
      (out.R, out.Pr) = vaMany exactVa h w ps (chunks.map (List.map VarPsf.toPixVarCo)) := by
  obtain ⟨out, e, q, _⟩ := coadd_spec lt h w (ds.map VarPsf.toCoImg) ps n (by simpa using hne) hall (by simpa using hn) hn'
    (by simpa using hb)
  have one : vaOne exactVa h w ps (ds.map VarPsf.toPixVarCo) = specOut h w (ds.map VarPsf.toCoImg) ps := by
    have s1 : coLoop exactCo h w ((ds.map VarPsf.toPixVarCo).map (vaComp exactVa)) = ⟨h, w, specS (ds.map VarPsf.toCoImg)⟩ := by
      rw [coLoop_exact]
      congr 1
      funext k l
      unfold specS
      simp only [List.map_map]
      congr 1
      refine List.map_congr_left fun d _ => ?_
      simp only [Function.comp_apply, vaComp_exact]
      rfl
    have s2 : coLoop exactCo h w ((ds.map VarPsf.toPixVarCo).map (vaWt exactVa)) = ⟨h, w, specP (ds.map VarPsf.toCoImg)⟩ := by
      rw [coLoop_exact]
      congr 1
      funext k l
      unfold specP
      simp only [List.map_map]
      congr 1
      refine List.map_congr_left fun d _ => ?_
      simp only [Function.comp_apply, vaWt_exact]
      rfl
    unfold vaOne
    change coOut exactCo ps (coLoop exactCo h w _) (coLoop exactCo h w _) = _
    rw [s1, s2]
    unfold coOut specOut coaddR coaddPsf
    rfl
  have many : vaMany exactVa h w ps (chunks.map (List.map VarPsf.toPixVarCo)) = vaOne exactVa h w ps (ds.map VarPsf.toPixVarCo) := by
    have key : ∀ f : PixVarCo ℂ → Img ℂ, coLoop exactCo h w ((chunks.map (List.map VarPsf.toPixVarCo)).map fun c => coLoop exactCo h w (c.map f)) =
        coLoop exactCo h w ((ds.map VarPsf.toPixVarCo).map f) := by
      intro f
      rw [coLoop_exact, coLoop_exact]
      congr 1
      funext k l
      simp only [List.map_map]
      have p := ((hch.map fun d => (f d.toPixVarCo).px k l).sum_eq)
      have r : (ds.map ((fun x : Img ℂ => x.px k l) ∘ f ∘ VarPsf.toPixVarCo)) = ds.map fun d => (f d.toPixVarCo).px k l := rfl
      rw [r, ← p, List.map_flatten, List.sum_flatten, List.map_map]
      congr 1
      refine List.map_congr_left fun c _ => ?_
      simp only [Function.comp_apply, List.map_map]
      rw [coLoop_exact]
      simp only [List.map_map]
      rfl
    unfold vaMany vaOne
    change coOut exactCo ps (coLoop exactCo h w _) (coLoop exactCo h w _) = coOut exactCo ps (coLoop exactCo h w _) (coLoop exactCo h w _)
    rw [← key, ← key]
    rfl
  exact ⟨out, e, by rw [q, one], by rw [q, many, one]⟩

/-! ## Rounding after every operation -/

section
variable {rd : ℝ → ℝ} (R : Rounds rd)

theorem ndConvolve_twice_left (x k : Img ℝ) (i j : ℕ) : (ndConvolve (x.map fun z => 2 * z) k).px i j = 2 * (ndConvolve x k).px i j := by
  unfold ndConvolve Img.map
  simp only [Finset.mul_sum]
  exact Finset.sum_congr rfl fun a _ => Finset.sum_congr rfl fun b _ => by ring

theorem ndConvolve_twice_right (x k : Img ℝ) (i j : ℕ) : (ndConvolve x (k.map fun z => 2 * z)).px i j = 2 * (ndConvolve x k).px i j := by
  unfold ndConvolve Img.map
  simp only [Finset.mul_sum]
  exact Finset.sum_congr rfl fun a _ => Finset.sum_congr rfl fun b _ => by ring

theorem Machine.double_re (a : Img (Machine rd)) :
    (a.map (Machine.double R)).map (fun z => z.1.re) = (a.map fun z => z.1.re).map fun z => 2 * z := by
  unfold Img.map
  congr 1
  funext i j
  change ((2 : ℂ) * (a.px i j).1).re = 2 * (a.px i j).1.re
  rw [mul_re, re_ofNat, im_ofNat, zero_mul, sub_zero]

/-- C202: whatever the rounding, the laws hold. -/
theorem roundVa_doubling : (roundVa R).Doubling (Machine.double R) where
  co := roundCo_doubling R
  conv_left := fun a p k l => Subtype.ext (by
    change rdC rd (((ndConvolve ((a.map (Machine.double R)).map fun z => z.1.re) (p.map fun z => z.1.re)).px k l : ℝ) : ℂ) =
      2 * rdC rd (((ndConvolve (a.map fun z => z.1.re) (p.map fun z => z.1.re)).px k l : ℝ) : ℂ)
    rw [Machine.double_re, ndConvolve_twice_left, ← rdC_double R]
    push_cast
    rfl)
  conv_right := fun a p k l => Subtype.ext (by
    change rdC rd (((ndConvolve (a.map fun z => z.1.re) ((p.map (Machine.double R)).map fun z => z.1.re)).px k l : ℝ) : ℂ) =
      2 * rdC rd (((ndConvolve (a.map fun z => z.1.re) (p.map fun z => z.1.re)).px k l : ℝ) : ℂ)
    rw [Machine.double_re, ndConvolve_twice_right, ← rdC_double R]
    push_cast
    rfl)

end

/-- In double precision: twice the fields, and twice the PSFs. -/
example (ps : ℕ) (imgs : List (PixVarCo (Machine rnd64))) :
    vaOne (roundVa rnd64_rounds) 2048 2048 ps (imgs.map (PixVarCo.fieldTwice (Machine.double rnd64_rounds))) =
      vaOne (roundVa rnd64_rounds) 2048 2048 ps imgs ∧
      (vaOne (roundVa rnd64_rounds) 2048 2048 ps (imgs.map (PixVarCo.psfTwice (Machine.double rnd64_rounds)))).1.map
        (Machine.double rnd64_rounds) = (vaOne (roundVa rnd64_rounds) 2048 2048 ps imgs).1 :=
  ⟨(bits_var_fields (roundVa_doubling rnd64_rounds) 2048 2048 ps).1 imgs,
    congrArg Prod.fst ((bits_var_psf (roundVa_doubling rnd64_rounds) 2048 2048 ps).1 imgs)⟩

/-- Two images of two pixels, with a field that grows along the row, and their two workers, in double precision. -/
example : let d : ℝ → PixVarCo (Machine rnd64) := fun x => ⟨⟨1, 2, fun _ j => .of rnd64_rounds ((x + j : ℝ) : ℂ)⟩,
      [⟨⟨1, 2, fun _ j => .of rnd64_rounds ((1 + j : ℝ) : ℂ)⟩, ⟨1, 1, fun _ _ => .of rnd64_rounds 1⟩⟩],
      (.of rnd64_rounds 0, .of rnd64_rounds 0), .of rnd64_rounds 1, .of rnd64_rounds 3⟩
    vaMany (roundVa rnd64_rounds) 1 2 1 [[d 1], [d (1 / 3)]] = vaOne (roundVa rnd64_rounds) 1 2 1 [d (1 / 3), d 1] := by
  intro d
  rw [bits_var_order (roundCo_sums rnd64_rounds) 1 2 1 (d (1 / 3)) (d 1)]
  exact bits_var_workers (roundCo_sums rnd64_rounds) 1 2 1 [d 1, d (1 / 3)] (by simp [d, Img.shape])

/-- The same in exact arithmetic. -/
example : let d : ℝ → VarPsf := fun x => ⟨⟨1, 2, fun _ j => x + j⟩, [⟨fun _ j => 1 + j, ⟨1, 1, fun _ _ => 1⟩⟩], 1, 3, none⟩
    ∃ out, coaddCore (fun _ _ => none) ([d 1, d 10].map VarPsf.toCoImg) 1 2 = .ok out ∧
      (out.R, out.Pr) = vaOne exactVa 1 2 1 ([d 1, d 10].map VarPsf.toPixVarCo) := by
  intro d
  obtain ⟨out, e, q, _⟩ := bits_var_exact (fun _ _ => none) 1 2 [d 1, d 10] 1 2 (by simp)
    (by
      intro im him
      simp only [List.map_cons, List.map_nil, List.mem_cons, List.not_mem_nil, or_false] at him
      rcases him with rfl | rfl <;> exact ⟨rfl, rfl, fun a q => by cases q⟩) (by simp) (by norm_num) (by simp) [[d 10], [d 1]] (by
        simpa using List.Perm.swap (d 1) (d 10) [])
  exact ⟨out, e, q⟩

end PI
