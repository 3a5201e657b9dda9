import Verif.Model.ScoreBits
import Verif.Props.CoaddBits

/-!
# Property C201: what holds of P and the score image to the last bit
-/

namespace PI

open Complex Finset

/-- What is asked of an arithmetic besides `PixArith.Sound`. -/
structure ScArith.Signs {F : Type} (A : ScArith F) : Prop where
  sound : A.toPixArith.Sound
  mul_comm : ∀ x y, A.mul x y = A.mul y x
  mul_neg : ∀ x y, A.mul x (A.neg y) = A.neg (A.mul x y)
  mul_zero : ∀ x, A.mul x A.zero = A.zero
  shift_neg : ∀ X c, A.shift (X.map A.neg) c = (A.shift X c).map A.neg
  shift_zero : ∀ h w c, A.shift ⟨h, w, fun _ _ => A.zero⟩ c = ⟨h, w, fun _ _ => A.zero⟩
  real_neg : ∀ x, A.realPart (A.neg x) = A.neg (A.realPart x)
  real_zero : A.realPart A.zero = A.zero

section
variable {F : Type} (A : ScArith F)

/-- C201: two exposures with the same pixels, PSF and zero point, whatever their noise, have the score zero wherever it is not 0/0. -/
theorem bits_score_self (S : A.Signs) (ref new : PixSc F) (hi : new.interped = ref.interped) (hp : new.psf = ref.psf)
    (hz : new.zp = ref.zp) (h0 : ref.zp ≠ A.zero)
    (hs : ∀ k l, A.sqrt (pixNorm A.toPixArith ref.toPixImg new.toPixImg k l) ≠ A.zero) (i j : ℕ)
    (hv : A.sqrt (pixVar A ref new i j) ≠ A.zero) : pixScore A ref new i j = A.zero := by
  have e1 : pixPsfHat A.toPixArith new.toPixImg = pixPsfHat A.toPixArith ref.toPixImg := by
    unfold pixPsfHat
    rw [hi, hp]
  have e : pixFiltered A.toPixArith ref.toPixImg new.toPixImg = pixFiltered A.toPixArith new.toPixImg ref.toPixImg := by
    unfold pixFiltered
    rw [hi, hp, e1]
  have D : pixDHat A.toPixArith ref.toPixImg new.toPixImg = ⟨ref.interped.h, ref.interped.w, fun _ _ => A.zero⟩ := by
    unfold pixDHat
    congr 1
    funext k l
    rw [e, hz, S.sound.div_self _ h0, S.sound.one_mul, S.sound.sub_self, S.sound.zero_div _ (hs k l)]
  have H : pixSHat A ref new = ⟨ref.interped.h, ref.interped.w, fun _ _ => A.zero⟩ := by
    unfold pixSHat
    rw [D]
    unfold Img.zip
    simp only [S.mul_zero, S.mul_comm A.zero]
    exact S.shift_zero _ _ _
  unfold pixScore
  rw [H, S.sound.ifft_zero, S.sound.zero_div _ hv, S.real_zero]

/-- C201: exchanging two exposures with one zero point leaves P as it is and changes the sign of the score image, and no bit of
either. -/
theorem bits_score_exchange (S : A.Signs) (ref new : PixSc F) (hz : new.zp = ref.zp) (h0 : ref.zp ≠ A.zero)
    (hs : new.interped.shape = ref.interped.shape) :
    pixP A new ref = pixP A ref new ∧ ∀ i j, pixScore A new ref i j = A.neg (pixScore A ref new i j) := by
  have s1 : new.interped.h = ref.interped.h := congrArg Prod.fst hs
  have s2 : new.interped.w = ref.interped.w := congrArg Prod.snd hs
  have hb : A.div ref.zp ref.zp = A.one := S.sound.div_self _ h0
  have N : ∀ k l, pixNorm A.toPixArith new.toPixImg ref.toPixImg k l = pixNorm A.toPixArith ref.toPixImg new.toPixImg k l := by
    intro k l
    unfold pixNorm
    rw [hz, hb, S.sound.sq_one, S.sound.mul_one, S.sound.mul_one, S.sound.add_comm]
  have D : pixDHat A.toPixArith new.toPixImg ref.toPixImg = (pixDHat A.toPixArith ref.toPixImg new.toPixImg).map A.neg := by
    unfold pixDHat Img.map
    simp only []
    rw [s1, s2]
    congr 1
    funext k l
    rw [N, hz, hb, S.sound.one_mul, S.sound.one_mul, S.sound.sub_swap, S.sound.neg_div]
  have Z : pixDZp A new ref = pixDZp A ref new := by
    unfold pixDZp
    rw [hz, hb, S.sound.sq_one, S.sound.mul_one, S.sound.mul_one, S.sound.add_comm]
  have H : pixPHat A new ref = pixPHat A ref new := by
    unfold pixPHat
    rw [s1, s2]
    congr 1
    funext k l
    rw [N, Z, hz, hb, S.mul_comm ((pixPsfHat A.toPixArith new.toPixImg).px k l)]
  have P : pixP A new ref = pixP A ref new := by
    unfold pixP
    rw [H]
  refine ⟨P, fun i j => ?_⟩
  have SH : pixSHat A new ref = (pixSHat A ref new).map A.neg := by
    unfold pixSHat
    rw [P, H, Z, D, ← S.shift_neg]
    congr 1
    unfold Img.zip Img.map
    congr 1
    funext k l
    simp only []
    rw [S.mul_neg, S.mul_comm (A.neg _), S.mul_neg, S.mul_comm (A.conj _)]
  have K1 : pixKr A new ref = pixKn A ref new := by
    unfold pixKr pixKn
    rw [s1, s2]
    congr 2
    funext k l
    rw [N, hz, hb, S.sound.mul_one]
  have K2 : pixKn A new ref = pixKr A ref new := by
    unfold pixKr pixKn
    rw [s1, s2]
    congr 2
    funext k l
    rw [N, hz, hb, S.sound.mul_one]
  have V : pixVar A new ref i j = pixVar A ref new i j := by
    unfold pixVar
    rw [K1, K2, S.sound.add_comm]
  unfold pixScore
  rw [SH, S.sound.ifft_neg, V, S.sound.neg_div, S.real_neg]

/-- The exposure in units half as large. -/
def PixSc.inUnits (dbl : F → F) (d : PixSc F) : PixSc F := ⟨d.toPixImg.inUnits dbl, d.filled.map dbl⟩

/-- C201: P does not depend on the units of the pixels and the noise, to the last bit. -/
theorem bits_P_units (dbl : F → F) (B : A.toPixArith.Doubling dbl) (hd : ∀ x y, dbl (A.div x (dbl y)) = A.div x y)
    (ref new : PixSc F) : pixP A (ref.inUnits dbl) (new.inUnits dbl) = pixP A ref new := by
  have p : ∀ d : PixSc F, pixPsfHat A.toPixArith (d.inUnits dbl).toPixImg = pixPsfHat A.toPixArith d.toPixImg := fun d => rfl
  have q : ∀ (im other : PixSc F) k l, pixNoise A.toPixArith (im.inUnits dbl).toPixImg (other.inUnits dbl).toPixImg k l =
      dbl (dbl (pixNoise A.toPixArith im.toPixImg other.toPixImg k l)) := by
    intro im other k l
    unfold pixNoise
    rw [p]
    change A.mul (A.mul (A.sq (dbl im.var)) _) _ = _
    rw [B.sq, B.mul_left, B.mul_left, B.mul_left, B.mul_left]
  have N : ∀ k l, A.sqrt (pixNorm A.toPixArith (ref.inUnits dbl).toPixImg (new.inUnits dbl).toPixImg k l) =
      dbl (A.sqrt (pixNorm A.toPixArith ref.toPixImg new.toPixImg k l)) := by
    intro k l
    unfold pixNorm
    rw [q, q, B.mul_left, B.mul_left, B.add, B.add, B.sqrt]
    rfl
  have Z : dbl (pixDZp A (ref.inUnits dbl) (new.inUnits dbl)) = pixDZp A ref new := by
    unfold pixDZp
    change dbl (A.div (A.div new.zp ref.zp) (A.sqrt (A.add (A.mul (A.sq (dbl ref.var)) (A.sq (A.div new.zp ref.zp))) (A.sq (dbl new.var))))) = _
    rw [B.sq, B.sq, B.mul_left, B.mul_left, B.add, B.add, B.sqrt, hd]
  unfold pixP
  congr 2
  unfold pixPHat
  change (⟨ref.interped.h, ref.interped.w, _⟩ : Img F) = _
  congr 1
  funext k l
  rw [N, p, p, B.mul_left, ← B.mul_right, Z]
  rfl

end

/-! ## The exact images -/

/-- What `subtract` reads of an image, as exact numbers. -/
noncomputable def SubImg.toPixSc (d : SubImg) (zp : ℝ) : PixSc ℂ := ⟨d.toPix zp, toC d.filled⟩

/-- C201: in exact arithmetic these operations give the P and the score image that `subtract` returns. -/
theorem bits_score_exact (env : SubEnv) (it : Bool) (ref new : SubImg) (h w : ℕ)
    (hr : ref.interped.shape = (h, w)) (hn : new.interped.shape = (h, w))
    (hmr : ref.mask.HasShape h w) (hmn : new.mask.HasShape h w) (z : ℝ × ℝ) (hz : env.zps = .ok z)
    (hc : env.fitted = true ∨ (0 ≤ (centerOfMass new.psf).1 ∧ 0 ≤ (centerOfMass new.psf).2)) :
    ∃ out, subtract env ⟨false, false, it⟩ ref new = .ok out ∧
      toC out.P = pixP (exactSc env.peak) (ref.toPixSc z.1) (new.toPixSc z.2) ∧
      ∀ i j, (out.S.px i j : ℂ) = pixScore (exactSc env.peak) (ref.toPixSc z.1) (new.toPixSc z.2) i j := by
  obtain ⟨out, e, hD, hP, hS⟩ := subtract_returns env it ref new h w hr hn hmr hmn z hz hc
  obtain ⟨out', e', hD'⟩ := bits_exact env it ref new h w hr hn hmr hmn z hz hc
  refine ⟨out, e, ?_⟩
  set A := exactSc env.peak with hA
  have hp : ∀ (d : SubImg) (y : ℝ), pixPsfHat exactPix (d.toPix y) = d.psfHat := by
    intro d y
    unfold pixPsfHat SubImg.psfHat Img.map
    congr 1
  have hN : ∀ k l, pixNorm exactPix (ref.toPix z.1) (new.toPix z.2) k l = normHat ref new (z.2 / z.1) k l := by
    intro k l
    unfold pixNorm pixNoise normHat
    rw [hp, hp]
    change (new.var : ℂ) ^ 2 * _ * _ + (ref.var : ℂ) ^ 2 * _ * _ * ((z.2 : ℂ) / z.1) ^ 2 = _
    rw [ofReal_div]
    rfl
  have hf : ∀ (im other : SubImg) (y y' : ℝ), pixFiltered exactPix (im.toPix y) (other.toPix y') =
      fourierShift (other.psfHat.zip (· * ·) im.interpedHat) (negPair (centerOfMass other.psf)) := by
    intro im other y y'
    unfold pixFiltered
    rw [hp]
    change fourierShift (other.psfHat.zip (· * ·) (fftOrtho (padTo (toC im.interped).h (toC im.interped).w (toC im.interped))))
      ((-((centerOfMass other.psf).1 : ℂ)).re, (-((centerOfMass other.psf).2 : ℂ)).re) = _
    rw [fft_padSelf]
    simp only [neg_re, ofReal_re]
    rfl
  have hDh : pixDHat exactPix (ref.toPix z.1) (new.toPix z.2) = dHat ref new (z.2 / z.1) 0 0 := by
    unfold dHat pixDHat
    rw [if_pos ⟨rfl, rfl⟩, hf, hf]
    change (⟨ref.h, ref.w, _⟩ : Img ℂ) = ⟨ref.h, ref.w, _⟩
    congr 1
    funext k l
    rw [hN]
    change (_ - ((z.2 : ℂ) / z.1) * _) / csqrt _ = _
    rw [← ofReal_div]
    rfl
  have hZ : pixDZp A (ref.toPixSc z.1) (new.toPixSc z.2) = ((dZp ref new (z.2 / z.1) : ℝ) : ℂ) := by
    unfold pixDZp dZp
    change ((z.2 : ℂ) / z.1) / csqrt ((ref.var : ℂ) ^ 2 * ((z.2 : ℂ) / z.1) ^ 2 + (new.var : ℂ) ^ 2) = _
    have : (ref.var : ℂ) ^ 2 * ((z.2 : ℂ) / z.1) ^ 2 + (new.var : ℂ) ^ 2 = ((ref.var ^ 2 * (z.2 / z.1) ^ 2 + new.var ^ 2 : ℝ) : ℂ) := by
      push_cast
      rfl
    rw [this, csqrt_ofReal_nonneg _ (by positivity)]
    push_cast
    rfl
  have hPh : pixPHat A (ref.toPixSc z.1) (new.toPixSc z.2) = pHat ref new (z.2 / z.1) := by
    unfold pixPHat pHat
    rw [hZ]
    change (⟨ref.h, ref.w, fun k l => ((pixPsfHat exactPix (ref.toPix z.1)).px k l * (pixPsfHat exactPix (new.toPix z.2)).px k l *
      ((z.2 : ℂ) / z.1)) / (csqrt (pixNorm exactPix (ref.toPix z.1) (new.toPix z.2) k l) * _)⟩ : Img ℂ) = _
    congr 1
    funext k l
    rw [hN, hp, hp, ofReal_div]
  have hPP : pixP A (ref.toPixSc z.1) (new.toPixSc z.2) = toC (subP ref new (z.2 / z.1)) := by
    unfold pixP
    rw [hPh]
    rfl
  refine ⟨by rw [hP, hPP], fun i j => ?_⟩
  have hSh : pixSHat A (ref.toPixSc z.1) (new.toPixSc z.2) = sHat env.peak ref new (z.2 / z.1) 0 0 := by
    unfold pixSHat sHat
    rw [hPP, hPh, hZ]
    change fourierShift ((pixDHat exactPix (ref.toPix z.1) (new.toPix z.2)).zip _ _) _ = _
    rw [hDh]
    rfl
  have hKr : pixKr A (ref.toPixSc z.1) (new.toPixSc z.2) = subKr ref new z.2 (z.2 / z.1) := by
    unfold pixKr subKr
    change ifftOrtho (⟨ref.h, ref.w, fun k l => (z.2 : ℂ) * (starRingEnd ℂ) ((pixPsfHat exactPix (ref.toPix z.1)).px k l) * ((z.2 : ℂ) / z.1) *
      (pixPsfHat exactPix (new.toPix z.2)).px k l * (starRingEnd ℂ) ((pixPsfHat exactPix (new.toPix z.2)).px k l) /
      pixNorm exactPix (ref.toPix z.1) (new.toPix z.2) k l⟩ : Img ℂ) = _
    simp only [hN, hp, ofReal_div]
  have hKn : pixKn A (ref.toPixSc z.1) (new.toPixSc z.2) = subKn ref new z.2 (z.2 / z.1) := by
    unfold pixKn subKn
    change ifftOrtho (⟨ref.h, ref.w, fun k l => (z.2 : ℂ) * (starRingEnd ℂ) ((pixPsfHat exactPix (new.toPix z.2)).px k l) *
      (pixPsfHat exactPix (ref.toPix z.1)).px k l * (starRingEnd ℂ) ((pixPsfHat exactPix (ref.toPix z.1)).px k l) /
      pixNorm exactPix (ref.toPix z.1) (new.toPix z.2) k l⟩ : Img ℂ) = _
    simp only [hN, hp]
  have hV : ∀ (f : Img ℝ) (K : Img ℂ), pixV A (toC f) K = subV f K := by
    intro f K
    unfold pixV subV
    have e1 : ((toC f).map fun x => A.add x A.one) = f.map fun x => ((x + 1 : ℝ) : ℂ) := by
      unfold toC Img.map
      congr 1
      funext i j
      change ((f.px i j : ℂ) + 1) = _
      push_cast
      rfl
    rw [e1]
    change ifftOrtho ((fftOrtho (padTo (f.map fun x => ((x + 1 : ℝ) : ℂ)).h (f.map fun x => ((x + 1 : ℝ) : ℂ)).w _)).zip _ _) = _
    rw [fft_padSelf]
    rfl
  rw [hS]
  unfold pixScore pixVar
  rw [hSh, hKr, hKn]
  change _ = (((_ / csqrt ((pixV A (toC new.filled) _).px i j + (pixV A (toC ref.filled) _).px i j) : ℂ).re : ℝ) : ℂ)
  rw [hV, hV]
  rfl

/-! ## Rounding after every operation -/

section
variable {rd : ℝ → ℝ} (R : Rounds rd) (peak : Img ℝ → ℕ × ℕ)

/-- C201: whatever the rounding, the laws hold. -/
theorem roundSc_signs : (roundSc R peak).Signs where
  sound := roundPix_sound R
  mul_comm := fun x y => by
    change Machine.of R (x.1 * y.1) = Machine.of R (y.1 * x.1)
    rw [mul_comm]
  mul_neg := fun x y => Subtype.ext (by
    change rdC rd (x.1 * rdC rd (-y.1)) = rdC rd (-(rdC rd (x.1 * y.1)))
    rw [rdC_neg R, y.2, rdC_neg R, rdC_again R, mul_neg, rdC_neg R])
  mul_zero := fun x => Subtype.ext (by
    change rdC rd (x.1 * rdC rd 0) = rdC rd 0
    rw [rdC_zero R, mul_zero, rdC_zero R])
  shift_neg := fun X c => by
    change (⟨X.h, X.w, _⟩ : Img (Machine rd)) = ⟨X.h, X.w, _⟩
    congr 1
    funext i j
    refine Subtype.ext ?_
    change rdC rd (rdC rd (-(X.px i j).1) * shiftPhase X.h X.w _ i j) = rdC rd (-(rdC rd ((X.px i j).1 * shiftPhase X.h X.w _ i j)))
    rw [rdC_neg R, (X.px i j).2, rdC_neg R, rdC_again R, neg_mul, rdC_neg R]
  shift_zero := fun h w c => by
    change (⟨h, w, _⟩ : Img (Machine rd)) = ⟨h, w, _⟩
    congr 1
    funext i j
    refine Subtype.ext ?_
    change rdC rd (rdC rd 0 * _) = rdC rd 0
    rw [rdC_zero R, zero_mul, rdC_zero R]
  real_neg := fun x => Subtype.ext (by
    change rdC rd (((rdC rd (-x.1)).re : ℝ) : ℂ) = rdC rd (-(rdC rd (x.1.re : ℂ)))
    rw [rdC_neg R, x.2, rdC_neg R, rdC_again R, neg_re, ofReal_neg, rdC_neg R])
  real_zero := Subtype.ext (by
    change rdC rd (((rdC rd 0).re : ℝ) : ℂ) = rdC rd 0
    rw [rdC_zero R]
    simp only [zero_re, ofReal_zero]
    rw [rdC_zero R])

/-- C201: if rounding never takes a positive number to zero, the first of these asks for no more than noise that is not zero. -/
theorem bits_score_self_round (hpos : ∀ x, 0 < x → 0 < rd x) (ref new : PixSc (Machine rd)) (hi : new.interped = ref.interped)
    (hp : new.psf = ref.psf) (hz : new.zp = ref.zp) (h0 : ref.zp.1 ≠ 0) (v v' : ℝ) (hv : v ≠ 0) (hv' : v' ≠ 0) (hr : ref.var.1 = v)
    (hn : new.var.1 = v') (i j : ℕ) (hd : (pixVar (roundSc R peak) ref new i j).1 ≠ 0) :
    (pixScore (roundSc R peak) ref new i j).1 = 0 := by
  have S := roundPix_sound R
  have nz : ∀ w : ℂ, w ≠ 0 → Machine.of R (csqrt w) ≠ (roundPix R).zero := by
    intro w hw h
    have q : rdC rd (csqrt w) = rdC rd 0 := congrArg Subtype.val h
    rw [rdC_zero R] at q
    refine rdC_ne_zero R hpos _ ?_ q
    rw [Ne, csqrt_eq_zero]
    exact hw
  have z0 : ref.zp ≠ (roundPix R).zero := by
    intro h
    have : ref.zp.1 = rdC rd 0 := congrArg Subtype.val h
    rw [rdC_zero R] at this
    exact h0 this
  have := bits_score_self (roundSc R peak) (roundSc_signs R peak) ref new hi hp hz z0 (fun k l => nz _ fun w => ?_) i j (nz _ hd)
  · rw [this]
    exact rdC_zero R
  · have a := pixNoise_re R hpos new.toPixImg ref.toPixImg v' hv' hn k l
    have b := pixNoise_re R hpos ref.toPixImg new.toPixImg v hv hr k l
    change (pixNorm (roundPix R) ref.toPixImg new.toPixImg k l).1 = 0 at w
    unfold pixNorm at w
    rw [hz, S.div_self _ z0, S.sq_one, S.mul_one] at w
    have := hpos _ (add_pos a b)
    have w' : rd ((pixNoise (roundPix R) new.toPixImg ref.toPixImg k l).1 + (pixNoise (roundPix R) ref.toPixImg new.toPixImg k l).1).re = 0 :=
      congrArg Complex.re w
    rw [add_re] at w'
    linarith

end

theorem exactSc_signs (peak : Img ℝ → ℕ × ℕ) : (exactSc peak).Signs where
  sound := exactPix_sound
  mul_comm := fun x y => mul_comm x y
  mul_neg := fun x y => mul_neg x y
  mul_zero := fun x => mul_zero x
  shift_neg := fun X c => by
    change (⟨X.h, X.w, _⟩ : Img ℂ) = ⟨X.h, X.w, _⟩
    congr 1
    funext i j
    exact neg_mul _ _
  shift_zero := fun h w c => by
    change (⟨h, w, _⟩ : Img ℂ) = ⟨h, w, _⟩
    congr 1
    funext i j
    exact zero_mul _
  real_neg := fun x => by
    change ((-x).re : ℂ) = -((x.re : ℝ) : ℂ)
    simp
  real_zero := by
    change (((0 : ℂ).re : ℝ) : ℂ) = 0
    simp

/-- An exposure of one pixel with the value `x` and the noise `v`. -/
noncomputable def dotSc (x v : ℂ) : PixSc ℂ := ⟨⟨⟨1, 1, fun _ _ => x⟩, ⟨1, 1, fun _ _ => 1⟩, v, 1⟩, ⟨1, 1, fun _ _ => 0⟩⟩

theorem tw_one_at_zero : tw 1 0 = 1 := by
  unfold tw
  simp

theorem fftOrtho_dotSc (c : ℂ) (k l : ℕ) : (fftOrtho ⟨1, 1, fun _ _ => c⟩).px k l = c := by
  change (∑ i ∈ range 1, ∑ j ∈ range 1, c * (tw 1 ((k : ℝ) * i) * tw 1 ((l : ℝ) * j))) / ((Real.sqrt ((1 * 1 : ℕ) : ℝ) : ℝ) : ℂ) = c
  simp [tw_one_at_zero]

theorem ifftOrtho_dotSc (X : Img ℂ) (c : ℂ) (h1 : X.h = 1) (h2 : X.w = 1) (hc : X.px 0 0 = c) (k l : ℕ) : (ifftOrtho X).px k l = c := by
  obtain ⟨h, w, f⟩ := X
  simp only at h1 h2 hc
  subst h1
  subst h2
  change (∑ i ∈ range 1, ∑ j ∈ range 1, f i j * (tw 1 (-((i : ℝ) * k)) * tw 1 (-((j : ℝ) * l)))) / ((Real.sqrt ((1 * 1 : ℕ) : ℝ) : ℝ) : ℂ) = c
  simp [tw_one_at_zero, hc]

theorem dotSc_hat (x v : ℂ) (k l : ℕ) : (pixPsfHat exactPix (dotSc x v).toPixImg).px k l = 1 := by
  have : (fftOrtho (padTo 1 1 ⟨1, 1, fun _ _ => 1⟩)).px k l = 1 := by
    have e : fftOrtho (padTo 1 1 (⟨1, 1, fun _ _ => 1⟩ : Img ℂ)) = fftOrtho ⟨1, 1, fun _ _ => 1⟩ := fft_padSelf ⟨1, 1, fun _ _ => 1⟩
    rw [e, fftOrtho_dotSc]
  unfold pixPsfHat Img.map
  change (if ((fftOrtho (padTo 1 1 ⟨1, 1, fun _ _ => 1⟩)).px k l).re = 0 then _ else (fftOrtho (padTo 1 1 ⟨1, 1, fun _ _ => 1⟩)).px k l) = 1
  rw [this, if_neg (by simp)]

theorem dotSc_norm (k l : ℕ) : pixNorm exactPix (dotSc 5 1).toPixImg (dotSc 5 2).toPixImg k l = 5 := by
  unfold pixNorm pixNoise
  rw [dotSc_hat, dotSc_hat]
  change (2 : ℂ) ^ 2 * 1 * (starRingEnd ℂ) 1 + (1 : ℂ) ^ 2 * 1 * (starRingEnd ℂ) 1 * ((1 : ℂ) / 1) ^ 2 = 5
  norm_num

theorem dotSc_V (peak : Img ℝ → ℕ × ℕ) (K : Img ℂ) (h1 : K.h = 1) (h2 : K.w = 1) (hK : K.px 0 0 = 1 / 5) (i j : ℕ) :
    (pixV (exactSc peak) ⟨1, 1, fun _ _ => 0⟩ K).px i j = 1 / 25 := by
  refine ifftOrtho_dotSc _ _ rfl rfl ?_ i j
  change (fftOrtho (padTo 1 1 ⟨1, 1, fun _ _ => (0 : ℂ) + 1⟩)).px 0 0 * (dft (K.map fun z => z ^ 2)).px 0 0 = 1 / 25
  have e : fftOrtho (padTo 1 1 (⟨1, 1, fun _ _ => (0 : ℂ) + 1⟩ : Img ℂ)) = fftOrtho ⟨1, 1, fun _ _ => 0 + 1⟩ :=
    fft_padSelf ⟨1, 1, fun _ _ => 0 + 1⟩
  rw [e, fftOrtho_dotSc]
  obtain ⟨h, w, f⟩ := K
  simp only at h1 h2 hK
  subst h1
  subst h2
  change ((0 : ℂ) + 1) * (∑ i ∈ range 1, ∑ j ∈ range 1, f i j ^ 2 * (tw 1 (((0 : ℕ) : ℝ) * i) * tw 1 (((0 : ℕ) : ℝ) * j))) = 1 / 25
  simp [tw_one_at_zero, hK]
  norm_num

/-- An exposure of one pixel less another one with the same value and twice the noise has the score zero. -/
example (peak : Img ℝ → ℕ × ℕ) : pixScore (exactSc peak) (dotSc 5 1) (dotSc 5 2) 0 0 = 0 := by
  refine bits_score_self (exactSc peak) (exactSc_signs peak) (dotSc 5 1) (dotSc 5 2) rfl rfl rfl one_ne_zero (fun k l => ?_) 0 0 ?_
  · change csqrt (pixNorm exactPix (dotSc 5 1).toPixImg (dotSc 5 2).toPixImg k l) ≠ 0
    rw [dotSc_norm, Ne, csqrt_eq_zero]
    norm_num
  · have kr : (pixKr (exactSc peak) (dotSc 5 1) (dotSc 5 2)).px 0 0 = 1 / 5 := by
      refine ifftOrtho_dotSc _ _ rfl rfl ?_ 0 0
      change ((1 : ℂ) * (starRingEnd ℂ) ((pixPsfHat exactPix (dotSc 5 1).toPixImg).px 0 0) * (1 / 1) *
        (pixPsfHat exactPix (dotSc 5 2).toPixImg).px 0 0 * (starRingEnd ℂ) ((pixPsfHat exactPix (dotSc 5 2).toPixImg).px 0 0)) /
          pixNorm exactPix (dotSc 5 1).toPixImg (dotSc 5 2).toPixImg 0 0 = 1 / 5
      rw [dotSc_hat, dotSc_hat, dotSc_norm]
      norm_num
    have kn : (pixKn (exactSc peak) (dotSc 5 1) (dotSc 5 2)).px 0 0 = 1 / 5 := by
      refine ifftOrtho_dotSc _ _ rfl rfl ?_ 0 0
      change ((1 : ℂ) * (starRingEnd ℂ) ((pixPsfHat exactPix (dotSc 5 2).toPixImg).px 0 0) *
        (pixPsfHat exactPix (dotSc 5 1).toPixImg).px 0 0 * (starRingEnd ℂ) ((pixPsfHat exactPix (dotSc 5 1).toPixImg).px 0 0)) /
          pixNorm exactPix (dotSc 5 1).toPixImg (dotSc 5 2).toPixImg 0 0 = 1 / 5
      rw [dotSc_hat, dotSc_hat, dotSc_norm]
      norm_num
    change csqrt ((pixV (exactSc peak) ⟨1, 1, fun _ _ => 0⟩ (pixKn (exactSc peak) (dotSc 5 1) (dotSc 5 2))).px 0 0 +
      (pixV (exactSc peak) ⟨1, 1, fun _ _ => 0⟩ (pixKr (exactSc peak) (dotSc 5 1) (dotSc 5 2))).px 0 0) ≠ 0
    rw [dotSc_V peak _ rfl rfl kn, dotSc_V peak _ rfl rfl kr, Ne, csqrt_eq_zero]
    norm_num

/-- In double precision: P and the score image of two exposures of zero point 1, exchanged, and P in other units. -/
example (peak : Img ℝ → ℕ × ℕ) (ref new : PixSc (Machine rnd64)) (hn : new.zp = .of rnd64_rounds 1) (hr : ref.zp = .of rnd64_rounds 1)
    (hs : new.interped.shape = ref.interped.shape) (i j : ℕ) :
    pixScore (roundSc rnd64_rounds peak) new ref i j = (roundSc rnd64_rounds peak).neg (pixScore (roundSc rnd64_rounds peak) ref new i j) ∧
      pixP (roundSc rnd64_rounds peak) (ref.inUnits (Machine.double rnd64_rounds)) (new.inUnits (Machine.double rnd64_rounds)) =
        pixP (roundSc rnd64_rounds peak) ref new := by
  refine ⟨(bits_score_exchange _ (roundSc_signs rnd64_rounds peak) ref new (by rw [hn, hr]) ?_ hs).2 i j,
    bits_P_units _ _ (roundPix_doubling rnd64_rounds) (roundCo_doubling rnd64_rounds).div_right ref new⟩
  rw [hr]
  intro h
  have : rdC rnd64 1 = rdC rnd64 0 := congrArg Subtype.val h
  rw [rdC_one rnd64_rounds, rdC_zero rnd64_rounds] at this
  exact one_ne_zero this

end PI
