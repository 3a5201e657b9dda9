import Verif.Model.SubtractBits
import Verif.Props.SubtractScore
import Verif.Props.CoaddNan
import Mathlib.Data.Int.Log

/-!
# Property C199: what holds of the difference image to the last bit
-/

namespace PI

open Complex Finset

/-- What is asked of an arithmetic: true of floating-point numbers as long as nothing overflows (zeros of either sign are one number). -/
structure PixArith.Sound {F : Type} (A : PixArith F) : Prop where
  sub_self : ∀ x, A.sub x x = A.zero
  sub_swap : ∀ x y, A.sub y x = A.neg (A.sub x y)
  add_comm : ∀ x y, A.add x y = A.add y x
  one_mul : ∀ x, A.mul A.one x = x
  mul_one : ∀ x, A.mul x A.one = x
  sq_one : A.sq A.one = A.one
  div_self : ∀ x, x ≠ A.zero → A.div x x = A.one
  zero_div : ∀ x, x ≠ A.zero → A.div A.zero x = A.zero
  neg_div : ∀ x y, A.div (A.neg x) y = A.neg (A.div x y)
  ifft_zero : ∀ h w i j, (A.ifft ⟨h, w, fun _ _ => A.zero⟩).px i j = A.zero
  ifft_neg : ∀ X i j, (A.ifft (X.map A.neg)).px i j = A.neg ((A.ifft X).px i j)

/-- Doubling commutes with rounding as long as nothing overflows or underflows. -/
structure PixArith.Doubling {F : Type} (A : PixArith F) (dbl : F → F) : Prop where
  add : ∀ x y, A.add (dbl x) (dbl y) = dbl (A.add x y)
  sub : ∀ x y, A.sub (dbl x) (dbl y) = dbl (A.sub x y)
  mul_left : ∀ x y, A.mul (dbl x) y = dbl (A.mul x y)
  mul_right : ∀ x y, A.mul x (dbl y) = dbl (A.mul x y)
  sq : ∀ x, A.sq (dbl x) = dbl (dbl (A.sq x))
  sqrt : ∀ x, A.sqrt (dbl (dbl x)) = dbl (A.sqrt x)
  div : ∀ x y, A.div (dbl x) (dbl y) = A.div x y
  fft : ∀ h w x, A.fft h w (x.map dbl) = (A.fft h w x).map dbl
  shift : ∀ X c, A.shift (X.map dbl) c = (A.shift X c).map dbl

section
variable {F : Type} (A : PixArith F)

/-- C199: two exposures with the same pixels, PSF and zero point, whatever their noise, have the difference image zero, to the last bit. -/
theorem bits_self (S : A.Sound) (ref new : PixImg F) (hi : new.interped = ref.interped) (hp : new.psf = ref.psf) (hz : new.zp = ref.zp)
    (h0 : ref.zp ≠ A.zero)
    (hs : ∀ k l, A.sqrt (pixNorm A ref new k l) ≠ A.zero) (i j : ℕ) : (pixDiff A ref new).px i j = A.zero := by
  have e1 : pixPsfHat A new = pixPsfHat A ref := by
    unfold pixPsfHat
    rw [hi, hp]
  have e : pixFiltered A ref new = pixFiltered A new ref := by
    unfold pixFiltered
    rw [hi, hp, e1]
  have D : pixDHat A ref new = ⟨ref.interped.h, ref.interped.w, fun _ _ => A.zero⟩ := by
    unfold pixDHat
    congr 1
    funext k l
    rw [e, hz, S.div_self _ h0, S.one_mul, S.sub_self, S.zero_div _ (hs k l)]
  unfold pixDiff
  rw [D]
  exact S.ifft_zero _ _ i j

/-- C199: exchanging two exposures with one zero point changes the sign of the difference image, and no bit of it. -/
theorem bits_exchange (S : A.Sound) (ref new : PixImg F) (hz : new.zp = ref.zp) (h0 : ref.zp ≠ A.zero)
    (hs : new.interped.shape = ref.interped.shape) (i j : ℕ) :
    (pixDiff A new ref).px i j = A.neg ((pixDiff A ref new).px i j) := by
  have N : ∀ k l, pixNorm A new ref k l = pixNorm A ref new k l := by
    intro k l
    unfold pixNorm
    rw [hz, S.div_self _ h0, S.sq_one, S.mul_one, S.mul_one, S.add_comm]
  have D : pixDHat A new ref = (pixDHat A ref new).map A.neg := by
    unfold pixDHat Img.map
    simp only []
    have s1 : new.interped.h = ref.interped.h := congrArg Prod.fst hs
    have s2 : new.interped.w = ref.interped.w := congrArg Prod.snd hs
    rw [s1, s2]
    congr 1
    funext k l
    rw [N, hz, S.div_self _ h0, S.one_mul, S.one_mul, S.sub_swap, S.neg_div]
  unfold pixDiff
  rw [D, S.ifft_neg]

/-- The exposure in units half as large. -/
def PixImg.inUnits (dbl : F → F) (d : PixImg F) : PixImg F := ⟨d.interped.map dbl, d.psf, dbl d.var, d.zp⟩

/-- C199: pixels and noise of both exposures in units half as large give the same difference image, to the last bit. -/
theorem bits_units (dbl : F → F) (B : A.Doubling dbl) (ref new : PixImg F) :
    pixDiff A (ref.inUnits dbl) (new.inUnits dbl) = pixDiff A ref new := by
  have p : ∀ d : PixImg F, pixPsfHat A (d.inUnits dbl) = pixPsfHat A d := fun d => rfl
  have f : ∀ im other : PixImg F, pixFiltered A (im.inUnits dbl) (other.inUnits dbl) = (pixFiltered A im other).map dbl := by
    intro im other
    unfold pixFiltered
    rw [p]
    change A.shift ((pixPsfHat A other).zip A.mul (A.fft im.interped.h im.interped.w (im.interped.map dbl))) _ = _
    rw [B.fft, ← B.shift]
    congr 1
    unfold Img.zip Img.map
    congr 1
    funext k l
    exact B.mul_right _ _
  have q : ∀ (im other : PixImg F) k l, pixNoise A (im.inUnits dbl) (other.inUnits dbl) k l = dbl (dbl (pixNoise A im other k l)) := by
    intro im other k l
    unfold pixNoise
    rw [p]
    change A.mul (A.mul (A.sq (dbl im.var)) _) _ = _
    rw [B.sq, B.mul_left, B.mul_left, B.mul_left, B.mul_left]
  have N : ∀ k l, A.sqrt (pixNorm A (ref.inUnits dbl) (new.inUnits dbl) k l) = dbl (A.sqrt (pixNorm A ref new k l)) := by
    intro k l
    unfold pixNorm
    rw [q, q, B.mul_left, B.mul_left, B.add, B.add, B.sqrt]
    rfl
  unfold pixDiff
  congr 1
  unfold pixDHat
  change (⟨ref.interped.h, ref.interped.w, _⟩ : Img F) = _
  congr 1
  funext k l
  rw [N, f, f]
  change A.div (A.sub (dbl ((pixFiltered A new ref).px k l)) (A.mul (A.div new.zp ref.zp) (dbl ((pixFiltered A ref new).px k l)))) _ = _
  rw [B.mul_right, B.sub, B.div]

end

/-! ## The exact difference image -/

/-- What `subtract` reads of an image, as exact numbers. -/
noncomputable def SubImg.toPix (d : SubImg) (zp : ℝ) : PixImg ℂ := ⟨toC d.interped, toC d.psf, d.var, zp⟩

/-- C199: in exact arithmetic these operations give the D that `subtract` returns. -/
theorem bits_exact (env : SubEnv) (it : Bool) (ref new : SubImg) (h w : ℕ)
    (hr : ref.interped.shape = (h, w)) (hn : new.interped.shape = (h, w))
    (hmr : ref.mask.HasShape h w) (hmn : new.mask.HasShape h w) (z : ℝ × ℝ) (hz : env.zps = .ok z)
    (hc : env.fitted = true ∨ (0 ≤ (centerOfMass new.psf).1 ∧ 0 ≤ (centerOfMass new.psf).2)) :
    ∃ out, subtract env ⟨false, false, it⟩ ref new = .ok out ∧ out.D = pixDiff exactPix (ref.toPix z.1) (new.toPix z.2) := by
  obtain ⟨out, e, hD, _⟩ := subtract_returns env it ref new h w hr hn hmr hmn z hz hc
  refine ⟨out, e, ?_⟩
  have hpad : ∀ x : Img ℂ, fftOrtho (padTo x.h x.w x) = fftOrtho x := by
    intro x
    unfold fftOrtho Img.map
    congr 1
    funext k l
    congr 1
    change ∑ i ∈ range x.h, ∑ j ∈ range x.w, (if i < x.h ∧ j < x.w then x.px i j else 0) * _ =
      ∑ i ∈ range x.h, ∑ j ∈ range x.w, x.px i j * _
    refine Finset.sum_congr rfl fun i hi => Finset.sum_congr rfl fun j hj => ?_
    rw [if_pos ⟨mem_range.1 hi, mem_range.1 hj⟩]
    rfl
  have hp : ∀ (d : SubImg) (y : ℝ), pixPsfHat exactPix (d.toPix y) = d.psfHat := by
    intro d y
    unfold pixPsfHat SubImg.psfHat Img.map
    congr 1
  have hf : ∀ (im other : SubImg) (y y' : ℝ), pixFiltered exactPix (im.toPix y) (other.toPix y') =
      fourierShift (other.psfHat.zip (· * ·) im.interpedHat) (negPair (centerOfMass other.psf)) := by
    intro im other y y'
    unfold pixFiltered
    rw [hp]
    change fourierShift (other.psfHat.zip (· * ·) (fftOrtho (padTo (toC im.interped).h (toC im.interped).w (toC im.interped))))
      ((-((centerOfMass other.psf).1 : ℂ)).re, (-((centerOfMass other.psf).2 : ℂ)).re) = _
    rw [hpad]
    simp only [neg_re, ofReal_re]
    rfl
  rw [hD]
  unfold pixDiff
  change ifftOrtho _ = ifftOrtho _
  congr 1
  unfold dHat pixDHat
  rw [if_pos ⟨rfl, rfl⟩, hf, hf]
  change (⟨ref.h, ref.w, _⟩ : Img ℂ) = ⟨ref.h, ref.w, _⟩
  congr 1
  funext k l
  have hN : pixNorm exactPix (ref.toPix z.1) (new.toPix z.2) k l = normHat ref new (z.2 / z.1) k l := by
    unfold pixNorm pixNoise normHat
    rw [hp, hp]
    change (new.var : ℂ) ^ 2 * _ * _ + (ref.var : ℂ) ^ 2 * _ * _ * ((z.2 : ℂ) / z.1) ^ 2 = _
    rw [ofReal_div]
    rfl
  rw [hN]
  change _ = (_ - ((z.2 : ℂ) / z.1) * _) / csqrt _
  rw [← ofReal_div]
  rfl

theorem ifftOrtho_const_zero (h w i j : ℕ) : (ifftOrtho ⟨h, w, fun _ _ => 0⟩).px i j = 0 := by
  change (∑ k ∈ range h, ∑ l ∈ range w, (0 : ℂ) * _) / _ = 0
  simp

theorem ifftOrtho_scaled (c : ℂ) (X : Img ℂ) (i j : ℕ) : (ifftOrtho (X.map fun z => c * z)).px i j = c * (ifftOrtho X).px i j := by
  change (∑ k ∈ range X.h, ∑ l ∈ range X.w, (c * X.px k l) * _) / _ = c * ((∑ k ∈ range X.h, ∑ l ∈ range X.w, X.px k l * _) / _)
  rw [mul_div_assoc', Finset.mul_sum]
  congr 1
  refine Finset.sum_congr rfl fun k _ => ?_
  rw [Finset.mul_sum]
  exact Finset.sum_congr rfl fun l _ => mul_assoc _ _ _

theorem fftOrtho_scaled (c : ℂ) (X : Img ℂ) (i j : ℕ) : (fftOrtho (X.map fun z => c * z)).px i j = c * (fftOrtho X).px i j := by
  change (∑ k ∈ range X.h, ∑ l ∈ range X.w, (c * X.px k l) * _) / _ = c * ((∑ k ∈ range X.h, ∑ l ∈ range X.w, X.px k l * _) / _)
  rw [mul_div_assoc', Finset.mul_sum]
  congr 1
  refine Finset.sum_congr rfl fun k _ => ?_
  rw [Finset.mul_sum]
  exact Finset.sum_congr rfl fun l _ => mul_assoc _ _ _

theorem exactPix_sound : exactPix.Sound where
  sub_self := fun x => sub_self x
  sub_swap := fun x y => (neg_sub x y).symm
  add_comm := fun x y => add_comm x y
  one_mul := fun x => one_mul x
  mul_one := fun x => mul_one x
  sq_one := one_pow 2
  div_self := fun _ hx => div_self hx
  zero_div := fun x _ => zero_div x
  neg_div := fun x y => neg_div y x
  ifft_zero := ifftOrtho_const_zero
  ifft_neg := fun X i j => by
    have := ifftOrtho_scaled (-1) X i j
    simp only [neg_one_mul] at this
    exact this

/-! ## Rounding after every operation -/

section
variable {rd : ℝ → ℝ} (R : Rounds rd)

theorem Machine.of_val (x : Machine rd) : Machine.of R x.1 = x := Subtype.ext x.2

/-- C199: whatever the rounding, the laws hold. -/
theorem roundPix_sound : (roundPix R).Sound where
  sub_self := fun x => by
    change Machine.of R (x.1 - x.1) = Machine.of R 0
    rw [sub_self]
  sub_swap := fun x y => by
    refine Subtype.ext ?_
    change rdC rd (y.1 - x.1) = rdC rd (-(rdC rd (x.1 - y.1)))
    rw [rdC_neg R, rdC_again R, ← rdC_neg R, neg_sub]
  add_comm := fun x y => by
    change Machine.of R (x.1 + y.1) = Machine.of R (y.1 + x.1)
    rw [add_comm]
  one_mul := fun x => by
    change Machine.of R (rdC rd 1 * x.1) = x
    rw [rdC_one R, one_mul, Machine.of_val]
  mul_one := fun x => by
    change Machine.of R (x.1 * rdC rd 1) = x
    rw [rdC_one R, mul_one, Machine.of_val]
  sq_one := by
    change Machine.of R ((rdC rd 1) ^ 2) = Machine.of R 1
    rw [rdC_one R, one_pow]
  div_self := fun x hx => by
    change Machine.of R (x.1 / x.1) = Machine.of R 1
    rw [div_self]
    intro h
    refine hx (Subtype.ext ?_)
    change x.1 = rdC rd 0
    rw [h, rdC_zero R]
  zero_div := fun x _ => by
    change Machine.of R (rdC rd 0 / x.1) = Machine.of R 0
    rw [rdC_zero R, zero_div]
  neg_div := fun x y => by
    refine Subtype.ext ?_
    change rdC rd (rdC rd (-x.1) / y.1) = rdC rd (-(rdC rd (x.1 / y.1)))
    rw [rdC_neg R, x.2, rdC_neg R, rdC_again R, neg_div, rdC_neg R]
  ifft_zero := fun h w i j => by
    change Machine.of R ((ifftOrtho ⟨h, w, fun _ _ => rdC rd 0⟩).px i j) = Machine.of R 0
    rw [rdC_zero R, ifftOrtho_const_zero]
  ifft_neg := fun X i j => by
    refine Subtype.ext ?_
    change rdC rd ((ifftOrtho ⟨X.h, X.w, fun k l => rdC rd (-(X.px k l).1)⟩).px i j) =
      rdC rd (-(rdC rd ((ifftOrtho (X.map Subtype.val)).px i j)))
    have e : ∀ k l, rdC rd (-(X.px k l).1) = -(X.px k l).1 := fun k l => by rw [rdC_neg R, (X.px k l).2]
    simp only [e]
    have := ifftOrtho_scaled (-1) (X.map Subtype.val) i j
    simp only [neg_one_mul] at this
    rw [rdC_neg R, rdC_again R, ← rdC_neg R, ← this]
    rfl

/-- Twice a machine number. -/
def Machine.double (x : Machine rd) : Machine rd := ⟨2 * x.1, by rw [rdC_double R, x.2]⟩

/-- C199: and doubling loses nothing. -/
theorem roundPix_doubling : (roundPix R).Doubling (Machine.double R) where
  add := fun x y => Subtype.ext (by
    change rdC rd (2 * x.1 + 2 * y.1) = 2 * rdC rd (x.1 + y.1)
    rw [← mul_add, rdC_double R])
  sub := fun x y => Subtype.ext (by
    change rdC rd (2 * x.1 - 2 * y.1) = 2 * rdC rd (x.1 - y.1)
    rw [← mul_sub, rdC_double R])
  mul_left := fun x y => Subtype.ext (by
    change rdC rd (2 * x.1 * y.1) = 2 * rdC rd (x.1 * y.1)
    rw [mul_assoc, rdC_double R])
  mul_right := fun x y => Subtype.ext (by
    change rdC rd (x.1 * (2 * y.1)) = 2 * rdC rd (x.1 * y.1)
    rw [mul_left_comm, rdC_double R])
  sq := fun x => Subtype.ext (by
    change rdC rd ((2 * x.1) ^ 2) = 2 * (2 * rdC rd (x.1 ^ 2))
    rw [← rdC_double R, ← rdC_double R]
    congr 1
    ring)
  sqrt := fun x => Subtype.ext (by
    change rdC rd (csqrt (2 * (2 * x.1))) = 2 * rdC rd (csqrt x.1)
    have := csqrt_scale 2 (by norm_num) x.1
    rw [← rdC_double R]
    congr 1
    have e : (2 : ℂ) * (2 * x.1) = (((2 : ℝ) ^ 2 : ℝ) : ℂ) * x.1 := by push_cast; ring
    rw [e, this]
    norm_num)
  div := fun x y => Subtype.ext (by
    change rdC rd (2 * x.1 / (2 * y.1)) = rdC rd (x.1 / y.1)
    rw [mul_div_mul_left _ _ (by norm_num : (2 : ℂ) ≠ 0)])
  fft := fun h w x => by
    have e : padTo h w ((x.map (Machine.double R)).map Subtype.val) = (padTo h w (x.map Subtype.val)).map fun z => 2 * z := by
      unfold padTo Img.map
      congr 1
      funext i j
      change (if i < x.h ∧ j < x.w then 2 * (x.px i j).1 else 0) = 2 * (if i < x.h ∧ j < x.w then (x.px i j).1 else 0)
      split
      · rfl
      · rw [mul_zero]
    change (fftOrtho (padTo h w ((x.map (Machine.double R)).map Subtype.val))).map (Machine.of R) = _
    rw [e]
    change (⟨h, w, _⟩ : Img (Machine rd)) = ⟨h, w, _⟩
    congr 1
    funext i j
    refine Subtype.ext ?_
    change rdC rd ((fftOrtho ((padTo h w (x.map Subtype.val)).map fun z => 2 * z)).px i j) =
      2 * rdC rd ((fftOrtho (padTo h w (x.map Subtype.val))).px i j)
    rw [fftOrtho_scaled, rdC_double R]
  shift := fun X c => by
    change (⟨X.h, X.w, _⟩ : Img (Machine rd)) = ⟨X.h, X.w, _⟩
    congr 1
    funext i j
    refine Subtype.ext ?_
    change rdC rd (2 * (X.px i j).1 * shiftPhase X.h X.w _ i j) = 2 * rdC rd ((X.px i j).1 * shiftPhase X.h X.w _ i j)
    rw [mul_assoc, rdC_double R]

end

section
variable {rd : ℝ → ℝ} (R : Rounds rd) (hpos : ∀ x, 0 < x → 0 < rd x)

include R hpos in
theorem rd_mul_pos (c x : ℝ) (hc : 0 < c) : (x ≠ 0 → 0 < rd (c * x) * x) ∧ 0 ≤ rd (c * x) * x := by
  have key : x ≠ 0 → 0 < rd (c * x) * x := by
    intro hx
    rcases lt_or_gt_of_ne hx with h | h
    · have := hpos (-(c * x)) (by nlinarith)
      rw [R.odd] at this
      nlinarith
    · exact mul_pos (hpos _ (by positivity)) h
  refine ⟨key, ?_⟩
  by_cases hx : x = 0
  · simp [hx]
  · exact (key hx).le

include R hpos in
theorem rdC_ne_zero (z : ℂ) (hz : z ≠ 0) : rdC rd z ≠ 0 := by
  intro h
  have ne : ∀ x, x ≠ 0 → rd x ≠ 0 := by
    intro x hx
    rcases lt_or_gt_of_ne hx with q | q
    · have := hpos (-x) (by linarith)
      rw [R.odd] at this
      linarith
    · exact (hpos x q).ne'
  have h1 : rd z.re = 0 := congrArg Complex.re h
  have h2 : rd z.im = 0 := congrArg Complex.im h
  refine hz (Complex.ext ?_ ?_)
  · by_contra q
    exact ne _ q h1
  · by_contra q
    exact ne _ q h2

include hpos in
theorem pixPsfHat_re (d : PixImg (Machine rd)) (k l : ℕ) : ((pixPsfHat (roundPix R) d).px k l).1.re ≠ 0 := by
  unfold pixPsfHat Img.map
  simp only []
  split
  · change rd epsR ≠ 0
    exact (hpos _ (by unfold epsR; positivity)).ne'
  · rename_i q
    exact q

include hpos in
theorem pixNoise_re (im other : PixImg (Machine rd)) (v : ℝ) (hv : v ≠ 0) (hi : im.var.1 = v) (k l : ℕ) :
    0 < (pixNoise (roundPix R) im other k l).1.re := by
  have hP := pixPsfHat_re R hpos other k l
  have hc : 0 < rd (v ^ 2) := hpos _ (by positivity)
  have hcr : rd (rd (v ^ 2)) = rd (v ^ 2) := R.again _
  unfold pixNoise
  generalize (pixPsfHat (roundPix R) other).px k l = P at *
  change 0 < rd ((rdC rd (rdC rd (im.var.1 ^ 2) * P.1)) * rdC rd ((starRingEnd ℂ) P.1)).re
  have e1 : rdC rd (im.var.1 ^ 2) = ((rd (v ^ 2) : ℝ) : ℂ) := by
    rw [hi, ← ofReal_pow]
    unfold rdC
    apply Complex.ext
    · simp only [ofReal_re]
    · simp only [ofReal_im, R.zero]
  have r1 : rd P.1.re = P.1.re := congrArg Complex.re P.2
  have r2 : rd P.1.im = P.1.im := congrArg Complex.im P.2
  refine hpos _ ?_
  rw [e1]
  unfold rdC
  simp only [mul_re, mul_im, ofReal_re, ofReal_im, conj_re, conj_im, zero_mul, sub_zero, add_zero, R.odd, r1, r2, mul_neg, sub_neg_eq_add]
  have p1 := (rd_mul_pos R hpos (rd (v ^ 2)) P.1.re hc).1 hP
  have p2 := (rd_mul_pos R hpos (rd (v ^ 2)) P.1.im hc).2
  linarith

include hpos in
/-- C199: if rounding never takes a positive number to zero (no underflow), an exposure with noise, subtracted from a copy of itself
with noise, gives zero. -/
theorem bits_self_round (ref new : PixImg (Machine rd)) (hi : new.interped = ref.interped) (hp : new.psf = ref.psf)
    (hz : new.zp = ref.zp) (h0 : ref.zp.1 ≠ 0) (v v' : ℝ) (hv : v ≠ 0) (hv' : v' ≠ 0) (hr : ref.var.1 = v) (hn : new.var.1 = v')
    (i j : ℕ) : ((pixDiff (roundPix R) ref new).px i j).1 = 0 := by
  have S := roundPix_sound R
  have z0 : ref.zp ≠ (roundPix R).zero := by
    intro h
    have : ref.zp.1 = rdC rd 0 := congrArg Subtype.val h
    rw [rdC_zero R] at this
    exact h0 this
  have := bits_self (roundPix R) S ref new hi hp hz z0 (fun k l h => ?_) i j
  · rw [this]
    exact rdC_zero R
  · have q : rdC rd (csqrt (pixNorm (roundPix R) ref new k l).1) = rdC rd 0 := congrArg Subtype.val h
    rw [rdC_zero R] at q
    refine rdC_ne_zero R hpos _ ?_ q
    rw [Ne, csqrt_eq_zero]
    intro w
    have a := pixNoise_re R hpos new ref v' hv' hn k l
    have b := pixNoise_re R hpos ref new v hv hr k l
    unfold pixNorm at w
    rw [hz, S.div_self _ z0, S.sq_one, S.mul_one] at w
    have := hpos _ (add_pos a b)
    have w' : rd ((pixNoise (roundPix R) new ref k l).1 + (pixNoise (roundPix R) ref new k l).1).re = 0 := congrArg Complex.re w
    rw [add_re] at w'
    linarith

end

/-! ## Binary numbers with `p + 1` digits -/

/-- A way to round the significand of a number to a whole number. -/
structure WholeRounding (g : ℝ → ℤ) : Prop where
  mono : Monotone g
  whole : ∀ m : ℤ, g m = m

/-- To the nearest whole number, halves to the even one, as in IEEE 754. -/
noncomputable def nearestEven (t : ℝ) : ℤ :=
  if t - ⌊t⌋ < 1 / 2 then ⌊t⌋ else if 1 / 2 < t - ⌊t⌋ then ⌊t⌋ + 1 else if Even ⌊t⌋ then ⌊t⌋ else ⌊t⌋ + 1

theorem nearestEven_whole : WholeRounding nearestEven where
  mono := by
    intro s t hst
    have lo : ⌊t⌋ ≤ nearestEven t := by
      unfold nearestEven
      split
      · exact le_rfl
      · split
        · omega
        · split <;> omega
    have up : nearestEven s ≤ ⌊s⌋ + 1 := by
      unfold nearestEven
      split
      · omega
      · split
        · exact le_rfl
        · split <;> omega
    rcases lt_or_eq_of_le (Int.floor_mono hst) with h | h
    · omega
    · by_cases h1 : s - ⌊s⌋ < 1 / 2
      · have : nearestEven s = ⌊s⌋ := if_pos h1
        omega
      · by_cases h2 : 1 / 2 < t - ⌊t⌋
        · have : nearestEven t = ⌊t⌋ + 1 := by
            unfold nearestEven
            rw [if_neg (by linarith), if_pos h2]
          omega
        · have e : s = t := by
            have : (⌊s⌋ : ℝ) = ⌊t⌋ := by exact_mod_cast h
            push Not at h1 h2
            linarith
          rw [e]
  whole := fun m => by
    unfold nearestEven
    rw [Int.floor_intCast, if_pos (by norm_num)]

theorem floor_whole : WholeRounding fun t => ⌊t⌋ where
  mono := Int.floor_mono
  whole := fun m => Int.floor_intCast m

/-- A positive number rounded to `p + 1` binary digits. -/
noncomputable def digitsPos (g : ℝ → ℤ) (p : ℕ) (x : ℝ) : ℝ := g (x / 2 ^ (Int.log 2 x - p : ℤ)) * 2 ^ (Int.log 2 x - p : ℤ)

/-- Rounding to `p + 1` binary digits, the same for both signs. -/
noncomputable def digits (g : ℝ → ℤ) (p : ℕ) (x : ℝ) : ℝ := if x < 0 then -digitsPos g p (-x) else digitsPos g p x

theorem intLog_eq (x : ℝ) (hx : 0 < x) (e : ℤ) (h1 : (2 : ℝ) ^ e ≤ x) (h2 : x < (2 : ℝ) ^ (e + 1)) : Int.log 2 x = e := by
  have a := (Int.zpow_le_iff_le_log (b := 2) (by norm_num) hx).1 (by exact_mod_cast h1)
  have b := (Int.lt_zpow_iff_log_lt (b := 2) (by norm_num) hx).1 (by exact_mod_cast h2)
  omega

theorem intLog_bounds (x : ℝ) (hx : 0 < x) : (2 : ℝ) ^ Int.log 2 x ≤ x ∧ x < (2 : ℝ) ^ (Int.log 2 x + 1) := by
  have a := Int.zpow_log_le_self (b := 2) (by norm_num) hx
  have b := Int.lt_zpow_succ_log_self (b := 2) (by norm_num) x
  exact ⟨by exact_mod_cast a, by exact_mod_cast b⟩

section
variable {g : ℝ → ℤ} (G : WholeRounding g) (p : ℕ)
include G

theorem digitsPos_zero : digitsPos g p 0 = 0 := by
  have : g 0 = 0 := by exact_mod_cast G.whole 0
  unfold digitsPos
  rw [zero_div, this, Int.cast_zero, zero_mul]

theorem significand (x : ℝ) (hx : 0 < x) :
    2 ^ p ≤ g (x / 2 ^ (Int.log 2 x - p : ℤ)) ∧ g (x / 2 ^ (Int.log 2 x - p : ℤ)) ≤ 2 ^ (p + 1) := by
  obtain ⟨b1, b2⟩ := intLog_bounds x hx
  have hu : (0 : ℝ) < 2 ^ (Int.log 2 x - p : ℤ) := by positivity
  have e : (2 : ℝ) ^ Int.log 2 x = ((2 ^ p : ℤ) : ℝ) * 2 ^ (Int.log 2 x - p : ℤ) := by
    push_cast
    rw [← zpow_natCast, ← zpow_add₀ (by norm_num)]
    congr 1
    ring
  have e' : (2 : ℝ) ^ (Int.log 2 x + 1) = ((2 ^ (p + 1) : ℤ) : ℝ) * 2 ^ (Int.log 2 x - p : ℤ) := by
    rw [zpow_add₀ (by norm_num), e]
    push_cast
    ring
  constructor
  · rw [← G.whole (2 ^ p)]
    exact G.mono (by rw [le_div_iff₀ hu, ← e]; exact b1)
  · rw [← G.whole (2 ^ (p + 1))]
    exact G.mono (by rw [div_le_iff₀ hu, ← e']; exact b2.le)

theorem digitsPos_pos (x : ℝ) (hx : 0 < x) : 0 < digitsPos g p x := by
  have hu : (0 : ℝ) < 2 ^ (Int.log 2 x - p : ℤ) := by positivity
  have h := (significand G p x hx).1
  have : (0 : ℤ) < g (x / 2 ^ (Int.log 2 x - p : ℤ)) := lt_of_lt_of_le (by positivity) h
  exact mul_pos (by exact_mod_cast this) hu

theorem digitsPos_again (x : ℝ) (hx : 0 < x) : digitsPos g p (digitsPos g p x) = digitsPos g p x := by
  obtain ⟨s1, s2⟩ := significand G p x hx
  have hu : (0 : ℝ) < 2 ^ (Int.log 2 x - p : ℤ) := by positivity
  have hpos := digitsPos_pos G p x hx
  have hd : digitsPos g p x = g (x / 2 ^ (Int.log 2 x - p : ℤ)) * 2 ^ (Int.log 2 x - p : ℤ) := rfl
  generalize g (x / 2 ^ (Int.log 2 x - p : ℤ)) = m at *
  have e : (2 : ℝ) ^ Int.log 2 x = ((2 ^ p : ℤ) : ℝ) * 2 ^ (Int.log 2 x - p : ℤ) := by
    push_cast
    rw [← zpow_natCast, ← zpow_add₀ (by norm_num)]
    congr 1
    ring
  have e' : (2 : ℝ) ^ (Int.log 2 x + 1) = ((2 ^ (p + 1) : ℤ) : ℝ) * 2 ^ (Int.log 2 x - p : ℤ) := by
    rw [zpow_add₀ (by norm_num), e]
    push_cast
    ring
  have e2 : (2 : ℝ) ^ (Int.log 2 x + 1 - p : ℤ) = 2 * 2 ^ (Int.log 2 x - p : ℤ) := by
    rw [← zpow_one_add₀ (by norm_num)]
    congr 1
    ring
  rcases lt_or_eq_of_le s2 with h | h
  · have hl : Int.log 2 (digitsPos g p x) = Int.log 2 x := by
      refine intLog_eq _ hpos _ ?_ ?_
      · rw [hd, e]
        exact mul_le_mul_of_nonneg_right (by exact_mod_cast s1) hu.le
      · rw [hd, e']
        exact mul_lt_mul_of_pos_right (by exact_mod_cast h) hu
    conv_lhs => rw [digitsPos, hl]
    rw [hd, mul_div_cancel_right₀ _ hu.ne', G.whole]
  · have hv : digitsPos g p x = (2 : ℝ) ^ (Int.log 2 x + 1) := by rw [hd, h, e']
    have hl : Int.log 2 (digitsPos g p x) = Int.log 2 x + 1 := by
      refine intLog_eq _ hpos _ hv.ge ?_
      rw [hv]
      exact zpow_lt_zpow_right₀ (by norm_num) (by omega)
    conv_lhs => rw [digitsPos, hl]
    have q : digitsPos g p x / (2 : ℝ) ^ (Int.log 2 x + 1 - p : ℤ) = ((2 ^ p : ℤ) : ℝ) := by
      rw [hd, h, e2]
      push_cast
      field_simp
      ring
    rw [q, G.whole, e2, hd, h]
    push_cast
    ring

omit G in
theorem digitsPos_double (x : ℝ) (hx : 0 < x) : digitsPos g p (2 * x) = 2 * digitsPos g p x := by
  obtain ⟨b1, b2⟩ := intLog_bounds x hx
  have hl : Int.log 2 (2 * x) = Int.log 2 x + 1 := by
    refine intLog_eq _ (by positivity) _ ?_ ?_
    · rw [zpow_add₀ (by norm_num), zpow_one, mul_comm]
      linarith
    · rw [zpow_add₀ (by norm_num) (Int.log 2 x + 1), zpow_one, mul_comm]
      linarith
  have hz : (2 : ℝ) ^ (Int.log 2 x + 1 - p : ℤ) = 2 * 2 ^ (Int.log 2 x - p : ℤ) := by
    rw [← zpow_one_add₀ (by norm_num)]
    congr 1
    ring
  unfold digitsPos
  rw [hl, hz, mul_div_mul_left _ _ (by norm_num : (2 : ℝ) ≠ 0)]
  ring

/-- C199: rounding to any number of binary digits (53 in double precision), the significand in any way that keeps the order and whole
numbers, is a rounding in this sense. -/
theorem digits_rounds : Rounds (digits g p) where
  again := fun x => by
    rcases lt_trichotomy x 0 with h | h | h
    · have q := digitsPos_pos G p (-x) (by linarith)
      have e : digits g p x = -digitsPos g p (-x) := if_pos h
      rw [e, digits, if_pos (show -digitsPos g p (-x) < 0 by linarith), neg_neg, digitsPos_again G p _ (by linarith)]
    · subst h
      simp [digits, digitsPos_zero G]
    · have q := digitsPos_pos G p x h
      have e : digits g p x = digitsPos g p x := if_neg (by linarith)
      rw [e, digits, if_neg (by linarith), digitsPos_again G p x h]
  one := by
    have e : digits g p 1 = digitsPos g p 1 := if_neg (by norm_num)
    have hc : (2 : ℝ) ^ (0 - p : ℤ) = ((2 ^ p : ℤ) : ℝ)⁻¹ := by
      push_cast
      rw [zero_sub, zpow_neg, zpow_natCast]
    rw [e, digitsPos, Int.log_one_right, hc, one_div, inv_inv, G.whole, mul_inv_cancel₀ (by positivity)]
  odd := fun x => by
    rcases lt_trichotomy x 0 with h | h | h
    · unfold digits
      rw [if_neg (by linarith), if_pos h, neg_neg]
    · subst h
      simp [digits, digitsPos_zero G]
    · unfold digits
      rw [if_pos (by linarith), if_neg (by linarith), neg_neg]
  double := fun x => by
    rcases lt_trichotomy x 0 with h | h | h
    · unfold digits
      rw [if_pos (by linarith), if_pos h, ← mul_neg, digitsPos_double p _ (by linarith)]
      ring
    · subst h
      simp [digits, digitsPos_zero G]
    · unfold digits
      rw [if_neg (by linarith), if_neg (by linarith), digitsPos_double p x h]

/-- C199: and never takes a positive number to zero. -/
theorem digits_pos (x : ℝ) (hx : 0 < x) : 0 < digits g p x := by
  unfold digits
  rw [if_neg (by linarith)]
  exact digitsPos_pos G p x hx

end

/-! ## Worked instances -/

/-- Double precision without limits on the exponent. -/
theorem double_rounds : Rounds (digits nearestEven 52) := digits_rounds nearestEven_whole 52

/-- An exposure with noise 3 subtracted from itself in double precision. -/
example (d : PixImg (Machine (digits nearestEven 52))) (hv : d.var.1 = ((3 : ℝ) : ℂ)) (hz : d.zp.1 = 1) (i j : ℕ) :
    ((pixDiff (roundPix double_rounds) d d).px i j).1 = 0 :=
  bits_self_round double_rounds (digits_pos nearestEven_whole 52) d d rfl rfl rfl (by rw [hz]; exact one_ne_zero) 3 3 (by norm_num)
    (by norm_num) hv hv i j

/-- Counts of half the size. -/
example (ref new : PixImg (Machine (digits nearestEven 52))) :
    pixDiff (roundPix double_rounds) (ref.inUnits (Machine.double double_rounds)) (new.inUnits (Machine.double double_rounds)) =
      pixDiff (roundPix double_rounds) ref new :=
  bits_units _ _ (roundPix_doubling _) ref new

/-- It does round: 7/4 is 2 with two digits to the nearest, and 3/2 toward zero. -/
example : digits nearestEven 1 (7 / 4) = 2 ∧ digits (fun t => ⌊t⌋) 1 (7 / 4) = 3 / 2 := by
  have hl : Int.log 2 (7 / 4 : ℝ) = 0 := intLog_eq _ (by norm_num) 0 (by norm_num) (by norm_num)
  have f : ⌊(7 / 4 : ℝ) / 2 ^ ((0 : ℤ) - (1 : ℕ) : ℤ)⌋ = 3 := by
    rw [Int.floor_eq_iff]
    norm_num [zpow_neg]
  constructor
  · unfold digits digitsPos nearestEven
    rw [if_neg (by norm_num), hl, f, if_neg (by norm_num [zpow_neg]), if_neg (by norm_num [zpow_neg]),
      if_neg (by decide)]
    norm_num [zpow_neg]
  · unfold digits digitsPos
    rw [if_neg (by norm_num), hl]
    beta_reduce
    rw [f]
    norm_num [zpow_neg]

/-- Exchanging any two exposures of one shape with zero point one changes the sign of D only. -/
example (ref new : PixImg (Machine (digits nearestEven 52))) (hn : new.zp = .of double_rounds 1) (hr : ref.zp = .of double_rounds 1)
    (hs : new.interped.shape = ref.interped.shape) (i j : ℕ) :
    (pixDiff (roundPix double_rounds) new ref).px i j =
      (roundPix double_rounds).neg ((pixDiff (roundPix double_rounds) ref new).px i j) := by
  refine bits_exchange _ (roundPix_sound _) ref new (hn.trans hr.symm) ?_ hs i j
  rw [hr]
  intro h
  have := congrArg Subtype.val h
  change rdC _ 1 = rdC _ 0 at this
  rw [rdC_one double_rounds, rdC_zero double_rounds] at this
  exact one_ne_zero this

end PI
