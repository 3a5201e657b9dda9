import Verif.Props.Transient
import Verif.Props.Peak

/-!
# Property C162: the sky in the difference image and in the coadd

Specification vocabulary: `through`, a sky (any brightness in every pixel) as an image with a given PSF shows it.
-/

namespace PI

open Complex Finset

/-- The sky `t` seen through a PSF stamp whose pixel `(A, B)` is its centre: every pixel of the sky spreads its light over the
pixels around it as the stamp says; what leaves the frame on one side comes in on the other. -/
def through (h w : ℕ) (psf : Img ℝ) (A B : ℤ) (t : ℕ → ℕ → ℝ) : Img ℝ :=
  ⟨h, w, fun i j => ∑ X ∈ range h, ∑ Y ∈ range w,
    t X Y * padPx psf (((i : ℤ) - X + A) % h).toNat (((j : ℤ) - Y + B) % w).toNat⟩

theorem corner_index (n i X : ℕ) (A : ℤ) (hn : n ≠ 0) :
    (i + (n - ((X - A) % (n : ℤ)).toNat)) % n = (((i : ℤ) - X + A) % n).toNat := by
  have l := emod_toNat_lt n hn (X - A)
  have g := Int.emod_nonneg ((X : ℤ) - A) (show (n : ℤ) ≠ 0 by exact_mod_cast hn)
  have e : (((i + (n - ((X - A) % (n : ℤ)).toNat)) % n : ℕ) : ℤ) = ((i : ℤ) - X + A) % n := by
    rw [Int.natCast_mod, Nat.cast_add, Nat.cast_sub l.le, Int.toNat_of_nonneg g]
    have : (i : ℤ) + ((n : ℤ) - (X - A) % n) = (i - (X - A) % n) + n := by ring
    rw [this, Int.add_emod_right, Int.sub_emod, Int.emod_emod, ← Int.sub_emod]
    congr 1
    ring
  rw [← e, Int.toNat_natCast]

theorem swap_pairs {M : Type} [AddCommMonoid M] (h w : ℕ) (f : ℕ → ℕ → ℕ → ℕ → M) :
    ∑ i ∈ range h, ∑ j ∈ range w, ∑ X ∈ range h, ∑ Y ∈ range w, f i j X Y =
      ∑ X ∈ range h, ∑ Y ∈ range w, ∑ i ∈ range h, ∑ j ∈ range w, f i j X Y := by
  rw [Finset.sum_congr rfl fun i _ => Finset.sum_comm, Finset.sum_comm]
  refine Finset.sum_congr rfl fun X _ => ?_
  rw [Finset.sum_congr rfl fun i _ => Finset.sum_comm, Finset.sum_comm]

/-- The sky is a star in every pixel. -/
theorem through_stars (h w : ℕ) (hh : h ≠ 0) (hw : w ≠ 0) (psf : Img ℝ) (A B : ℤ) (t : ℕ → ℕ → ℝ) (i j : ℕ) :
    (through h w psf A B t).px i j = ∑ X ∈ range h, ∑ Y ∈ range w, (skyStar h w psf A B X Y (t X Y)).px i j := by
  change ∑ X ∈ range h, ∑ Y ∈ range w,
    t X Y * padPx psf (((i : ℤ) - X + A) % h).toNat (((j : ℤ) - Y + B) % w).toNat = _
  refine Finset.sum_congr rfl fun X _ => Finset.sum_congr rfl fun Y _ => ?_
  unfold skyStar starAt
  simp only []
  rw [corner_index h i X A hh, corner_index w j Y B hw]

theorem fftOrtho_through (h w : ℕ) (hh : h ≠ 0) (hw : w ≠ 0) (psf : Img ℝ) (A B : ℤ) (t : ℕ → ℕ → ℝ) (k l : ℕ) :
    (fftOrtho (toC (through h w psf A B t))).px k l = (fftOrtho (padTo h w (toC psf))).px k l *
      ∑ X ∈ range h, ∑ Y ∈ range w, t X Y * shiftPhase h w (((X - A : ℤ) : ℝ), ((Y - B : ℤ) : ℝ)) k l := by
  have e : (fftOrtho (toC (through h w psf A B t))).px k l = ∑ X ∈ range h, ∑ Y ∈ range w,
      (fftOrtho (toC (skyStar h w psf A B X Y (t X Y)))).px k l := by
    change (∑ i ∈ range h, ∑ j ∈ range w, ((through h w psf A B t).px i j : ℂ) *
        (tw h ((k : ℝ) * i) * tw w ((l : ℝ) * j))) / (Real.sqrt ((h * w : ℕ) : ℝ) : ℂ) =
      ∑ X ∈ range h, ∑ Y ∈ range w, (∑ i ∈ range h, ∑ j ∈ range w,
        ((skyStar h w psf A B X Y (t X Y)).px i j : ℂ) * (tw h ((k : ℝ) * i) * tw w ((l : ℝ) * j))) /
          (Real.sqrt ((h * w : ℕ) : ℝ) : ℂ)
    simp only [← Finset.sum_div]
    congr 1
    simp only [through_stars h w hh hw, Complex.ofReal_sum, Finset.sum_mul]
    exact swap_pairs h w fun i j X Y => _
  rw [e, Finset.mul_sum]
  refine Finset.sum_congr rfl fun X _ => ?_
  rw [Finset.mul_sum]
  refine Finset.sum_congr rfl fun Y _ => ?_
  rw [fftOrtho_skyStar h w hh hw]
  ring

/-! ## subtract -/

section
variable (env : SubEnv) (it : Bool) (ref new : SubImg) (h w : ℕ) (z : ℝ × ℝ)
    (hmr : ref.mask.HasShape h w) (hmn : new.mask.HasShape h w) (hz : env.zps = .ok z)
    (hc : env.fitted = true ∨ (0 ≤ (centerOfMass new.psf).1 ∧ 0 ≤ (centerOfMass new.psf).2))
    (hr : ref.interped.shape = (h, w)) (hn : new.interped.shape = (h, w)) (hh : h ≠ 0) (hw : w ≠ 0)
    (gr : GuardIdle h w ref.psf) (gn : GuardIdle h w new.psf)
include hr hn hh hw gr gn

theorem gains_sky (A B A' B' : ℤ) (tr tn : ℕ → ℕ → ℝ) (k l : ℕ) (hk : k < h) (hl : l < w) :
    gainNew ref new (z.2 / z.1) k l * (fftOrtho (toC (through h w new.psf A' B' tn))).px k l +
        gainRef ref new (z.2 / z.1) 0 0 k l * (fftOrtho (toC (through h w ref.psf A B tr))).px k l =
      ref.psfHat.px k l * new.psfHat.px k l / (Real.sqrt (normReal ref new (z.2 / z.1) k l) : ℂ) *
        ∑ X ∈ range h, ∑ Y ∈ range w, (tn X Y * shiftPhase h w ((X : ℝ) - A' - (centerOfMass ref.psf).1,
            (Y : ℝ) - B' - (centerOfMass ref.psf).2) k l -
          ((z.2 / z.1 : ℝ) : ℂ) * tr X Y * shiftPhase h w ((X : ℝ) - A - (centerOfMass new.psf).1,
            (Y : ℝ) - B - (centerOfMass new.psf).2) k l) := by
  have rh : ref.interped.h = h := congrArg Prod.fst hr
  have rw0 : ref.interped.w = w := congrArg Prod.snd hr
  have nh : new.interped.h = h := congrArg Prod.fst hn
  have nw : new.interped.w = w := congrArg Prod.snd hn
  rw [fftOrtho_through h w hh hw, fftOrtho_through h w hh hw,
    ← psfHat_idle ref h w rh rw0 gr k l hk hl, ← psfHat_idle new h w nh nw gn k l hk hl]
  unfold gainNew gainRef centredPsf SubImg.h SubImg.w
  rw [rh, rw0, nh, nw]
  have z0 : shiftPhase h w (0, 0) k l = 1 := by simp [shiftPhase, tw_zero]
  rw [z0]
  have s : ∀ (c : ℝ × ℝ) (X Y : ℕ) (U V : ℤ), shiftPhase h w ((X : ℝ) - U - c.1, (Y : ℝ) - V - c.2) k l =
      shiftPhase h w (((X - U : ℤ) : ℝ), ((Y - V : ℤ) : ℝ)) k l * shiftPhase h w (negPair c) k l := by
    intro c X Y U V
    rw [← shiftPhase_add]
    congr 1
    unfold negPair
    push_cast
    simp only [sub_eq_add_neg]
  simp only [s, Finset.sum_sub_distrib, mul_sub, Finset.mul_sum, ← mul_assoc]
  rw [sub_eq_add_neg, ← Finset.sum_neg_distrib]
  congr 1
  · refine Finset.sum_congr rfl fun X _ => Finset.sum_congr rfl fun Y _ => ?_
    ring
  · refine Finset.sum_congr rfl fun X _ => ?_
    rw [← Finset.sum_neg_distrib]
    refine Finset.sum_congr rfl fun Y _ => ?_
    ring

include hmr hmn hz hc

/-- C162: a sky that has not changed leaves no trace in D. Both images show it through their own PSF, at the same places (the
centre of mass of the PSF over a sky pixel), the new image `b` times as bright; `b` is the ratio of the zero points. -/
theorem constant_sky (A B A' B' : ℤ) (t : ℕ → ℕ → ℝ)
    (hx : (centerOfMass ref.psf).1 - A = (centerOfMass new.psf).1 - A')
    (hy : (centerOfMass ref.psf).2 - B = (centerOfMass new.psf).2 - B') (i j : ℕ) :
    (diffOf env ⟨false, false, it⟩ ref new (plusImg ref.interped (through h w ref.psf A B t))
        (plusImg new.interped (through h w new.psf A' B' fun X Y => z.2 / z.1 * t X Y))).px i j =
      (diffOf env ⟨false, false, it⟩ ref new ref.interped new.interped).px i j := by
  rw [diffOf_plus env it ref new h w z hmr hmn hz hc hr hn _ _ ⟨rfl, rfl⟩ ⟨rfl, rfl⟩]
  rw [ifftOrtho_congr h w _ (fun _ _ => 0 * 0), ifftOrtho_const_mul, zero_mul, add_zero]
  intro k hk l hl
  rw [gains_sky ref new h w z hr hn hh hw gr gn A B A' B' t _ k l hk hl]
  rw [Finset.sum_eq_zero, mul_zero, mul_zero]
  intro X _
  refine Finset.sum_eq_zero fun Y _ => ?_
  have e1 : (X : ℝ) - A' - (centerOfMass ref.psf).1 = (X : ℝ) - A - (centerOfMass new.psf).1 := by linarith
  have e2 : (Y : ℝ) - B' - (centerOfMass ref.psf).2 = (Y : ℝ) - B - (centerOfMass new.psf).2 := by linarith
  rw [e1, e2, Complex.ofReal_mul, sub_self]

omit hmr hmn hz hc in
/-- What the two skies add up to in D. -/
theorem sky_term (A B A' B' : ℤ) (tr tn : ℕ → ℕ → ℝ) (hA : centerOfMass ref.psf = ((A : ℝ), (B : ℝ)))
    (hA' : centerOfMass new.psf = ((A' : ℝ), (B' : ℝ))) (hb : z.2 / z.1 ≠ 0) (hv : ref.var ≠ 0 ∨ new.var ≠ 0)
    (P : Img ℝ) (hP : P = (ifftOrtho (pHat ref new (z.2 / z.1))).map Complex.re) (i j : ℕ) (hi : i < h) (hj : j < w) :
    ((ifftOrtho ⟨h, w, fun k l =>
        gainNew ref new (z.2 / z.1) k l * (fftOrtho (toC (through h w new.psf A' B' tn))).px k l +
        gainRef ref new (z.2 / z.1) 0 0 k l * (fftOrtho (toC (through h w ref.psf A B tr))).px k l⟩).px i j).re =
      (∑ X ∈ range h, ∑ Y ∈ range w, (tn X Y - z.2 / z.1 * tr X Y) *
          P.px (((i : ℤ) - (X - A - A')) % h).toNat (((j : ℤ) - (Y - B - B')) % w).toNat) /
          Real.sqrt (ref.var ^ 2 * (z.2 / z.1) ^ 2 + new.var ^ 2) := by
  have rh : ref.interped.h = h := congrArg Prod.fst hr
  have rw0 : ref.interped.w = w := congrArg Prod.snd hr
  have e3 : pHat ref new (z.2 / z.1) = ⟨h, w, (pHat ref new (z.2 / z.1)).px⟩ := by
    have e1 : (pHat ref new (z.2 / z.1)).h = h := rh
    have e2 : (pHat ref new (z.2 / z.1)).w = w := rw0
    rw [← e1, ← e2]
  have key : (ifftOrtho ⟨h, w, fun k l =>
        gainNew ref new (z.2 / z.1) k l * (fftOrtho (toC (through h w new.psf A' B' tn))).px k l +
        gainRef ref new (z.2 / z.1) 0 0 k l * (fftOrtho (toC (through h w ref.psf A B tr))).px k l⟩).px i j =
      ∑ X ∈ range h, ∑ Y ∈ range w,
        (((tn X Y - z.2 / z.1 * tr X Y) / Real.sqrt (ref.var ^ 2 * (z.2 / z.1) ^ 2 + new.var ^ 2) : ℝ) : ℂ) *
          (ifftOrtho ⟨h, w, (pHat ref new (z.2 / z.1)).px⟩).px (((i : ℤ) - (X - A - A')) % h).toNat
            (((j : ℤ) - (Y - B - B')) % w).toNat := by
    have roll : ∀ X Y : ℕ, (ifftOrtho ⟨h, w, (pHat ref new (z.2 / z.1)).px⟩).px (((i : ℤ) - (X - A - A')) % h).toNat
            (((j : ℤ) - (Y - B - B')) % w).toNat = _ := fun X Y =>
      (ifftOrtho_roll h w (pHat ref new (z.2 / z.1)).px (X - A - A') (Y - B - B') i j hi hj).symm
    simp only [roll, ← ifftOrtho_const_mul]
    rw [Finset.sum_congr rfl fun X _ => (ifftOrtho_sum (range w) h w (fun Y k l => _ * _) i j).symm]
    rw [← ifftOrtho_sum (range h) h w (fun X k l => ∑ Y ∈ range w, _) i j]
    refine ifftOrtho_congr h w _ _ ?_ i j
    intro k hk l hl
    rw [gains_sky ref new h w z hr hn hh hw gr gn A B A' B' tr tn k l hk hl, pHat_eq ref new z hb hv k l, hA, hA',
      Finset.mul_sum]
    refine Finset.sum_congr rfl fun X _ => ?_
    rw [Finset.mul_sum]
    refine Finset.sum_congr rfl fun Y _ => ?_
    have e1 : (X : ℝ) - A' - A = ((X - A - A' : ℤ) : ℝ) := by push_cast; ring
    have e2 : (X : ℝ) - A - A' = ((X - A - A' : ℤ) : ℝ) := by push_cast; ring
    have e4 : (Y : ℝ) - B' - B = ((Y - B - B' : ℤ) : ℝ) := by push_cast; ring
    have e5 : (Y : ℝ) - B - B' = ((Y - B - B' : ℤ) : ℝ) := by push_cast; ring
    simp only [e1, e2, e4, e5]
    push_cast
    ring
  rw [key, Complex.re_sum, Finset.sum_div]
  refine Finset.sum_congr rfl fun X _ => ?_
  rw [Complex.re_sum, Finset.sum_div]
  refine Finset.sum_congr rfl fun Y _ => ?_
  rw [Complex.re_ofReal_mul, hP, div_mul_eq_mul_div]
  congr 2
  change _ = ((ifftOrtho (pHat ref new (z.2 / z.1))).px _ _).re
  rw [e3]


/-- C162: what changed in the sky appears in D as seen through the PSF image P that `subtract` returns: D gains the change of
the sky, new less `b` times old, spread as P says and divided by `sqrt(b² ref.var² + new.var²)`. P is displaced by the centres of
both PSFs. -/
theorem changed_sky (A B A' B' : ℤ) (tr tn : ℕ → ℕ → ℝ) (hA : centerOfMass ref.psf = ((A : ℝ), (B : ℝ)))
    (hA' : centerOfMass new.psf = ((A' : ℝ), (B' : ℝ))) (hb : z.2 / z.1 ≠ 0) (hv : ref.var ≠ 0 ∨ new.var ≠ 0) :
    ∃ out, subtract env ⟨false, false, it⟩ ref new = .ok out ∧ ∀ i < h, ∀ j < w,
      ((diffOf env ⟨false, false, it⟩ ref new (plusImg ref.interped (through h w ref.psf A B tr))
        (plusImg new.interped (through h w new.psf A' B' tn))).px i j).re = (out.D.px i j).re +
        (∑ X ∈ range h, ∑ Y ∈ range w, (tn X Y - z.2 / z.1 * tr X Y) *
          out.P.px (((i : ℤ) - (X - A - A')) % h).toNat (((j : ℤ) - (Y - B - B')) % w).toNat) /
          Real.sqrt (ref.var ^ 2 * (z.2 / z.1) ^ 2 + new.var ^ 2) := by
  obtain ⟨out, e, hD, hP, _⟩ := subtract_returns env it ref new h w hr hn hmr hmn z hz hc
  refine ⟨out, e, ?_⟩
  intro i hi j hj
  have hd : diffOf env ⟨false, false, it⟩ ref new ref.interped new.interped = out.D := by
    have : subtract env ⟨false, false, it⟩ (ref.withPixels ref.interped) (new.withPixels new.interped) = .ok out := e
    unfold diffOf
    rw [this]
  rw [diffOf_plus env it ref new h w z hmr hmn hz hc hr hn _ _ ⟨rfl, rfl⟩ ⟨rfl, rfl⟩, hd, Complex.add_re]
  congr 1
  exact sky_term ref new h w z hr hn hh hw gr gn A B A' B' tr tn hA hA' hb hv out.P hP i j hi hj

/-- C162: and of two images that show nothing but the sky, D is the change of the sky seen through P. -/
theorem sky_alone (A B A' B' : ℤ) (tr tn : ℕ → ℕ → ℝ) (hA : centerOfMass ref.psf = ((A : ℝ), (B : ℝ)))
    (hA' : centerOfMass new.psf = ((A' : ℝ), (B' : ℝ))) (hb : z.2 / z.1 ≠ 0) (hv : ref.var ≠ 0 ∨ new.var ≠ 0)
    (er : ref.interped = through h w ref.psf A B tr) (en : new.interped = through h w new.psf A' B' tn) :
    ∃ out, subtract env ⟨false, false, it⟩ ref new = .ok out ∧ ∀ i < h, ∀ j < w,
      (out.D.px i j).re = (∑ X ∈ range h, ∑ Y ∈ range w, (tn X Y - z.2 / z.1 * tr X Y) *
          out.P.px (((i : ℤ) - (X - A - A')) % h).toNat (((j : ℤ) - (Y - B - B')) % w).toNat) /
          Real.sqrt (ref.var ^ 2 * (z.2 / z.1) ^ 2 + new.var ^ 2) := by
  obtain ⟨out, e, hD, hP, _⟩ := subtract_returns env it ref new h w hr hn hmr hmn z hz hc
  refine ⟨out, e, ?_⟩
  intro i hi j hj
  have hd : diffOf env ⟨false, false, it⟩ ref new ref.interped new.interped = out.D := by
    have : subtract env ⟨false, false, it⟩ (ref.withPixels ref.interped) (new.withPixels new.interped) = .ok out := e
    unfold diffOf
    rw [this]
  rw [← sky_term ref new h w z hr hn hh hw gr gn A B A' B' tr tn hA hA' hb hv out.P hP i j hi hj, ← hd,
    diffOf_eq env it ref new h w z hmr hmn hz hc hr hn ref.interped new.interped hr hn, ifftOrtho_add]
  have f1 := filter_eq (toC (through h w new.psf A' B' tn)) (gainNew ref new (z.2 / z.1)) i j
  have f2 := filter_eq (toC (through h w ref.psf A B tr)) (gainRef ref new (z.2 / z.1) 0 0) i j
  rw [er, en]
  exact congrArg Complex.re (congrArg₂ (· + ·) f1.symm f2.symm)

end

/-! ## coadd -/

section
variable (lt : List CoImg → List CoImg → Option Bool) {n : ℕ} (hn : 0 < n)
    (d : Fin n → SinglePsf) (h w psfShape : ℕ) (procs : ℤ)
    (hs : ∀ j, (d j).interped.h = h ∧ (d j).interped.w = w ∧ (d j).mask.HasShape h w)
    (hp : procs ≤ n) (hp' : procs ≤ 2 ^ 25) (hb : procs * n ≤ 2 ^ 50) (hh : h ≠ 0) (hw : w ≠ 0)
    (ψ : Fin n → Img ℝ) (hψ : ∀ m, (d m).psf = toC (ψ m)) (A B : Fin n → ℤ)
    (hc : ∀ m, (d m).com = ((A m : ℝ), (B m : ℝ)))
    (hpow : ∀ k < h, ∀ l < w,
      zackayPower (fun j => (d j).zp) (fun j => (d j).var) (fun j => (d j).psfHat.px k l) ≠ 0)
include hs hh hw hψ hc hpow

/-- What a common sky adds up to, frequency by frequency. -/
theorem coadd_sky_hat (t : ℕ → ℕ → ℝ) (k l : ℕ) (hk : k < h) (hl : l < w) :
    ∑ m, gainCoadd d h w m k l *
        (fftOrtho (toC (through h w (ψ m) (A m) (B m) fun X Y => (d m).zp * t X Y))).px k l =
      ∑ X ∈ range h, ∑ Y ∈ range w, (t X Y : ℂ) * (((Real.sqrt (zackayPower (fun j => (d j).zp) (fun j => (d j).var)
        (fun j => (d j).psfHat.px k l)) : ℝ) : ℂ) / (Real.sqrt ((h * w : ℕ) : ℝ) : ℂ) *
          shiftPhase h w ((X : ℝ), (Y : ℝ)) k l) := by
  have pw := hpow k hk l hl
  have pn := zackayPower_nonneg (fun j => (d j).zp) (fun j => (d j).var) (fun j => (d j).psfHat.px k l)
  have term : ∀ m, gainCoadd d h w m k l *
        (fftOrtho (toC (through h w (ψ m) (A m) (B m) fun X Y => (d m).zp * t X Y))).px k l =
      (((d m).zp ^ 2 / (d m).var ^ 2 * normSq ((d m).psfHat.px k l) : ℝ) : ℂ) *
        ((∑ X ∈ range h, ∑ Y ∈ range w, t X Y * shiftPhase h w ((X : ℝ), (Y : ℝ)) k l) /
          (Real.sqrt (zackayPower (fun j => (d j).zp) (fun j => (d j).var) (fun j => (d j).psfHat.px k l)) *
            Real.sqrt ((h * w : ℕ) : ℝ) : ℂ)) := by
    intro m
    have hpsf : (fftOrtho (padTo h w (toC (ψ m)))).px k l = (d m).psfHat.px k l := by
      unfold SinglePsf.psfHat
      rw [(hs m).1, (hs m).2.1, hψ m]
    have s : ∀ X Y : ℕ, shiftPhase h w ((X : ℝ), (Y : ℝ)) k l =
        shiftPhase h w (((X - A m : ℤ) : ℝ), ((Y - B m : ℤ) : ℝ)) k l * shiftPhase h w (d m).com k l := by
      intro X Y
      rw [← shiftPhase_add, hc m]
      congr 1
      push_cast
      simp
    rw [fftOrtho_through h w hh hw, hpsf]
    have sum : (∑ X ∈ range h, ∑ Y ∈ range w, (t X Y : ℂ) * shiftPhase h w ((X : ℝ), (Y : ℝ)) k l) =
        (∑ X ∈ range h, ∑ Y ∈ range w, (t X Y : ℂ) *
          shiftPhase h w (((X - A m : ℤ) : ℝ), ((Y - B m : ℤ) : ℝ)) k l) * shiftPhase h w (d m).com k l := by
      simp only [s, Finset.sum_mul, mul_assoc]
    have sum2 : (∑ X ∈ range h, ∑ Y ∈ range w, (((d m).zp * t X Y : ℝ) : ℂ) *
          shiftPhase h w (((X - A m : ℤ) : ℝ), ((Y - B m : ℤ) : ℝ)) k l) =
        ((d m).zp : ℂ) * ∑ X ∈ range h, ∑ Y ∈ range w, (t X Y : ℂ) *
          shiftPhase h w (((X - A m : ℤ) : ℝ), ((Y - B m : ℤ) : ℝ)) k l := by
      simp only [Finset.mul_sum, Complex.ofReal_mul, mul_assoc]
    rw [sum, sum2]
    unfold gainCoadd
    have nsq : ((normSq ((d m).psfHat.px k l) : ℝ) : ℂ) =
      (d m).psfHat.px k l * (starRingEnd ℂ) ((d m).psfHat.px k l) := (Complex.mul_conj _).symm
    push_cast
    rw [nsq]
    ring
  simp only [term]
  rw [← Finset.sum_mul, ← Complex.ofReal_sum]
  change ((zackayPower (fun j => (d j).zp) (fun j => (d j).var) (fun j => (d j).psfHat.px k l) : ℝ) : ℂ) * _ = _
  generalize zackayPower (fun j => (d j).zp) (fun j => (d j).var) (fun j => (d j).psfHat.px k l) = Q at pw pn ⊢
  have hQ : ((Real.sqrt Q : ℝ) : ℂ) * ((Real.sqrt Q : ℝ) : ℂ) = (Q : ℂ) := by
    rw [← Complex.ofReal_mul, Real.mul_self_sqrt pn]
  have hQ0 : ((Real.sqrt Q : ℝ) : ℂ) ≠ 0 := by
    exact_mod_cast (Real.sqrt_pos.2 (lt_of_le_of_ne pn (Ne.symm pw))).ne'
  rw [← hQ]
  generalize ((Real.sqrt Q : ℝ) : ℂ) = S at hQ0 ⊢
  rw [mul_div_assoc', mul_comm S ((Real.sqrt ((h * w : ℕ) : ℝ) : ℂ)), ← div_div]
  have : ∀ a b c : ℂ, S * S * a / b / S = S / b * a := by
    intro a b _
    field_simp
  rw [this _ _ 0, Finset.mul_sum]
  refine Finset.sum_congr rfl fun X _ => ?_
  rw [Finset.mul_sum]
  exact Finset.sum_congr rfl fun Y _ => by ring

include hn hp hp' hb

/-- What a common sky adds up to in R. -/
theorem coadd_sky_term (t : ℕ → ℕ → ℝ) : ∃ out,
    coaddCore lt ((List.ofFn d).map SinglePsf.toCoImg) psfShape procs = .ok out ∧ ∀ i < h, ∀ j < w,
      ∑ m, ∑ a ∈ range h, ∑ b ∈ range w,
          (toC (through h w (ψ m) (A m) (B m) fun X Y => (d m).zp * t X Y)).px a b *
            impulseResp h w (gainCoadd d h w m) i j a b =
        ((Real.sqrt (zackayPower (fun j => (d j).zp) (fun j => (d j).var) (fun j => (d j).psfHat.px 0 0)) : ℝ) : ℂ) *
          ∑ X ∈ range h, ∑ Y ∈ range w, (t X Y : ℂ) *
            out.Pr.px (((i : ℤ) - (X - psfShape)) % h).toNat (((j : ℤ) - (Y - psfShape)) % w).toNat := by
  obtain ⟨out, e, _, _, hPr, _⟩ := coadd_returns_psf lt hn d h w psfShape procs hh hw hs hp hp' hb
  refine ⟨out, e, ?_⟩
  intro i hi j hj
  have f' : ∀ m, ∑ a ∈ range h, ∑ b ∈ range w,
      (toC (through h w (ψ m) (A m) (B m) fun X Y => (d m).zp * t X Y)).px a b *
        impulseResp h w (gainCoadd d h w m) i j a b =
      (ifftOrtho ⟨h, w, fun k l => gainCoadd d h w m k l *
        (fftOrtho (toC (through h w (ψ m) (A m) (B m) fun X Y => (d m).zp * t X Y))).px k l⟩).px i j :=
    fun m => (filter_eq (toC (through h w (ψ m) (A m) (B m) fun X Y => (d m).zp * t X Y)) (gainCoadd d h w m) i j).symm
  simp only [f']
  rw [← ifftOrtho_sum, ifftOrtho_congr h w _ _ (fun k hk l hl =>
    coadd_sky_hat d h w hs hh hw ψ hψ A B hc hpow t k l hk hl),
    ifftOrtho_sum (range h) h w (fun X k l => ∑ Y ∈ range w, _) i j, Finset.mul_sum]
  refine Finset.sum_congr rfl fun X _ => ?_
  rw [ifftOrtho_sum (range w) h w (fun Y k l => _ * _) i j, Finset.mul_sum]
  refine Finset.sum_congr rfl fun Y _ => ?_
  rw [ifftOrtho_const_mul]
  have roll := ifftOrtho_roll h w (fun k l => ((Real.sqrt (zackayPower (fun j => (d j).zp) (fun j => (d j).var)
        (fun j => (d j).psfHat.px k l)) : ℝ) : ℂ) / (Real.sqrt ((h * w : ℕ) : ℝ) : ℂ)) X Y i j hi hj
  rw [Int.cast_natCast, Int.cast_natCast] at roll
  rw [roll]
  have nn : ∀ (N : ℕ), N ≠ 0 → ∀ (u s : ℤ) (t : ℕ), ((((u - (s - t)) % (N : ℤ)).toNat : ℤ) - (t : ℤ)) % N = (u - s) % N := by
    intro N hN u s t
    have h1 := Int.emod_nonneg (u - (s - t)) (show (N : ℤ) ≠ 0 by exact_mod_cast hN)
    rw [Int.toNat_of_nonneg h1, Int.emod_sub_emod]
    congr 1
    ring
  rw [hPr _ (emod_toNat_lt h hh _) _ (emod_toNat_lt w hw _), nn h hh, nn w hw]
  have hs0 : ((Real.sqrt (zackayPower (fun j => (d j).zp) (fun j => (d j).var)
      (fun j => (d j).psfHat.px 0 0)) : ℝ) : ℂ) ≠ 0 := by
    have h1 := hpow 0 (by omega) 0 (by omega)
    have h2 := zackayPower_nonneg (fun j => (d j).zp) (fun j => (d j).var) (fun j => (d j).psfHat.px 0 0)
    exact_mod_cast (Real.sqrt_pos.2 (lt_of_le_of_ne h2 (Ne.symm h1))).ne'
  rw [mul_left_comm, ← mul_div_assoc, mul_div_cancel_left₀ _ hs0]
  congr 1
  change (∑ k ∈ range h, ∑ l ∈ range w, _ / (Real.sqrt ((h * w : ℕ) : ℝ) : ℂ) * (tw h _ * tw w _)) /
    (Real.sqrt ((h * w : ℕ) : ℝ) : ℂ) = _
  rw [← sqrt_mul_self_cast, ← div_div]
  congr 1
  rw [Finset.sum_div]
  refine Finset.sum_congr rfl fun k _ => ?_
  rw [Finset.sum_div]
  refine Finset.sum_congr rfl fun l _ => ?_
  rw [div_mul_eq_mul_div]

/-- C162: a sky that all images show through their PSFs, in the proportion of their zero points, adds to R the same sky seen
through the PSF image that `coadd` returns (displaced by the stamp size), times the square root of the weighted PSF power at
frequency zero. -/
theorem coadd_sky (t : ℕ → ℕ → ℝ) : ∃ out,
    coaddCore lt ((List.ofFn d).map SinglePsf.toCoImg) psfShape procs = .ok out ∧ ∀ i < h, ∀ j < w,
      (coaddOf lt d psfShape procs fun m => plusImg (d m).interped
          (toC (through h w (ψ m) (A m) (B m) fun X Y => (d m).zp * t X Y))).px i j = out.R.px i j +
        ((Real.sqrt (zackayPower (fun j => (d j).zp) (fun j => (d j).var) (fun j => (d j).psfHat.px 0 0)) : ℝ) : ℂ) *
          ∑ X ∈ range h, ∑ Y ∈ range w, (t X Y : ℂ) *
            out.Pr.px (((i : ℤ) - (X - psfShape)) % h).toNat (((j : ℤ) - (Y - psfShape)) % w).toNat := by
  obtain ⟨out, e, k⟩ := coadd_sky_term lt hn d h w psfShape procs hs hp hp' hb hh hw ψ hψ A B hc hpow t
  refine ⟨out, e, ?_⟩
  intro i hi j hj
  have hd : coaddOf lt d psfShape procs (fun m => (d m).interped) = out.R := by
    have : coaddCore lt ((List.ofFn (withPix d fun m => (d m).interped)).map SinglePsf.toCoImg) psfShape procs =
      .ok out := e
    unfold coaddOf
    rw [this]
  rw [← k i hi j hj, ← hd, coaddOf_eq lt hn d h w psfShape procs hs hp hp' hb
      (fun m => plusImg (d m).interped (toC (through h w (ψ m) (A m) (B m) fun X Y => (d m).zp * t X Y)))
      (fun m => ⟨(hs m).1, (hs m).2.1⟩),
    coaddOf_eq lt hn d h w psfShape procs hs hp hp' hb (fun m => (d m).interped)
      (fun m => ⟨(hs m).1, (hs m).2.1⟩)]
  simp only [plusImg, add_mul, Finset.sum_add_distrib]

/-- C162: the coadd of images that show nothing but the sky is the sky seen through the PSF it returns. -/
theorem coadd_sky_alone (t : ℕ → ℕ → ℝ)
    (hi : ∀ m, (d m).interped = toC (through h w (ψ m) (A m) (B m) fun X Y => (d m).zp * t X Y)) : ∃ out,
    coaddCore lt ((List.ofFn d).map SinglePsf.toCoImg) psfShape procs = .ok out ∧ ∀ i < h, ∀ j < w,
      out.R.px i j =
        ((Real.sqrt (zackayPower (fun j => (d j).zp) (fun j => (d j).var) (fun j => (d j).psfHat.px 0 0)) : ℝ) : ℂ) *
          ∑ X ∈ range h, ∑ Y ∈ range w, (t X Y : ℂ) *
            out.Pr.px (((i : ℤ) - (X - psfShape)) % h).toNat (((j : ℤ) - (Y - psfShape)) % w).toNat := by
  obtain ⟨out, e, k⟩ := coadd_sky_term lt hn d h w psfShape procs hs hp hp' hb hh hw ψ hψ A B hc hpow t
  refine ⟨out, e, ?_⟩
  intro i hi' j hj
  have hd : coaddOf lt d psfShape procs (fun m => (d m).interped) = out.R := by
    have : coaddCore lt ((List.ofFn (withPix d fun m => (d m).interped)).map SinglePsf.toCoImg) psfShape procs =
      .ok out := e
    unfold coaddOf
    rw [this]
  rw [← k i hi' j hj, ← hd,
    coaddOf_eq lt hn d h w psfShape procs hs hp hp' hb (fun m => (d m).interped)
      (fun m => ⟨(hs m).1, (hs m).2.1⟩)]
  simp only [hi]

end

/-! ## Cases -/

/-- A sky of three pixels, three times as bright in the new image (zero points 1 and 3) and one brighter still in the last
pixel: D gains P, over the noise. -/
theorem seeing_sky : ∃ out,
    subtract (tinyEnv 1 3) ⟨false, false, true⟩ (seeingSub 5 7 0 1) (seeingSub 1 0 4 2) = .ok out ∧ ∀ j < 3,
      ((diffOf (tinyEnv 1 3) ⟨false, false, true⟩ (seeingSub 5 7 0 1) (seeingSub 1 0 4 2)
        (plusImg (seeingSub 5 7 0 1).interped (through 1 3 seeingPsf 0 1 fun _ Y => Y + 1))
        (plusImg (seeingSub 1 0 4 2).interped
          (through 1 3 seeingPsf 0 1 fun _ Y => 3 * (Y + 1) + if Y = 2 then 1 else 0))).px 0 j).re =
        (out.D.px 0 j).re + out.P.px 0 j / Real.sqrt 13 := by
  obtain ⟨out, e, k⟩ := changed_sky (tinyEnv 1 3) true (seeingSub 5 7 0 1) (seeingSub 1 0 4 2) 1 3 (1, 3)
    (by intro a h; cases h) (by intro a h; cases h) rfl (Or.inl rfl) rfl rfl (by norm_num) (by norm_num)
    seeing_idle seeing_idle 0 1 0 1 (fun _ Y => Y + 1) (fun _ Y => 3 * (Y + 1) + if Y = 2 then 1 else 0)
    seeing_com seeing_com (by norm_num) (Or.inl (by norm_num [seeingSub]))
  refine ⟨out, e, fun j hj => (k 0 (by norm_num) j hj).trans ?_⟩
  have i1 : (((0 : ℕ) : ℤ) - ((0 : ℕ) - 0 - 0)) % ((1 : ℕ) : ℤ) = 0 := by norm_num
  have i2 : (((j : ℤ) - (((2 : ℕ) : ℤ) - 1 - 1)) % ((3 : ℕ) : ℤ)).toNat = j := by omega
  rw [Finset.sum_range_one, Finset.sum_range_succ, Finset.sum_range_succ, Finset.sum_range_one, i1, i2]
  have v : (seeingSub 5 7 0 1).var ^ 2 * (((1 : ℝ), (3 : ℝ)).2 / ((1 : ℝ), (3 : ℝ)).1) ^ 2 + (seeingSub 1 0 4 2).var ^ 2 = 13 := by
    norm_num [seeingSub]
  rw [v]
  norm_num

/-- The common sky of the sharp and the soft exposure, brightness 1 and 3, in their coadd. -/
theorem sharpAndSoft_sky (lt : List CoImg → List CoImg → Option Bool) : ∃ out,
    coaddCore lt ((List.ofFn sharpAndSoft).map SinglePsf.toCoImg) 0 2 = .ok out ∧
      (coaddOf lt sharpAndSoft 0 2 fun m => plusImg (sharpAndSoft m).interped
        (toC (through 1 2 (if m = 0 then ⟨1, 1, fun _ _ => 1⟩ else ⟨1, 2, fun _ _ => 1 / 2⟩) 0 0
          fun _ Y => (sharpAndSoft m).zp * (if Y = 0 then 1 else 3)))).px 0 1 =
        out.R.px 0 1 + (out.Pr.px 0 1 + 3 * out.Pr.px 0 0) := by
  obtain ⟨out, e, k⟩ := coadd_sky lt (n := 2) (by norm_num) sharpAndSoft 1 2 0 2
    (fun m => ⟨rfl, rfl, by intro a h; cases h⟩) (by norm_num) (by norm_num) (by norm_num) (by norm_num) (by norm_num)
    (fun m => if m = 0 then ⟨1, 1, fun _ _ => 1⟩ else ⟨1, 2, fun _ _ => 1 / 2⟩)
    (by intro m; fin_cases m <;> simp [sharpAndSoft, toC, Img.map]) (fun _ => 0) (fun _ => 0)
    (fun _ => by norm_num [sharpAndSoft])
    (by
      intro k hk l hl
      obtain rfl : k = 0 := by omega
      obtain rfl | rfl : l = 0 ∨ l = 1 := by omega
      · exact ne_of_eq_of_ne sharpAndSoft_power.1 (by norm_num)
      · exact ne_of_eq_of_ne sharpAndSoft_power.2 (by norm_num))
    (fun _ Y => if Y = 0 then 1 else 3)
  refine ⟨out, e, (k 0 (by norm_num) 1 (by norm_num)).trans ?_⟩
  have p0 : zackayPower (fun j => (sharpAndSoft j).zp) (fun j => (sharpAndSoft j).var)
      (fun j => (sharpAndSoft j).psfHat.px 0 0) = 1 := sharpAndSoft_power.1
  rw [p0, Finset.sum_range_one, Finset.sum_range_succ, Finset.sum_range_one]
  norm_num

end PI
