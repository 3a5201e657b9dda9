import Verif.Props.Noise
import Verif.Props.VarPsf
import Verif.Props.SubtractScore

/-!
# Properties C106 to C108: what stars look like in the images that `subtract` and `coadd` return
-/

namespace PI

open Complex Finset

/-- A star of flux `c` drawn with the corner of its PSF stamp at `(p, q)`, wrapping around the edges. -/
def starAt (h w : ℕ) (psf : Img ℝ) (p q : ℕ) (c : ℝ) : Img ℝ :=
  ⟨h, w, fun i j => c * padPx psf ((i + (h - p)) % h) ((j + (w - q)) % w)⟩

/-- Inside the frame: the stamp, scaled, at its place. -/
theorem starAt_inside (h w : ℕ) (psf : Img ℝ) (p q : ℕ) (c : ℝ) (hp : p + psf.h ≤ h) (hq : q + psf.w ≤ w)
    (i j : ℕ) (hi : i < h) (hj : j < w) :
    (starAt h w psf p q c).px i j =
      if p ≤ i ∧ i < p + psf.h ∧ q ≤ j ∧ j < q + psf.w then c * psf.px (i - p) (j - q) else 0 := by
  have key : ∀ n r s u : ℕ, r + s ≤ n → u < n → ((u + (n - r)) % n < s ↔ r ≤ u ∧ u < r + s) ∧
      (r ≤ u → (u + (n - r)) % n = u - r) := by
    intro n r s u hrs hu
    by_cases hru : r ≤ u
    · have e : (u + (n - r)) % n = u - r := by
        rw [show u + (n - r) = u - r + n by omega, Nat.add_mod_right, Nat.mod_eq_of_lt (by omega)]
      exact ⟨by rw [e]; omega, fun _ => e⟩
    · have e : (u + (n - r)) % n = u + (n - r) := Nat.mod_eq_of_lt (by omega)
      exact ⟨by rw [e]; omega, fun hh => absurd hh hru⟩
  obtain ⟨k1, k2⟩ := key h p psf.h i hp hi
  obtain ⟨k3, k4⟩ := key w q psf.w j hq hj
  simp only [starAt, padPx]
  by_cases hin : p ≤ i ∧ i < p + psf.h ∧ q ≤ j ∧ j < q + psf.w
  · rw [if_pos hin, if_pos ⟨k1.2 ⟨hin.1, hin.2.1⟩, k3.2 hin.2.2⟩, k2 hin.1, k4 hin.2.2.1]
  · rw [if_neg hin, if_neg, mul_zero]
    rintro ⟨h1, h2⟩
    exact hin ⟨(k1.1 h1).1, (k1.1 h1).2, k3.1 h2⟩

theorem tw_mod (n : ℕ) (hn : n ≠ 0) (k m : ℕ) : tw n ((k : ℝ) * ((m % n : ℕ) : ℝ)) = tw n ((k : ℝ) * m) := by
  have e : (m : ℝ) = ((m % n : ℕ) : ℝ) + n * ((m / n : ℕ) : ℝ) := by
    have := Nat.mod_add_div m n
    exact_mod_cast this.symm
  have e2 : (k : ℝ) * m = (k : ℝ) * ((m % n : ℕ) : ℝ) + (n : ℝ) * (((k * (m / n) : ℕ) : ℤ) : ℝ) := by
    rw [Int.cast_natCast, Nat.cast_mul]
    generalize m % n = r at e ⊢
    generalize m / n = d at e ⊢
    rw [e]
    ring
  rw [e2, tw_add, tw_period n hn, mul_one]

theorem dft_starAt (h w : ℕ) (psf : Img ℝ) (p q : ℕ) (c : ℝ) (hp : p < h) (hq : q < w) (k l : ℕ) :
    (dft (toC (starAt h w psf p q c))).px k l =
      c * (dft (padTo h w (toC psf))).px k l * shiftPhase h w ((p : ℝ), (q : ℝ)) k l := by
  have ph : shiftPhase h w ((p : ℝ), (q : ℝ)) k l = tw h ((k : ℝ) * p) * tw w ((l : ℝ) * q) := by
    unfold shiftPhase
    have h1 := tw_sfreq h (by omega) k (p : ℤ)
    have h2 := tw_sfreq w (by omega) l (q : ℤ)
    push_cast at h1 h2
    simp only []
    rw [h1, h2]
  change ∑ i ∈ range h, ∑ j ∈ range w,
    ((c * padPx psf ((i + (h - p)) % h) ((j + (w - q)) % w) : ℝ) : ℂ) *
      (tw h ((k : ℝ) * i) * tw w ((l : ℝ) * j)) =
    c * (∑ i ∈ range h, ∑ j ∈ range w, (if i < psf.h ∧ j < psf.w then (psf.px i j : ℂ) else 0) *
      (tw h ((k : ℝ) * i) * tw w ((l : ℝ) * j))) * _
  have back : ∀ n r a : ℕ, r < n → a < n → ((r + a) % n + (n - r)) % n = a := by
    intro n r a hr ha
    rw [Nat.mod_add_mod, show r + a + (n - r) = a + n by omega, Nat.add_mod_right, Nat.mod_eq_of_lt ha]
  rw [← sum_range_roll h p, ph, Finset.mul_sum, Finset.sum_mul]
  refine Finset.sum_congr rfl fun a ha => ?_
  rw [← sum_range_roll w q, Finset.mul_sum, Finset.sum_mul]
  refine Finset.sum_congr rfl fun b hb => ?_
  rw [back h p a hp (mem_range.1 ha), back w q b hq (mem_range.1 hb), tw_mod h (by omega), tw_mod w (by omega)]
  push_cast
  rw [mul_add, mul_add, tw_add, tw_add]
  have e : ((padPx psf a b : ℝ) : ℂ) = if a < psf.h ∧ b < psf.w then (psf.px a b : ℂ) else 0 := by
    unfold padPx
    split <;> simp
  rw [e]
  ring

theorem fftOrtho_starAt (h w : ℕ) (psf : Img ℝ) (p q : ℕ) (c : ℝ) (hp : p < h) (hq : q < w) (k l : ℕ) :
    (fftOrtho (toC (starAt h w psf p q c))).px k l =
      c * (fftOrtho (padTo h w (toC psf))).px k l * shiftPhase h w ((p : ℝ), (q : ℝ)) k l := by
  change (dft (toC (starAt h w psf p q c))).px k l / (Real.sqrt ((h * w : ℕ) : ℝ) : ℂ) =
    c * ((dft (padTo h w (toC psf))).px k l / (Real.sqrt ((h * w : ℕ) : ℝ) : ℂ)) * _
  rw [dft_starAt h w psf p q c hp hq]
  ring

theorem ifftOrtho_congr (h w : ℕ) (X Y : ℕ → ℕ → ℂ) (e : ∀ k < h, ∀ l < w, X k l = Y k l) (i j : ℕ) :
    (ifftOrtho ⟨h, w, X⟩).px i j = (ifftOrtho ⟨h, w, Y⟩).px i j := by
  change (∑ k ∈ range h, ∑ l ∈ range w, X k l * _) / _ = (∑ k ∈ range h, ∑ l ∈ range w, Y k l * _) / _
  congr 1
  refine Finset.sum_congr rfl fun k hk => Finset.sum_congr rfl fun l hl => ?_
  rw [e k (mem_range.1 hk) l (mem_range.1 hl)]

theorem ifftOrtho_const_mul (h w : ℕ) (c : ℂ) (X : ℕ → ℕ → ℂ) (i j : ℕ) :
    (ifftOrtho ⟨h, w, fun k l => c * X k l⟩).px i j = c * (ifftOrtho ⟨h, w, X⟩).px i j := by
  change (∑ k ∈ range h, ∑ l ∈ range w, c * X k l * _) / _ = c * ((∑ k ∈ range h, ∑ l ∈ range w, X k l * _) / _)
  rw [← mul_div_assoc, Finset.mul_sum]
  congr 1
  refine Finset.sum_congr rfl fun k _ => ?_
  rw [Finset.mul_sum]
  exact Finset.sum_congr rfl fun l _ => mul_assoc _ _ _

theorem ifftOrtho_roll (h w : ℕ) (X : ℕ → ℕ → ℂ) (a b : ℤ) (i j : ℕ) (hi : i < h) (hj : j < w) :
    (ifftOrtho ⟨h, w, fun k l => X k l * shiftPhase h w ((a : ℝ), (b : ℝ)) k l⟩).px i j =
      (ifftOrtho ⟨h, w, X⟩).px (((i : ℤ) - a) % h).toNat (((j : ℤ) - b) % w).toNat := by
  change (idftSum (fourierShift ⟨h, w, X⟩ ((a : ℝ), (b : ℝ)))).px i j / _ = (idftSum ⟨h, w, X⟩).px _ _ / _
  rw [idftSum_shift_roll ⟨h, w, X⟩ a b i j hi hj]

/-- The guard of the PSF's coefficients does not change any of them. -/
def GuardIdle (h w : ℕ) (psf : Img ℝ) : Prop :=
  ∀ k < h, ∀ l < w, ((fftOrtho (padTo h w (toC psf))).px k l).re ≠ 0

theorem psfHat_idle (d : SubImg) (h w : ℕ) (hh : d.interped.h = h) (hw : d.interped.w = w)
    (hg : GuardIdle h w d.psf) (k l : ℕ) (hk : k < h) (hl : l < w) :
    d.psfHat.px k l = (fftOrtho (padTo h w (toC d.psf))).px k l := by
  subst hh hw
  change guardHat ((fftOrtho (padTo d.interped.h d.interped.w (toC d.psf))).px k l) = _
  unfold guardHat
  rw [if_neg (hg k hk l hl)]

section
variable (env : SubEnv) (it : Bool) (ref new : SubImg) (h w : ℕ) (z : ℝ × ℝ)
    (hmr : ref.mask.HasShape h w) (hmn : new.mask.HasShape h w) (hz : env.zps = .ok z)
    (hc : env.fitted = true ∨ (0 ≤ (centerOfMass new.psf).1 ∧ 0 ≤ (centerOfMass new.psf).2))
    (hr : ref.interped.shape = (h, w)) (hn : new.interped.shape = (h, w))
include hmr hmn hz hc hr hn

theorem diffOf_plus (f e : Img ℝ) (hf : f.h = h ∧ f.w = w) (he : e.h = h ∧ e.w = w) (i j : ℕ) :
    (diffOf env ⟨false, false, it⟩ ref new (plusImg ref.interped f) (plusImg new.interped e)).px i j =
      (diffOf env ⟨false, false, it⟩ ref new ref.interped new.interped).px i j +
      (ifftOrtho ⟨h, w, fun k l => gainNew ref new (z.2 / z.1) k l * (fftOrtho (toC e)).px k l +
        gainRef ref new (z.2 / z.1) 0 0 k l * (fftOrtho (toC f)).px k l⟩).px i j := by
  have d := fun r n hr' hn' => diffOf_eq env it ref new h w z hmr hmn hz hc hr hn r n hr' hn' i j
  rw [d (plusImg ref.interped f) (plusImg new.interped e) hr hn, d ref.interped new.interped hr hn,
    ifftOrtho_add]
  have f1 := filter_eq (toC e) (gainNew ref new (z.2 / z.1)) i j
  have f2 := filter_eq (toC f) (gainRef ref new (z.2 / z.1) 0 0) i j
  have e1 : (toC e).h = h := he.1
  have e2 : (toC e).w = w := he.2
  have e3 : (toC f).h = h := hf.1
  have e4 : (toC f).w = w := hf.2
  rw [e1, e2] at f1
  rw [e3, e4] at f2
  rw [f1, f2]
  simp only [plusImg, Complex.ofReal_add, add_mul, Finset.sum_add_distrib]
  change _ = _ + (∑ x ∈ range h, ∑ y ∈ range w, (e.px x y : ℂ) * _ +
    ∑ x ∈ range h, ∑ y ∈ range w, (f.px x y : ℂ) * _)
  ring

omit hmr hmn hz hc in
theorem gains_stars (pr qr pn qn : ℕ) (cr cn : ℝ) (hpr : pr < h) (hqr : qr < w) (hpn : pn < h) (hqn : qn < w)
    (gr : GuardIdle h w ref.psf) (gn : GuardIdle h w new.psf) (k l : ℕ) (hk : k < h) (hl : l < w) :
    gainNew ref new (z.2 / z.1) k l * (fftOrtho (toC (starAt h w new.psf pn qn cn))).px k l +
        gainRef ref new (z.2 / z.1) 0 0 k l * (fftOrtho (toC (starAt h w ref.psf pr qr cr))).px k l =
      ref.psfHat.px k l * new.psfHat.px k l / (Real.sqrt (normReal ref new (z.2 / z.1) k l) : ℂ) *
        (cn * shiftPhase h w ((pn : ℝ) - (centerOfMass ref.psf).1, (qn : ℝ) - (centerOfMass ref.psf).2) k l -
         ((z.2 / z.1 : ℝ) : ℂ) * cr *
          shiftPhase h w ((pr : ℝ) - (centerOfMass new.psf).1, (qr : ℝ) - (centerOfMass new.psf).2) k l) := by
  have rh : ref.interped.h = h := congrArg Prod.fst hr
  have rw0 : ref.interped.w = w := congrArg Prod.snd hr
  have nh : new.interped.h = h := congrArg Prod.fst hn
  have nw : new.interped.w = w := congrArg Prod.snd hn
  rw [fftOrtho_starAt h w new.psf pn qn cn hpn hqn, fftOrtho_starAt h w ref.psf pr qr cr hpr hqr,
    ← psfHat_idle ref h w rh rw0 gr k l hk hl, ← psfHat_idle new h w nh nw gn k l hk hl]
  unfold gainNew gainRef centredPsf SubImg.h SubImg.w
  rw [rh, rw0, nh, nw]
  have z0 : shiftPhase h w (0, 0) k l = 1 := by simp [shiftPhase, tw_zero]
  rw [z0]
  have s1 := shiftPhase_add h w ((pn : ℝ), (qn : ℝ)) (negPair (centerOfMass ref.psf)) k l
  have s2 := shiftPhase_add h w ((pr : ℝ), (qr : ℝ)) (negPair (centerOfMass new.psf)) k l
  simp only [negPair, ← sub_eq_add_neg] at s1 s2
  rw [s1, s2]
  unfold negPair
  ring

/-- C107: a star that is in both images at the same place, with a flux in the new image that is `b` times
the flux in the reference, leaves no trace in D; `b` is the ratio of the zero points. The place of a star is
the corner of its stamp plus the centre of mass of the image's PSF. -/
theorem subtract_constant_star (pr qr pn qn : ℕ) (c : ℝ) (hpr : pr < h) (hqr : qr < w) (hpn : pn < h)
    (hqn : qn < w) (gr : GuardIdle h w ref.psf) (gn : GuardIdle h w new.psf)
    (hx : (pr : ℝ) + (centerOfMass ref.psf).1 = pn + (centerOfMass new.psf).1)
    (hy : (qr : ℝ) + (centerOfMass ref.psf).2 = qn + (centerOfMass new.psf).2) (i j : ℕ) :
    (diffOf env ⟨false, false, it⟩ ref new (plusImg ref.interped (starAt h w ref.psf pr qr c))
        (plusImg new.interped (starAt h w new.psf pn qn (z.2 / z.1 * c)))).px i j =
      (diffOf env ⟨false, false, it⟩ ref new ref.interped new.interped).px i j := by
  rw [diffOf_plus env it ref new h w z hmr hmn hz hc hr hn _ _ ⟨rfl, rfl⟩ ⟨rfl, rfl⟩]
  rw [ifftOrtho_congr h w _ (fun _ _ => 0 * 0), ifftOrtho_const_mul, zero_mul, add_zero]
  intro k hk l hl
  rw [gains_stars ref new h w z hr hn pr qr pn qn c (z.2 / z.1 * c) hpr hqr hpn hqn gr gn k l hk hl]
  have e1 : (pn : ℝ) - (centerOfMass ref.psf).1 = (pr : ℝ) - (centerOfMass new.psf).1 := by linarith
  have e2 : (qn : ℝ) - (centerOfMass ref.psf).2 = (qr : ℝ) - (centerOfMass new.psf).2 := by linarith
  rw [e1, e2]
  push_cast
  ring

omit hmr hmn hz hc hr hn in
theorem pHat_eq (hb : z.2 / z.1 ≠ 0) (hv : ref.var ≠ 0 ∨ new.var ≠ 0) (k l : ℕ) :
    ref.psfHat.px k l * new.psfHat.px k l / (Real.sqrt (normReal ref new (z.2 / z.1) k l) : ℂ) =
      ((1 / Real.sqrt (ref.var ^ 2 * (z.2 / z.1) ^ 2 + new.var ^ 2) : ℝ) : ℂ) *
        (pHat ref new (z.2 / z.1)).px k l := by
  have hpos : 0 < ref.var ^ 2 * (z.2 / z.1) ^ 2 + new.var ^ 2 := by
    rcases hv with hv | hv
    · have : 0 < ref.var ^ 2 * (z.2 / z.1) ^ 2 := by positivity
      positivity
    · have : 0 < new.var ^ 2 := by positivity
      positivity
  have hs : (Real.sqrt (ref.var ^ 2 * (z.2 / z.1) ^ 2 + new.var ^ 2) : ℂ) ≠ 0 := by
    exact_mod_cast (Real.sqrt_pos.2 hpos).ne'
  have hb' : ((z.2 / z.1 : ℝ) : ℂ) ≠ 0 := by exact_mod_cast hb
  change _ = _ * ((ref.psfHat.px k l * new.psfHat.px k l * (z.2 / z.1 : ℝ)) /
    (csqrt (normHat ref new (z.2 / z.1) k l) *
      ((z.2 / z.1 / Real.sqrt (ref.var ^ 2 * (z.2 / z.1) ^ 2 + new.var ^ 2) : ℝ) : ℂ)))
  rw [csqrt_normHat]
  generalize Real.sqrt (ref.var ^ 2 * (z.2 / z.1) ^ 2 + new.var ^ 2) = S at hs ⊢
  generalize z.2 / z.1 = b at hb' ⊢
  rw [Complex.ofReal_div, Complex.ofReal_div, Complex.ofReal_one]
  generalize (Real.sqrt (normReal ref new b k l) : ℂ) = N
  by_cases hN : N = 0
  · simp [hN]
  · field_simp

/-- C106: a star in the new image. Without fits, a star of flux `c` drawn into the new image with the corner of
its stamp at `(p, q)` adds to (the real part of) D the PSF image P that `subtract` returns, times
`c / sqrt(b² ref.var² + new.var²)`, rolled by `(p, q)` less the centre of mass of the reference's PSF. -/
theorem subtract_star_new (p q : ℕ) (c : ℝ) (A B : ℤ) (hp : p < h) (hq : q < w)
    (gr : GuardIdle h w ref.psf) (gn : GuardIdle h w new.psf)
    (hA : centerOfMass ref.psf = ((A : ℝ), (B : ℝ))) (hb : z.2 / z.1 ≠ 0) (hv : ref.var ≠ 0 ∨ new.var ≠ 0) :
    ∃ out, subtract env ⟨false, false, it⟩ ref new = .ok out ∧ ∀ i < h, ∀ j < w,
      ((diffOf env ⟨false, false, it⟩ ref new ref.interped
        (plusImg new.interped (starAt h w new.psf p q c))).px i j).re = (out.D.px i j).re +
        c / Real.sqrt (ref.var ^ 2 * (z.2 / z.1) ^ 2 + new.var ^ 2) *
          out.P.px (((i : ℤ) - (p - A)) % h).toNat (((j : ℤ) - (q - B)) % w).toNat := by
  obtain ⟨out, e, hD, hP, _⟩ := subtract_returns env it ref new h w hr hn hmr hmn z hz hc
  refine ⟨out, e, ?_⟩
  intro i hi j hj
  have hd : diffOf env ⟨false, false, it⟩ ref new ref.interped new.interped = out.D := by
    have : subtract env ⟨false, false, it⟩ (ref.withPixels ref.interped) (new.withPixels new.interped) = .ok out := e
    unfold diffOf
    rw [this]
  have hz0 : plusImg ref.interped (starAt h w ref.psf 0 0 0) = ref.interped := by
    simp [plusImg, starAt]
  have h0 : 0 < h := by omega
  have w0 : 0 < w := by omega
  have k0 := diffOf_plus env it ref new h w z hmr hmn hz hc hr hn (starAt h w ref.psf 0 0 0)
    (starAt h w new.psf p q c) ⟨rfl, rfl⟩ ⟨rfl, rfl⟩ i j
  rw [hz0, hd] at k0
  rw [k0, Complex.add_re]
  congr 1
  have e2 : (ifftOrtho ⟨h, w, fun k l => gainNew ref new (z.2 / z.1) k l *
        (fftOrtho (toC (starAt h w new.psf p q c))).px k l +
      gainRef ref new (z.2 / z.1) 0 0 k l * (fftOrtho (toC (starAt h w ref.psf 0 0 0))).px k l⟩).px i j =
      ((c / Real.sqrt (ref.var ^ 2 * (z.2 / z.1) ^ 2 + new.var ^ 2) : ℝ) : ℂ) *
        (ifftOrtho ⟨h, w, (pHat ref new (z.2 / z.1)).px⟩).px (((i : ℤ) - (p - A)) % h).toNat
          (((j : ℤ) - (q - B)) % w).toNat := by
    rw [← ifftOrtho_roll h w _ _ _ i j hi hj, ← ifftOrtho_const_mul]
    refine ifftOrtho_congr h w _ _ ?_ i j
    intro k hk l hl
    rw [gains_stars ref new h w z hr hn 0 0 p q 0 c h0 w0 hp hq gr gn k l hk hl,
      pHat_eq ref new z hb hv k l, hA]
    push_cast
    ring
  have rh : ref.interped.h = h := congrArg Prod.fst hr
  have rw0 : ref.interped.w = w := congrArg Prod.snd hr
  have e3 : pHat ref new (z.2 / z.1) = ⟨h, w, (pHat ref new (z.2 / z.1)).px⟩ := by
    have e1 : (pHat ref new (z.2 / z.1)).h = h := rh
    have e2 : (pHat ref new (z.2 / z.1)).w = w := rw0
    rw [← e1, ← e2]
  rw [e2, Complex.re_ofReal_mul, hP]
  congr 1
  change _ = ((ifftOrtho (pHat ref new (z.2 / z.1))).px _ _).re
  rw [e3]

/-- C106: a star in the reference is subtracted: with flux `c` it adds P times
`- b c / sqrt(b² ref.var² + new.var²)`, rolled by its corner less the centre of mass of the new image's PSF. -/
theorem subtract_star_ref (p q : ℕ) (c : ℝ) (A B : ℤ) (hp : p < h) (hq : q < w)
    (gr : GuardIdle h w ref.psf) (gn : GuardIdle h w new.psf)
    (hA : centerOfMass new.psf = ((A : ℝ), (B : ℝ))) (hb : z.2 / z.1 ≠ 0) (hv : ref.var ≠ 0 ∨ new.var ≠ 0) :
    ∃ out, subtract env ⟨false, false, it⟩ ref new = .ok out ∧ ∀ i < h, ∀ j < w,
      ((diffOf env ⟨false, false, it⟩ ref new (plusImg ref.interped (starAt h w ref.psf p q c))
        new.interped).px i j).re = (out.D.px i j).re -
        z.2 / z.1 * c / Real.sqrt (ref.var ^ 2 * (z.2 / z.1) ^ 2 + new.var ^ 2) *
          out.P.px (((i : ℤ) - (p - A)) % h).toNat (((j : ℤ) - (q - B)) % w).toNat := by
  obtain ⟨out, e, hD, hP, _⟩ := subtract_returns env it ref new h w hr hn hmr hmn z hz hc
  refine ⟨out, e, ?_⟩
  intro i hi j hj
  have hd : diffOf env ⟨false, false, it⟩ ref new ref.interped new.interped = out.D := by
    have : subtract env ⟨false, false, it⟩ (ref.withPixels ref.interped) (new.withPixels new.interped) = .ok out := e
    unfold diffOf
    rw [this]
  have hz0 : plusImg new.interped (starAt h w new.psf 0 0 0) = new.interped := by
    simp [plusImg, starAt]
  have h0 : 0 < h := by omega
  have w0 : 0 < w := by omega
  have k0 := diffOf_plus env it ref new h w z hmr hmn hz hc hr hn (starAt h w ref.psf p q c)
    (starAt h w new.psf 0 0 0) ⟨rfl, rfl⟩ ⟨rfl, rfl⟩ i j
  rw [hz0, hd] at k0
  rw [k0, Complex.add_re, sub_eq_add_neg]
  congr 1
  have e2 : (ifftOrtho ⟨h, w, fun k l => gainNew ref new (z.2 / z.1) k l *
        (fftOrtho (toC (starAt h w new.psf 0 0 0))).px k l +
      gainRef ref new (z.2 / z.1) 0 0 k l * (fftOrtho (toC (starAt h w ref.psf p q c))).px k l⟩).px i j =
      ((-(z.2 / z.1 * c / Real.sqrt (ref.var ^ 2 * (z.2 / z.1) ^ 2 + new.var ^ 2)) : ℝ) : ℂ) *
        (ifftOrtho ⟨h, w, (pHat ref new (z.2 / z.1)).px⟩).px (((i : ℤ) - (p - A)) % h).toNat
          (((j : ℤ) - (q - B)) % w).toNat := by
    rw [← ifftOrtho_roll h w _ _ _ i j hi hj, ← ifftOrtho_const_mul]
    refine ifftOrtho_congr h w _ _ ?_ i j
    intro k hk l hl
    rw [gains_stars ref new h w z hr hn p q 0 0 c 0 hp hq h0 w0 gr gn k l hk hl,
      pHat_eq ref new z hb hv k l, hA]
    push_cast
    ring
  have rh : ref.interped.h = h := congrArg Prod.fst hr
  have rw0 : ref.interped.w = w := congrArg Prod.snd hr
  have e3 : pHat ref new (z.2 / z.1) = ⟨h, w, (pHat ref new (z.2 / z.1)).px⟩ := by
    have e1 : (pHat ref new (z.2 / z.1)).h = h := rh
    have e2 : (pHat ref new (z.2 / z.1)).w = w := rw0
    rw [← e1, ← e2]
  rw [e2, Complex.re_ofReal_mul, hP, neg_mul]
  congr 2
  change _ = ((ifftOrtho (pHat ref new (z.2 / z.1))).px _ _).re
  rw [e3]

end

/-- C106: the total of D is the total of the new image less `b` times that of the reference, over
`sqrt(new.var² + b² ref.var²)`, for PSFs that sum to one and fit into the frame, wherever their centres are. -/
theorem subtract_D_total (env : SubEnv) (it : Bool) (ref new : SubImg) (h w : ℕ) (z : ℝ × ℝ)
    (hmr : ref.mask.HasShape h w) (hmn : new.mask.HasShape h w) (hz : env.zps = .ok z)
    (hc : env.fitted = true ∨ (0 ≤ (centerOfMass new.psf).1 ∧ 0 ≤ (centerOfMass new.psf).2))
    (hr : ref.interped.shape = (h, w)) (hn : new.interped.shape = (h, w)) (h0 : h ≠ 0) (w0 : w ≠ 0)
    (fr : ref.psf.h ≤ h ∧ ref.psf.w ≤ w) (fn : new.psf.h ≤ h ∧ new.psf.w ≤ w)
    (sr : rsum ref.psf = 1) (sn : rsum new.psf = 1) (hv : new.var ≠ 0 ∨ (ref.var ≠ 0 ∧ z.2 / z.1 ≠ 0)) :
    ∃ out, subtract env ⟨false, false, it⟩ ref new = .ok out ∧
      imSum out.D = (((rsum new.interped - z.2 / z.1 * rsum ref.interped) /
        Real.sqrt (new.var ^ 2 + (z.2 / z.1) ^ 2 * ref.var ^ 2) : ℝ) : ℂ) := by
  obtain ⟨out, e, hD, _, _⟩ := subtract_returns env it ref new h w hr hn hmr hmn z hz hc
  refine ⟨out, e, ?_⟩
  have rh : ref.interped.h = h := congrArg Prod.fst hr
  have rw0 : ref.interped.w = w := congrArg Prod.snd hr
  have nh : new.interped.h = h := congrArg Prod.fst hn
  have nw : new.interped.w = w := congrArg Prod.snd hn
  have hhw : 0 < h * w := Nat.pos_of_ne_zero (Nat.mul_ne_zero h0 w0)
  have hq0 : 0 < Real.sqrt ((h * w : ℕ) : ℝ) := Real.sqrt_pos.2 (by exact_mod_cast hhw)
  have hqq : Real.sqrt ((h * w : ℕ) : ℝ) * Real.sqrt ((h * w : ℕ) : ℝ) = ((h * w : ℕ) : ℝ) :=
    Real.mul_self_sqrt (by positivity)
  have pr : ref.psfHat.px 0 0 = ((1 / Real.sqrt ((h * w : ℕ) : ℝ) : ℝ) : ℂ) := by
    have := psfHat_zero ref (by rw [SubImg.h, rh]; exact fr.1) (by rw [SubImg.w, rw0]; exact fr.2)
      (by rw [SubImg.h, SubImg.w, rh, rw0]; exact hhw) (by rw [sr]; norm_num)
    rw [SubImg.h, SubImg.w, rh, rw0, sr] at this
    exact this
  have pn : new.psfHat.px 0 0 = ((1 / Real.sqrt ((h * w : ℕ) : ℝ) : ℝ) : ℂ) := by
    have := psfHat_zero new (by rw [SubImg.h, nh]; exact fn.1) (by rw [SubImg.w, nw]; exact fn.2)
      (by rw [SubImg.h, SubImg.w, nh, nw]; exact hhw) (by rw [sn]; norm_num)
    rw [SubImg.h, SubImg.w, nh, nw, sn] at this
    exact this
  have ph : ∀ d : ℝ × ℝ, ∀ a b : ℕ, a ≠ 0 → b ≠ 0 → shiftPhase a b d 0 0 = 1 := by
    intro d a b ha hb
    have : ∀ n : ℕ, n ≠ 0 → sfreq n 0 = 0 := by
      intro n hn
      unfold sfreq
      rw [if_pos (by omega)]
      rfl
    simp [shiftPhase, this a ha, this b hb, tw_zero]
  have ih : ∀ d : SubImg, d.interped.h = h → d.interped.w = w →
      d.interpedHat.px 0 0 = ((rsum d.interped / Real.sqrt ((h * w : ℕ) : ℝ) : ℝ) : ℂ) := by
    intro d dh dw
    change (dft (toC d.interped)).px 0 0 / (Real.sqrt (((toC d.interped).h * (toC d.interped).w : ℕ) : ℝ) : ℂ) = _
    have e1 : (toC d.interped).h = h := dh
    have e2 : (toC d.interped).w = w := dw
    rw [dft_zero, e1, e2]
    have e3 : imSum (toC d.interped) = (rsum d.interped : ℂ) := by
      unfold imSum rsum
      push_cast
      rfl
    rw [e3]
    push_cast
    rfl
  have hz0 := subtract_D_is_zackay ref new (nh.trans rh.symm) (nw.trans rw0.symm) (z.2 / z.1) 0 0 0 0
  have cr : centredPsf ref 0 0 = ((1 / Real.sqrt ((h * w : ℕ) : ℝ) : ℝ) : ℂ) := by
    unfold centredPsf
    rw [pr, ph _ _ _ (by rw [SubImg.h, rh]; exact h0) (by rw [SubImg.w, rw0]; exact w0), mul_one]
  have cn : centredPsf new 0 0 = ((1 / Real.sqrt ((h * w : ℕ) : ℝ) : ℝ) : ℂ) := by
    unfold centredPsf
    rw [pn, ph _ _ _ (by rw [SubImg.h, nh]; exact h0) (by rw [SubImg.w, nw]; exact w0), mul_one]
  rw [cr, cn, ih ref rh rw0, ih new nh nw,
    ph _ _ _ (by rw [SubImg.h, rh]; exact h0) (by rw [SubImg.w, rw0]; exact w0), mul_one] at hz0
  have tot : imSum out.D = (dHat ref new (z.2 / z.1) 0 0).px 0 0 * (Real.sqrt ((h * w : ℕ) : ℝ) : ℂ) := by
    rw [hD]
    have hX : (dHat ref new (z.2 / z.1) 0 0).h = h := rh
    have wX : (dHat ref new (z.2 / z.1) 0 0).w = w := rw0
    have s := sum_idftSum (dHat ref new (z.2 / z.1) 0 0) (by rw [hX]; exact h0) (by rw [wX]; exact w0)
    rw [hX, wX] at s
    change ∑ i ∈ range (dHat ref new (z.2 / z.1) 0 0).h, ∑ j ∈ range (dHat ref new (z.2 / z.1) 0 0).w,
      (idftSum (dHat ref new (z.2 / z.1) 0 0)).px i j /
        (Real.sqrt (((dHat ref new (z.2 / z.1) 0 0).h * (dHat ref new (z.2 / z.1) 0 0).w : ℕ) : ℝ) : ℂ) = _
    rw [hX, wX]
    simp only [← Finset.sum_div]
    rw [s, show ((h : ℂ) * (w : ℂ)) = ((h * w : ℕ) : ℂ) by push_cast; rfl, ← sqrt_mul_self_cast, ← mul_assoc,
      mul_div_cancel_right₀]
    exact_mod_cast hq0.ne'
  rw [tot, hz0]
  unfold zackayD
  rw [normSq_ofReal]
  have en : new.var ^ 2 * 1 ^ 2 * (1 / Real.sqrt ((h * w : ℕ) : ℝ) * (1 / Real.sqrt ((h * w : ℕ) : ℝ))) +
      ref.var ^ 2 * (z.2 / z.1) ^ 2 * (1 / Real.sqrt ((h * w : ℕ) : ℝ) * (1 / Real.sqrt ((h * w : ℕ) : ℝ))) =
      (new.var ^ 2 + (z.2 / z.1) ^ 2 * ref.var ^ 2) / ((h * w : ℕ) : ℝ) := by
    rw [div_mul_div_comm, hqq]
    ring
  rw [en, Real.sqrt_div' _ (by positivity)]
  generalize Real.sqrt ((h * w : ℕ) : ℝ) = S at hq0
  have hT : ((Real.sqrt (new.var ^ 2 + (z.2 / z.1) ^ 2 * ref.var ^ 2) : ℝ) : ℂ) ≠ 0 := by
    have : 0 < new.var ^ 2 + (z.2 / z.1) ^ 2 * ref.var ^ 2 := by
      rcases hv with hv | ⟨h1, h2⟩
      · have : 0 < new.var ^ 2 := by positivity
        positivity
      · have : 0 < (z.2 / z.1) ^ 2 * ref.var ^ 2 := by positivity
        positivity
    exact_mod_cast (Real.sqrt_pos.2 this).ne'
  generalize Real.sqrt (new.var ^ 2 + (z.2 / z.1) ^ 2 * ref.var ^ 2) = T at hT ⊢
  have hS : (S : ℂ) ≠ 0 := by exact_mod_cast hq0.ne'
  push_cast
  field_simp

/-! ## coadd -/

/-- C108: a star in a coadd. Draw into every image a star with that image's PSF, with a flux of `c` times the
image's zero point and with its centre (corner of the stamp plus the centre the image's filter uses) at the
common pixel `(X, Y)`. The coadd R changes by the PSF image that `coadd` returns, rolled by `(X, Y)` less the
stamp size, times `c` and the square root of the weighted PSF power at frequency zero. -/
theorem coadd_star (lt : List CoImg → List CoImg → Option Bool) {n : ℕ} (hn : 0 < n)
    (d : Fin n → SinglePsf) (h w psfShape : ℕ) (procs : ℤ)
    (hs : ∀ j, (d j).interped.h = h ∧ (d j).interped.w = w ∧ (d j).mask.HasShape h w)
    (hp : procs ≤ n) (hp' : procs ≤ 2 ^ 25) (hb : procs * n ≤ 2 ^ 50)
    (ψ : Fin n → Img ℝ) (hψ : ∀ m, (d m).psf = toC (ψ m)) (p q : Fin n → ℕ) (c : ℝ) (X Y : ℤ)
    (hpq : ∀ m, p m < h ∧ q m < w)
    (hX : ∀ m, (p m : ℝ) + (d m).com.1 = X) (hY : ∀ m, (q m : ℝ) + (d m).com.2 = Y)
    (hpow : ∀ k < h, ∀ l < w,
      zackayPower (fun j => (d j).zp) (fun j => (d j).var) (fun j => (d j).psfHat.px k l) ≠ 0) :
    ∃ out, coaddCore lt ((List.ofFn d).map SinglePsf.toCoImg) psfShape procs = .ok out ∧
      ∀ i < h, ∀ j < w,
        (coaddOf lt d psfShape procs fun m =>
          plusImg (d m).interped (toC (starAt h w (ψ m) (p m) (q m) (c * (d m).zp)))).px i j =
          out.R.px i j + ((c * Real.sqrt (zackayPower (fun j => (d j).zp) (fun j => (d j).var)
            (fun j => (d j).psfHat.px 0 0)) : ℝ) : ℂ) *
            out.Pr.px (((i : ℤ) - (X - psfShape)) % h).toNat (((j : ℤ) - (Y - psfShape)) % w).toNat := by
  have h0 : h ≠ 0 := by have := (hpq ⟨0, hn⟩).1; omega
  have w0 : w ≠ 0 := by have := (hpq ⟨0, hn⟩).2; omega
  obtain ⟨out, e, _, _, hPr, _⟩ := coadd_returns_psf lt hn d h w psfShape procs h0 w0 hs hp hp' hb
  refine ⟨out, e, ?_⟩
  intro i hi j hj
  have hd : coaddOf lt d psfShape procs (fun m => (d m).interped) = out.R := by
    have : coaddCore lt ((List.ofFn (withPix d fun m => (d m).interped)).map SinglePsf.toCoImg) psfShape procs =
      .ok out := e
    unfold coaddOf
    rw [this]
  rw [← hd, coaddOf_eq lt hn d h w psfShape procs hs hp hp' hb
      (fun m => plusImg (d m).interped (toC (starAt h w (ψ m) (p m) (q m) (c * (d m).zp))))
      (fun m => ⟨(hs m).1, (hs m).2.1⟩),
    coaddOf_eq lt hn d h w psfShape procs hs hp hp' hb (fun m => (d m).interped)
      (fun m => ⟨(hs m).1, (hs m).2.1⟩)]
  simp only [plusImg, add_mul, Finset.sum_add_distrib]
  congr 1
  have f := fun m => filter_eq (toC (starAt h w (ψ m) (p m) (q m) (c * (d m).zp))) (gainCoadd d h w m) i j
  have f' : ∀ m, ∑ a ∈ range h, ∑ b ∈ range w, (toC (starAt h w (ψ m) (p m) (q m) (c * (d m).zp))).px a b *
      impulseResp h w (gainCoadd d h w m) i j a b =
      (ifftOrtho ⟨h, w, fun k l => gainCoadd d h w m k l *
        (fftOrtho (toC (starAt h w (ψ m) (p m) (q m) (c * (d m).zp)))).px k l⟩).px i j := fun m => (f m).symm
  simp only [f']
  rw [← ifftOrtho_sum]
  have nn : ∀ (N : ℕ), N ≠ 0 → ∀ (u s : ℤ) (t : ℕ), ((((u - (s - t)) % (N : ℤ)).toNat : ℤ) - (t : ℤ)) % N = (u - s) % N := by
    intro N hN u s t
    have h1 := Int.emod_nonneg (u - (s - t)) (show (N : ℤ) ≠ 0 by exact_mod_cast hN)
    rw [Int.toNat_of_nonneg h1, Int.emod_sub_emod]
    congr 1
    ring
  have ltN : ∀ (N : ℕ), N ≠ 0 → ∀ u : ℤ, (u % (N : ℤ)).toNat < N := by
    intro N hN u
    have h1 := Int.emod_lt_of_pos u (show (0 : ℤ) < N by omega)
    have h2 := Int.emod_nonneg u (show (N : ℤ) ≠ 0 by omega)
    omega
  rw [hPr _ (ltN h h0 _) _ (ltN w w0 _), nn h h0, nn w w0]
  have hs0 : ((Real.sqrt (zackayPower (fun j => (d j).zp) (fun j => (d j).var)
      (fun j => (d j).psfHat.px 0 0)) : ℝ) : ℂ) ≠ 0 := by
    have h1 := hpow 0 (by omega) 0 (by omega)
    have h2 := zackayPower_nonneg (fun j => (d j).zp) (fun j => (d j).var) (fun j => (d j).psfHat.px 0 0)
    exact_mod_cast (Real.sqrt_pos.2 (lt_of_le_of_ne h2 (Ne.symm h1))).ne'
  have e2 : (ifftOrtho ⟨h, w, fun k l => ∑ m, gainCoadd d h w m k l *
        (fftOrtho (toC (starAt h w (ψ m) (p m) (q m) (c * (d m).zp)))).px k l⟩).px i j =
      (c : ℂ) * (ifftOrtho ⟨h, w, fun k l => ((Real.sqrt (zackayPower (fun j => (d j).zp) (fun j => (d j).var)
        (fun j => (d j).psfHat.px k l)) : ℝ) : ℂ) / (Real.sqrt ((h * w : ℕ) : ℝ) : ℂ)⟩).px
          (((i : ℤ) - X) % h).toNat (((j : ℤ) - Y) % w).toNat := by
    rw [← ifftOrtho_roll h w _ _ _ i j hi hj, ← ifftOrtho_const_mul]
    refine ifftOrtho_congr h w _ _ ?_ i j
    intro k hk l hl
    have pw := hpow k hk l hl
    have pn := zackayPower_nonneg (fun j => (d j).zp) (fun j => (d j).var) (fun j => (d j).psfHat.px k l)
    have term : ∀ m, gainCoadd d h w m k l *
        (fftOrtho (toC (starAt h w (ψ m) (p m) (q m) (c * (d m).zp)))).px k l =
        (((d m).zp ^ 2 / (d m).var ^ 2 * normSq ((d m).psfHat.px k l) : ℝ) : ℂ) *
          (c * shiftPhase h w ((X : ℝ), (Y : ℝ)) k l / (Real.sqrt (zackayPower (fun j => (d j).zp)
            (fun j => (d j).var) (fun j => (d j).psfHat.px k l)) * Real.sqrt ((h * w : ℕ) : ℝ) : ℂ)) := by
      intro m
      have hpsf : (fftOrtho (padTo h w (toC (ψ m)))).px k l = (d m).psfHat.px k l := by
        unfold SinglePsf.psfHat
        rw [(hs m).1, (hs m).2.1, hψ m]
      rw [fftOrtho_starAt h w (ψ m) (p m) (q m) _ (hpq m).1 (hpq m).2, hpsf]
      have s1 := shiftPhase_add h w ((p m : ℝ), (q m : ℝ)) (d m).com k l
      simp only [hX m, hY m] at s1
      rw [s1]
      unfold gainCoadd
      have nsq : ((normSq ((d m).psfHat.px k l) : ℝ) : ℂ) =
        (d m).psfHat.px k l * (starRingEnd ℂ) ((d m).psfHat.px k l) := (Complex.mul_conj _).symm
      push_cast
      rw [nsq]
      ring
    simp only [term]
    rw [← Finset.sum_mul, ← Complex.ofReal_sum]
    change ((zackayPower (fun j => (d j).zp) (fun j => (d j).var) (fun j => (d j).psfHat.px k l) : ℝ) : ℂ) * _ = _
    generalize zackayPower (fun j => (d j).zp) (fun j => (d j).var) (fun j => (d j).psfHat.px k l) = Q at pw pn ⊢
    have hQ : ((Real.sqrt Q : ℝ) : ℂ) * ((Real.sqrt Q : ℝ) : ℂ) = (Q : ℂ) := by
      rw [← Complex.ofReal_mul, Real.mul_self_sqrt pn]
    have hQ0 : ((Real.sqrt Q : ℝ) : ℂ) ≠ 0 := by
      exact_mod_cast (Real.sqrt_pos.2 (lt_of_le_of_ne pn (Ne.symm pw))).ne'
    rw [← hQ]
    generalize ((Real.sqrt Q : ℝ) : ℂ) = S at hQ0 ⊢
    rw [mul_div_assoc', mul_comm S ((Real.sqrt ((h * w : ℕ) : ℝ) : ℂ)), ← div_div]
    field_simp
  rw [e2, Complex.ofReal_mul, mul_assoc]
  congr 1
  rw [← mul_div_assoc, mul_div_cancel_left₀ _ hs0]
  change (∑ k ∈ range h, ∑ l ∈ range w, _ / (Real.sqrt ((h * w : ℕ) : ℝ) : ℂ) * (tw h _ * tw w _)) /
    (Real.sqrt ((h * w : ℕ) : ℝ) : ℂ) = _
  rw [← sqrt_mul_self_cast, ← div_div]
  congr 1
  rw [Finset.sum_div]
  refine Finset.sum_congr rfl fun k _ => ?_
  rw [Finset.sum_div]
  refine Finset.sum_congr rfl fun l _ => ?_
  rw [div_mul_eq_mul_div]

/-! ## Worked instances -/

/-- One-pixel PSFs meet the guard condition in every frame. -/
theorem guardIdle_pixel (h w : ℕ) (hh : h ≠ 0) (hw : w ≠ 0) (v : ℝ) (hv : v ≠ 0) :
    GuardIdle h w ⟨1, 1, fun _ _ => v⟩ := by
  intro k _ l _
  have e : (fftOrtho (padTo h w (toC ⟨1, 1, fun _ _ => v⟩))).px k l =
      ((v / Real.sqrt ((h * w : ℕ) : ℝ) : ℝ) : ℂ) := by
    change (∑ i ∈ range h, ∑ j ∈ range w, (if i < 1 ∧ j < 1 then (v : ℂ) else 0) * _) / _ = _
    rw [Finset.sum_eq_single 0, Finset.sum_eq_single 0]
    · simp [tw_zero]
      rfl
    · intro j _ hj
      rw [if_neg (by omega), zero_mul]
    · intro h1; exact absurd (mem_range.2 (by omega)) h1
    · intro i _ hi
      refine Finset.sum_eq_zero fun j _ => ?_
      rw [if_neg (by omega), zero_mul]
    · intro h1; exact absurd (mem_range.2 (by omega)) h1
  rw [e, Complex.ofReal_re]
  have : 0 < Real.sqrt ((h * w : ℕ) : ℝ) := Real.sqrt_pos.2 (by
    have := Nat.mul_ne_zero hh hw
    positivity)
  positivity

theorem tiny_com (a b : ℝ) : centerOfMass (tinySub a b).psf = (((0 : ℤ) : ℝ), ((0 : ℤ) : ℝ)) := by
  simp [centerOfMass, rsum, tinySub]

/-- Zero points 1 and 3: a star of flux 10 in the new image's second pixel adds `10/√10` there. -/
example : ∃ out, subtract (tinyEnv 1 3) ⟨false, false, true⟩ (tinySub 5 7) (tinySub 1 0) = .ok out ∧
    ∀ i < 1, ∀ j < 2, ((diffOf (tinyEnv 1 3) ⟨false, false, true⟩ (tinySub 5 7) (tinySub 1 0)
      (tinySub 5 7).interped (plusImg (tinySub 1 0).interped (starAt 1 2 (tinySub 1 0).psf 0 1 10))).px i j).re =
      (out.D.px i j).re + 10 / Real.sqrt ((tinySub 5 7).var ^ 2 * (3 / 1) ^ 2 + (tinySub 1 0).var ^ 2) *
        out.P.px (((i : ℤ) - ((0 : ℕ) - 0)) % (1 : ℕ)).toNat (((j : ℤ) - ((1 : ℕ) - 0)) % (2 : ℕ)).toNat :=
  subtract_star_new (tinyEnv 1 3) true (tinySub 5 7) (tinySub 1 0) 1 2 (1, 3)
    (by intro a h; cases h) (by intro a h; cases h) rfl (Or.inl rfl) rfl rfl 0 1 10 0 0 (by norm_num) (by norm_num)
    (guardIdle_pixel 1 2 (by norm_num) (by norm_num) 1 (by norm_num))
    (guardIdle_pixel 1 2 (by norm_num) (by norm_num) 1 (by norm_num)) (tiny_com 5 7) (by norm_num)
    (Or.inl (by simp [tinySub]))

/-- A constant star of flux 4 (reference) and 12 (new image) disappears. -/
example (i j : ℕ) : (diffOf (tinyEnv 1 3) ⟨false, false, true⟩ (tinySub 5 7) (tinySub 1 0)
      (plusImg (tinySub 5 7).interped (starAt 1 2 (tinySub 5 7).psf 0 1 4))
      (plusImg (tinySub 1 0).interped (starAt 1 2 (tinySub 1 0).psf 0 1 (3 / 1 * 4)))).px i j =
    (diffOf (tinyEnv 1 3) ⟨false, false, true⟩ (tinySub 5 7) (tinySub 1 0)
      (tinySub 5 7).interped (tinySub 1 0).interped).px i j :=
  subtract_constant_star (tinyEnv 1 3) true (tinySub 5 7) (tinySub 1 0) 1 2 (1, 3)
    (by intro a h; cases h) (by intro a h; cases h) rfl (Or.inl rfl) rfl rfl 0 1 0 1 4 (by norm_num) (by norm_num)
    (by norm_num) (by norm_num)
    (guardIdle_pixel 1 2 (by norm_num) (by norm_num) 1 (by norm_num))
    (guardIdle_pixel 1 2 (by norm_num) (by norm_num) 1 (by norm_num))
    (by rw [tiny_com, tiny_com]) (by rw [tiny_com, tiny_com]) i j

/-- Three images: a star of flux 5 (zero point 5) at pixel (1, 2) in each. -/
example (lt : List CoImg → List CoImg → Option Bool) :
    ∃ out, coaddCore lt ((List.ofFn fun _ : Fin 3 => deltaDemo).map SinglePsf.toCoImg) 5 2 = .ok out := by
  obtain ⟨out, e, _⟩ := coadd_star lt (n := 3) (by norm_num) (fun _ => deltaDemo) 2 3 5 2
    (fun _ => ⟨rfl, rfl, by intro m hm; cases hm; exact ⟨rfl, rfl⟩⟩) (by norm_num) (by norm_num) (by norm_num)
    (fun _ => ⟨1, 1, fun _ _ => 1⟩) (fun _ => by simp [deltaDemo, toC, Img.map]) (fun _ => 1) (fun _ => 2) 1 1 2
    (fun _ => ⟨by norm_num, by norm_num⟩) (fun _ => by norm_num [deltaDemo]) (fun _ => by norm_num [deltaDemo])
    (by
      intro k _ l _
      have e := psfHat_delta deltaDemo rfl k l (by norm_num [deltaDemo]) (by norm_num [deltaDemo])
      unfold zackayPower
      simp only [e]
      norm_num [deltaDemo])
  exact ⟨out, e⟩

end PI
