import Verif.Lemmas.Flip

/-!
# Property C172: images turned upside down

`a[::-1]` of every array (pixels, masks, PSF stamps, backgrounds) turns the difference image and the coadd upside down, but for a
checkerboard pattern that appears when both sides are even and a PSF is centred off the pixels in both directions.
-/

namespace PI

open Complex Finset

/-! ## Stamps, centres and masks -/

theorem padded_upDown (x : Img ℂ) (h w : ℕ) (h0 : h ≠ 0) (hh : x.h ≤ h) (k l : ℕ) (hk : k < h) :
    (fftOrtho (padTo h w x.upDown)).px k l = (fftOrtho (padTo h w x)).px (negIdx h k) l *
      tw h ((k : ℝ) * ((x.h : ℤ) - 1 : ℤ)) := by
  have at' : ∀ n N i, i < N → n ≤ N → (turnAt N ((n : ℤ) - 1) i < n ↔ i < n) ∧ (i < n → turnAt N ((n : ℤ) - 1) i = n - 1 - i) := by
    intro n N i hi hn
    by_cases q : i < n
    · have e : turnAt N ((n : ℤ) - 1) i = n - 1 - i := by
        unfold turnAt
        rw [Int.emod_eq_of_lt (by omega) (by omega)]
        omega
      exact ⟨⟨fun _ => q, fun _ => by omega⟩, fun _ => e⟩
    · have e : turnAt N ((n : ℤ) - 1) i = N + n - 1 - i := by
        unfold turnAt
        rw [← Int.add_emod_right, Int.emod_eq_of_lt (by omega) (by omega)]
        omega
      exact ⟨⟨fun r => by omega, fun r => absurd r q⟩, fun r => absurd r q⟩
  have r := dft_upDown (padTo h w x) (padTo h w x.upDown) ((x.h : ℤ) - 1) rfl rfl h0 (by
    intro i hi j hj
    change i < h at hi
    change (if i < x.h ∧ j < x.w then x.px (x.h - 1 - i) j else 0) =
      (if turnAt h ((x.h : ℤ) - 1) i < x.h ∧ j < x.w then x.px (turnAt h ((x.h : ℤ) - 1) i) j else 0)
    obtain ⟨a1, a2⟩ := at' x.h h i hi hh
    by_cases q : i < x.h ∧ j < x.w
    · rw [if_pos q, if_pos ⟨a1.2 q.1, q.2⟩, a2 q.1]
    · rw [if_neg q, if_neg (fun p => q ⟨a1.1 p.1, p.2⟩)]) k l hk
  change (dft (padTo h w x.upDown)).px k l / _ = (dft (padTo h w x)).px (negIdx h k) l / _ * _
  rw [r, div_mul_eq_mul_div]
  rfl

theorem fftOrtho_upDown (x : Img ℂ) (h0 : x.h ≠ 0) (k l : ℕ) (hk : k < x.h) :
    (fftOrtho x.upDown).px k l = (fftOrtho x).px (negIdx x.h k) l * tw x.h ((k : ℝ) * ((x.h : ℤ) - 1 : ℤ)) := by
  have r := dft_upDown x x.upDown ((x.h : ℤ) - 1) rfl rfl h0 (by
    intro i hi j hj
    rw [turnAt_last _ _ hi]
    rfl) k l hk
  change (dft x.upDown).px k l / _ = (dft x).px (negIdx x.h k) l / _ * _
  rw [r, div_mul_eq_mul_div]
  rfl

theorem sum_upDown (a : Img ℝ) (c : ℕ → ℕ → ℝ) :
    ∑ i ∈ range a.h, ∑ j ∈ range a.w, c i j * a.upDown.px i j =
      ∑ i ∈ range a.h, ∑ j ∈ range a.w, c (a.h - 1 - i) j * a.px i j := by
  rw [← Finset.sum_range_reflect]
  refine Finset.sum_congr rfl fun i hi => ?_
  refine Finset.sum_congr rfl fun j hj => ?_
  rw [mem_range] at hi
  change _ * a.px (a.h - 1 - (a.h - 1 - i)) j = _
  rw [show a.h - 1 - (a.h - 1 - i) = i by omega]

theorem rsum_upDown (a : Img ℝ) : rsum a.upDown = rsum a := by
  have := sum_upDown a fun _ _ => 1
  simp only [one_mul] at this
  exact this

theorem com_upDown (a : Img ℝ) (hs : rsum a ≠ 0) :
    centerOfMass a.upDown = ((a.h : ℝ) - 1 - (centerOfMass a).1, (centerOfMass a).2) := by
  unfold centerOfMass
  rw [rsum_upDown]
  have a1 : rsum ⟨a.upDown.h, a.upDown.w, fun i j => i * a.upDown.px i j⟩ =
      ((a.h : ℝ) - 1) * rsum a - rsum ⟨a.h, a.w, fun i j => i * a.px i j⟩ := by
    refine (sum_upDown a fun i _ => (i : ℝ)).trans ?_
    unfold rsum
    rw [Finset.mul_sum, ← Finset.sum_sub_distrib]
    refine Finset.sum_congr rfl fun i hi => ?_
    rw [Finset.mul_sum, ← Finset.sum_sub_distrib]
    refine Finset.sum_congr rfl fun j hj => ?_
    rw [mem_range] at hi
    have : a.h - 1 - i + 1 + i = a.h := by omega
    have : (((a.h - 1 - i : ℕ) : ℝ)) + 1 + i = a.h := by exact_mod_cast this
    have e : (((a.h - 1 - i : ℕ) : ℝ)) = (a.h : ℝ) - 1 - i := by linarith
    rw [e]
    ring
  have a2 : rsum ⟨a.upDown.h, a.upDown.w, fun i j => j * a.upDown.px i j⟩ = rsum ⟨a.h, a.w, fun i j => j * a.px i j⟩ :=
    sum_upDown a fun _ j => (j : ℝ)
  rw [a1, a2]
  refine Prod.ext ?_ rfl
  change _ / _ = (a.h : ℝ) - 1 - _ / _
  field_simp

theorem any_upDown (a : Img Bool) : a.upDown.any = a.any := by
  rw [Bool.eq_iff_iff, Img.any_iff, Img.any_iff]
  constructor
  · rintro ⟨i, hi, j, hj, h⟩
    change i < a.h at hi
    exact ⟨a.h - 1 - i, by omega, j, hj, h⟩
  · rintro ⟨i, hi, j, hj, h⟩
    refine ⟨a.h - 1 - i, by change _ < a.h; omega, j, hj, ?_⟩
    change a.px (a.h - 1 - (a.h - 1 - i)) j = true
    rw [show a.h - 1 - (a.h - 1 - i) = i by omega, h]

/-- The mask upside down. -/
def NMask.upDown (m : NMask) : NMask := Option.map (fun a => a.upDown) m

theorem shrink_upDown (a : Img Bool) : NMask.shrink a.upDown = (NMask.shrink a).upDown := by
  unfold NMask.shrink
  rw [any_upDown]
  split_ifs <;> rfl

theorem maskOr_upDown (m1 m2 : NMask) : m1.upDown.maskOr m2.upDown = (m1.maskOr m2).map fun m => m.upDown := by
  rcases m1 with _ | a <;> rcases m2 with _ | b
  · rfl
  · exact congrArg Except.ok (shrink_upDown b)
  · exact congrArg Except.ok (shrink_upDown a)
  · change (if a.shape = b.shape then Except.ok (NMask.shrink (a.upDown.zip (fun x y => x || y) b.upDown))
        else Except.error PyErr.ValueError) =
      Except.map (fun m => NMask.upDown m) (if a.shape = b.shape then
        Except.ok (NMask.shrink (a.zip (fun x y => x || y) b)) else Except.error PyErr.ValueError)
    by_cases h : a.shape = b.shape
    · rw [if_pos h, if_pos h]
      refine congrArg Except.ok ?_
      change _ = (NMask.shrink (a.zip (fun x y => x || y) b)).upDown
      rw [← shrink_upDown]
      have h1 : a.h = b.h := congrArg Prod.fst h
      unfold Img.upDown Img.zip
      rw [h1]
    · rw [if_neg h, if_neg h]
      rfl

theorem marks_upDown (m : NMask) (h w : ℕ) (hs : m.HasShape h w) (i j : ℕ) :
    m.upDown.marks i j = m.marks (h - 1 - i) j := by
  rcases m with _ | a
  · rfl
  · obtain ⟨rfl, rfl⟩ := hs a rfl
    rfl

theorem shiftPhase_row (h w : ℕ) (h0 : h ≠ 0) (s t : ℝ) (m : ℤ) (k l : ℕ) :
    shiftPhase h w (s + m, t) k l = shiftPhase h w (s, t) k l * tw h ((k : ℝ) * m) := by
  unfold shiftPhase
  simp only
  rw [mul_add, tw_add, tw_sfreq h h0 k m]
  ring

/-- The sum of the pixels with the signs of a checkerboard. -/
noncomputable def altSum (a : Img ℝ) : ℝ := ∑ i ∈ range a.h, ∑ j ∈ range a.w, (-1) ^ (i + j) * a.px i j

theorem fft_corner (x : Img ℝ) (h w : ℕ) (a b : ℕ) (ha : h = 2 * a) (hb : w = 2 * b) (a0 : a ≠ 0) (b0 : b ≠ 0)
    (fh : x.h ≤ h) (fw : x.w ≤ w) :
    (fftOrtho (padTo h w (toC x))).px a b = ((altSum x / Real.sqrt ((h * w : ℕ) : ℝ) : ℝ) : ℂ) := by
  rw [Complex.ofReal_div]
  change (dft (padTo h w (toC x))).px a b / ((Real.sqrt ((h * w : ℕ) : ℝ) : ℝ) : ℂ) = _
  congr 1
  change ∑ i ∈ range h, ∑ j ∈ range w, (if i < x.h ∧ j < x.w then ((x.px i j : ℝ) : ℂ) else 0) *
    (tw h ((a : ℝ) * i) * tw w ((b : ℝ) * j)) = _
  unfold altSum
  push_cast
  rw [← Finset.sum_subset (Finset.range_mono fh) (fun i _ hi => Finset.sum_eq_zero fun j _ => by
    rw [if_neg (fun q => hi (mem_range.2 q.1)), zero_mul])]
  refine Finset.sum_congr rfl fun i hi => ?_
  rw [← Finset.sum_subset (Finset.range_mono fw) (fun j _ hj => by
    rw [if_neg (fun q => hj (mem_range.2 q.2)), zero_mul])]
  refine Finset.sum_congr rfl fun j hj => ?_
  rw [if_pos ⟨mem_range.1 hi, mem_range.1 hj⟩, ha, hb, tw_half a a0, tw_half b b0, pow_add]
  ring

theorem padTo_self (x : Img ℂ) (h w : ℕ) (hh : x.h = h) (hw : x.w = w) (k l : ℕ) :
    (fftOrtho (padTo h w x)).px k l = (fftOrtho x).px k l := by
  subst hh hw
  change (∑ i ∈ range x.h, ∑ j ∈ range x.w, (if i < x.h ∧ j < x.w then x.px i j else 0) * _) / _ =
    (∑ i ∈ range x.h, ∑ j ∈ range x.w, x.px i j * _) / _
  congr 1
  refine Finset.sum_congr rfl fun i hi => Finset.sum_congr rfl fun j hj => ?_
  rw [if_pos ⟨mem_range.1 hi, mem_range.1 hj⟩]
  rfl

/-! ## subtract -/

/-- The image object of the arrays upside down. -/
def SubImg.upDown (d : SubImg) : SubImg := ⟨d.interped.upDown, d.mask.upDown, d.filled.upDown, d.psf.upDown, d.var⟩

/-- Everything outside `subtract`, for the images upside down. -/
def SubEnv.upDown (env : SubEnv) : SubEnv := { env with gamma := env.gamma.upDown }

/-- The image is `h × w`, the stamp of its PSF is not larger and has a total, and the guard of the PSF's coefficients is idle
for it and for the stamp upside down. -/
structure Flippable (d : SubImg) (h w : ℕ) : Prop where
  shape : d.interped.shape = (h, w)
  fitsH : d.psf.h ≤ h
  fitsW : d.psf.w ≤ w
  total : rsum d.psf ≠ 0
  idle : GuardIdle h w d.psf
  idleF : GuardIdle h w d.psf.upDown

section
variable (h w : ℕ) (h0 : h ≠ 0) (w0 : w ≠ 0) (d ref new : SubImg) (hd : Flippable d h w) (hr : Flippable ref h w)
    (hn : Flippable new h w)

include h0 hd

theorem psfHat_upDown (k l : ℕ) (hk : k < h) (hl : l < w) :
    d.upDown.psfHat.px k l = d.psfHat.px (negIdx h k) l * tw h ((k : ℝ) * ((d.psf.h : ℤ) - 1 : ℤ)) := by
  have e1 : d.interped.h = h := congrArg Prod.fst hd.shape
  have e2 : d.interped.w = w := congrArg Prod.snd hd.shape
  rw [psfHat_idle d.upDown h w e1 e2 hd.idleF k l hk hl, psfHat_idle d h w e1 e2 hd.idle _ l (negIdx_lt h k hk) hl]
  exact padded_upDown (toC d.psf) h w h0 hd.fitsH k l hk

theorem interpedHat_upDown (k l : ℕ) (hk : k < h) :
    d.upDown.interpedHat.px k l = d.interpedHat.px (negIdx h k) l * tw h ((k : ℝ) * ((h : ℤ) - 1 : ℤ)) := by
  have e1 : d.interped.h = h := congrArg Prod.fst hd.shape
  subst e1
  exact fftOrtho_upDown (toC d.interped) h0 k l hk

omit h0

theorem psfHat_herm (k l : ℕ) (hk : k < h) (hl : l < w) :
    d.psfHat.px (negIdx h k) (negIdx w l) = (starRingEnd ℂ) (d.psfHat.px k l) := by
  have e1 : d.interped.h = h := congrArg Prod.fst hd.shape
  have e2 : d.interped.w = w := congrArg Prod.snd hd.shape
  rw [psfHat_idle d h w e1 e2 hd.idle k l hk hl,
    psfHat_idle d h w e1 e2 hd.idle _ _ (negIdx_lt h k hk) (negIdx_lt w l hl)]
  exact hermitian_fftOrtho (padTo h w (toC d.psf)) (fun i _ j _ => by
    change (starRingEnd ℂ) (if i < d.psf.h ∧ j < d.psf.w then ((d.psf.px i j : ℝ) : ℂ) else 0) = _
    split_ifs with q
    · rw [Complex.conj_ofReal]
      exact (if_pos q).symm
    · rw [map_zero]
      exact (if_neg q).symm) k hk l hl

theorem interpedHat_herm (k l : ℕ) (hk : k < h) (hl : l < w) :
    d.interpedHat.px (negIdx h k) (negIdx w l) = (starRingEnd ℂ) (d.interpedHat.px k l) := by
  have e1 : d.interped.h = h := congrArg Prod.fst hd.shape
  have e2 : d.interped.w = w := congrArg Prod.snd hd.shape
  subst e1 e2
  exact hermitian_fftOrtho (toC d.interped) (fun i _ j _ => Complex.conj_ofReal _) k hk l hl

omit hd
include hr hn

theorem normReal_herm (b : ℝ) (k l : ℕ) (hk : k < h) (hl : l < w) :
    normReal ref new b (negIdx h k) (negIdx w l) = normReal ref new b k l := by
  unfold normReal
  rw [psfHat_herm h w ref hr k l hk hl, psfHat_herm h w new hn k l hk hl, normSq_conj, normSq_conj]

include h0

theorem normReal_upDown (b : ℝ) (k l : ℕ) (hk : k < h) (hl : l < w) :
    normReal ref.upDown new.upDown b k l = normReal ref new b (negIdx h k) l := by
  unfold normReal
  rw [psfHat_upDown h w h0 ref hr k l hk hl, psfHat_upDown h w h0 new hn k l hk hl, normSq_mul, normSq_mul,
    normSq_eq_norm_sq (tw _ _), normSq_eq_norm_sq (tw _ _), norm_tw, norm_tw]
  change new.var ^ 2 * _ + b ^ 2 * ref.var ^ 2 * _ = _
  ring

include w0

/-- One of the two terms of D: the image `y` filtered with the PSF of `x`. -/
theorem term_upDown (b : ℝ) (x y : SubImg) (hx : Flippable x h w) (hy : Flippable y h w) (i j : ℕ) (hi : i < h) :
    ((ifftOrtho ⟨h, w, fun k l => x.upDown.psfHat.px k l * y.upDown.interpedHat.px k l *
        shiftPhase h w (negPair (centerOfMass x.upDown.psf)) k l / csqrt (normHat ref.upDown new.upDown b k l)⟩).px i j).re =
      ((ifftOrtho ⟨h, w, fun k l => x.psfHat.px k l * y.interpedHat.px k l *
        shiftPhase h w (negPair (centerOfMass x.psf)) k l / csqrt (normHat ref new b k l)⟩).px (h - 1 - i) j).re +
      cornerTerm h w ((x.psfHat.px (h / 2) (w / 2)).re * (y.interpedHat.px (h / 2) (w / 2)).re /
        Real.sqrt (normReal ref new b (h / 2) (w / 2))) (centerOfMass x.psf).1 (centerOfMass x.psf).2 i j /
          Real.sqrt ((h * w : ℕ) : ℝ) := by
  have key := re_idft_flipped h w h0 w0
    (fun k l => x.psfHat.px k l * y.interpedHat.px k l / csqrt (normHat ref new b k l))
    (fun k l => x.psfHat.px k l * y.interpedHat.px k l *
      shiftPhase h w (negPair (centerOfMass x.psf)) k l / csqrt (normHat ref new b k l))
    (fun k l => x.upDown.psfHat.px k l * y.upDown.interpedHat.px k l *
        shiftPhase h w (negPair (centerOfMass x.upDown.psf)) k l / csqrt (normHat ref.upDown new.upDown b k l))
    (-(centerOfMass x.psf).1) (-(centerOfMass x.psf).2)
    (fun k hk l hl => by
      rw [psfHat_herm h w x hx k l hk hl, interpedHat_herm h w y hy k l hk hl, csqrt_normHat, csqrt_normHat,
        normReal_herm h w ref new hr hn b k l hk hl, map_div₀, map_mul, Complex.conj_ofReal])
    (fun k hk l hl => by
      unfold negPair
      ring)
    (fun k hk l hl => by
      rw [psfHat_upDown h w h0 x hx k l hk hl, interpedHat_upDown h w h0 y hy k l hk, csqrt_normHat, csqrt_normHat,
        normReal_upDown h w h0 ref new hr hn b k l hk hl, neg_neg]
      have e : negPair (centerOfMass x.upDown.psf) =
          ((centerOfMass x.psf).1 + ((-((x.psf.h : ℤ) - 1) : ℤ) : ℝ), -(centerOfMass x.psf).2) := by
        change negPair (centerOfMass x.psf.upDown) = _
        rw [com_upDown x.psf hx.total]
        unfold negPair
        push_cast
        congr 1
        ring
      rw [e, shiftPhase_row h w h0]
      have t := tw_neg_mul h ((k : ℝ) * ((x.psf.h : ℤ) - 1 : ℤ))
      have t' : tw h ((k : ℝ) * ((-((x.psf.h : ℤ) - 1) : ℤ) : ℝ)) = tw h (-((k : ℝ) * ((x.psf.h : ℤ) - 1 : ℤ))) := by
        congr 1
        push_cast
        ring
      rw [t']
      linear_combination (x.psfHat.px (negIdx h k) l * (y.interpedHat.px (negIdx h k) l *
        tw h ((k : ℝ) * ((h : ℤ) - 1 : ℤ))) * shiftPhase h w ((centerOfMass x.psf).1, -(centerOfMass x.psf).2) k l /
          ((Real.sqrt (normReal ref new b (negIdx h k) l) : ℝ) : ℂ)) * t) i j hi
  have st : ∀ c, cornerTerm h w c (-(centerOfMass x.psf).1) (-(centerOfMass x.psf).2) i j =
      cornerTerm h w c (centerOfMass x.psf).1 (centerOfMass x.psf).2 i j := by
    intro c
    unfold cornerTerm
    simp only [mul_neg, Real.sin_neg, neg_mul, neg_neg]
  rw [st] at key
  have re : ∀ (X : ℕ → ℕ → ℂ) i j, ((ifftOrtho ⟨h, w, X⟩).px i j).re =
      ((idftSum ⟨h, w, X⟩).px i j).re / Real.sqrt ((h * w : ℕ) : ℝ) := by
    intro X i j
    change ((idftSum ⟨h, w, X⟩).px i j / ((Real.sqrt ((h * w : ℕ) : ℝ) : ℝ) : ℂ)).re = _
    rw [Complex.div_ofReal_re]
  rw [re, re, key, add_div]
  congr 2
  by_cases c : h % 2 = 0 ∧ w % 2 = 0
  · congr 1
    have q1 : h / 2 < h := by omega
    have q2 : w / 2 < w := by omega
    have n1 : negIdx h (h / 2) = h / 2 := by
      unfold negIdx
      rw [Nat.mod_eq_of_lt (by omega)]
      omega
    have n2 : negIdx w (w / 2) = w / 2 := by
      unfold negIdx
      rw [Nat.mod_eq_of_lt (by omega)]
      omega
    have p := psfHat_herm h w x hx _ _ q1 q2
    have i := interpedHat_herm h w y hy _ _ q1 q2
    rw [n1, n2] at p i
    rw [csqrt_normHat, Complex.div_ofReal_re, ← Complex.conj_eq_iff_re.1 p.symm, ← Complex.conj_eq_iff_re.1 i.symm,
      ← Complex.ofReal_mul, Complex.ofReal_re, Complex.ofReal_re, Complex.ofReal_re]
  · unfold cornerTerm
    rw [if_neg c, if_neg c]

end

theorem ifftOrtho_sub_mul (h w : ℕ) (A B : ℕ → ℕ → ℂ) (b : ℝ) (i j : ℕ) :
    (ifftOrtho ⟨h, w, fun k l => A k l - (b : ℂ) * B k l⟩).px i j =
      (ifftOrtho ⟨h, w, A⟩).px i j - b * (ifftOrtho ⟨h, w, B⟩).px i j := by
  change (∑ k ∈ range h, ∑ l ∈ range w, (A k l - (b : ℂ) * B k l) * (tw h (-((k : ℝ) * i)) * tw w (-((l : ℝ) * j)))) / _ =
    (∑ k ∈ range h, ∑ l ∈ range w, A k l * (tw h (-((k : ℝ) * i)) * tw w (-((l : ℝ) * j)))) / _ -
    b * ((∑ k ∈ range h, ∑ l ∈ range w, B k l * (tw h (-((k : ℝ) * i)) * tw w (-((l : ℝ) * j)))) / _)
  rw [← mul_div_assoc, ← sub_div, Finset.mul_sum, ← Finset.sum_sub_distrib]
  congr 1
  refine Finset.sum_congr rfl fun k _ => ?_
  rw [Finset.mul_sum, ← Finset.sum_sub_distrib]
  refine Finset.sum_congr rfl fun l _ => ?_
  ring

theorem D_terms (h w : ℕ) (r n : SubImg) (hr : r.interped.shape = (h, w)) (hn : n.interped.shape = (h, w)) (b : ℝ) (i j : ℕ) :
    (ifftOrtho (dHat r n b 0 0)).px i j =
      (ifftOrtho ⟨h, w, fun k l => r.psfHat.px k l * n.interpedHat.px k l *
        shiftPhase h w (negPair (centerOfMass r.psf)) k l / csqrt (normHat r n b k l)⟩).px i j -
      b * (ifftOrtho ⟨h, w, fun k l => n.psfHat.px k l * r.interpedHat.px k l *
        shiftPhase h w (negPair (centerOfMass n.psf)) k l / csqrt (normHat r n b k l)⟩).px i j := by
  have e1 : r.h = h := congrArg Prod.fst hr
  have e2 : r.w = w := congrArg Prod.snd hr
  have f1 : n.h = h := congrArg Prod.fst hn
  have f2 : n.w = w := congrArg Prod.snd hn
  have q : dHat r n b 0 0 = ⟨h, w, fun k l => (r.psfHat.px k l * n.interpedHat.px k l *
        shiftPhase h w (negPair (centerOfMass r.psf)) k l - (b : ℂ) * (n.psfHat.px k l * r.interpedHat.px k l *
        shiftPhase h w (negPair (centerOfMass n.psf)) k l)) / csqrt (normHat r n b k l)⟩ := by
    unfold dHat
    simp only [and_self, if_true]
    subst e1 e2
    refine congrArg (Img.mk _ _) ?_
    funext k l
    change (r.psfHat.px k l * n.interpedHat.px k l * shiftPhase r.h r.w _ k l -
      (b : ℂ) * (n.psfHat.px k l * r.interpedHat.px k l * shiftPhase n.h n.w _ k l)) / _ = _
    rw [f1, f2]
  rw [q]
  refine Eq.trans ?_ (ifftOrtho_sub_mul h w _ _ b i j)
  congr 2
  refine congrArg (Img.mk _ _) ?_
  funext k l
  ring

section
variable (h w : ℕ) (h0 : h ≠ 0) (w0 : w ≠ 0) (ref new : SubImg) (hr : Flippable ref h w) (hn : Flippable new h w)
include h0 w0 hr hn

/-- The real part of D of the images upside down. -/
theorem re_D_upDown (b : ℝ) (i j : ℕ) (hi : i < h) :
    ((ifftOrtho (dHat ref.upDown new.upDown b 0 0)).px i j).re = ((ifftOrtho (dHat ref new b 0 0)).px (h - 1 - i) j).re +
      (cornerTerm h w ((ref.psfHat.px (h / 2) (w / 2)).re * (new.interpedHat.px (h / 2) (w / 2)).re /
        Real.sqrt (normReal ref new b (h / 2) (w / 2))) (centerOfMass ref.psf).1 (centerOfMass ref.psf).2 i j -
      b * cornerTerm h w ((new.psfHat.px (h / 2) (w / 2)).re * (ref.interpedHat.px (h / 2) (w / 2)).re /
        Real.sqrt (normReal ref new b (h / 2) (w / 2))) (centerOfMass new.psf).1 (centerOfMass new.psf).2 i j) /
          Real.sqrt ((h * w : ℕ) : ℝ) := by
  have re : ∀ x y : ℂ, (x - b * y).re = x.re - b * y.re := by
    intro x y
    simp [Complex.sub_re, Complex.mul_re]
  rw [D_terms h w ref.upDown new.upDown hr.shape hn.shape, D_terms h w ref new hr.shape hn.shape, re, re,
    term_upDown h w h0 w0 ref new hr hn b ref new hr hn i j hi, term_upDown h w h0 w0 ref new hr hn b new ref hn hr i j hi]
  ring

theorem P_upDown (b : ℝ) (i j : ℕ) : (subP ref.upDown new.upDown b).px i j =
    (subP ref new b).px (turnAt h (ref.psf.h + new.psf.h - 2) i) j := by
  have e1 : ref.h = h := congrArg Prod.fst hr.shape
  have e2 : ref.w = w := congrArg Prod.snd hr.shape
  have z : dZp ref.upDown new.upDown b = dZp ref new b := rfl
  have r := idft_upDown h w (pHat ref new b).px (pHat ref.upDown new.upDown b).px (ref.psf.h + new.psf.h - 2) h0
    (fun k hk l hl => by
      change (ref.upDown.psfHat.px k l * new.upDown.psfHat.px k l * b) /
          (csqrt (normHat ref.upDown new.upDown b k l) * dZp ref.upDown new.upDown b) =
        (ref.psfHat.px (negIdx h k) l * new.psfHat.px (negIdx h k) l * b) /
          (csqrt (normHat ref new b (negIdx h k) l) * dZp ref new b) * _
      rw [psfHat_upDown h w h0 ref hr k l hk hl, psfHat_upDown h w h0 new hn k l hk hl, csqrt_normHat, csqrt_normHat,
        normReal_upDown h w h0 ref new hr hn b k l hk hl, z]
      have e : tw h ((k : ℝ) * (((ref.psf.h : ℤ) + new.psf.h - 2 : ℤ) : ℝ)) =
          tw h ((k : ℝ) * ((ref.psf.h : ℤ) - 1 : ℤ)) * tw h ((k : ℝ) * ((new.psf.h : ℤ) - 1 : ℤ)) := by
        rw [← tw_add]
        congr 1
        push_cast
        ring
      rw [e]
      ring) i j
  have q : ∀ r n : SubImg, r.h = h → r.w = w → pHat r n b = ⟨h, w, (pHat r n b).px⟩ := by
    intro r n a c
    subst a c
    rfl
  change ((ifftOrtho (pHat ref.upDown new.upDown b)).px i j).re = ((ifftOrtho (pHat ref new b)).px _ _).re
  rw [q ref.upDown new.upDown e1 e2, q ref new e1 e2]
  change ((idftSum ⟨h, w, (pHat ref.upDown new.upDown b).px⟩).px i j / _).re =
    ((idftSum ⟨h, w, (pHat ref new b).px⟩).px _ _ / _).re
  rw [r]

/-- The scale fit does not see the difference if the corner term vanishes. -/
theorem scaleCost_upDown (hs : ∀ c i j, cornerTerm h w c (centerOfMass ref.psf).1 (centerOfMass ref.psf).2 i j = 0 ∧
      cornerTerm h w c (centerOfMass new.psf).1 (centerOfMass new.psf).2 i j = 0)
    (gamma : Img ℝ) (hg : gamma.shape = (h, w)) (m : NMask) (hm : m.HasShape h w) :
    scaleCost gamma.upDown m.upDown ref.upDown new.upDown = scaleCost gamma m ref new := by
  funext b
  have e1 : ref.h = h := congrArg Prod.fst hr.shape
  have e2 : ref.w = w := congrArg Prod.snd hr.shape
  have f1 : new.h = h := congrArg Prod.fst hn.shape
  have f2 : new.w = w := congrArg Prod.snd hn.shape
  have g1 : gamma.h = h := congrArg Prod.fst hg
  have e1' : ref.upDown.h = h := e1
  have e2' : ref.upDown.w = w := e2
  have f1' : new.upDown.h = h := f1
  have f2' : new.upDown.w = w := f2
  have N : ∀ r n : SubImg, r.h = h → r.w = w → (dHatN r n).px = fun k l => r.psfHat.px k l * n.interpedHat.px k l *
      shiftPhase h w (negPair (centerOfMass r.psf)) k l := by
    intro r n a c
    subst a c
    rfl
  have R : ∀ r n : SubImg, n.h = h → n.w = w → (dHatR r n).px = fun k l => n.psfHat.px k l * r.interpedHat.px k l *
      shiftPhase h w (negPair (centerOfMass n.psf)) k l := by
    intro r n a c
    subst a c
    rfl
  unfold scaleCost
  simp only []
  rw [N _ _ e1' e2', R _ _ f1' f2', N _ _ e1 e2, R _ _ f1 f2, e1, e2, e1', e2']
  conv_rhs => rw [← Finset.sum_range_reflect]
  refine Finset.sum_congr rfl fun i hi => ?_
  refine Finset.sum_congr rfl fun j hj => ?_
  have hi' := mem_range.1 hi
  have eg : (gammaP gamma.upDown ref.upDown new.upDown b).px i j = (gammaP gamma ref new b).px (h - 1 - i) j := by
    change gamma.px (gamma.h - 1 - i) j / _ = gamma.px (h - 1 - i) j / _
    rw [g1]
    rfl
  have t1 := term_upDown h w h0 w0 ref new hr hn b ref new hr hn i j hi'
  have t2 := term_upDown h w h0 w0 ref new hr hn b new ref hn hr i j hi'
  rw [(hs _ i j).1, zero_div, add_zero] at t1
  rw [(hs _ i j).2, zero_div, add_zero] at t2
  rw [marks_upDown m h w hm, eg]
  simp only [Complex.sub_re, Complex.mul_re, Complex.ofReal_re, Complex.ofReal_im, zero_mul, sub_zero]
  rw [t1, t2]

end

/-- The centre of mass of the PSF lies on a row or on a column of pixels. -/
def OnLine (d : SubImg) : Prop := (∃ z : ℤ, (centerOfMass d.psf).1 = z) ∨ ∃ z : ℤ, (centerOfMass d.psf).2 = z

theorem corner_zero (h w : ℕ) (d : SubImg) (hd : h % 2 = 1 ∨ w % 2 = 1 ∨ OnLine d) (c : ℝ) (i j : ℕ) :
    cornerTerm h w c (centerOfMass d.psf).1 (centerOfMass d.psf).2 i j = 0 := by
  unfold cornerTerm
  have s : ∀ z : ℤ, Real.sin (Real.pi * z) = 0 := fun z => by rw [mul_comm]; exact Real.sin_int_mul_pi z
  rcases hd with q | q | ⟨z, q⟩ | ⟨z, q⟩
  · rw [if_neg (by omega)]
  · rw [if_neg (by omega)]
  · rw [q, s]
    simp
  · rw [q, s]
    simp

/-- C172: both images upside down (pixels, masks, PSFs, backgrounds): the real part of D and the mask are upside down and P is
reflected, if a side of the images is odd or the PSFs are centred on a row or on a column of pixels; where `subtract` raises, it
raises the same error. -/
theorem subtract_upDown (env : SubEnv) (bt it : Bool) (ref new : SubImg) (h w : ℕ) (h0 : h ≠ 0) (w0 : w ≠ 0)
    (hr : Flippable ref h w) (hn : Flippable new h w) (hg : env.gamma.shape = (h, w))
    (hmr : ref.mask.HasShape h w) (hmn : new.mask.HasShape h w)
    (hc : env.fitted = true ∨ (0 ≤ (centerOfMass new.psf).1 ∧ (centerOfMass new.psf).1 ≤ new.psf.h - 1))
    (hs : h % 2 = 1 ∨ w % 2 = 1 ∨ (OnLine ref ∧ OnLine new)) :
    (∃ er, subtract env ⟨bt, false, it⟩ ref new = .error er ∧
      subtract env.upDown ⟨bt, false, it⟩ ref.upDown new.upDown = .error er) ∨
    ∃ out out', subtract env ⟨bt, false, it⟩ ref new = .ok out ∧
      subtract env.upDown ⟨bt, false, it⟩ ref.upDown new.upDown = .ok out' ∧
      out'.mask = out.mask.upDown ∧ ∀ i < h, ∀ j < w,
        (out'.D.px i j).re = (out.D.px (h - 1 - i) j).re ∧
        out'.P.px i j = out.P.px (turnAt h (ref.psf.h + new.psf.h - 2) i) j := by
  have hsh : ∀ m, new.mask.maskOr ref.mask = .ok m → m.HasShape h w := by
    intro m hm
    obtain ⟨m', e, hs, _⟩ := NMask.maskOr_spec new.mask ref.mask h w hmn hmr
    rw [hm] at e
    cases e
    exact hs
  have cz : ∀ c i j, cornerTerm h w c (centerOfMass ref.psf).1 (centerOfMass ref.psf).2 i j = 0 ∧
      cornerTerm h w c (centerOfMass new.psf).1 (centerOfMass new.psf).2 i j = 0 := by
    intro c i j
    rcases hs with q | q | ⟨q1, q2⟩
    · exact ⟨corner_zero h w ref (Or.inl q) c i j, corner_zero h w new (Or.inl q) c i j⟩
    · exact ⟨corner_zero h w ref (Or.inr (Or.inl q)) c i j, corner_zero h w new (Or.inr (Or.inl q)) c i j⟩
    · exact ⟨corner_zero h w ref (Or.inr (Or.inr q1)) c i j, corner_zero h w new (Or.inr (Or.inr q2)) c i j⟩
  have hc' : (env.upDown.fitted = false ∧ ((centerOfMass new.upDown.psf).1 < 0 ∨ (centerOfMass new.upDown.psf).2 < 0)) ↔
      (env.fitted = false ∧ ((centerOfMass new.psf).1 < 0 ∨ (centerOfMass new.psf).2 < 0)) := by
    change (env.fitted = false ∧ ((centerOfMass new.psf.upDown).1 < 0 ∨ (centerOfMass new.psf.upDown).2 < 0)) ↔ _
    rw [com_upDown new.psf hn.total]
    rcases hc with q | ⟨q1, q2⟩
    · rw [q]
      simp
    · constructor
      · rintro ⟨a, p | p⟩
        · exact absurd p (by simp only; linarith)
        · exact ⟨a, Or.inr p⟩
      · rintro ⟨a, p | p⟩
        · exact absurd p (by linarith)
        · exact ⟨a, Or.inr p⟩
  rcases subtract_pair env env.upDown bt it ref new ref.upDown new.upDown (fun m => m.upDown)
    rfl rfl Iff.rfl (maskOr_upDown _ _) hc'
    (fun m hm => scaleCost_upDown h w h0 w0 ref new hr hn cz env.gamma hg m (hsh m hm))
    (fun m hm => imageSeen_rearranged (fun a => a.upDown) (fun _ => ⟨rfl, rfl⟩) (fun a => any_upDown (a.map fun b => !b)) m _ _ (by
      have r1 : ref.h = h := congrArg Prod.fst hr.shape
      have r2 : ref.w = w := congrArg Prod.snd hr.shape
      change m.HasShape ref.h ref.w
      rw [r1, r2]
      exact hsh m hm)) with
    ⟨er, e1, e2⟩ | ⟨m, z, b, _, _, _, e1, e2⟩
  · exact Or.inl ⟨er, e1, e2⟩
  · refine Or.inr ⟨_, _, e1, e2, rfl, fun i hi j hj => ⟨?_, P_upDown h w h0 w0 ref new hr hn b i j⟩⟩
    have q := re_D_upDown h w h0 w0 ref new hr hn b i j hi
    rw [(cz _ i j).1, (cz _ i j).2, mul_zero, sub_zero, zero_div, add_zero] at q
    exact q

/-- C172: without fits and wherever the PSFs are centred: on images with an odd side the real part of D is upside down; on images
with even sides a checkerboard is added to it, with an amplitude that goes with the product of the sines of the centres. -/
theorem subtract_upDown_exact (env : SubEnv) (it : Bool) (ref new : SubImg) (h w : ℕ) (z : ℝ × ℝ) (h0 : h ≠ 0) (w0 : w ≠ 0)
    (hr : Flippable ref h w) (hn : Flippable new h w)
    (hmr : ref.mask.HasShape h w) (hmn : new.mask.HasShape h w) (hz : env.zps = .ok z)
    (hc : env.fitted = true ∨ (0 ≤ (centerOfMass new.psf).1 ∧ (centerOfMass new.psf).1 ≤ new.psf.h - 1 ∧
      0 ≤ (centerOfMass new.psf).2)) :
    ∃ out out', subtract env ⟨false, false, it⟩ ref new = .ok out ∧
      subtract env.upDown ⟨false, false, it⟩ ref.upDown new.upDown = .ok out' ∧ ∀ i < h, ∀ j < w,
        (out'.D.px i j).re = (out.D.px (h - 1 - i) j).re -
          if h % 2 = 0 ∧ w % 2 = 0 then (-1) ^ (i + j) * (2 / (h * w : ℝ)) *
            ((Real.sin (Real.pi * (centerOfMass ref.psf).1) * Real.sin (Real.pi * (centerOfMass ref.psf).2) *
                altSum ref.psf * altSum new.interped -
              z.2 / z.1 * (Real.sin (Real.pi * (centerOfMass new.psf).1) * Real.sin (Real.pi * (centerOfMass new.psf).2) *
                altSum new.psf * altSum ref.interped)) /
              Real.sqrt (new.var ^ 2 * altSum ref.psf ^ 2 + (z.2 / z.1) ^ 2 * ref.var ^ 2 * altSum new.psf ^ 2)) else 0 := by
  obtain ⟨out, e, eD⟩ := subtract_returns env it ref new h w hr.shape hn.shape hmr hmn z hz
    (hc.imp id fun q => ⟨q.1, q.2.2⟩)
  obtain ⟨out', e', eD'⟩ := subtract_returns env.upDown it ref.upDown new.upDown h w hr.shape hn.shape
    (by
      intro a ha
      obtain ⟨a0, h0, rfl⟩ := Option.map_eq_some_iff.1 ha
      exact hmr a0 h0) (by
      intro a ha
      obtain ⟨a0, h0, rfl⟩ := Option.map_eq_some_iff.1 ha
      exact hmn a0 h0) z hz
    (hc.imp id fun q => by
      change 0 ≤ (centerOfMass new.psf.upDown).1 ∧ 0 ≤ (centerOfMass new.psf.upDown).2
      rw [com_upDown new.psf hn.total]
      exact ⟨by simp only; linarith [q.2.1], q.2.2⟩)
  refine ⟨out, out', e, e', fun i hi j hj => ?_⟩
  rw [eD.1, eD'.1, re_D_upDown h w h0 w0 ref new hr hn _ i j hi, sub_eq_add_neg]
  congr 1
  generalize z.2 / z.1 = b
  by_cases c : h % 2 = 0 ∧ w % 2 = 0
  · have e1 : ∀ d : SubImg, Flippable d h w → d.interped.h = h := fun d hd => congrArg Prod.fst hd.shape
    have e2 : ∀ d : SubImg, Flippable d h w → d.interped.w = w := fun d hd => congrArg Prod.snd hd.shape
    obtain ⟨q, hq⟩ : ∃ q, q = Real.sqrt ((h * w : ℕ) : ℝ) := ⟨_, rfl⟩
    have P : ∀ d : SubImg, Flippable d h w → d.psfHat.px (h / 2) (w / 2) = ((altSum d.psf / q : ℝ) : ℂ) := by
      intro d hd
      rw [psfHat_idle d h w (e1 d hd) (e2 d hd) hd.idle _ _ (by omega) (by omega), hq]
      exact fft_corner d.psf h w (h / 2) (w / 2) (by omega) (by omega) (by omega) (by omega) hd.fitsH hd.fitsW
    have I : ∀ d : SubImg, Flippable d h w → d.interpedHat.px (h / 2) (w / 2) = ((altSum d.interped / q : ℝ) : ℂ) := by
      intro d hd
      have a := fft_corner d.interped h w (h / 2) (w / 2) (by omega) (by omega) (by omega) (by omega)
        (e1 d hd).le (e2 d hd).le
      rw [padTo_self (toC d.interped) h w (e1 d hd) (e2 d hd), ← hq] at a
      exact a
    have hw0 : (0 : ℝ) < ((h * w : ℕ) : ℝ) := by exact_mod_cast Nat.mul_pos (by omega) (by omega)
    have sq : q ^ 2 = ((h * w : ℕ) : ℝ) := by rw [hq]; exact Real.sq_sqrt hw0.le
    have sp : 0 < q := by rw [hq]; exact Real.sqrt_pos.2 hw0
    have nr : Real.sqrt (normReal ref new b (h / 2) (w / 2)) =
        Real.sqrt (new.var ^ 2 * altSum ref.psf ^ 2 + b ^ 2 * ref.var ^ 2 * altSum new.psf ^ 2) / q := by
      rw [hq, ← Real.sqrt_div' _ hw0.le]
      congr 1
      unfold normReal
      rw [P ref hr, P new hn, normSq_ofReal, normSq_ofReal, div_mul_div_comm, div_mul_div_comm, ← sq]
      ring
    have hwc : ((h * w : ℕ) : ℝ) = (h : ℝ) * w := by push_cast; rfl
    unfold cornerTerm
    rw [if_pos c, if_pos c, if_pos c, nr, P ref hr, P new hn, I ref hr, I new hn, ← hq]
    simp only [Complex.ofReal_re]
    rw [← hwc, ← sq]
    generalize Real.sqrt (new.var ^ 2 * altSum ref.psf ^ 2 + b ^ 2 * ref.var ^ 2 * altSum new.psf ^ 2) = r
    by_cases r0 : r = 0
    · subst r0
      simp
    · field_simp
      ring
  · unfold cornerTerm
    rw [if_neg c, if_neg c, if_neg c]
    simp

end PI
