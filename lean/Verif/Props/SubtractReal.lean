import Verif.Props.SubtractMore
import Verif.Lemmas.Hermitian

/-! # Properties C78–C80: the window of the shift fit, the rolled background, reality of D -/

namespace PI
open Complex Finset

/-! ## C78 -/

/-- C78: two residual images that agree at least 100 pixels away from every edge have the same cost. -/
theorem shift_cost_ignores_border (mask : NMask) (r r' : Img ℝ) (hh : r'.h = r.h) (hw : r'.w = r.w)
    (h : ∀ i j, 100 ≤ i → i + 100 < r.h → 100 ≤ j → j + 100 < r.w → r'.px i j = r.px i j) :
    borderCost mask r' = borderCost mask r := by
  unfold borderCost
  rw [hh, hw]
  refine sum_congr rfl fun i hi => sum_congr rfl fun j hj => ?_
  rw [mem_Ico] at hi hj
  unfold optBorder at hi hj
  rw [h i j (by omega) (by omega) (by omega) (by omega)]

/-- C78: for an image with a side of at most 200 pixels no pixel contributes to the cost of the shift fits, for any scale and
shift (`subtract_small_images`: the fit then raises). -/
theorem shift_cost_constant_small (gamma : Img ℝ) (mask : NMask) (ref new : SubImg)
    (hs : ref.h ≤ 200 ∨ ref.w ≤ 200) (b dx dy : ℝ) :
    costScaleShift gamma mask ref new [b, dx, dy] = 0 ∧
      costShift gamma mask ref new b [dx, dy] = 0 := by
  have : borderCost mask (shiftResidual gamma ref new b dx dy) = 0 := by
    unfold borderCost
    change ∑ i ∈ Ico optBorder (ref.h - optBorder), ∑ j ∈ Ico optBorder (ref.w - optBorder), _ = 0
    unfold optBorder
    rcases hs with hs | hs
    · rw [Ico_eq_empty (by omega), sum_empty]
    · refine sum_eq_zero fun i _ => ?_
      rw [Ico_eq_empty (by omega), sum_empty]
  exact ⟨this, this⟩

/-- C78 is about the border only: with both sides above 200 there are residuals of different
cost. -/
theorem shift_cost_sees_interior (h w : ℕ) (hh : 200 < h) (hw : 200 < w) :
    ∃ r r' : Img ℝ, r.shape = (h, w) ∧ r'.shape = (h, w) ∧
      borderCost none r ≠ borderCost none r' := by
  refine ⟨⟨h, w, fun _ _ => 0⟩, ⟨h, w, fun _ _ => 1⟩, rfl, rfl, ?_⟩
  have z : borderCost none ⟨h, w, fun _ _ => 0⟩ = 0 := by
    unfold borderCost
    refine sum_eq_zero fun i _ => sum_eq_zero fun j _ => ?_
    change (if NMask.marks none i j = true then 0 else |(0 : ℝ) / _|) = 0
    rw [zero_div, abs_zero, ite_self]
  rw [z]
  apply ne_of_lt
  unfold borderCost
  refine sum_pos (fun i _ => sum_pos (fun j _ => ?_) ?_) ?_
  · change (0 : ℝ) < if NMask.marks none i j = true then 0 else _
    have : NMask.marks none i j = false := rfl
    rw [this]
    simp only [Bool.false_eq_true, if_false]
    apply abs_pos.2
    have h0 : 0 < (h - optBorder - optBorder) * (w - optBorder - optBorder) := by
      unfold optBorder
      exact Nat.mul_pos (by omega) (by omega)
    have h1 : (0 : ℝ) < (((h - optBorder - optBorder) * (w - optBorder - optBorder) : ℕ) : ℝ) := by
      exact_mod_cast h0
    exact (div_pos one_pos h1).ne'
  · refine ⟨optBorder, mem_Ico.2 ⟨le_refl _, ?_⟩⟩
    change optBorder < w - optBorder
    unfold optBorder
    omega
  · refine ⟨optBorder, mem_Ico.2 ⟨le_refl _, ?_⟩⟩
    change optBorder < h - optBorder
    unfold optBorder
    omega

/-! ## C79 -/

/-- C79: opposite shifts along the axes leave the background term where it was. -/
theorem rolled_background_opposite (a : Img ℝ) (s : ℤ) (i j : ℕ) (hi : i < a.h) (hj : j < a.w) :
    (rollFlat a s (-s)).px i j = a.px i j := by
  change a.px (((((i * a.w + j : ℕ) : ℤ) - (s + -s)) % ((a.h * a.w : ℕ) : ℤ)).toNat / a.w)
    (((((i * a.w + j : ℕ) : ℤ) - (s + -s)) % ((a.h * a.w : ℕ) : ℤ)).toNat % a.w) = _
  have hlt : i * a.w + j < a.h * a.w := by
    calc i * a.w + j < i * a.w + a.w := by omega
      _ = (i + 1) * a.w := by ring
      _ ≤ a.h * a.w := Nat.mul_le_mul_right _ (by omega)
  rw [add_neg_cancel, sub_zero, ← Int.natCast_mod, Int.toNat_natCast, Nat.mod_eq_of_lt hlt,
    add_comm, Nat.add_mul_div_right _ _ (by omega), Nat.add_mul_mod_self_right,
    Nat.div_eq_of_lt hj, Nat.mod_eq_of_lt hj, zero_add]

/-- C79: a shift of one pixel along the *first* axis moves the background along the *second*. -/
theorem rolled_background_axis (a : Img ℝ) (i j : ℕ) (hi : i < a.h) (hj : j + 1 < a.w) :
    (rollFlat a 1 0).px i (j + 1) = a.px i j := by
  change a.px (((((i * a.w + (j + 1) : ℕ) : ℤ) - (1 + 0)) % ((a.h * a.w : ℕ) : ℤ)).toNat / a.w)
    (((((i * a.w + (j + 1) : ℕ) : ℤ) - (1 + 0)) % ((a.h * a.w : ℕ) : ℤ)).toNat % a.w) = _
  have hlt : i * a.w + j < a.h * a.w := by
    calc i * a.w + j < i * a.w + a.w := by omega
      _ = (i + 1) * a.w := by ring
      _ ≤ a.h * a.w := Nat.mul_le_mul_right _ (by omega)
  have e : ((i * a.w + (j + 1) : ℕ) : ℤ) - (1 + 0) = ((i * a.w + j : ℕ) : ℤ) := by push_cast; ring
  rw [e, ← Int.natCast_mod, Int.toNat_natCast, Nat.mod_eq_of_lt hlt,
    add_comm, Nat.add_mul_div_right _ _ (by omega), Nat.add_mul_mod_self_right,
    Nat.div_eq_of_lt (by omega), Nat.mod_eq_of_lt (by omega), zero_add]

/-- C79: only the total `sx + sy` matters. -/
theorem rolled_background_total (a : Img ℝ) (sx sy tx ty : ℤ) (h : sx + sy = tx + ty) :
    rollFlat a sx sy = rollFlat a tx ty := by
  unfold rollFlat
  simp only [h]

/-- C79: rounding of the shifts the bounds of the fit allow. -/
theorem roundReal_small (x : ℝ) (h : |x| ≤ 1 / 2) : roundReal x = 0 := by
  have h1 := abs_le.1 h
  unfold roundReal
  rcases lt_or_ge x 0 with hx | hx
  · have hf : ⌊x⌋ = -1 := by rw [Int.floor_eq_iff]; constructor <;> push_cast <;> linarith
    simp only [hf]
    push_cast
    rw [if_neg (by linarith)]
    split
    · rfl
    · rfl
  · have hf : ⌊x⌋ = 0 := by rw [Int.floor_eq_iff]; constructor <;> push_cast <;> linarith
    simp only [hf]
    push_cast
    split
    · rfl
    · rw [if_neg (by linarith)]

theorem roundReal_nine (x : ℝ) (h : 1 / 2 < x) (h' : x ≤ 9 / 10) : roundReal x = 1 := by
  unfold roundReal
  have hf : ⌊x⌋ = 0 := by rw [Int.floor_eq_iff]; constructor <;> push_cast <;> linarith
  simp only [hf]
  push_cast
  rw [if_neg (by linarith), if_pos (by linarith)]

/-! ## C80 -/

theorem hermitian_toC (a : Img ℝ) : Hermitian (fftOrtho (toC a)) :=
  hermitian_fftOrtho _ fun _ _ _ _ => conj_ofReal _

theorem guardHat_conj (z : ℂ) : guardHat ((starRingEnd ℂ) z) = (starRingEnd ℂ) (guardHat z) := by
  unfold guardHat
  rw [conj_re]
  split
  · rw [conj_ofReal]
  · rfl

theorem hermitian_psfHat (d : SubImg) : Hermitian d.psfHat := by
  refine hermitian_map _ _ guardHat_conj (hermitian_fftOrtho _ ?_)
  intro i _ j _
  change (starRingEnd ℂ) (if _ then ((d.psf.px i j : ℝ) : ℂ) else 0) = if _ then _ else 0
  split
  · exact conj_ofReal _
  · exact map_zero _

/-- The shift `d` can be applied on an axis of length `n` without leaving the reals. -/
def AxisOK (n : ℕ) (d : ℝ) : Prop := n % 2 = 1 ∨ ∃ z : ℤ, d = z

theorem AxisOK.neg {n : ℕ} {d : ℝ} (h : AxisOK n d) : AxisOK n (-d) := by
  rcases h with h | ⟨z, rfl⟩
  · exact Or.inl h
  · exact Or.inr ⟨-z, by push_cast; rfl⟩

theorem normReal_neg (ref new : SubImg) (hh : new.h = ref.h) (hw : new.w = ref.w) (b : ℝ)
    (k l : ℕ) (hk : k < ref.h) (hl : l < ref.w) :
    normReal ref new b (negIdx ref.h k) (negIdx ref.w l) = normReal ref new b k l := by
  unfold normReal
  have h1 := hermitian_psfHat ref k hk l hl
  have h2 := hermitian_psfHat new k (by change k < new.h; omega) l (by change l < new.w; omega)
  change ref.psfHat.px (negIdx ref.h k) (negIdx ref.w l) = _ at h1
  change new.psfHat.px (negIdx new.h k) (negIdx new.w l) = _ at h2
  rw [hh, hw] at h2
  rw [h1, h2, normSq_conj, normSq_conj]

theorem hermitian_dHat (ref new : SubImg) (hh : new.h = ref.h) (hw : new.w = ref.w) (b dx dy : ℝ)
    (h1 : AxisOK ref.h (centerOfMass ref.psf).1) (h2 : AxisOK ref.w (centerOfMass ref.psf).2)
    (h3 : AxisOK ref.h (centerOfMass new.psf).1) (h4 : AxisOK ref.w (centerOfMass new.psf).2)
    (h5 : AxisOK ref.h dx) (h6 : AxisOK ref.w dy) : Hermitian (dHat ref new b dx dy) := by
  have hmul : ∀ z w : ℂ, (starRingEnd ℂ) z * (starRingEnd ℂ) w = (starRingEnd ℂ) (z * w) :=
    fun z w => (map_mul _ _ _).symm
  have hN : Hermitian (dHatN ref new) := by
    refine hermitian_shift _ _ h1.neg h2.neg ?_
    exact hermitian_zip _ _ hh hw _ hmul (hermitian_psfHat ref) (hermitian_toC new.interped)
  have hR0 : Hermitian (dHatR ref new) := by
    refine hermitian_shift _ _ ?_ ?_ ?_
    · have := h3.neg; rw [← hh] at this; exact this
    · have := h4.neg; rw [← hw] at this; exact this
    · exact hermitian_zip _ _ hh.symm hw.symm _ hmul (hermitian_psfHat new)
        (hermitian_toC ref.interped)
  have hR1 : Hermitian ((dHatR ref new).map fun z => (b : ℂ) * z) := by
    refine hermitian_map _ _ ?_ hR0
    intro z
    rw [map_mul, conj_ofReal]
  have hR : Hermitian (if dx = 0 ∧ dy = 0 then (dHatR ref new).map (fun z => (b : ℂ) * z)
      else fourierShift ((dHatR ref new).map fun z => (b : ℂ) * z) (dx, dy)) := by
    split
    · exact hR1
    · refine hermitian_shift _ _ ?_ ?_ hR1
      · rw [← hh] at h5; exact h5
      · rw [← hw] at h6; exact h6
  set sh : Img ℂ := if dx = 0 ∧ dy = 0 then (dHatR ref new).map (fun z => (b : ℂ) * z)
      else fourierShift ((dHatR ref new).map fun z => (b : ℂ) * z) (dx, dy) with hsh
  have shh : sh.h = ref.h := by rw [hsh]; split <;> exact hh
  have shw : sh.w = ref.w := by rw [hsh]; split <;> exact hw
  intro k hk l hl
  have hk' : k < ref.h := hk
  have hl' : l < ref.w := hl
  change ((dHatN ref new).px (negIdx ref.h k) (negIdx ref.w l) -
      sh.px (negIdx ref.h k) (negIdx ref.w l)) /
      csqrt (normHat ref new b (negIdx ref.h k) (negIdx ref.w l)) =
    (starRingEnd ℂ) (((dHatN ref new).px k l - sh.px k l) / csqrt (normHat ref new b k l))
  rw [csqrt_normHat, csqrt_normHat, normReal_neg ref new hh hw b k l hk' hl', map_div₀, map_sub,
    conj_ofReal]
  have e1 := hN k hk' l hl'
  change (dHatN ref new).px (negIdx ref.h k) (negIdx ref.w l) = _ at e1
  have e2 := hR k (by rw [shh]; exact hk') l (by rw [shw]; exact hl')
  rw [shh, shw] at e2
  rw [e1, e2]

/-- C80: every pixel of D is a real number if on each axis the image has an odd number of pixels or
all three shifts involved (both PSF centroids and the fitted shift) are whole pixels. -/
theorem subtract_D_real (ref new : SubImg) (hh : new.h = ref.h) (hw : new.w = ref.w) (b dx dy : ℝ)
    (h1 : AxisOK ref.h (centerOfMass ref.psf).1) (h2 : AxisOK ref.w (centerOfMass ref.psf).2)
    (h3 : AxisOK ref.h (centerOfMass new.psf).1) (h4 : AxisOK ref.w (centerOfMass new.psf).2)
    (h5 : AxisOK ref.h dx) (h6 : AxisOK ref.w dy) (i j : ℕ) :
    ((ifftOrtho (dHat ref new b dx dy)).px i j).im = 0 :=
  ifftOrtho_real _ (hermitian_dHat ref new hh hw b dx dy h1 h2 h3 h4 h5 h6) i j

/-- C80: the PSF image loses nothing by taking the real part. -/
theorem subtract_P_real (ref new : SubImg) (hh : new.h = ref.h) (hw : new.w = ref.w) (b : ℝ)
    (i j : ℕ) : (((subP ref new b).px i j : ℝ) : ℂ) = (ifftOrtho (pHat ref new b)).px i j := by
  have hP : Hermitian (pHat ref new b) := by
    intro k hk l hl
    have hk' : k < ref.h := hk
    have hl' : l < ref.w := hl
    change (ref.psfHat.px (negIdx ref.h k) (negIdx ref.w l) *
        new.psfHat.px (negIdx ref.h k) (negIdx ref.w l) * b) /
        (csqrt (normHat ref new b (negIdx ref.h k) (negIdx ref.w l)) * dZp ref new b) = (starRingEnd ℂ)
      ((ref.psfHat.px k l * new.psfHat.px k l * b) / (csqrt (normHat ref new b k l) * dZp ref new b))
    have e1 := hermitian_psfHat ref k hk' l hl'
    have e2 := hermitian_psfHat new k (by change k < new.h; omega) l (by change l < new.w; omega)
    change ref.psfHat.px (negIdx ref.h k) (negIdx ref.w l) = _ at e1
    change new.psfHat.px (negIdx new.h k) (negIdx new.w l) = _ at e2
    rw [hh, hw] at e2
    rw [csqrt_normHat, csqrt_normHat, normReal_neg ref new hh hw b k l hk' hl', map_div₀, map_mul,
      map_mul, map_mul, conj_ofReal, conj_ofReal, conj_ofReal, e1, e2]
  have := ifftOrtho_real _ hP i j
  apply Complex.ext
  · rfl
  · rw [this]; rfl

/-! ### C80 fails for even sides -/

/-- Reference: an empty 1×2 image whose PSF `(3, 1)` has its centroid at column 1/4. -/
noncomputable def evenRef : SubImg :=
  ⟨⟨1, 2, fun _ _ => 0⟩, none, ⟨1, 2, fun _ _ => 0⟩, ⟨1, 2, fun _ j => if j = 0 then 3 else 1⟩, 1⟩

/-- New image: one bright pixel, same PSF. -/
noncomputable def evenNew : SubImg :=
  ⟨⟨1, 2, fun _ j => if j = 0 then 1 else 0⟩, none, ⟨1, 2, fun _ _ => 0⟩,
    ⟨1, 2, fun _ j => if j = 0 then 3 else 1⟩, 1⟩

theorem tw_two_one : tw 2 1 = -1 := by
  unfold tw
  have e : (((-(2 * Real.pi * 1 / (2 : ℕ)) : ℝ) : ℂ) * I) = -((Real.pi : ℂ) * I) := by
    push_cast; ring
  rw [e, Complex.exp_neg, Complex.exp_pi_mul_I]
  norm_num

theorem tw_two_quarter_im : (tw 2 (1 / 4)).im ≠ 0 := by
  unfold tw
  rw [Complex.exp_ofReal_mul_I_im]
  have e : -(2 * Real.pi * (1 / 4) / ((2 : ℕ) : ℝ)) = -(Real.pi / 4) := by push_cast; ring
  rw [e, Real.sin_neg, Real.sin_pi_div_four]
  have : (0 : ℝ) < Real.sqrt 2 := by positivity
  intro h
  linarith

theorem evenRef_com : centerOfMass evenRef.psf = (0, 1 / 4) := by
  unfold centerOfMass rsum evenRef
  simp [Finset.sum_range_succ]
  norm_num

theorem guardHat_real_pos (x : ℝ) (hx : 0 < x) : guardHat (x : ℂ) = (x : ℂ) := by
  unfold guardHat
  rw [if_neg]
  rw [ofReal_re]
  exact hx.ne'

theorem even_psfHat0 : evenRef.psfHat.px 0 0 = ((4 / Real.sqrt 2 : ℝ) : ℂ) := by
  rw [← guardHat_real_pos _ (by positivity : 0 < 4 / Real.sqrt 2)]
  change guardHat (_ / _) = _
  congr 1
  unfold dft padTo toC evenRef SubImg.h SubImg.w Img.map
  simp [Finset.sum_range_succ, tw_zero]
  norm_num

theorem even_psfHat1 : evenRef.psfHat.px 0 1 = ((2 / Real.sqrt 2 : ℝ) : ℂ) := by
  rw [← guardHat_real_pos _ (by positivity : 0 < 2 / Real.sqrt 2)]
  change guardHat (_ / _) = _
  congr 1
  unfold dft padTo toC evenRef SubImg.h SubImg.w Img.map
  simp only [Finset.sum_range_succ, Finset.sum_range_zero, zero_add]
  norm_num [tw_zero, tw_two_one]
  have h : ((Real.sqrt 2 : ℝ) : ℂ) * (Real.sqrt 2 : ℝ) = 2 := by
    rw [← ofReal_mul, Real.mul_self_sqrt (by norm_num)]; norm_num
  have h0 : ((Real.sqrt 2 : ℝ) : ℂ) ≠ 0 := by
    intro h0; rw [h0] at h; norm_num at h
  rw [div_eq_iff h0, h]

theorem even_newHat (l : ℕ) : evenNew.interpedHat.px 0 l = ((1 / Real.sqrt 2 : ℝ) : ℂ) := by
  change _ / _ = _
  unfold dft toC evenNew Img.map
  simp [Finset.sum_range_succ, tw_zero]

theorem even_refHat (l : ℕ) : evenRef.interpedHat.px 0 l = 0 := by
  change _ / _ = _
  unfold dft toC evenRef Img.map
  simp

/-- C80: an image with an even side and a PSF that is not centred on a pixel gets a D that is not
real. -/
theorem subtract_D_not_real : ((ifftOrtho (dHat evenRef evenNew 1 0 0)).px 0 0).im ≠ 0 := by
  have hN : ∀ l, (dHatN evenRef evenNew).px 0 l =
      evenRef.psfHat.px 0 l * evenNew.interpedHat.px 0 l * shiftPhase 1 2 (0, -(1 / 4)) 0 l := by
    intro l
    change _ * shiftPhase 1 2 (negPair (centerOfMass evenRef.psf)) 0 l = _
    rw [evenRef_com]
    unfold negPair
    rw [neg_zero]
    rfl
  have hR : ∀ l, (dHatR evenRef evenNew).px 0 l = 0 := by
    intro l
    change evenNew.psfHat.px 0 l * evenRef.interpedHat.px 0 l * _ = 0
    rw [even_refHat, mul_zero, zero_mul]
  have hX : ∀ l, (dHat evenRef evenNew 1 0 0).px 0 l =
      (dHatN evenRef evenNew).px 0 l / (Real.sqrt (normReal evenRef evenNew 1 0 l) : ℂ) := by
    intro l
    rw [← csqrt_normHat]
    unfold dHat
    simp [Img.map, hR]
  have p0 : shiftPhase 1 2 (0, -(1 / 4)) 0 0 = 1 := by
    simp [shiftPhase, sfreq, tw_zero]
  have p1 : shiftPhase 1 2 (0, -(1 / 4)) 0 1 = tw 2 (1 / 4) := by
    unfold shiftPhase
    rw [show sfreq 2 1 = -1 by decide, show sfreq 1 0 = 0 by decide]
    simp [tw_zero]
  have hpx : (ifftOrtho (dHat evenRef evenNew 1 0 0)).px 0 0 =
      ((dHat evenRef evenNew 1 0 0).px 0 0 + (dHat evenRef evenNew 1 0 0).px 0 1) /
        (Real.sqrt ((1 * 2 : ℕ) : ℝ) : ℂ) := by
    change (∑ k ∈ range 1, ∑ l ∈ range 2, (dHat evenRef evenNew 1 0 0).px k l *
      (tw 1 (-((k : ℝ) * (0 : ℕ))) * tw 2 (-((l : ℝ) * (0 : ℕ))))) / (Real.sqrt ((1 * 2 : ℕ) : ℝ) : ℂ) = _
    simp [Finset.sum_range_succ, tw_zero]
  have hn : 0 < normReal evenRef evenNew 1 0 1 := by
    unfold normReal
    have e : evenNew.psfHat.px 0 1 = evenRef.psfHat.px 0 1 := rfl
    rw [e, even_psfHat1, normSq_ofReal]
    have : (0 : ℝ) < 2 / Real.sqrt 2 := by positivity
    change 0 < (1 : ℝ) ^ 2 * (2 / √2 * (2 / √2)) + 1 ^ 2 * 1 ^ 2 * (2 / √2 * (2 / √2))
    nlinarith [mul_pos this this]
  have hs := Real.sqrt_pos.2 hn
  rw [hpx, hX, hX, hN, hN, p0, p1, even_psfHat0, even_psfHat1, even_newHat, even_newHat]
  set q0 := Real.sqrt (normReal evenRef evenNew 1 0 0)
  set q1 := Real.sqrt (normReal evenRef evenNew 1 0 1)
  set t := tw 2 (1 / 4) with ht
  have himt := tw_two_quarter_im
  rw [← ht] at himt
  have e : ((((4 / Real.sqrt 2 : ℝ) : ℂ) * ((1 / Real.sqrt 2 : ℝ) : ℂ) * 1 / (q0 : ℂ) +
      ((2 / Real.sqrt 2 : ℝ) : ℂ) * ((1 / Real.sqrt 2 : ℝ) : ℂ) * t / (q1 : ℂ)) /
      (Real.sqrt ((1 * 2 : ℕ) : ℝ) : ℂ)) =
      ((4 / Real.sqrt 2 * (1 / Real.sqrt 2) / q0 / Real.sqrt ((1 * 2 : ℕ) : ℝ) : ℝ) : ℂ) +
      ((2 / Real.sqrt 2 * (1 / Real.sqrt 2) / q1 / Real.sqrt ((1 * 2 : ℕ) : ℝ) : ℝ) : ℂ) * t := by
    push_cast
    ring
  rw [e, add_im, ofReal_im, zero_add, im_ofReal_mul]
  refine mul_ne_zero ?_ himt
  have h2 : (0 : ℝ) < Real.sqrt ((1 * 2 : ℕ) : ℝ) := by norm_num
  have h3 : (0 : ℝ) < 2 / Real.sqrt 2 * (1 / Real.sqrt 2) := by positivity
  exact (div_pos (div_pos h3 hs) h2).ne'

/-- Non-vacuity of `subtract_D_real`: an image of odd sides and any PSFs. -/
example (a b p q : ℕ → ℕ → ℝ) (b' dx dy : ℝ) (i j : ℕ) (ref new : SubImg)
    (hr : ref = ⟨⟨3, 5, a⟩, none, ⟨3, 5, a⟩, ⟨3, 3, p⟩, 1⟩)
    (hn : new = ⟨⟨3, 5, b⟩, none, ⟨3, 5, b⟩, ⟨3, 3, q⟩, 1⟩) :
    ((ifftOrtho (dHat ref new b' dx dy)).px i j).im = 0 := by
  have eh : ref.h = 3 := by rw [hr]; rfl
  have ew : ref.w = 5 := by rw [hr]; rfl
  have h3 : ∀ x, AxisOK ref.h x := fun _ => Or.inl (by rw [eh])
  have h5 : ∀ x, AxisOK ref.w x := fun _ => Or.inl (by rw [ew])
  exact subtract_D_real ref new (by rw [hr, hn]; rfl) (by rw [hr, hn]; rfl) b' dx dy
    (h3 _) (h5 _) (h3 _) (h5 _) (h3 _) (h5 _) i j

/-- Non-vacuity of `shift_cost_constant_small`. -/
example (a : ℕ → ℕ → ℝ) (b dx dy : ℝ) :
    costScaleShift ⟨64, 64, a⟩ none ⟨⟨64, 64, a⟩, none, ⟨64, 64, a⟩, ⟨9, 9, a⟩, 1⟩
      ⟨⟨64, 64, a⟩, none, ⟨64, 64, a⟩, ⟨9, 9, a⟩, 1⟩ [b, dx, dy] = 0 :=
  (shift_cost_constant_small _ _ _ _ (Or.inl (by change 64 ≤ 200; omega)) b dx dy).1

end PI
