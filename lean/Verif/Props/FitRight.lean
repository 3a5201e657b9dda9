import Verif.Props.SkyChange
import Verif.Props.FitCost
import Verif.Props.SubtractReal

/-!
# Property C165: the fits of scale and shift on images without noise

Specification vocabulary: `displaced`, a sky moved by a fraction of a pixel.
-/

namespace PI

open Complex Finset

/-- The sky `t` moved by `(u, v)` pixels, interpolated with its Fourier series; what leaves the frame on one side comes in on
the other. -/
noncomputable def displaced (h w : ℕ) (u v : ℝ) (t : ℕ → ℕ → ℝ) : ℕ → ℕ → ℝ := fun X Y =>
  ((ifftOrtho ⟨h, w, fun k l => (fftOrtho (toC ⟨h, w, t⟩)).px k l * shiftPhase h w (u, v) k l⟩).px X Y).re

/-- The sum against the phases is the Fourier transform. -/
theorem sum_phases (h w : ℕ) (hh : h ≠ 0) (hw : w ≠ 0) (t : ℕ → ℕ → ℝ) (k l : ℕ) :
    ∑ X ∈ range h, ∑ Y ∈ range w, (t X Y : ℂ) * shiftPhase h w ((X : ℝ), (Y : ℝ)) k l =
      (Real.sqrt ((h * w : ℕ) : ℝ) : ℂ) * (fftOrtho (toC ⟨h, w, t⟩)).px k l := by
  have p2 : ((Real.sqrt ((h * w : ℕ) : ℝ) : ℝ) : ℂ) ≠ 0 := by
    have : (0 : ℝ) < ((h * w : ℕ) : ℝ) := by exact_mod_cast Nat.mul_pos (by omega) (by omega)
    exact_mod_cast (Real.sqrt_pos.2 this).ne'
  change _ = (Real.sqrt ((h * w : ℕ) : ℝ) : ℂ) * ((∑ X ∈ range h, ∑ Y ∈ range w, (t X Y : ℂ) *
    (tw h ((k : ℝ) * X) * tw w ((l : ℝ) * Y))) / (Real.sqrt ((h * w : ℕ) : ℝ) : ℂ))
  rw [mul_div_cancel₀ _ p2]
  refine Finset.sum_congr rfl fun X _ => Finset.sum_congr rfl fun Y _ => ?_
  have s := shiftPhase_int h w hh hw X Y k l
  simp only [Int.cast_natCast] at s
  rw [s]

/-- Moving by whole pixels, whatever the sides. -/
theorem displaced_whole (h w : ℕ) (hh : h ≠ 0) (hw : w ≠ 0) (u v : ℤ) (t : ℕ → ℕ → ℝ) (X Y : ℕ) (hX : X < h) (hY : Y < w) :
    displaced h w u v t X Y = t (((X : ℤ) - u) % h).toNat (((Y : ℤ) - v) % w).toNat := by
  unfold displaced
  rw [ifftOrtho_roll h w (fftOrtho (toC ⟨h, w, t⟩)).px u v X Y hX hY]
  have e := ifftOrtho_fftOrtho (toC ⟨h, w, t⟩) _ _ (emod_toNat_lt h hh (X - u)) (emod_toNat_lt w hw (Y - v))
  refine (congrArg Complex.re e).trans ?_
  exact Complex.ofReal_re _

/-- The interpolation stays real along sides of odd length, and along any side for whole pixels. -/
theorem displaced_hat (h w : ℕ) (u v : ℝ) (oh : AxisOK h u) (ow : AxisOK w v) (t : ℕ → ℕ → ℝ) (k l : ℕ) (hk : k < h) (hl : l < w) :
    (fftOrtho (toC ⟨h, w, displaced h w u v t⟩)).px k l =
      (fftOrtho (toC ⟨h, w, t⟩)).px k l * shiftPhase h w (u, v) k l := by
  have real : ∀ X Y, ((displaced h w u v t X Y : ℝ) : ℂ) = (ifftOrtho ⟨h, w, fun k l => (fftOrtho (toC ⟨h, w, t⟩)).px k l *
      shiftPhase h w (u, v) k l⟩).px X Y := by
    intro X Y
    have him := ifftOrtho_real (fourierShift (fftOrtho (toC ⟨h, w, t⟩)) (u, v))
      (hermitian_shift _ (u, v) oh ow (hermitian_toC _)) X Y
    refine Complex.ext rfl ?_
    rw [Complex.ofReal_im]
    exact him.symm
  refine Eq.trans ?_ (fftOrtho_ifftOrtho ⟨h, w, fun k l => (fftOrtho (toC ⟨h, w, t⟩)).px k l *
      shiftPhase h w (u, v) k l⟩ k l hk hl)
  change (∑ X ∈ range h, ∑ Y ∈ range w, ((displaced h w u v t X Y : ℝ) : ℂ) * _) / _ =
    (∑ X ∈ range h, ∑ Y ∈ range w, (ifftOrtho ⟨h, w, fun k l => (fftOrtho (toC ⟨h, w, t⟩)).px k l *
      shiftPhase h w (u, v) k l⟩).px X Y * _) / _
  simp only [real]
  rfl

/-- The light of the sky in the transform of an image. -/
theorem through_hat (d : SubImg) (h w : ℕ) (hd : d.interped.shape = (h, w)) (hh : h ≠ 0) (hw : w ≠ 0)
    (g : GuardIdle h w d.psf) (A B : ℤ) (t : ℕ → ℕ → ℝ) (k l : ℕ) (hk : k < h) (hl : l < w) :
    (fftOrtho (toC (through h w d.psf A B t))).px k l = d.psfHat.px k l * shiftPhase h w (-A, -B) k l *
      ((Real.sqrt ((h * w : ℕ) : ℝ) : ℂ) * (fftOrtho (toC ⟨h, w, t⟩)).px k l) := by
  have dh : d.interped.h = h := congrArg Prod.fst hd
  have dw : d.interped.w = w := congrArg Prod.snd hd
  rw [fftOrtho_through h w hh hw, ← psfHat_idle d h w dh dw g k l hk hl, mul_assoc]
  congr 1
  rw [← sum_phases h w hh hw, Finset.mul_sum]
  refine Finset.sum_congr rfl fun X _ => ?_
  rw [Finset.mul_sum]
  refine Finset.sum_congr rfl fun Y _ => ?_
  have s := shiftPhase_add h w ((X : ℝ), (Y : ℝ)) (-A, -B) k l
  simp only [← sub_eq_add_neg] at s
  push_cast
  rw [s]
  ring

theorem dHat_gains (ref new : SubImg) (hh : new.h = ref.h) (hw : new.w = ref.w) (b dx dy : ℝ) (k l : ℕ) :
    (dHat ref new b dx dy).px k l = gainNew ref new b k l * (fftOrtho (toC new.interped)).px k l +
        gainRef ref new b dx dy k l * (fftOrtho (toC ref.interped)).px k l := by
  rw [subtract_D_is_zackay ref new hh hw b dx dy k l]
  unfold zackayD gainNew gainRef
  have en : new.var ^ 2 * 1 ^ 2 * normSq (centredPsf ref k l) +
      ref.var ^ 2 * b ^ 2 * normSq (centredPsf new k l) = normReal ref new b k l := by
    rw [normSq_centredPsf, normSq_centredPsf]
    unfold normReal
    ring
  rw [en]
  unfold SubImg.interpedHat
  push_cast
  ring

section
variable (ref new : SubImg) (h w : ℕ) (hr : ref.interped.shape = (h, w)) (hn : new.interped.shape = (h, w)) (hh : h ≠ 0)
    (hw : w ≠ 0) (gr : GuardIdle h w ref.psf) (gn : GuardIdle h w new.psf)
include hr hn hh hw gr gn

/-- The transform of D for two images of nothing but the sky, for any scale and shift. -/
theorem dHat_skies (b dx dy : ℝ) (A B A' B' : ℤ) (tr tn : ℕ → ℕ → ℝ) (er : ref.interped = through h w ref.psf A B tr)
    (en : new.interped = through h w new.psf A' B' tn) (k l : ℕ) (hk : k < h) (hl : l < w) :
    (dHat ref new b dx dy).px k l =
      ref.psfHat.px k l * new.psfHat.px k l / (Real.sqrt (normReal ref new b k l) : ℂ) *
        ((Real.sqrt ((h * w : ℕ) : ℝ) : ℂ) *
          shiftPhase h w (-A' - (centerOfMass ref.psf).1, -B' - (centerOfMass ref.psf).2) k l *
        ((fftOrtho (toC ⟨h, w, tn⟩)).px k l - b * ((fftOrtho (toC ⟨h, w, tr⟩)).px k l *
          shiftPhase h w (dx + ((centerOfMass ref.psf).1 - A) - ((centerOfMass new.psf).1 - A'),
            dy + ((centerOfMass ref.psf).2 - B) - ((centerOfMass new.psf).2 - B')) k l))) := by
  have rh : ref.interped.h = h := congrArg Prod.fst hr
  have rw0 : ref.interped.w = w := congrArg Prod.snd hr
  have nh : new.interped.h = h := congrArg Prod.fst hn
  have nw : new.interped.w = w := congrArg Prod.snd hn
  rw [dHat_gains ref new (nh.trans rh.symm) (nw.trans rw0.symm)]
  have h1 := through_hat ref h w hr hh hw gr A B tr k l hk hl
  have h2 := through_hat new h w hn hh hw gn A' B' tn k l hk hl
  rw [← er] at h1
  rw [← en] at h2
  rw [h1, h2]
  unfold gainNew gainRef centredPsf SubImg.h SubImg.w
  rw [rh, rw0, nh, nw]
  have s1 : shiftPhase h w (negPair (centerOfMass ref.psf)) k l * shiftPhase h w (-A', -B') k l =
      shiftPhase h w (-A' - (centerOfMass ref.psf).1, -B' - (centerOfMass ref.psf).2) k l := by
    rw [mul_comm, ← shiftPhase_add]
    rfl
  have s2 : shiftPhase h w (negPair (centerOfMass new.psf)) k l * shiftPhase h w (dx, dy) k l *
      shiftPhase h w (-A, -B) k l =
      shiftPhase h w (-A' - (centerOfMass ref.psf).1, -B' - (centerOfMass ref.psf).2) k l *
      shiftPhase h w (dx + ((centerOfMass ref.psf).1 - A) - ((centerOfMass new.psf).1 - A'),
            dy + ((centerOfMass ref.psf).2 - B) - ((centerOfMass new.psf).2 - B')) k l := by
    rw [← shiftPhase_add, ← shiftPhase_add, ← shiftPhase_add]
    congr 1
    unfold negPair
    refine Prod.ext ?_ ?_ <;> simp only [] <;> ring
  rw [← s1] at s2 ⊢
  linear_combination (-(b : ℂ) * new.psfHat.px k l * ref.psfHat.px k l / (Real.sqrt (normReal ref new b k l) : ℂ) *
    (Real.sqrt ((h * w : ℕ) : ℝ) : ℂ) * (fftOrtho (toC ⟨h, w, tr⟩)).px k l) * s2


/-- D vanishes only for the right scale and the right shift. -/
theorem diff_zero_iff (b dx dy : ℝ) (A B A' B' : ℤ) (tr tn : ℕ → ℕ → ℝ) (er : ref.interped = through h w ref.psf A B tr)
    (en : new.interped = through h w new.psf A' B' tn) (u v : ℝ)
    (hu : u = dx + ((centerOfMass ref.psf).1 - A) - ((centerOfMass new.psf).1 - A'))
    (hv : v = dy + ((centerOfMass ref.psf).2 - B) - ((centerOfMass new.psf).2 - B'))
    (oh : AxisOK h u) (ow : AxisOK w v) (hb : new.var ≠ 0 ∨ (ref.var ≠ 0 ∧ b ≠ 0)) :
    (∀ i < h, ∀ j < w, (ifftOrtho (dHat ref new b dx dy)).px i j = 0) ↔
      ∀ X < h, ∀ Y < w, tn X Y = b * displaced h w u v tr X Y := by
  have rh : ref.interped.h = h := congrArg Prod.fst hr
  have rw0 : ref.interped.w = w := congrArg Prod.snd hr
  have e0 : dHat ref new b dx dy = ⟨h, w, (dHat ref new b dx dy).px⟩ := by
    have e1 : (dHat ref new b dx dy).h = h := rh
    have e2 : (dHat ref new b dx dy).w = w := rw0
    rw [← e1, ← e2]
  rw [e0, ifftOrtho_eq_zero_iff]
  have p0 : ((Real.sqrt ((h * w : ℕ) : ℝ) : ℝ) : ℂ) ≠ 0 := by
    have : (0 : ℝ) < ((h * w : ℕ) : ℝ) := by exact_mod_cast Nat.mul_pos (by omega) (by omega)
    exact_mod_cast (Real.sqrt_pos.2 this).ne'
  have step : (∀ k < h, ∀ l < w, (dHat ref new b dx dy).px k l = 0) ↔ ∀ k < h, ∀ l < w,
      ∑ X ∈ range h, ∑ Y ∈ range w, ((tn X Y - b * displaced h w u v tr X Y : ℝ) : ℂ) *
        shiftPhase h w ((X : ℝ), (Y : ℝ)) k l = 0 := by
    refine forall_congr' fun k => forall_congr' fun hk => forall_congr' fun l => forall_congr' fun hl => ?_
    have s0 : ∑ X ∈ range h, ∑ Y ∈ range w, ((tn X Y - b * displaced h w u v tr X Y : ℝ) : ℂ) *
        shiftPhase h w ((X : ℝ), (Y : ℝ)) k l = (Real.sqrt ((h * w : ℕ) : ℝ) : ℂ) *
        ((fftOrtho (toC ⟨h, w, tn⟩)).px k l - b * ((fftOrtho (toC ⟨h, w, tr⟩)).px k l * shiftPhase h w (u, v) k l)) := by
      rw [← displaced_hat h w u v oh ow tr k l hk hl, mul_sub, mul_left_comm, ← sum_phases h w hh hw,
        ← sum_phases h w hh hw, Finset.mul_sum, ← Finset.sum_sub_distrib]
      refine Finset.sum_congr rfl fun X _ => ?_
      rw [Finset.mul_sum, ← Finset.sum_sub_distrib]
      refine Finset.sum_congr rfl fun Y _ => ?_
      push_cast
      ring
    rw [dHat_skies ref new h w hr hn hh hw gr gn b dx dy A B A' B' tr tn er en k l hk hl, s0, ← hu, ← hv]
    have p1 : shiftPhase h w (-A' - (centerOfMass ref.psf).1, -B' - (centerOfMass ref.psf).2) k l ≠ 0 :=
      mul_ne_zero (Complex.exp_ne_zero _) (Complex.exp_ne_zero _)
    obtain ⟨q1, q2, r, r0, er⟩ := subtract_norm_pos ref new b k l hb
    have p2 : ((Real.sqrt (normReal ref new b k l) : ℝ) : ℂ) ≠ 0 := by
      have : normReal ref new b k l = r := by
        rw [normHat_eq] at er
        exact_mod_cast er
      rw [this]
      exact_mod_cast (Real.sqrt_pos.2 r0).ne'
    rw [mul_eq_zero, mul_eq_zero, mul_eq_zero, mul_eq_zero]
    constructor
    · rintro (e | (e | e) | e)
      · exact absurd e (div_ne_zero (mul_ne_zero q1 q2) p2)
      · exact absurd e p0
      · exact absurd e p1
      · exact Or.inr e
    · rintro (e | e)
      · exact absurd e p0
      · exact Or.inr (Or.inr e)
  rw [step, empty_iff_phases h w hh hw]
  refine forall_congr' fun X => forall_congr' fun _ => forall_congr' fun Y => forall_congr' fun _ => ?_
  rw [sub_eq_zero]

/-- The same for the real part, which is what the fits look at, when D is real. -/
theorem diffAt_zero_iff (b dx dy : ℝ) (A B A' B' : ℤ) (tr tn : ℕ → ℕ → ℝ) (er : ref.interped = through h w ref.psf A B tr)
    (en : new.interped = through h w new.psf A' B' tn) (u v : ℝ)
    (hu : u = dx + ((centerOfMass ref.psf).1 - A) - ((centerOfMass new.psf).1 - A'))
    (hv : v = dy + ((centerOfMass ref.psf).2 - B) - ((centerOfMass new.psf).2 - B'))
    (h1 : AxisOK h (centerOfMass ref.psf).1) (h2 : AxisOK w (centerOfMass ref.psf).2)
    (h3 : AxisOK h (centerOfMass new.psf).1) (h4 : AxisOK w (centerOfMass new.psf).2)
    (h5 : AxisOK h dx) (h6 : AxisOK w dy) (hb : new.var ≠ 0 ∨ (ref.var ≠ 0 ∧ b ≠ 0)) :
    (∀ i < h, ∀ j < w, diffAt ref new b dx dy i j = 0) ↔
      ∀ X < h, ∀ Y < w, tn X Y = b * displaced h w u v tr X Y := by
  have rh : ref.interped.h = h := congrArg Prod.fst hr
  have rw0 : ref.interped.w = w := congrArg Prod.snd hr
  have nh : new.interped.h = h := congrArg Prod.fst hn
  have nw : new.interped.w = w := congrArg Prod.snd hn
  have ok : ∀ {n : ℕ} {a c : ℝ} {z : ℤ} {d : ℝ} {z' : ℤ}, AxisOK n a → AxisOK n c → AxisOK n d →
      AxisOK n (d + (a - z) - (c - z')) := by
    rintro n a c z d z' (o | ⟨p, rfl⟩) (o' | ⟨q, rfl⟩) (o'' | ⟨r, rfl⟩)
    all_goals first | exact Or.inl ‹_› | skip
    exact Or.inr ⟨r + (p - z) - (q - z'), by push_cast; ring⟩
  rw [← diff_zero_iff ref new h w hr hn hh hw gr gn b dx dy A B A' B' tr tn er en u v hu hv
    (by rw [hu]; exact ok h1 h3 h5) (by rw [hv]; exact ok h2 h4 h6) hb]
  refine forall_congr' fun i => forall_congr' fun _ => forall_congr' fun j => forall_congr' fun _ => ?_
  have im := subtract_D_real ref new (nh.trans rh.symm) (nw.trans rw0.symm) b dx dy
    (by unfold SubImg.h; rw [rh]; exact h1) (by unfold SubImg.w; rw [rw0]; exact h2)
    (by unfold SubImg.h; rw [rh]; exact h3) (by unfold SubImg.w; rw [rw0]; exact h4)
    (by unfold SubImg.h; rw [rh]; exact h5) (by unfold SubImg.w; rw [rw0]; exact h6) i j
  exact ⟨fun e => Complex.ext e im, fun e => congrArg Complex.re e⟩

/-- C165: the cost of the fits of the scale alone, on unmasked images without noise and with equal backgrounds, is zero at one
scale only, the ratio of the two skies' brightnesses. -/
theorem scale_cost_zero_iff (gamma : Img ℝ) (mask : NMask) (b : ℝ) (A B A' B' : ℤ) (tr tn : ℕ → ℕ → ℝ)
    (er : ref.interped = through h w ref.psf A B tr) (en : new.interped = through h w new.psf A' B' tn)
    (hx : (centerOfMass ref.psf).1 - A = (centerOfMass new.psf).1 - A')
    (hy : (centerOfMass ref.psf).2 - B = (centerOfMass new.psf).2 - B')
    (h1 : AxisOK h (centerOfMass ref.psf).1) (h2 : AxisOK w (centerOfMass ref.psf).2)
    (h3 : AxisOK h (centerOfMass new.psf).1) (h4 : AxisOK w (centerOfMass new.psf).2)
    (hb : new.var ≠ 0 ∨ (ref.var ≠ 0 ∧ b ≠ 0)) (hg : ∀ i < h, ∀ j < w, gamma.px i j = 0)
    (hm : ∀ i < h, ∀ j < w, mask.marks i j = false) :
    scaleCost gamma mask ref new b = 0 ↔ ∀ X < h, ∀ Y < w, tn X Y = b * tr X Y := by
  have rh : ref.interped.h = h := congrArg Prod.fst hr
  have rw0 : ref.interped.w = w := congrArg Prod.snd hr
  have nh : new.interped.h = h := congrArg Prod.fst hn
  have nw : new.interped.w = w := congrArg Prod.snd hn
  have key := diffAt_zero_iff ref new h w hr hn hh hw gr gn b 0 0 A B A' B' tr tn er en 0 0
    (by linarith) (by linarith) h1 h2 h3 h4 (Or.inr ⟨0, by norm_num⟩) (Or.inr ⟨0, by norm_num⟩) hb
  have id0 : ∀ X < h, ∀ Y < w, displaced h w 0 0 tr X Y = tr X Y := by
    intro X hX Y hY
    have e := displaced_whole h w hh hw 0 0 tr X Y hX hY
    rw [Int.cast_zero] at e
    rw [e, sub_zero, sub_zero, ← Int.natCast_mod, ← Int.natCast_mod, Int.toNat_natCast, Int.toNat_natCast,
      Nat.mod_eq_of_lt hX, Nat.mod_eq_of_lt hY]
  have e1 : scaleCost gamma mask ref new b = ∑ i ∈ range h, ∑ j ∈ range w, |diffAt ref new b 0 0 i j| := by
    rw [scale_cost_is_difference gamma mask ref new (nh.trans rh.symm) (nw.trans rw0.symm)]
    unfold SubImg.h SubImg.w
    rw [rh, rw0]
    refine Finset.sum_congr rfl fun i hi => Finset.sum_congr rfl fun j hj => ?_
    rw [if_neg (by rw [hm i (mem_range.1 hi) j (mem_range.1 hj)]; exact Bool.false_ne_true),
      hg i (mem_range.1 hi) j (mem_range.1 hj), zero_div, sub_zero]
  rw [e1, Finset.sum_eq_zero_iff_of_nonneg (fun i _ => Finset.sum_nonneg fun j _ => abs_nonneg _)]
  have e2 : (∀ i ∈ range h, ∑ j ∈ range w, |diffAt ref new b 0 0 i j| = 0) ↔
      ∀ i < h, ∀ j < w, diffAt ref new b 0 0 i j = 0 := by
    refine forall_congr' fun i => ?_
    rw [mem_range]
    refine forall_congr' fun _ => ?_
    rw [Finset.sum_eq_zero_iff_of_nonneg (fun j _ => abs_nonneg _)]
    refine forall_congr' fun j => ?_
    rw [mem_range, abs_eq_zero]
  rw [e2, key]
  refine forall_congr' fun X => forall_congr' fun hX => forall_congr' fun Y => forall_congr' fun hY => ?_
  rw [id0 X hX Y hY]

end

theorem scaleCost_nonneg (gamma : Img ℝ) (mask : NMask) (ref new : SubImg) (b : ℝ) : 0 ≤ scaleCost gamma mask ref new b := by
  unfold scaleCost
  refine Finset.sum_nonneg fun i _ => Finset.sum_nonneg fun j _ => ?_
  split
  · exact le_rfl
  · exact abs_nonneg _

theorem borderCost_nonneg (mask : NMask) (r : Img ℝ) : 0 ≤ borderCost mask r := by
  unfold borderCost
  refine Finset.sum_nonneg fun i _ => Finset.sum_nonneg fun j _ => ?_
  split
  · exact le_rfl
  · exact abs_nonneg _

/-- The least-squares optimiser succeeds on `f` and finds a global minimum between the bounds. -/
def FindsLsq (opt : Opt) (f : List ℝ → ℝ) (x0 lo hi : List ℝ) : Prop :=
  (opt.lsq f x0 lo hi).1 = true ∧ (opt.lsq f x0 lo hi).2.length = x0.length ∧
    feasible (opt.lsq f x0 lo hi).2 lo hi = true ∧
    ∀ x, x.length = x0.length → feasible x lo hi = true → f (opt.lsq f x0 lo hi).2 ≤ f x

/-- What `subtract` returns once the fit has ended at `s`. -/
theorem subtract_of_fit (env : SubEnv) (o : SubOpts) (ref new : SubImg) (h w : ℕ) (z : ℝ × ℝ)
    (hr : ref.interped.shape = (h, w)) (hn : new.interped.shape = (h, w)) (m : NMask)
    (hm : new.mask.maskOr ref.mask = .ok m) (hz : env.zps = .ok z)
    (hc : env.fitted = true ∨ (0 ≤ (centerOfMass new.psf).1 ∧ 0 ≤ (centerOfMass new.psf).2)) (s : ℝ × ℝ × ℝ)
    (hs : scaleShift env.opt o env.gamma m ref new z.1 z.2 = .ok s) :
    ∃ out, subtract env o ref new = .ok out ∧ out.D = ifftOrtho (dHat ref new s.1 s.2.1 s.2.2) ∧ out.mask = m := by
  have hshape : ¬ new.interped.shape ≠ ref.interped.shape := by rw [hr, hn]; simp
  have hcc : ¬ (env.fitted = false ∧
      ((centerOfMass new.psf).1 < 0 ∨ (centerOfMass new.psf).2 < 0)) := by
    rintro ⟨h1, h2⟩
    rcases hc with hc | hc
    · rw [hc] at h1; simp at h1
    · rcases h2 with h2 | h2 <;> linarith [hc.1, hc.2]
  refine ⟨{ D := ifftOrtho (dHat ref new s.1 s.2.1 s.2.2)
            P := subP ref new s.1
            S := (sCorr env.peak ref new z.2 s.1 s.2.1 s.2.2).map re
            mask := m }, ?_, rfl, rfl⟩
  simp only [subtract, if_neg hshape, hm, bind, Except.bind, hz, if_neg hcc, hs]
  rfl

section
variable (env : SubEnv) (ref new : SubImg) (h w : ℕ) (z : ℝ × ℝ)
    (hr : ref.interped.shape = (h, w)) (hn : new.interped.shape = (h, w)) (hh : h ≠ 0)
    (hw : w ≠ 0) (gr : GuardIdle h w ref.psf) (gn : GuardIdle h w new.psf)
    (hmr : ref.mask.HasShape h w) (hmn : new.mask.HasShape h w) (hz : env.zps = .ok z)
    (hc : env.fitted = true ∨ (0 ≤ (centerOfMass new.psf).1 ∧ 0 ≤ (centerOfMass new.psf).2)) (hv : new.var ≠ 0)
    (A B A' B' : ℤ) (tr tn : ℕ → ℕ → ℝ)
    (er : ref.interped = through h w ref.psf A B tr) (en : new.interped = through h w new.psf A' B' tn)
include hr hn hh hw gr gn hmr hmn hz hc hv er en

/-- C165: with `beta=True` the zero points no longer matter: when the images show the same sky without noise, the new one `R`
times as bright (`R` between 0.1 and 10), nothing is masked, the backgrounds are equal and the optimiser finds a minimum of
its cost, the scale found is `R` and D is zero in every pixel. -/
theorem beta_recovers (it : Bool) (R : ℝ) (hR : 1 / 10 ≤ R ∧ R ≤ 10) (ht : ∀ X < h, ∀ Y < w, tn X Y = R * tr X Y)
    (h0 : ∃ X < h, ∃ Y < w, tr X Y ≠ 0)
    (hx : (centerOfMass ref.psf).1 - A = (centerOfMass new.psf).1 - A')
    (hy : (centerOfMass ref.psf).2 - B = (centerOfMass new.psf).2 - B')
    (h1 : AxisOK h (centerOfMass ref.psf).1) (h2 : AxisOK w (centerOfMass ref.psf).2)
    (h3 : AxisOK h (centerOfMass new.psf).1) (h4 : AxisOK w (centerOfMass new.psf).2)
    (hg : ∀ i < h, ∀ j < w, env.gamma.px i j = 0)
    (hm : ∀ i < h, ∀ j < w, ref.mask.marks i j = false ∧ new.mask.marks i j = false)
    (hi : it = true → FindsMin env.opt (scaleCost env.gamma none ref new) (1 / 10) 10)
    (hl : it = false → 1 / 10 ≤ z.2 / z.1 ∧ z.2 / z.1 ≤ 10 ∧
      FindsLsq env.opt (costScale env.gamma none ref new) [z.2 / z.1] [1 / 10] [10]) :
    scaleShift env.opt ⟨true, false, it⟩ env.gamma none ref new z.1 z.2 = .ok (R, 0, 0) ∧
    ∃ out, subtract env ⟨true, false, it⟩ ref new = .ok out ∧ ∀ i < h, ∀ j < w, out.D.px i j = 0 := by
  have rh : ref.interped.h = h := congrArg Prod.fst hr
  have rw0 : ref.interped.w = w := congrArg Prod.snd hr
  have iff0 : ∀ b, scaleCost env.gamma none ref new b = 0 ↔ ∀ X < h, ∀ Y < w, tn X Y = b * tr X Y := fun b =>
    scale_cost_zero_iff ref new h w hr hn hh hw gr gn env.gamma none b A B A' B' tr tn er en hx hy h1 h2 h3 h4
      (Or.inl hv) hg fun _ _ _ _ => rfl
  have only : ∀ b, scaleCost env.gamma none ref new b ≤ scaleCost env.gamma none ref new R → b = R := by
    intro b hb
    rw [(iff0 R).2 ht] at hb
    obtain ⟨X, hX, Y, hY, e⟩ := h0
    have := (iff0 b).1 (le_antisymm hb (scaleCost_nonneg _ _ _ _ _)) X hX Y hY
    rw [ht X hX Y hY] at this
    exact (mul_right_cancel₀ e this).symm
  have fit : scaleShift env.opt ⟨true, false, it⟩ env.gamma none ref new z.1 z.2 = .ok (R, 0, 0) := by
    cases it with
    | true =>
      obtain ⟨k1, -, -, k4⟩ := hi rfl
      unfold scaleShift
      simp only [if_true, Bool.false_eq_true, if_false]
      rw [k1, only _ (k4 R hR.1 hR.2)]
      rfl
    | false =>
      obtain ⟨f1, f2, k1, k2, k3, k4⟩ := hl rfl
      have seen : imageSeen none ref.h ref.w = true := by
        unfold imageSeen SubImg.h SubImg.w
        rw [rh, rw0]
        exact decide_eq_true ⟨0, mem_range.2 (by omega), 0, mem_range.2 (by omega), rfl⟩
      unfold scaleShift leastSquares
      simp only [if_true, Bool.false_eq_true, if_false]
      rw [seen, (feasible1 _).2 ⟨f1, f2⟩]
      obtain ⟨b', e⟩ := List.length_eq_one_iff.1 k2
      have hbR := k4 [R] rfl ((feasible1 R).2 hR)
      rw [e] at hbR
      have := only b' hbR
      subst this
      simp only [Bool.and_true, if_true, bind, Except.bind, k1, e]
  refine ⟨fit, ?_⟩
  obtain ⟨m, hm1, hm2, hm3, hm4⟩ := NMask.maskOr_spec new.mask ref.mask h w hmn hmr
  obtain rfl : m = none := hm4.2 fun i hi j hj => by rw [(hm i hi j hj).1, (hm i hi j hj).2]; rfl
  obtain ⟨out, e, hD, -⟩ := subtract_of_fit env ⟨true, false, it⟩ ref new h w z hr hn none hm1 hz hc (R, 0, 0) fit
  refine ⟨out, e, ?_⟩
  have key := diff_zero_iff ref new h w hr hn hh hw gr gn R 0 0 A B A' B' tr tn er en 0 0
    (by linarith) (by linarith) (Or.inr ⟨0, by norm_num⟩) (Or.inr ⟨0, by norm_num⟩) (Or.inl hv)
  rw [hD]
  refine key.2 fun X hX Y hY => ?_
  have e := displaced_whole h w hh hw 0 0 tr X Y hX hY
  rw [Int.cast_zero] at e
  rw [e, sub_zero, sub_zero, ← Int.natCast_mod, ← Int.natCast_mod, Int.toNat_natCast, Int.toNat_natCast,
    Nat.mod_eq_of_lt hX, Nat.mod_eq_of_lt hY, ht X hX Y hY]

omit hmr hmn hz hc in
/-- C165: for images without noise and with equal backgrounds the cost of the shift fits is zero at the true scale and shift,
which no trial point beats. -/
theorem shift_cost_at_truth (gamma : Img ℝ) (mask : NMask) (R sx sy u v : ℝ)
    (hu : u = sx + ((centerOfMass ref.psf).1 - A) - ((centerOfMass new.psf).1 - A'))
    (hv' : v = sy + ((centerOfMass ref.psf).2 - B) - ((centerOfMass new.psf).2 - B'))
    (oh : AxisOK h u) (ow : AxisOK w v) (ht : ∀ X < h, ∀ Y < w, tn X Y = R * displaced h w u v tr X Y)
    (hg : ∀ i j, gamma.px i j = 0) :
    costScaleShift gamma mask ref new [R, sx, sy] = 0 ∧ costShift gamma mask ref new R [sx, sy] = 0 := by
  have rh : ref.interped.h = h := congrArg Prod.fst hr
  have rw0 : ref.interped.w = w := congrArg Prod.snd hr
  have nh : new.interped.h = h := congrArg Prod.fst hn
  have nw : new.interped.w = w := congrArg Prod.snd hn
  have key := (diff_zero_iff ref new h w hr hn hh hw gr gn R sx sy A B A' B' tr tn er en u v hu hv' oh ow (Or.inl hv)).2 ht
  have z : borderCost mask (shiftResidual gamma ref new R sx sy) = 0 := by
    unfold borderCost
    refine Finset.sum_eq_zero fun i hi => Finset.sum_eq_zero fun j hj => ?_
    have bi : i < h := by
      have := (Finset.mem_Ico.1 hi).2
      change i < ref.interped.h - optBorder at this
      omega
    have bj : j < w := by
      have := (Finset.mem_Ico.1 hj).2
      change j < ref.interped.w - optBorder at this
      omega
    have e : (shiftResidual gamma ref new R sx sy).px i j = 0 := by
      rw [shift_residual_is_difference gamma ref new (nh.trans rh.symm) (nw.trans rw0.symm)]
      have d0 : diffAt ref new R sx sy i j = 0 := by
        unfold diffAt
        rw [key i bi j bj]
        rfl
      rw [d0, zero_sub, neg_eq_zero]
      change gamma.px _ _ / _ = 0
      rw [hg, zero_div]
    rw [e, zero_div, abs_zero, ite_self]
  exact ⟨z, z⟩

omit hh hw gr gn hmr hmn hz hc hv er en in
/-- The cost of the shift fits is zero only if D is zero in the pixels they look at. -/
theorem window_zero (gamma : Img ℝ) (mask : NMask) (b dx dy : ℝ) (hg : ∀ i j, gamma.px i j = 0)
    (hz0 : borderCost mask (shiftResidual gamma ref new b dx dy) = 0) (i j : ℕ) (h1 : 100 ≤ i) (h2 : i + 100 < h)
    (h3 : 100 ≤ j) (h4 : j + 100 < w) (hm : mask.marks i j = false) : diffAt ref new b dx dy i j = 0 := by
  have rh : ref.interped.h = h := congrArg Prod.fst hr
  have rw0 : ref.interped.w = w := congrArg Prod.snd hr
  have nh : new.interped.h = h := congrArg Prod.fst hn
  have nw : new.interped.w = w := congrArg Prod.snd hn
  have sh : (shiftResidual gamma ref new b dx dy).h = h := rh
  have sw : (shiftResidual gamma ref new b dx dy).w = w := rw0
  have nn : ∀ i j, 0 ≤ (if mask.marks i j then (0 : ℝ) else |(shiftResidual gamma ref new b dx dy).px i j /
      (((h - optBorder - optBorder) * (w - optBorder - optBorder) : ℕ) : ℝ)|) := by
    intro i j
    split
    · exact le_rfl
    · exact abs_nonneg _
  unfold borderCost at hz0
  rw [sh, sw, Finset.sum_eq_zero_iff_of_nonneg (fun i _ => Finset.sum_nonneg fun j _ => nn i j)] at hz0
  have e1 := hz0 i (Finset.mem_Ico.2 ⟨h1, by unfold optBorder; omega⟩)
  rw [Finset.sum_eq_zero_iff_of_nonneg (fun j _ => nn i j)] at e1
  have e2 := e1 j (Finset.mem_Ico.2 ⟨h3, by unfold optBorder; omega⟩)
  rw [if_neg (by rw [hm]; exact Bool.false_ne_true), abs_eq_zero, div_eq_zero_iff] at e2
  have n0 : (((h - optBorder - optBorder) * (w - optBorder - optBorder) : ℕ) : ℝ) ≠ 0 := by
    have : (h - optBorder - optBorder) * (w - optBorder - optBorder) ≠ 0 := by
      unfold optBorder
      exact Nat.mul_ne_zero (by omega) (by omega)
    exact_mod_cast this
  have e3 := e2.resolve_right n0
  rw [shift_residual_is_difference gamma ref new (nh.trans rh.symm) (nw.trans rw0.symm)] at e3
  have g0 : (rollFlat (gamma.map fun g => g / diffSigma ref new b) (roundReal dx) (roundReal dy)).px i j = 0 := by
    change gamma.px _ _ / _ = 0
    rw [hg, zero_div]
  rw [g0, sub_zero] at e3
  exact e3

omit hmr hmn in
/-- C165: with `shift=True` a misalignment of less than 0.9 pixels does no harm: when the images show the same sky without
noise, the new one displaced by a fraction of a pixel and `R` times as bright (`R` is the ratio of the zero points, or any
number from 0.1 to 10 with `beta=True`), the backgrounds are equal and the optimiser finds a minimum of its cost, then the
real part of D is zero in every unmasked pixel that is at least 100 pixels away from the borders. -/
theorem shift_recovers (beta it : Bool) (R sx sy u v : ℝ)
    (hu : u = sx + ((centerOfMass ref.psf).1 - A) - ((centerOfMass new.psf).1 - A'))
    (hv' : v = sy + ((centerOfMass ref.psf).2 - B) - ((centerOfMass new.psf).2 - B'))
    (oh : AxisOK h u) (ow : AxisOK w v) (ht : ∀ X < h, ∀ Y < w, tn X Y = R * displaced h w u v tr X Y)
    (hsx : |sx| ≤ 9 / 10) (hsy : |sy| ≤ 9 / 10) (hg : ∀ i j, env.gamma.px i j = 0) (m : NMask)
    (hm : new.mask.maskOr ref.mask = .ok m)
    (hw0 : ∃ i j, 100 ≤ i ∧ i + 100 < h ∧ 100 ≤ j ∧ j + 100 < w ∧ m.marks i j = false)
    (hb : beta = true → 1 / 10 ≤ z.2 / z.1 ∧ z.2 / z.1 ≤ 10 ∧ 1 / 10 ≤ R ∧ R ≤ 10 ∧
      FindsLsq env.opt (costScaleShift env.gamma m ref new) [z.2 / z.1, 0, 0] [1 / 10, -9 / 10, -9 / 10] [10, 9 / 10, 9 / 10])
    (hs : beta = false → R = z.2 / z.1 ∧
      FindsLsq env.opt (costShift env.gamma m ref new (z.2 / z.1)) [0, 0] [-9 / 10, -9 / 10] [9 / 10, 9 / 10]) :
    ∃ out, subtract env ⟨beta, true, it⟩ ref new = .ok out ∧ ∀ i j, 100 ≤ i → i + 100 < h → 100 ≤ j → j + 100 < w →
      out.mask.marks i j = false → (out.D.px i j).re = 0 := by
  have rh : ref.interped.h = h := congrArg Prod.fst hr
  have rw0 : ref.interped.w = w := congrArg Prod.snd hr
  obtain ⟨c1, c2⟩ := shift_cost_at_truth ref new h w hr hn hh hw gr gn hv A B A' B' tr tn er en env.gamma m R sx sy u v hu hv'
    oh ow ht hg
  have seen : windowSeen m ref.h ref.w = true := by
    unfold windowSeen SubImg.h SubImg.w
    rw [rh, rw0]
    obtain ⟨i, j, a1, a2, a3, a4, a5⟩ := hw0
    exact decide_eq_true ⟨i, Finset.mem_Ico.2 ⟨a1, by unfold optBorder; omega⟩, j,
      Finset.mem_Ico.2 ⟨a3, by unfold optBorder; omega⟩, a5⟩
  have bx := abs_le.1 hsx
  have by' := abs_le.1 hsy
  have fit : ∃ b dx dy, scaleShift env.opt ⟨beta, true, it⟩ env.gamma m ref new z.1 z.2 = .ok (b, dx, dy) ∧
      borderCost m (shiftResidual env.gamma ref new b dx dy) = 0 := by
    cases beta with
    | true =>
      obtain ⟨f1, f2, r1, r2, k1, k2, k3, k4⟩ := hb rfl
      obtain ⟨b', dx, dy, e⟩ := List.length_eq_three.1 k2
      have hle := k4 [R, sx, sy] rfl (by
        simp only [feasible, List.zip_cons_cons, List.zip_nil_left, List.zipWith_cons_cons,
          List.zipWith_nil_left, List.all_cons, List.all_nil, id, Bool.and_true, Bool.and_eq_true, decide_eq_true_eq]
        exact ⟨⟨r1, r2⟩, ⟨by linarith, bx.2⟩, by linarith, by'.2⟩)
      rw [c1, e] at hle
      refine ⟨b', dx, dy, ?_, le_antisymm hle (borderCost_nonneg _ _)⟩
      unfold scaleShift leastSquares
      simp only [if_true]
      rw [seen, (feasible3 _).2 ⟨f1, f2⟩]
      simp only [Bool.and_true, if_true, bind, Except.bind, k1, e]
    | false =>
      obtain ⟨rfl, k1, k2, k3, k4⟩ := hs rfl
      obtain ⟨dx, dy, e⟩ := List.length_eq_two.1 k2
      have hle := k4 [sx, sy] rfl (by
        simp only [feasible, List.zip_cons_cons, List.zip_nil_left, List.zipWith_cons_cons,
          List.zipWith_nil_left, List.all_cons, List.all_nil, id, Bool.and_true, Bool.and_eq_true, decide_eq_true_eq]
        exact ⟨⟨by linarith, bx.2⟩, by linarith, by'.2⟩)
      rw [c2, e] at hle
      refine ⟨z.2 / z.1, dx, dy, ?_, le_antisymm hle (borderCost_nonneg _ _)⟩
      unfold scaleShift leastSquares
      simp only [if_true, Bool.false_eq_true, if_false]
      rw [seen, feasible2]
      simp only [Bool.and_true, if_true, bind, Except.bind, k1, e]
  obtain ⟨b, dx, dy, f, c0⟩ := fit
  obtain ⟨out, e, hD, hM⟩ := subtract_of_fit env ⟨beta, true, it⟩ ref new h w z hr hn m hm hz hc (b, dx, dy) f
  refine ⟨out, e, fun i j a1 a2 a3 a4 a5 => ?_⟩
  rw [hD]
  exact window_zero ref new h w hr hn env.gamma m b dx dy hg c0 i j a1 a2 a3 a4 (by rw [← hM]; exact a5)

/-- C165: whatever the switches and the optimiser, D of two images of nothing but the sky vanishes only if the scale and
the shift the fit ended with are those of the sky. -/
theorem clean_iff (o : SubOpts) (out : SubOut) (he : subtract env o ref new = .ok out) :
    ∃ b dx dy, scaleShift env.opt o env.gamma out.mask ref new z.1 z.2 = .ok (b, dx, dy) ∧ ∀ u v,
      u = dx + ((centerOfMass ref.psf).1 - A) - ((centerOfMass new.psf).1 - A') →
      v = dy + ((centerOfMass ref.psf).2 - B) - ((centerOfMass new.psf).2 - B') → AxisOK h u → AxisOK w v →
      ((∀ i < h, ∀ j < w, out.D.px i j = 0) ↔ ∀ X < h, ∀ Y < w, tn X Y = b * displaced h w u v tr X Y) := by
  obtain ⟨m, hm1, -⟩ := NMask.maskOr_spec new.mask ref.mask h w hmn hmr
  cases hs : scaleShift env.opt o env.gamma m ref new z.1 z.2 with
  | error x =>
    exfalso
    have hshape : ¬ new.interped.shape ≠ ref.interped.shape := by rw [hr, hn]; simp
    have hcc : ¬ (env.fitted = false ∧
        ((centerOfMass new.psf).1 < 0 ∨ (centerOfMass new.psf).2 < 0)) := by
      rintro ⟨h1, h2⟩
      rcases hc with hc | hc
      · rw [hc] at h1; simp at h1
      · rcases h2 with h2 | h2 <;> linarith [hc.1, hc.2]
    simp only [subtract, if_neg hshape, hm1, bind, Except.bind, hz, if_neg hcc, hs] at he
    cases he
  | ok s =>
    obtain ⟨b, dx, dy⟩ := s
    obtain ⟨out', e, hD, hM⟩ := subtract_of_fit env o ref new h w z hr hn m hm1 hz hc (b, dx, dy) hs
    obtain rfl : out = out' := by
      rw [he] at e
      exact Except.ok.inj e
    refine ⟨b, dx, dy, by rw [hM]; exact hs, fun u v hu hv' oh ow => ?_⟩
    rw [hD]
    exact diff_zero_iff ref new h w hr hn hh hw gr gn b dx dy A B A' B' tr tn er en u v hu hv' oh ow (Or.inl hv)

end
/-! ## Instances -/

/-- A PSF that spreads nothing. -/
def pointPsf : Img ℝ := ⟨1, 1, fun _ _ => 1⟩

theorem sharp_com : centerOfMass pointPsf = (((0 : ℤ) : ℝ), ((0 : ℤ) : ℝ)) := by
  unfold centerOfMass rsum pointPsf
  simp

theorem sharp_idle (h w : ℕ) (hh : h ≠ 0) (hw : w ≠ 0) : GuardIdle h w pointPsf := by
  intro k _ l _
  have e : (fftOrtho (padTo h w (toC pointPsf))).px k l = ((1 / Real.sqrt ((h * w : ℕ) : ℝ) : ℝ) : ℂ) := by
    change (∑ i ∈ range h, ∑ j ∈ range w, (if i < 1 ∧ j < 1 then ((1 : ℝ) : ℂ) else 0) *
      (tw h ((k : ℝ) * i) * tw w ((l : ℝ) * j))) / (Real.sqrt ((h * w : ℕ) : ℝ) : ℂ) = _
    rw [Finset.sum_eq_single 0, Finset.sum_eq_single 0, if_pos ⟨Nat.one_pos, Nat.one_pos⟩]
    · push_cast
      simp [tw_zero]
    · intro j _ hj
      rw [if_neg (by omega), zero_mul]
    · intro hj
      exact absurd (mem_range.2 (Nat.pos_of_ne_zero hw)) hj
    · intro i _ hi
      refine Finset.sum_eq_zero fun j _ => ?_
      rw [if_neg (by omega), zero_mul]
    · intro hi
      exact absurd (mem_range.2 (Nat.pos_of_ne_zero hh)) hi
  rw [e, Complex.ofReal_re]
  have : (0 : ℝ) < ((h * w : ℕ) : ℝ) := by exact_mod_cast Nat.mul_pos (by omega) (by omega)
  exact (div_pos one_pos (Real.sqrt_pos.2 this)).ne'

/-- An image of the sky `t` with that PSF and noise 1, nothing masked. -/
noncomputable def pointImage (h w : ℕ) (t : ℕ → ℕ → ℝ) : SubImg where
  interped := through h w pointPsf 0 0 t
  mask := none
  filled := through h w pointPsf 0 0 t
  psf := pointPsf
  var := 1

/-- Zero points whose ratio is 2, no background, and optimisers that answer `x` and `l`. -/
noncomputable def answering (x : ℝ) (l : List ℝ) : SubEnv where
  opt := ⟨fun _ _ _ _ => (true, l), fun _ _ _ => (true, x)⟩
  zps := .ok (1, 2)
  gamma := ⟨1, 1, fun _ _ => 0⟩
  peak := fun _ => (0, 0)
  fitted := true

theorem point_axis (n : ℕ) : AxisOK n (centerOfMass pointPsf).1 ∧ AxisOK n (centerOfMass pointPsf).2 :=
  ⟨Or.inr ⟨0, by rw [sharp_com]⟩, Or.inr ⟨0, by rw [sharp_com]⟩⟩

theorem point_cost (h w : ℕ) (hh : h ≠ 0) (hw : w ≠ 0) (t : ℕ → ℕ → ℝ) (R x : ℝ) (l : List ℝ) :
    scaleCost (answering x l).gamma none (pointImage h w t) (pointImage h w fun X Y => R * t X Y) R = 0 :=
  (scale_cost_zero_iff (pointImage h w t) (pointImage h w fun X Y => R * t X Y) h w rfl rfl hh hw (sharp_idle h w hh hw)
    (sharp_idle h w hh hw) (answering x l).gamma none R 0 0 0 0 t (fun X Y => R * t X Y) rfl rfl (by rfl) (by rfl)
    (point_axis h).1 (point_axis w).2 (point_axis h).1 (point_axis w).2 (Or.inl (by norm_num [pointImage]))
    (fun _ _ _ _ => rfl) fun _ _ _ _ => rfl).2 fun _ _ _ _ => rfl

/-- The hypotheses of `beta_recovers` hold: a sky three times as bright, whose zero points say twice, is subtracted without
a trace by either optimiser. -/
theorem beta_instance (it : Bool) (t : ℕ → ℕ → ℝ) (h0 : t 1 2 ≠ 0) : ∃ out,
    subtract (answering 3 [3]) ⟨true, false, it⟩ (pointImage 4 5 t) (pointImage 4 5 fun X Y => 3 * t X Y) = .ok out ∧
      ∀ i < 4, ∀ j < 5, out.D.px i j = 0 := by
  have c := point_cost 4 5 (by norm_num) (by norm_num) t 3 3 [3]
  refine (beta_recovers (answering 3 [3]) (pointImage 4 5 t) (pointImage 4 5 fun X Y => 3 * t X Y) 4 5 (1, 2) rfl rfl
    (by norm_num) (by norm_num) (sharp_idle 4 5 (by norm_num) (by norm_num)) (sharp_idle 4 5 (by norm_num) (by norm_num))
    (by intro a h; cases h) (by intro a h; cases h) rfl (Or.inl rfl) (by norm_num [pointImage]) 0 0 0 0 t
    (fun X Y => 3 * t X Y) rfl rfl it 3 (by norm_num) (fun _ _ _ _ => rfl) ⟨1, by norm_num, 2, by norm_num, h0⟩ (by rfl)
    (by rfl) (point_axis 4).1 (point_axis 5).2 (point_axis 4).1 (point_axis 5).2 (fun _ _ _ _ => rfl)
    (fun _ _ _ _ => ⟨rfl, rfl⟩) ?_ ?_).2
  · intro _
    refine ⟨rfl, by norm_num [answering], by norm_num [answering], fun x _ _ => ?_⟩
    exact le_of_eq_of_le c (scaleCost_nonneg _ _ _ _ _)
  · intro _
    refine ⟨by norm_num, by norm_num, rfl, rfl, (feasible1 3).2 (by norm_num), fun x hx _ => ?_⟩
    obtain ⟨y, rfl⟩ := List.length_eq_one_iff.1 hx
    exact le_of_eq_of_le c (scaleCost_nonneg _ _ _ _ _)

/-- The hypotheses of `shift_recovers` hold: a new image displaced by a quarter of a pixel down and half a pixel to the left
and three times as bright, the zero points saying twice. -/
theorem shift_instance (it : Bool) (t : ℕ → ℕ → ℝ) : ∃ out,
    subtract (answering 3 [3, 1 / 4, -1 / 2]) ⟨true, true, it⟩ (pointImage 301 251 t)
      (pointImage 301 251 fun X Y => 3 * displaced 301 251 (1 / 4) (-1 / 2) t X Y) = .ok out ∧
      ∀ i j, 100 ≤ i → i < 201 → 100 ≤ j → j < 151 → out.mask.marks i j = false → (out.D.px i j).re = 0 := by
  have c := shift_cost_at_truth (pointImage 301 251 t)
    (pointImage 301 251 fun X Y => 3 * displaced 301 251 (1 / 4) (-1 / 2) t X Y) 301 251 rfl rfl (by norm_num) (by norm_num)
    (sharp_idle 301 251 (by norm_num) (by norm_num)) (sharp_idle 301 251 (by norm_num) (by norm_num))
    (by norm_num [pointImage]) 0 0 0 0 t (fun X Y => 3 * displaced 301 251 (1 / 4) (-1 / 2) t X Y) rfl rfl
    (answering 3 [3, 1 / 4, -1 / 2]).gamma none 3 (1 / 4) (-1 / 2) (1 / 4) (-1 / 2)
    (by change (1 / 4 : ℝ) = 1 / 4 + ((centerOfMass pointPsf).1 - _) - ((centerOfMass pointPsf).1 - _); ring)
    (by change (-1 / 2 : ℝ) = -1 / 2 + ((centerOfMass pointPsf).2 - _) - ((centerOfMass pointPsf).2 - _); ring)
    (Or.inl rfl) (Or.inl rfl) (fun _ _ _ _ => rfl) fun _ _ => rfl
  obtain ⟨out, e, k⟩ := shift_recovers (answering 3 [3, 1 / 4, -1 / 2]) (pointImage 301 251 t)
    (pointImage 301 251 fun X Y => 3 * displaced 301 251 (1 / 4) (-1 / 2) t X Y) 301 251 (1, 2) rfl rfl (by norm_num)
    (by norm_num) (sharp_idle 301 251 (by norm_num) (by norm_num)) (sharp_idle 301 251 (by norm_num) (by norm_num))
    rfl (Or.inl rfl) (by norm_num [pointImage]) 0 0 0 0 t (fun X Y => 3 * displaced 301 251 (1 / 4) (-1 / 2) t X Y) rfl rfl
    true it 3 (1 / 4) (-1 / 2) (1 / 4) (-1 / 2)
    (by change (1 / 4 : ℝ) = 1 / 4 + ((centerOfMass pointPsf).1 - _) - ((centerOfMass pointPsf).1 - _); ring)
    (by change (-1 / 2 : ℝ) = -1 / 2 + ((centerOfMass pointPsf).2 - _) - ((centerOfMass pointPsf).2 - _); ring)
    (Or.inl rfl) (Or.inl rfl) (fun _ _ _ _ => rfl) (by norm_num) (by norm_num [abs_le]) (fun _ _ => rfl) none rfl
    ⟨150, 120, by norm_num, by norm_num, by norm_num, by norm_num, rfl⟩
    (fun _ => ⟨by norm_num, by norm_num, by norm_num, by norm_num, rfl, rfl, by
      simp only [answering, feasible, List.zip_cons_cons, List.zip_nil_left, List.zipWith_cons_cons,
        List.zipWith_nil_left, List.all_cons, List.all_nil, id, Bool.and_true, Bool.and_eq_true, decide_eq_true_eq]
      norm_num, fun x hx _ => by
        obtain ⟨a, b, d, rfl⟩ := List.length_eq_three.1 hx
        exact le_of_eq_of_le c.1 (borderCost_nonneg _ _)⟩) (fun h => by cases h)
  exact ⟨out, e, fun i j a1 a2 a3 a4 => k i j a1 (by omega) a3 (by omega)⟩

end PI
