import Verif.Props.FitRight

/-!
# Property C168: what wrong PSFs do to the difference image

The images show the sky through their true PSFs, which are not those that `subtract` works with.
Specification vocabulary: `blend`, one PSF seen through another.
-/

namespace PI

open Complex Finset

/-- The PSF stamp `P` with its centre at `(a, b)`, seen through the PSF stamp `T` with its centre at `(A, B)`, on a frame of `h`
times `w` pixels with the common centre at pixel `(0, 0)`. -/
def blend (h w : ℕ) (T : Img ℝ) (A B : ℤ) (P : Img ℝ) (a b : ℤ) : Img ℝ :=
  through h w T (A + a) (B + b) (padPx P)

theorem padded_hat (h w : ℕ) (P : Img ℝ) (k l : ℕ) :
    (fftOrtho (toC ⟨h, w, padPx P⟩)).px k l = (fftOrtho (padTo h w (toC P))).px k l := by
  have e : (toC ⟨h, w, padPx P⟩ : Img ℂ) = padTo h w (toC P) := by
    unfold toC padTo Img.map padPx
    simp only [Img.mk.injEq, true_and]
    funext i j
    split <;> simp
  rw [e]

theorem itself_hat (h w : ℕ) (M : Img ℝ) (hM : M.h = h ∧ M.w = w) (k l : ℕ) :
    (fftOrtho (padTo h w (toC M))).px k l = (fftOrtho (toC M)).px k l := by
  obtain ⟨rfl, rfl⟩ := hM
  change (∑ i ∈ range M.h, ∑ j ∈ range M.w, (if i < M.h ∧ j < M.w then (M.px i j : ℂ) else 0) * _) / _ =
    (∑ i ∈ range M.h, ∑ j ∈ range M.w, (M.px i j : ℂ) * _) / _
  congr 1
  refine Finset.sum_congr rfl fun i hi => Finset.sum_congr rfl fun j hj => ?_
  rw [if_pos ⟨mem_range.1 hi, mem_range.1 hj⟩]
  rfl

/-- The transform of a sky seen through any stamp. -/
theorem sky_through_hat (h w : ℕ) (hh : h ≠ 0) (hw : w ≠ 0) (T : Img ℝ) (A B : ℤ) (t : ℕ → ℕ → ℝ) (k l : ℕ) :
    (fftOrtho (toC (through h w T A B t))).px k l = (fftOrtho (padTo h w (toC T))).px k l *
      shiftPhase h w (-A, -B) k l * ((Real.sqrt ((h * w : ℕ) : ℝ) : ℂ) * (fftOrtho (toC ⟨h, w, t⟩)).px k l) := by
  rw [fftOrtho_through h w hh hw, mul_assoc]
  congr 1
  rw [← sum_phases h w hh hw, Finset.mul_sum]
  refine Finset.sum_congr rfl fun X _ => ?_
  rw [Finset.mul_sum]
  refine Finset.sum_congr rfl fun Y _ => ?_
  have s := shiftPhase_add h w ((X : ℝ), (Y : ℝ)) (-A, -B) k l
  simp only [← sub_eq_add_neg] at s
  push_cast
  rw [s]
  ring

theorem blend_hat (h w : ℕ) (hh : h ≠ 0) (hw : w ≠ 0) (T P : Img ℝ) (A B a b : ℤ) (k l : ℕ) :
    (fftOrtho (toC (blend h w T A B P a b))).px k l = (fftOrtho (padTo h w (toC T))).px k l *
      shiftPhase h w (-A, -B) k l * ((Real.sqrt ((h * w : ℕ) : ℝ) : ℂ) *
        ((fftOrtho (padTo h w (toC P))).px k l * shiftPhase h w (-a, -b) k l)) := by
  unfold blend
  rw [sky_through_hat h w hh hw, padded_hat]
  have s := shiftPhase_add h w (-A, -B) (-a, -b) k l
  simp only [] at s
  have e1 : -(((A + a : ℤ)) : ℝ) = -(A : ℝ) + -(a : ℝ) := by push_cast; ring
  have e2 : -(((B + b : ℤ)) : ℝ) = -(B : ℝ) + -(b : ℝ) := by push_cast; ring
  rw [e1, e2, s]
  ring

/-- A real image is zero when its transform is. -/
theorem images_eq_iff (h w : ℕ) (hh : h ≠ 0) (hw : w ≠ 0) (x y : Img ℝ) (hx : x.h = h ∧ x.w = w) (hy : y.h = h ∧ y.w = w) :
    (∀ k < h, ∀ l < w, (fftOrtho (toC x)).px k l = (fftOrtho (toC y)).px k l) ↔
      ∀ i < h, ∀ j < w, x.px i j = y.px i j := by
  obtain ⟨rfl, rfl⟩ := hx
  obtain ⟨e1, e2⟩ := hy
  have ey : y = ⟨x.h, x.w, y.px⟩ := by rw [← e1, ← e2]
  have p2 : ((Real.sqrt ((x.h * x.w : ℕ) : ℝ) : ℝ) : ℂ) ≠ 0 := by
    have : (0 : ℝ) < ((x.h * x.w : ℕ) : ℝ) := by exact_mod_cast Nat.mul_pos (by omega) (by omega)
    exact_mod_cast (Real.sqrt_pos.2 this).ne'
  rw [ey]
  constructor
  · intro e i hi j hj
    have := dft_injective x.h x.w (fun i j => (x.px i j : ℂ) - (y.px i j : ℂ)) (by
      intro k hk l hl
      have h1 := e k hk l hl
      change (∑ i ∈ range x.h, ∑ j ∈ range x.w, (x.px i j : ℂ) * (tw x.h ((k : ℝ) * i) * tw x.w ((l : ℝ) * j))) /
          (Real.sqrt ((x.h * x.w : ℕ) : ℝ) : ℂ) =
        (∑ i ∈ range x.h, ∑ j ∈ range x.w, (y.px i j : ℂ) * (tw x.h ((k : ℝ) * i) * tw x.w ((l : ℝ) * j))) /
          (Real.sqrt ((x.h * x.w : ℕ) : ℝ) : ℂ) at h1
      rw [div_left_inj' p2] at h1
      change ∑ i ∈ range x.h, ∑ j ∈ range x.w, ((x.px i j : ℂ) - (y.px i j : ℂ)) *
        (tw x.h ((k : ℝ) * i) * tw x.w ((l : ℝ) * j)) = 0
      simp only [sub_mul, Finset.sum_sub_distrib]
      rw [h1, sub_self]) i j hi hj
    have := sub_eq_zero.1 this
    exact_mod_cast this
  · intro e k _ l _
    change (∑ i ∈ range x.h, ∑ j ∈ range x.w, (x.px i j : ℂ) * _) / _ =
      (∑ i ∈ range x.h, ∑ j ∈ range x.w, (y.px i j : ℂ) * _) / _
    congr 1
    refine Finset.sum_congr rfl fun i hi => Finset.sum_congr rfl fun j hj => ?_
    rw [e i (mem_range.1 hi) j (mem_range.1 hj)]
    rfl

/-- The light of a stamp that fits the frame is on the frame, wherever it is put. -/
theorem sum_placed (h w : ℕ) (T : Img ℝ) (hT : T.h ≤ h ∧ T.w ≤ w) (u v : ℤ) :
    ∑ i ∈ range h, ∑ j ∈ range w, padPx T (((i : ℤ) - u) % h).toNat (((j : ℤ) - v) % w).toNat = rsum T := by
  rw [sum_range_emod h u fun a => ∑ j ∈ range w, padPx T a (((j : ℤ) - v) % w).toNat]
  have e : ∀ a, ∑ j ∈ range w, padPx T a (((j : ℤ) - v) % w).toNat = ∑ j ∈ range w, padPx T a j :=
    fun a => sum_range_emod w v fun b => padPx T a b
  simp only [e]
  unfold rsum
  have out : ∀ i ∈ range h, i ∉ range T.h → ∑ j ∈ range w, padPx T i j = 0 := by
    intro i _ hi
    refine Finset.sum_eq_zero fun j _ => ?_
    unfold padPx
    rw [if_neg]
    exact fun c => hi (mem_range.2 c.1)
  rw [← Finset.sum_subset (range_subset_range.2 hT.1) out]
  refine Finset.sum_congr rfl fun i hi => ?_
  have out2 : ∀ j ∈ range w, j ∉ range T.w → padPx T i j = 0 := by
    intro j _ hj
    unfold padPx
    rw [if_neg]
    exact fun c => hj (mem_range.2 c.2)
  rw [← Finset.sum_subset (range_subset_range.2 hT.2) out2]
  refine Finset.sum_congr rfl fun j hj => ?_
  unfold padPx
  rw [if_pos ⟨mem_range.1 hi, mem_range.1 hj⟩]

theorem sum_through (h w : ℕ) (T : Img ℝ) (hT : T.h ≤ h ∧ T.w ≤ w) (A B : ℤ) (t : ℕ → ℕ → ℝ) :
    ∑ i ∈ range h, ∑ j ∈ range w, (through h w T A B t).px i j =
      rsum T * ∑ X ∈ range h, ∑ Y ∈ range w, t X Y := by
  change ∑ i ∈ range h, ∑ j ∈ range w, ∑ X ∈ range h, ∑ Y ∈ range w,
    t X Y * padPx T (((i : ℤ) - X + A) % h).toNat (((j : ℤ) - Y + B) % w).toNat = _
  rw [swap_pairs, Finset.mul_sum]
  refine Finset.sum_congr rfl fun X _ => ?_
  rw [Finset.mul_sum]
  refine Finset.sum_congr rfl fun Y _ => ?_
  simp only [← Finset.mul_sum]
  rw [mul_comm]
  congr 1
  rw [← sum_placed h w T hT ((X : ℤ) - A) ((Y : ℤ) - B)]
  refine Finset.sum_congr rfl fun i _ => Finset.sum_congr rfl fun j _ => ?_
  congr 3 <;> ring

theorem sum_padded (h w : ℕ) (P : Img ℝ) (hP : P.h ≤ h ∧ P.w ≤ w) :
    ∑ X ∈ range h, ∑ Y ∈ range w, padPx P X Y = rsum P := by
  rw [← sum_placed h w P hP 0 0]
  refine Finset.sum_congr rfl fun i hi => Finset.sum_congr rfl fun j hj => ?_
  rw [sub_zero, sub_zero]
  have h1 : ((i : ℤ) % h).toNat = i := by
    rw [Int.emod_eq_of_lt (by omega) (by exact_mod_cast mem_range.1 hi)]; simp
  have h2 : ((j : ℤ) % w).toNat = j := by
    rw [Int.emod_eq_of_lt (by omega) (by exact_mod_cast mem_range.1 hj)]; simp
  rw [h1, h2]

section
variable (env : SubEnv) (it : Bool) (ref new : SubImg) (h w : ℕ) (z : ℝ × ℝ)
    (hmr : ref.mask.HasShape h w) (hmn : new.mask.HasShape h w) (hz : env.zps = .ok z)
    (hc : env.fitted = true ∨ (0 ≤ (centerOfMass new.psf).1 ∧ 0 ≤ (centerOfMass new.psf).2))
    (hr : ref.interped.shape = (h, w)) (hn : new.interped.shape = (h, w)) (hh : h ≠ 0) (hw : w ≠ 0)
    (gr : GuardIdle h w ref.psf) (gn : GuardIdle h w new.psf)
    (Tr Tn : Img ℝ) (A B A' B' a b a' b' : ℤ)
    (ha : centerOfMass ref.psf = ((a : ℝ), (b : ℝ))) (ha' : centerOfMass new.psf = ((a' : ℝ), (b' : ℝ)))
include hr hn hh hw gr gn ha ha'

/-- The transform of what a constant sky, shown through the true PSFs, adds to D. -/
theorem wrong_hat (t : ℕ → ℕ → ℝ) (k l : ℕ) (hk : k < h) (hl : l < w) :
    gainNew ref new (z.2 / z.1) k l *
        (fftOrtho (toC (through h w Tn A' B' fun X Y => z.2 / z.1 * t X Y))).px k l +
      gainRef ref new (z.2 / z.1) 0 0 k l * (fftOrtho (toC (through h w Tr A B t))).px k l =
    ((z.2 / z.1 : ℝ) : ℂ) / ((Real.sqrt (normReal ref new (z.2 / z.1) k l) : ℂ) *
        (Real.sqrt ((h * w : ℕ) : ℝ) : ℂ)) *
      ((fftOrtho (toC (through h w (blend h w Tn A' B' ref.psf a b) 0 0 t))).px k l -
       (fftOrtho (toC (through h w (blend h w Tr A B new.psf a' b') 0 0 t))).px k l) := by
  have rh : ref.interped.h = h := congrArg Prod.fst hr
  have rw0 : ref.interped.w = w := congrArg Prod.snd hr
  have nh : new.interped.h = h := congrArg Prod.fst hn
  have nw : new.interped.w = w := congrArg Prod.snd hn
  have p2 : ((Real.sqrt ((h * w : ℕ) : ℝ) : ℝ) : ℂ) ≠ 0 := by
    have : (0 : ℝ) < ((h * w : ℕ) : ℝ) := by exact_mod_cast Nat.mul_pos (by omega) (by omega)
    exact_mod_cast (Real.sqrt_pos.2 this).ne'
  have lin : (fftOrtho (toC ⟨h, w, fun X Y => z.2 / z.1 * t X Y⟩)).px k l =
      ((z.2 / z.1 : ℝ) : ℂ) * (fftOrtho (toC ⟨h, w, t⟩)).px k l := by
    change (∑ i ∈ range h, ∑ j ∈ range w, ((z.2 / z.1 * t i j : ℝ) : ℂ) *
        (tw h ((k : ℝ) * i) * tw w ((l : ℝ) * j))) / (Real.sqrt ((h * w : ℕ) : ℝ) : ℂ) =
      ((z.2 / z.1 : ℝ) : ℂ) * ((∑ i ∈ range h, ∑ j ∈ range w, (t i j : ℂ) *
        (tw h ((k : ℝ) * i) * tw w ((l : ℝ) * j))) / (Real.sqrt ((h * w : ℕ) : ℝ) : ℂ))
    rw [← mul_div_assoc, Finset.mul_sum]
    congr 1
    refine Finset.sum_congr rfl fun i _ => ?_
    rw [Finset.mul_sum]
    refine Finset.sum_congr rfl fun j _ => ?_
    push_cast
    ring
  have z1 : shiftPhase h w (-((0 : ℤ) : ℝ), -((0 : ℤ) : ℝ)) k l = 1 := by simp [shiftPhase, tw_zero]
  have z0 : shiftPhase h w (0, 0) k l = 1 := by simp [shiftPhase, tw_zero]
  rw [sky_through_hat h w hh hw (blend h w Tn A' B' ref.psf a b), sky_through_hat h w hh hw (blend h w Tr A B new.psf a' b'),
    itself_hat h w _ ⟨rfl, rfl⟩, itself_hat h w _ ⟨rfl, rfl⟩, blend_hat h w hh hw, blend_hat h w hh hw, z1,
    sky_through_hat h w hh hw, sky_through_hat h w hh hw, lin,
    ← psfHat_idle ref h w rh rw0 gr k l hk hl, ← psfHat_idle new h w nh nw gn k l hk hl]
  unfold gainNew gainRef centredPsf SubImg.h SubImg.w negPair
  rw [rh, rw0, nh, nw, ha, ha', z0]
  generalize ((Real.sqrt ((h * w : ℕ) : ℝ) : ℝ) : ℂ) = S at p2 ⊢
  by_cases q : (Real.sqrt (normReal ref new (z.2 / z.1) k l) : ℂ) = 0
  · rw [q]; simp
  · field_simp
    ring

include hmr hmn hz hc

/-- C168: a constant sky, the new image `b` times as bright, shown by both images through PSFs that are not those `subtract`
works with, leaves no trace in D exactly when it looks the same through the new image's true PSF followed by the reference's
assumed one as through the reference's true PSF followed by the new image's assumed one. -/
theorem wrong_psf_iff (t : ℕ → ℕ → ℝ) (hb : z.2 / z.1 ≠ 0) (hv : new.var ≠ 0 ∨ ref.var ≠ 0) :
    (∀ i < h, ∀ j < w, (diffOf env ⟨false, false, it⟩ ref new (plusImg ref.interped (through h w Tr A B t))
        (plusImg new.interped (through h w Tn A' B' fun X Y => z.2 / z.1 * t X Y))).px i j =
      (diffOf env ⟨false, false, it⟩ ref new ref.interped new.interped).px i j) ↔
    ∀ i < h, ∀ j < w, (through h w (blend h w Tn A' B' ref.psf a b) 0 0 t).px i j =
      (through h w (blend h w Tr A B new.psf a' b') 0 0 t).px i j := by
  have d := fun i j => diffOf_plus env it ref new h w z hmr hmn hz hc hr hn (through h w Tr A B t)
    (through h w Tn A' B' fun X Y => z.2 / z.1 * t X Y) ⟨rfl, rfl⟩ ⟨rfl, rfl⟩ i j
  rw [← images_eq_iff h w hh hw _ _ ⟨rfl, rfl⟩ ⟨rfl, rfl⟩]
  have p2 : ((Real.sqrt ((h * w : ℕ) : ℝ) : ℝ) : ℂ) ≠ 0 := by
    have : (0 : ℝ) < ((h * w : ℕ) : ℝ) := by exact_mod_cast Nat.mul_pos (by omega) (by omega)
    exact_mod_cast (Real.sqrt_pos.2 this).ne'
  have step : (∀ i < h, ∀ j < w, (diffOf env ⟨false, false, it⟩ ref new (plusImg ref.interped (through h w Tr A B t))
        (plusImg new.interped (through h w Tn A' B' fun X Y => z.2 / z.1 * t X Y))).px i j =
      (diffOf env ⟨false, false, it⟩ ref new ref.interped new.interped).px i j) ↔
      ∀ i < h, ∀ j < w, (ifftOrtho ⟨h, w, fun k l => gainNew ref new (z.2 / z.1) k l *
          (fftOrtho (toC (through h w Tn A' B' fun X Y => z.2 / z.1 * t X Y))).px k l +
          gainRef ref new (z.2 / z.1) 0 0 k l * (fftOrtho (toC (through h w Tr A B t))).px k l⟩).px i j = 0 := by
    refine forall_congr' fun i => forall_congr' fun _ => forall_congr' fun j => forall_congr' fun _ => ?_
    rw [d i j, add_eq_left]
  rw [step, ifftOrtho_eq_zero_iff]
  refine forall_congr' fun k => forall_congr' fun hk => forall_congr' fun l => forall_congr' fun hl => ?_
  rw [wrong_hat ref new h w z hr hn hh hw gr gn Tr Tn A B A' B' a b a' b' ha ha' t k l hk hl]
  obtain ⟨_, _, r, r0, er⟩ := subtract_norm_pos ref new (z.2 / z.1) k l (hv.imp id fun h => ⟨h, hb⟩)
  have q : ((Real.sqrt (normReal ref new (z.2 / z.1) k l) : ℝ) : ℂ) ≠ 0 := by
    have : normReal ref new (z.2 / z.1) k l = r := by
      rw [normHat_eq] at er
      exact_mod_cast er
    rw [this]
    exact_mod_cast (Real.sqrt_pos.2 r0).ne'
  have hb' : ((z.2 / z.1 : ℝ) : ℂ) ≠ 0 := by exact_mod_cast hb
  rw [mul_eq_zero, sub_eq_zero]
  exact ⟨fun e => e.resolve_left (div_ne_zero hb' (mul_ne_zero q p2)), Or.inr⟩

/-- C168: no constant star leaves a trace exactly when the two blends are the same image. -/
theorem wrong_psf_star_iff (X Y : ℕ) (c : ℝ) (hX : X < h) (hY : Y < w) (hc0 : c ≠ 0) (hb : z.2 / z.1 ≠ 0)
    (hv : new.var ≠ 0 ∨ ref.var ≠ 0) :
    (∀ i < h, ∀ j < w, (diffOf env ⟨false, false, it⟩ ref new
        (plusImg ref.interped (through h w Tr A B fun x y => if x = X ∧ y = Y then c else 0))
        (plusImg new.interped (through h w Tn A' B' fun x y => z.2 / z.1 * if x = X ∧ y = Y then c else 0))).px i j =
      (diffOf env ⟨false, false, it⟩ ref new ref.interped new.interped).px i j) ↔
    ∀ i < h, ∀ j < w, (blend h w Tn A' B' ref.psf a b).px i j = (blend h w Tr A B new.psf a' b').px i j := by
  rw [wrong_psf_iff env it ref new h w z hmr hmn hz hc hr hn hh hw gr gn Tr Tn A B A' B' a b a' b' ha ha' _ hb hv]
  have one : ∀ (M : Img ℝ), M.h = h → M.w = w → ∀ i j,
      (through h w M 0 0 fun x y => if x = X ∧ y = Y then c else 0).px i j =
        c * M.px (((i : ℤ) - X) % h).toNat (((j : ℤ) - Y) % w).toNat := by
    intro M e1 e2 i j
    change ∑ x ∈ range h, ∑ y ∈ range w, (if x = X ∧ y = Y then c else 0) *
      padPx M (((i : ℤ) - x + 0) % h).toNat (((j : ℤ) - y + 0) % w).toNat = _
    rw [Finset.sum_eq_single_of_mem X (mem_range.2 hX), Finset.sum_eq_single_of_mem Y (mem_range.2 hY)]
    · rw [if_pos ⟨rfl, rfl⟩, add_zero, add_zero]
      unfold padPx
      rw [if_pos]
      rw [e1, e2]
      exact ⟨emod_toNat_lt h hh _, emod_toNat_lt w hw _⟩
    · intro y _ hy
      rw [if_neg (fun h => hy h.2), zero_mul]
    · intro x _ hx
      refine Finset.sum_eq_zero fun y _ => ?_
      rw [if_neg (fun h => hx h.1), zero_mul]
  simp only [one (blend h w Tn A' B' ref.psf a b) rfl rfl, one (blend h w Tr A B new.psf a' b') rfl rfl,
    mul_right_inj' hc0]
  constructor
  · intro e i hi j hj
    have := e (((i : ℤ) + X) % h).toNat (emod_toNat_lt h hh _) (((j : ℤ) + Y) % w).toNat (emod_toNat_lt w hw _)
    have back : ∀ (n : ℕ) (hn : n ≠ 0) (x X : ℕ), x < n → (((((x : ℤ) + X) % n).toNat : ℤ) - X) % n = x := by
      intro n hn x X hx
      rw [Int.toNat_of_nonneg (Int.emod_nonneg _ (by exact_mod_cast hn)), Int.emod_sub_emod,
        add_sub_cancel_right]
      exact Int.emod_eq_of_lt (by omega) (by exact_mod_cast hx)
    rw [back h hh i X hi, back w hw j Y hj] at this
    simpa using this
  · intro e i _ j _
    exact e _ (emod_toNat_lt h hh _) _ (emod_toNat_lt w hw _)

/-- C168: when both true PSFs are the assumed ones blurred by one and the same kernel `K`, no constant sky leaves a trace. -/
theorem common_blur (K : ℕ → ℕ → ℝ) (U V : ℤ) (t : ℕ → ℕ → ℝ) (hb : z.2 / z.1 ≠ 0) (hv : new.var ≠ 0 ∨ ref.var ≠ 0)
    (i j : ℕ) (hi : i < h) (hj : j < w) :
    (diffOf env ⟨false, false, it⟩ ref new (plusImg ref.interped (through h w (through h w ref.psf a b K) U V t))
        (plusImg new.interped (through h w (through h w new.psf a' b' K) U V fun X Y => z.2 / z.1 * t X Y))).px i j =
      (diffOf env ⟨false, false, it⟩ ref new ref.interped new.interped).px i j := by
  refine (wrong_psf_iff env it ref new h w z hmr hmn hz hc hr hn hh hw gr gn (through h w ref.psf a b K)
    (through h w new.psf a' b' K) U V U V a b a' b' ha ha' t hb hv).2 ?_ i hi j hj
  rw [← images_eq_iff h w hh hw _ _ ⟨rfl, rfl⟩ ⟨rfl, rfl⟩]
  intro k hk l hl
  have i1 := itself_hat h w (through h w ref.psf a b K) ⟨rfl, rfl⟩ k l
  have i2 := itself_hat h w (through h w new.psf a' b' K) ⟨rfl, rfl⟩ k l
  rw [sky_through_hat h w hh hw, sky_through_hat h w hh hw,
    itself_hat h w (blend h w (through h w new.psf a' b' K) U V ref.psf a b) ⟨rfl, rfl⟩,
    itself_hat h w (blend h w (through h w ref.psf a b K) U V new.psf a' b') ⟨rfl, rfl⟩,
    blend_hat h w hh hw, blend_hat h w hh hw, i1, i2,
    sky_through_hat h w hh hw, sky_through_hat h w hh hw]
  ring

/-- C168: with one PSF right, a constant star is invisible exactly when the other one is right too. -/
theorem one_wrong_psf (X Y : ℕ) (c : ℝ) (hX : X < h) (hY : Y < w) (hc0 : c ≠ 0) (hb : z.2 / z.1 ≠ 0)
    (hv : new.var ≠ 0 ∨ ref.var ≠ 0) :
    (∀ i < h, ∀ j < w, (diffOf env ⟨false, false, it⟩ ref new
        (plusImg ref.interped (through h w ref.psf a b fun x y => if x = X ∧ y = Y then c else 0))
        (plusImg new.interped (through h w Tn A' B' fun x y => z.2 / z.1 * if x = X ∧ y = Y then c else 0))).px i j =
      (diffOf env ⟨false, false, it⟩ ref new ref.interped new.interped).px i j) ↔
    ∀ i < h, ∀ j < w, padPx Tn (((i : ℤ) + A') % h).toNat (((j : ℤ) + B') % w).toNat =
      padPx new.psf (((i : ℤ) + a') % h).toNat (((j : ℤ) + b') % w).toNat := by
  rw [wrong_psf_star_iff env it ref new h w z hmr hmn hz hc hr hn hh hw gr gn ref.psf Tn a b A' B' a b a' b' ha ha'
    X Y c hX hY hc0 hb hv, ← images_eq_iff h w hh hw _ _ ⟨rfl, rfl⟩ ⟨rfl, rfl⟩]
  have point : ∀ (T : Img ℝ) (U V : ℤ) (i j : ℕ), (through h w T U V fun x y => if x = 0 ∧ y = 0 then 1 else 0).px i j =
      padPx T (((i : ℤ) + U) % h).toNat (((j : ℤ) + V) % w).toNat := by
    intro T U V i j
    change ∑ x ∈ range h, ∑ y ∈ range w, (if x = 0 ∧ y = 0 then (1 : ℝ) else 0) *
      padPx T (((i : ℤ) - x + U) % h).toNat (((j : ℤ) - y + V) % w).toNat = _
    rw [Finset.sum_eq_single_of_mem 0 (mem_range.2 (by omega)), Finset.sum_eq_single_of_mem 0 (mem_range.2 (by omega))]
    · rw [if_pos ⟨rfl, rfl⟩, one_mul]
      simp
    · intro y _ hy
      rw [if_neg (fun h => hy h.2), zero_mul]
    · intro x _ hx
      refine Finset.sum_eq_zero fun y _ => ?_
      rw [if_neg (fun h => hx h.1), zero_mul]
  simp only [← point]
  rw [← images_eq_iff h w hh hw _ _ ⟨rfl, rfl⟩ ⟨rfl, rfl⟩]
  refine forall_congr' fun k => forall_congr' fun hk => forall_congr' fun l => forall_congr' fun hl => ?_
  have rh : ref.interped.h = h := congrArg Prod.fst hr
  have rw0 : ref.interped.w = w := congrArg Prod.snd hr
  have p2 : ((Real.sqrt ((h * w : ℕ) : ℝ) : ℝ) : ℂ) ≠ 0 := by
    have : (0 : ℝ) < ((h * w : ℕ) : ℝ) := by exact_mod_cast Nat.mul_pos (by omega) (by omega)
    exact_mod_cast (Real.sqrt_pos.2 this).ne'
  have one : (Real.sqrt ((h * w : ℕ) : ℝ) : ℂ) *
      (fftOrtho (toC ⟨h, w, fun x y => if x = 0 ∧ y = 0 then 1 else 0⟩)).px k l = 1 := by
    rw [← sum_phases h w hh hw, Finset.sum_eq_single_of_mem 0 (mem_range.2 (by omega)),
      Finset.sum_eq_single_of_mem 0 (mem_range.2 (by omega))]
    · simp [shiftPhase, tw_zero]
    · intro y _ hy
      rw [if_neg (fun h => hy h.2), Complex.ofReal_zero, zero_mul]
    · intro x _ hx
      refine Finset.sum_eq_zero fun y _ => ?_
      rw [if_neg (fun h => hx h.1), Complex.ofReal_zero, zero_mul]
  rw [blend_hat h w hh hw, blend_hat h w hh hw, sky_through_hat h w hh hw Tn, sky_through_hat h w hh hw new.psf, one,
    mul_one, mul_one, ← psfHat_idle ref h w rh rw0 gr k l hk hl]
  have q1 := psfHat_ne_zero ref k l
  have ph : shiftPhase h w (-(a : ℝ), -(b : ℝ)) k l ≠ 0 := mul_ne_zero (Complex.exp_ne_zero _) (Complex.exp_ne_zero _)
  have q : (Real.sqrt ((h * w : ℕ) : ℝ) : ℂ) * (ref.psfHat.px k l * shiftPhase h w (-(a : ℝ), -(b : ℝ)) k l) ≠ 0 :=
    mul_ne_zero p2 (mul_ne_zero q1 ph)
  constructor
  · intro e
    refine mul_right_cancel₀ q (e.trans ?_)
    ring
  · intro e
    rw [e]
    ring

/-- C168: what a constant sky adds to D in total. With PSFs of equal total it is nothing: the residuals of the
stars are rings and dipoles with as much light missing as in excess. -/
theorem wrong_psf_total (t : ℕ → ℕ → ℝ) (fr : ref.psf.h ≤ h ∧ ref.psf.w ≤ w) (fn : new.psf.h ≤ h ∧ new.psf.w ≤ w)
    (fTr : Tr.h ≤ h ∧ Tr.w ≤ w) (fTn : Tn.h ≤ h ∧ Tn.w ≤ w) :
    ∑ i ∈ range h, ∑ j ∈ range w,
      ((diffOf env ⟨false, false, it⟩ ref new (plusImg ref.interped (through h w Tr A B t))
        (plusImg new.interped (through h w Tn A' B' fun X Y => z.2 / z.1 * t X Y))).px i j -
      (diffOf env ⟨false, false, it⟩ ref new ref.interped new.interped).px i j) =
    ((z.2 / z.1 * (∑ X ∈ range h, ∑ Y ∈ range w, t X Y) * (rsum Tn * rsum ref.psf - rsum Tr * rsum new.psf) /
      Real.sqrt (new.var ^ 2 * rsum ref.psf ^ 2 + (z.2 / z.1) ^ 2 * ref.var ^ 2 * rsum new.psf ^ 2) : ℝ) : ℂ) := by
  have rh : ref.interped.h = h := congrArg Prod.fst hr
  have rw0 : ref.interped.w = w := congrArg Prod.snd hr
  have nh : new.interped.h = h := congrArg Prod.fst hn
  have nw : new.interped.w = w := congrArg Prod.snd hn
  have hN : (0 : ℝ) < ((h * w : ℕ) : ℝ) := by exact_mod_cast Nat.mul_pos (by omega) (by omega)
  have p2 : ((Real.sqrt ((h * w : ℕ) : ℝ) : ℝ) : ℂ) ≠ 0 := by exact_mod_cast (Real.sqrt_pos.2 hN).ne'
  have d := fun i j => diffOf_plus env it ref new h w z hmr hmn hz hc hr hn (through h w Tr A B t)
    (through h w Tn A' B' fun X Y => z.2 / z.1 * t X Y) ⟨rfl, rfl⟩ ⟨rfl, rfl⟩ i j
  simp only [d, add_sub_cancel_left]
  -- a total is a coefficient at frequency zero
  have dc : ∀ x : Img ℂ, x.h = h → x.w = w → ∑ i ∈ range h, ∑ j ∈ range w, x.px i j =
      (Real.sqrt ((h * w : ℕ) : ℝ) : ℂ) * (fftOrtho x).px 0 0 := by
    rintro x rfl rfl
    change _ = (Real.sqrt ((x.h * x.w : ℕ) : ℝ) : ℂ) * ((∑ i ∈ range x.h, ∑ j ∈ range x.w, x.px i j *
      (tw x.h (((0 : ℕ) : ℝ) * i) * tw x.w (((0 : ℕ) : ℝ) * j))) / (Real.sqrt ((x.h * x.w : ℕ) : ℝ) : ℂ))
    rw [mul_div_cancel₀ _ p2]
    simp [tw_zero]
  have dcR : ∀ x : Img ℝ, x.h = h → x.w = w → (fftOrtho (toC x)).px 0 0 =
      ((∑ i ∈ range h, ∑ j ∈ range w, x.px i j : ℝ) : ℂ) / (Real.sqrt ((h * w : ℕ) : ℝ) : ℂ) := by
    intro x e1 e2
    rw [eq_div_iff p2, mul_comm, ← dc (toC x) e1 e2]
    push_cast
    rfl
  rw [dc _ rfl rfl, fftOrtho_ifftOrtho ⟨h, w, _⟩ 0 0 (by simp only []; omega) (by simp only []; omega)]
  simp only []
  rw [wrong_hat ref new h w z hr hn hh hw gr gn Tr Tn A B A' B' a b a' b' ha ha' t 0 0 (by omega) (by omega),
    dcR _ rfl rfl, dcR _ rfl rfl, sum_through h w _ ⟨le_refl _, le_refl _⟩, sum_through h w _ ⟨le_refl _, le_refl _⟩]
  have m1 : rsum (blend h w Tn A' B' ref.psf a b) = rsum Tn * rsum ref.psf := by
    rw [← sum_padded h w ref.psf fr, ← sum_through h w Tn fTn (A' + a) (B' + b)]
    rfl
  have m2 : rsum (blend h w Tr A B new.psf a' b') = rsum Tr * rsum new.psf := by
    rw [← sum_padded h w new.psf fn, ← sum_through h w Tr fTr (A + a') (B + b')]
    rfl
  rw [m1, m2]
  have pr : ref.psfHat.px 0 0 = (rsum ref.psf : ℂ) / (Real.sqrt ((h * w : ℕ) : ℝ) : ℂ) := by
    rw [psfHat_idle ref h w rh rw0 gr 0 0 (by omega) (by omega), ← padded_hat, dcR _ rfl rfl]
    simp only []
    rw [sum_padded h w ref.psf fr]
  have pn : new.psfHat.px 0 0 = (rsum new.psf : ℂ) / (Real.sqrt ((h * w : ℕ) : ℝ) : ℂ) := by
    rw [psfHat_idle new h w nh nw gn 0 0 (by omega) (by omega), ← padded_hat, dcR _ rfl rfl]
    simp only []
    rw [sum_padded h w new.psf fn]
  have nrm : normReal ref new (z.2 / z.1) 0 0 =
      (new.var ^ 2 * rsum ref.psf ^ 2 + (z.2 / z.1) ^ 2 * ref.var ^ 2 * rsum new.psf ^ 2) / ((h * w : ℕ) : ℝ) := by
    unfold normReal
    rw [pr, pn, normSq_div, normSq_div, normSq_ofReal, normSq_ofReal, normSq_ofReal, Real.mul_self_sqrt hN.le]
    ring
  rw [nrm, Real.sqrt_div' _ hN.le]
  generalize Real.sqrt (new.var ^ 2 * rsum ref.psf ^ 2 + (z.2 / z.1) ^ 2 * ref.var ^ 2 * rsum new.psf ^ 2) = N
  generalize Real.sqrt ((h * w : ℕ) : ℝ) = S at p2 ⊢
  push_cast
  by_cases q : (N : ℂ) = 0
  · rw [q]; simp
  · field_simp

end

/-! ## Cases -/

/-- A new image that is sharper than assumed: all the light in the middle pixel. -/
def sharpThree : Img ℝ := ⟨1, 3, fun _ j => if j = 1 then 1 else 0⟩

/-- With the reference's PSF right and the new image's true PSF sharper than assumed, a star of unit flux in the reference shows
in D, whose total it does not change. -/
theorem seeing_sharper (t : ℕ → ℕ → ℝ) :
    (¬ ∀ i < 1, ∀ j < 3, (diffOf (tinyEnv 1 3) ⟨false, false, true⟩ (seeingSub 5 7 0 1) (seeingSub 1 0 4 2)
        (plusImg (seeingSub 5 7 0 1).interped (through 1 3 seeingPsf 0 1 fun x y => if x = 0 ∧ y = 2 then 1 else 0))
        (plusImg (seeingSub 1 0 4 2).interped
          (through 1 3 sharpThree 0 1 fun x y => 3 / 1 * if x = 0 ∧ y = 2 then 1 else 0))).px i j =
      (diffOf (tinyEnv 1 3) ⟨false, false, true⟩ (seeingSub 5 7 0 1) (seeingSub 1 0 4 2)
        (seeingSub 5 7 0 1).interped (seeingSub 1 0 4 2).interped).px i j) ∧
    ∑ i ∈ range 1, ∑ j ∈ range 3, ((diffOf (tinyEnv 1 3) ⟨false, false, true⟩ (seeingSub 5 7 0 1) (seeingSub 1 0 4 2)
        (plusImg (seeingSub 5 7 0 1).interped (through 1 3 seeingPsf 0 1 t))
        (plusImg (seeingSub 1 0 4 2).interped (through 1 3 sharpThree 0 1 fun x y => 3 / 1 * t x y))).px i j -
      (diffOf (tinyEnv 1 3) ⟨false, false, true⟩ (seeingSub 5 7 0 1) (seeingSub 1 0 4 2)
        (seeingSub 5 7 0 1).interped (seeingSub 1 0 4 2).interped).px i j) = 0 := by
  constructor
  · refine (not_congr (one_wrong_psf (tinyEnv 1 3) true (seeingSub 5 7 0 1) (seeingSub 1 0 4 2) 1 3 (1, 3)
      (by intro a h; cases h) (by intro a h; cases h) rfl (Or.inl rfl) rfl rfl (by norm_num) (by norm_num)
      seeing_idle seeing_idle sharpThree 0 1 0 1 0 1 seeing_com seeing_com 0 2 1 (by norm_num) (by norm_num)
      (by norm_num) (by norm_num) (Or.inl (by norm_num [seeingSub])))).2 ?_
    intro e
    have := e 0 (by norm_num) 0 (by norm_num)
    norm_num [padPx, sharpThree, seeingSub, seeingPsf] at this
  · refine (wrong_psf_total (tinyEnv 1 3) true (seeingSub 5 7 0 1) (seeingSub 1 0 4 2) 1 3 (1, 3)
      (by intro a h; cases h) (by intro a h; cases h) rfl (Or.inl rfl) rfl rfl (by norm_num) (by norm_num)
      seeing_idle seeing_idle seeingPsf sharpThree 0 1 0 1 0 1 0 1 seeing_com seeing_com t
      ⟨le_refl _, le_refl _⟩ ⟨le_refl _, le_refl _⟩ ⟨le_refl _, le_refl _⟩ ⟨le_refl _, le_refl _⟩).trans ?_
    have r1 : rsum sharpThree = 1 := by
      norm_num [rsum, sharpThree, Finset.sum_range_succ]
    have r2 : rsum seeingPsf = 1 := by
      norm_num [rsum, seeingPsf, Finset.sum_range_succ]
    have r3 : rsum (seeingSub 5 7 0 1).psf = 1 := r2
    have r4 : rsum (seeingSub 1 0 4 2).psf = 1 := r2
    rw [r1, r2, r3, r4]
    simp

/-- Both exposures blurred alike, by whatever kernel: nothing shows. -/
example (K t : ℕ → ℕ → ℝ) (j : ℕ) (hj : j < 3) :
    (diffOf (tinyEnv 1 3) ⟨false, false, true⟩ (seeingSub 5 7 0 1) (seeingSub 1 0 4 2)
        (plusImg (seeingSub 5 7 0 1).interped (through 1 3 (through 1 3 seeingPsf 0 1 K) 0 0 t))
        (plusImg (seeingSub 1 0 4 2).interped (through 1 3 (through 1 3 seeingPsf 0 1 K) 0 0 fun X Y => 3 / 1 * t X Y))).px 0 j =
      (diffOf (tinyEnv 1 3) ⟨false, false, true⟩ (seeingSub 5 7 0 1) (seeingSub 1 0 4 2)
        (seeingSub 5 7 0 1).interped (seeingSub 1 0 4 2).interped).px 0 j :=
  common_blur (tinyEnv 1 3) true (seeingSub 5 7 0 1) (seeingSub 1 0 4 2) 1 3 (1, 3)
    (by intro a h; cases h) (by intro a h; cases h) rfl (Or.inl rfl) rfl rfl (by norm_num) (by norm_num)
    seeing_idle seeing_idle 0 1 0 1 seeing_com seeing_com K 0 0 t (by norm_num) (Or.inl (by norm_num [seeingSub])) 0 j
    (by norm_num) hj

end PI
