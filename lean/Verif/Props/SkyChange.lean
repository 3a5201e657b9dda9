import Verif.Props.Sky
import Verif.Props.ScoreStar

/-!
# Property C163: which changes of the sky the difference image and the coadd show
-/

namespace PI

open Complex Finset

/-- A sum over a period does not depend on where it starts, nor on its direction. -/
theorem sum_range_emod {M : Type} [AddCommMonoid M] (n : ℕ) (s : ℤ) (f : ℕ → M) :
    ∑ a ∈ range n, f (((a : ℤ) - s) % n).toNat = ∑ a ∈ range n, f a := by
  rcases Nat.eq_zero_or_pos n with rfl | hn
  · simp
  rw [← sum_range_roll n ((-s) % n).toNat f]
  refine Finset.sum_congr rfl fun a _ => ?_
  congr 1
  have g := Int.emod_nonneg (-s) (show (n : ℤ) ≠ 0 by exact_mod_cast hn.ne')
  have e : (((((-s) % (n : ℤ)).toNat + a) % n : ℕ) : ℤ) = ((a : ℤ) - s) % n := by
    rw [Int.natCast_mod, Nat.cast_add, Int.toNat_of_nonneg g, Int.emod_add_emod]
    congr 1
    ring
  rw [← e, Int.toNat_natCast]

theorem ifftOrtho_eq_zero_iff (h w : ℕ) (G : ℕ → ℕ → ℂ) :
    (∀ i < h, ∀ j < w, (ifftOrtho ⟨h, w, G⟩).px i j = 0) ↔ ∀ k < h, ∀ l < w, G k l = 0 := by
  constructor
  · intro e k hk l hl
    refine (fftOrtho_ifftOrtho ⟨h, w, G⟩ k l hk hl).symm.trans ?_
    change (∑ i ∈ range h, ∑ j ∈ range w, (ifftOrtho ⟨h, w, G⟩).px i j * _) / _ = 0
    rw [Finset.sum_eq_zero, zero_div]
    intro i hi
    refine Finset.sum_eq_zero fun j hj => ?_
    rw [e i (mem_range.1 hi) j (mem_range.1 hj), zero_mul]
  · intro e i hi j hj
    rw [ifftOrtho_congr h w G (fun _ _ => 0 * 0) (fun k hk l hl => by rw [e k hk l hl, mul_zero]),
      ifftOrtho_const_mul, zero_mul]

/-- A sky is empty when its sum against every displacement phase is zero. -/
theorem empty_iff_phases (h w : ℕ) (hh : h ≠ 0) (hw : w ≠ 0) (t : ℕ → ℕ → ℝ) :
    (∀ k < h, ∀ l < w, ∑ X ∈ range h, ∑ Y ∈ range w, (t X Y : ℂ) * shiftPhase h w ((X : ℝ), (Y : ℝ)) k l = 0) ↔
      ∀ X < h, ∀ Y < w, t X Y = 0 := by
  constructor
  · intro e X hX Y hY
    have := dft_injective h w (fun X Y => (t X Y : ℂ)) (by
      intro k hk l hl
      change ∑ X ∈ range h, ∑ Y ∈ range w, (t X Y : ℂ) * (tw h ((k : ℝ) * X) * tw w ((l : ℝ) * Y)) = 0
      rw [← e k hk l hl]
      refine Finset.sum_congr rfl fun X _ => Finset.sum_congr rfl fun Y _ => ?_
      have s := shiftPhase_int h w hh hw X Y k l
      simp only [Int.cast_natCast] at s
      rw [s]) X Y hX hY
    exact_mod_cast this
  · intro e k _ l _
    refine Finset.sum_eq_zero fun X hX => Finset.sum_eq_zero fun Y hY => ?_
    rw [e X (mem_range.1 hX) Y (mem_range.1 hY), Complex.ofReal_zero, zero_mul]

section
variable (env : SubEnv) (it : Bool) (ref new : SubImg) (h w : ℕ) (z : ℝ × ℝ)
    (hmr : ref.mask.HasShape h w) (hmn : new.mask.HasShape h w) (hz : env.zps = .ok z)
    (hc : env.fitted = true ∨ (0 ≤ (centerOfMass new.psf).1 ∧ 0 ≤ (centerOfMass new.psf).2))
    (hr : ref.interped.shape = (h, w)) (hn : new.interped.shape = (h, w)) (hh : h ≠ 0) (hw : w ≠ 0)
    (gr : GuardIdle h w ref.psf) (gn : GuardIdle h w new.psf)
include hmr hmn hz hc hr hn hh hw gr gn

/-- C163: D is blind to nothing else: it stays as it is under additions to the skies of the two images only if the new image's
sky gained, in every pixel, `b` times what the reference's gained. -/
theorem unchanged_iff (A B A' B' : ℤ) (tr tn : ℕ → ℕ → ℝ)
    (hx : (centerOfMass ref.psf).1 - A = (centerOfMass new.psf).1 - A')
    (hy : (centerOfMass ref.psf).2 - B = (centerOfMass new.psf).2 - B')
    (hv : new.var ≠ 0 ∨ (ref.var ≠ 0 ∧ z.2 / z.1 ≠ 0)) :
    (∀ i < h, ∀ j < w, (diffOf env ⟨false, false, it⟩ ref new (plusImg ref.interped (through h w ref.psf A B tr))
        (plusImg new.interped (through h w new.psf A' B' tn))).px i j =
      (diffOf env ⟨false, false, it⟩ ref new ref.interped new.interped).px i j) ↔
    ∀ X < h, ∀ Y < w, tn X Y = z.2 / z.1 * tr X Y := by
  have d := fun i j => diffOf_plus env it ref new h w z hmr hmn hz hc hr hn (through h w ref.psf A B tr)
    (through h w new.psf A' B' tn) ⟨rfl, rfl⟩ ⟨rfl, rfl⟩ i j
  have step1 : (∀ i < h, ∀ j < w, (diffOf env ⟨false, false, it⟩ ref new (plusImg ref.interped (through h w ref.psf A B tr))
        (plusImg new.interped (through h w new.psf A' B' tn))).px i j =
      (diffOf env ⟨false, false, it⟩ ref new ref.interped new.interped).px i j) ↔
      ∀ i < h, ∀ j < w, (ifftOrtho ⟨h, w, fun k l => gainNew ref new (z.2 / z.1) k l *
          (fftOrtho (toC (through h w new.psf A' B' tn))).px k l + gainRef ref new (z.2 / z.1) 0 0 k l *
          (fftOrtho (toC (through h w ref.psf A B tr))).px k l⟩).px i j = 0 := by
    refine forall_congr' fun i => forall_congr' fun _ => forall_congr' fun j => forall_congr' fun _ => ?_
    rw [d i j, add_eq_left]
  have step2 : (∀ k < h, ∀ l < w, gainNew ref new (z.2 / z.1) k l *
          (fftOrtho (toC (through h w new.psf A' B' tn))).px k l + gainRef ref new (z.2 / z.1) 0 0 k l *
          (fftOrtho (toC (through h w ref.psf A B tr))).px k l = 0) ↔
      ∀ k < h, ∀ l < w, ∑ X ∈ range h, ∑ Y ∈ range w, ((tn X Y - z.2 / z.1 * tr X Y : ℝ) : ℂ) *
        shiftPhase h w ((X : ℝ), (Y : ℝ)) k l = 0 := by
    refine forall_congr' fun k => forall_congr' fun hk => forall_congr' fun l => forall_congr' fun hl => ?_
    rw [gains_sky ref new h w z hr hn hh hw gr gn A B A' B' tr tn k l hk hl]
    have s0 : (∑ X ∈ range h, ∑ Y ∈ range w, ((tn X Y : ℂ) * shiftPhase h w ((X : ℝ) - A' - (centerOfMass ref.psf).1,
            (Y : ℝ) - B' - (centerOfMass ref.psf).2) k l -
          ((z.2 / z.1 : ℝ) : ℂ) * tr X Y * shiftPhase h w ((X : ℝ) - A - (centerOfMass new.psf).1,
            (Y : ℝ) - B - (centerOfMass new.psf).2) k l)) =
        (∑ X ∈ range h, ∑ Y ∈ range w, ((tn X Y - z.2 / z.1 * tr X Y : ℝ) : ℂ) *
          shiftPhase h w ((X : ℝ), (Y : ℝ)) k l) *
          shiftPhase h w (-A' - (centerOfMass ref.psf).1, -B' - (centerOfMass ref.psf).2) k l := by
      rw [Finset.sum_mul]
      refine Finset.sum_congr rfl fun X _ => ?_
      rw [Finset.sum_mul]
      refine Finset.sum_congr rfl fun Y _ => ?_
      have e1 : (X : ℝ) - A' - (centerOfMass ref.psf).1 = X + (-A' - (centerOfMass ref.psf).1) := by ring
      have e2 : (Y : ℝ) - B' - (centerOfMass ref.psf).2 = Y + (-B' - (centerOfMass ref.psf).2) := by ring
      have e3 : (X : ℝ) - A - (centerOfMass new.psf).1 = X + (-A' - (centerOfMass ref.psf).1) := by linarith
      have e4 : (Y : ℝ) - B - (centerOfMass new.psf).2 = Y + (-B' - (centerOfMass ref.psf).2) := by linarith
      have s := shiftPhase_add h w ((X : ℝ), (Y : ℝ))
        (-A' - (centerOfMass ref.psf).1, -B' - (centerOfMass ref.psf).2) k l
      simp only [] at s
      rw [e1, e2, e3, e4, s]
      push_cast
      ring
    rw [s0]
    have p1 : shiftPhase h w (-A' - (centerOfMass ref.psf).1, -B' - (centerOfMass ref.psf).2) k l ≠ 0 :=
      mul_ne_zero (Complex.exp_ne_zero _) (Complex.exp_ne_zero _)
    obtain ⟨q1, q2, r, r0, er⟩ := subtract_norm_pos ref new (z.2 / z.1) k l hv
    have p2 : ((Real.sqrt (normReal ref new (z.2 / z.1) k l) : ℝ) : ℂ) ≠ 0 := by
      have : normReal ref new (z.2 / z.1) k l = r := by
        rw [normHat_eq] at er
        exact_mod_cast er
      rw [this]
      exact_mod_cast (Real.sqrt_pos.2 r0).ne'
    rw [mul_eq_zero, mul_eq_zero]
    constructor
    · rintro (e | e | e)
      · exact absurd e (div_ne_zero (mul_ne_zero q1 q2) p2)
      · exact e
      · exact absurd e p1
    · exact fun e => Or.inr (Or.inl e)
  rw [step1, ifftOrtho_eq_zero_iff, step2, empty_iff_phases h w hh hw]
  refine forall_congr' fun X => forall_congr' fun _ => forall_congr' fun Y => forall_congr' fun _ => ?_
  rw [sub_eq_zero]

/-- C163: the total of what the change of the sky adds to D. -/
theorem changed_sky_total (A B A' B' : ℤ) (tr tn : ℕ → ℕ → ℝ) (hA : centerOfMass ref.psf = ((A : ℝ), (B : ℝ)))
    (hA' : centerOfMass new.psf = ((A' : ℝ), (B' : ℝ))) (hb : z.2 / z.1 ≠ 0) (hv : ref.var ≠ 0 ∨ new.var ≠ 0)
    (fr : ref.psf.h ≤ h ∧ ref.psf.w ≤ w) (fn : new.psf.h ≤ h ∧ new.psf.w ≤ w)
    (ur : rsum ref.psf = 1) (un : rsum new.psf = 1) :
    ∑ i ∈ range h, ∑ j ∈ range w,
      (((diffOf env ⟨false, false, it⟩ ref new (plusImg ref.interped (through h w ref.psf A B tr))
        (plusImg new.interped (through h w new.psf A' B' tn))).px i j).re -
        ((diffOf env ⟨false, false, it⟩ ref new ref.interped new.interped).px i j).re) =
      (∑ X ∈ range h, ∑ Y ∈ range w, (tn X Y - z.2 / z.1 * tr X Y)) /
        Real.sqrt (ref.var ^ 2 * (z.2 / z.1) ^ 2 + new.var ^ 2) := by
  obtain ⟨out, e, hD, hP, _⟩ := subtract_returns env it ref new h w hr hn hmr hmn z hz hc
  have hd : diffOf env ⟨false, false, it⟩ ref new ref.interped new.interped = out.D := by
    have : subtract env ⟨false, false, it⟩ (ref.withPixels ref.interped) (new.withPixels new.interped) = .ok out := e
    unfold diffOf
    rw [this]
  obtain ⟨out', e', k⟩ := changed_sky env it ref new h w z hmr hmn hz hc hr hn hh hw gr gn A B A' B' tr tn hA hA' hb hv
  obtain rfl : out = out' := by
    rw [e] at e'
    exact Except.ok.inj e'
  have rh : ref.interped.h = h := congrArg Prod.fst hr
  have rw0 : ref.interped.w = w := congrArg Prod.snd hr
  have nh : new.interped.h = h := congrArg Prod.fst hn
  have nw : new.interped.w = w := congrArg Prod.snd hn
  have tot : ∑ i ∈ range h, ∑ j ∈ range w, out.P.px i j = 1 := by
    have t1 := subtract_psf_total_unit ref new (nh.trans rh.symm) (nw.trans rw0.symm)
      (by unfold SubImg.h SubImg.w; rw [rh, rw0]; exact Nat.mul_pos (by omega) (by omega))
      (by unfold SubImg.h SubImg.w; rw [rh, rw0]; exact fr) (by unfold SubImg.h SubImg.w; rw [nh, nw]; exact fn)
      ur un (z.2 / z.1) hb hv
    rw [← t1, hP]
    unfold rsum subP
    rw [← rh, ← rw0]
    rfl
  have each : ∀ X Y : ℕ, ∑ i ∈ range h, ∑ j ∈ range w,
      out.P.px (((i : ℤ) - (X - A - A')) % h).toNat (((j : ℤ) - (Y - B - B')) % w).toNat = 1 := by
    intro X Y
    rw [sum_range_emod h (X - A - A') fun a => ∑ j ∈ range w, out.P.px a (((j : ℤ) - (Y - B - B')) % w).toNat, ← tot]
    exact Finset.sum_congr rfl fun a _ => sum_range_emod w (Y - B - B') fun b => out.P.px a b
  rw [Finset.sum_congr rfl fun i hi => Finset.sum_congr rfl fun j hj => by
    rw [k i (mem_range.1 hi) j (mem_range.1 hj), hd, add_sub_cancel_left]]
  simp only [← Finset.sum_div]
  rw [swap_pairs]
  congr 1
  refine Finset.sum_congr rfl fun X _ => Finset.sum_congr rfl fun Y _ => ?_
  simp only [← Finset.mul_sum]
  rw [each, mul_one]

/-- C163: zero points whose ratio is not that of the brightnesses leave a ghost of every source: with the sky `c` times as
bright in the new image, D gains `c - b` times the reference's sky as seen through P, over the noise. -/
theorem wrong_zero_points (A B A' B' : ℤ) (t : ℕ → ℕ → ℝ) (c : ℝ) (hA : centerOfMass ref.psf = ((A : ℝ), (B : ℝ)))
    (hA' : centerOfMass new.psf = ((A' : ℝ), (B' : ℝ))) (hb : z.2 / z.1 ≠ 0) (hv : ref.var ≠ 0 ∨ new.var ≠ 0) :
    ∃ out, subtract env ⟨false, false, it⟩ ref new = .ok out ∧ ∀ i < h, ∀ j < w,
      ((diffOf env ⟨false, false, it⟩ ref new (plusImg ref.interped (through h w ref.psf A B t))
        (plusImg new.interped (through h w new.psf A' B' fun X Y => c * t X Y))).px i j).re = (out.D.px i j).re +
        (c - z.2 / z.1) * (∑ X ∈ range h, ∑ Y ∈ range w, t X Y *
          out.P.px (((i : ℤ) - (X - A - A')) % h).toNat (((j : ℤ) - (Y - B - B')) % w).toNat) /
          Real.sqrt (ref.var ^ 2 * (z.2 / z.1) ^ 2 + new.var ^ 2) := by
  obtain ⟨out, e, k⟩ := changed_sky env it ref new h w z hmr hmn hz hc hr hn hh hw gr gn A B A' B' t
    (fun X Y => c * t X Y) hA hA' hb hv
  refine ⟨out, e, fun i hi j hj => ?_⟩
  rw [k i hi j hj, Finset.mul_sum]
  congr 2
  refine Finset.sum_congr rfl fun X _ => ?_
  rw [Finset.mul_sum]
  exact Finset.sum_congr rfl fun Y _ => by rw [← sub_mul, mul_assoc]

/-- C163: a misalignment by whole pixels leaves a dipole at every source: with the new image's sky displaced by `(u, v)`, D
gains, for every pixel of the sky, P at the displaced place less P at the place, times `b`, over the noise. -/
theorem misaligned (A B A' B' u v : ℤ) (t : ℕ → ℕ → ℝ) (hA : centerOfMass ref.psf = ((A : ℝ), (B : ℝ)))
    (hA' : centerOfMass new.psf = ((A' : ℝ), (B' : ℝ))) (hb : z.2 / z.1 ≠ 0) (hv : ref.var ≠ 0 ∨ new.var ≠ 0) :
    ∃ out, subtract env ⟨false, false, it⟩ ref new = .ok out ∧ ∀ i < h, ∀ j < w,
      ((diffOf env ⟨false, false, it⟩ ref new (plusImg ref.interped (through h w ref.psf A B t))
        (plusImg new.interped (through h w new.psf A' B' fun X Y =>
          z.2 / z.1 * t (((X : ℤ) - u) % h).toNat (((Y : ℤ) - v) % w).toNat))).px i j).re = (out.D.px i j).re +
        z.2 / z.1 * (∑ X ∈ range h, ∑ Y ∈ range w, t X Y *
          (out.P.px (((i : ℤ) - (X + u - A - A')) % h).toNat (((j : ℤ) - (Y + v - B - B')) % w).toNat -
            out.P.px (((i : ℤ) - (X - A - A')) % h).toNat (((j : ℤ) - (Y - B - B')) % w).toNat)) /
          Real.sqrt (ref.var ^ 2 * (z.2 / z.1) ^ 2 + new.var ^ 2) := by
  obtain ⟨out, e, k⟩ := changed_sky env it ref new h w z hmr hmn hz hc hr hn hh hw gr gn A B A' B' t
    (fun X Y => z.2 / z.1 * t (((X : ℤ) - u) % h).toNat (((Y : ℤ) - v) % w).toNat) hA hA' hb hv
  refine ⟨out, e, fun i hi j hj => ?_⟩
  rw [k i hi j hj]
  congr 2
  have idx : ∀ (n : ℕ) (a s : ℤ) (X : ℕ) (q : ℤ), n ≠ 0 →
      ((a - ((((X : ℤ) - s) % n).toNat + s - q)) % n).toNat = ((a - (X - q)) % n).toNat := by
    intro n a s X q n0
    have g := Int.emod_nonneg ((X : ℤ) - s) (show (n : ℤ) ≠ 0 by exact_mod_cast n0)
    rw [Int.toNat_of_nonneg g]
    congr 1
    have e1 : a - (((X : ℤ) - s) % n + s - q) = (a - s + q) - ((X : ℤ) - s) % n := by ring
    have e2 : a - ((X : ℤ) - q) = (a - s + q) - ((X : ℤ) - s) := by ring
    rw [e1, e2, Int.sub_emod, Int.emod_emod, ← Int.sub_emod]
  have moved : ∑ X ∈ range h, ∑ Y ∈ range w, t (((X : ℤ) - u) % h).toNat (((Y : ℤ) - v) % w).toNat *
        out.P.px (((i : ℤ) - (X - A - A')) % h).toNat (((j : ℤ) - (Y - B - B')) % w).toNat =
      ∑ X ∈ range h, ∑ Y ∈ range w, t X Y *
        out.P.px (((i : ℤ) - (X + u - A - A')) % h).toNat (((j : ℤ) - (Y + v - B - B')) % w).toNat := by
    rw [← sum_range_emod h u fun X => ∑ Y ∈ range w, t X Y *
        out.P.px (((i : ℤ) - (X + u - A - A')) % h).toNat (((j : ℤ) - (Y + v - B - B')) % w).toNat]
    refine Finset.sum_congr rfl fun X _ => ?_
    rw [← sum_range_emod w v fun Y => t (((X : ℤ) - u) % h).toNat Y *
        out.P.px (((i : ℤ) - ((((X : ℤ) - u) % h).toNat + u - A - A')) % h).toNat
          (((j : ℤ) - (Y + v - B - B')) % w).toNat]
    refine Finset.sum_congr rfl fun Y _ => ?_
    have i1 := idx h i u X (A + A') hh
    have i2 := idx w j v Y (B + B') hw
    simp only [sub_sub] at i1 i2 ⊢
    rw [i1, i2]
  simp only [mul_sub, sub_mul, mul_assoc, Finset.sum_sub_distrib, ← Finset.mul_sum] at moved ⊢
  rw [moved]

/-- C163: the dipoles add up to nothing. -/
theorem misaligned_total (A B A' B' u v : ℤ) (t : ℕ → ℕ → ℝ) (hA : centerOfMass ref.psf = ((A : ℝ), (B : ℝ)))
    (hA' : centerOfMass new.psf = ((A' : ℝ), (B' : ℝ))) (hb : z.2 / z.1 ≠ 0) (hv : ref.var ≠ 0 ∨ new.var ≠ 0)
    (fr : ref.psf.h ≤ h ∧ ref.psf.w ≤ w) (fn : new.psf.h ≤ h ∧ new.psf.w ≤ w)
    (ur : rsum ref.psf = 1) (un : rsum new.psf = 1) :
    ∑ i ∈ range h, ∑ j ∈ range w,
      (((diffOf env ⟨false, false, it⟩ ref new (plusImg ref.interped (through h w ref.psf A B t))
        (plusImg new.interped (through h w new.psf A' B' fun X Y =>
          z.2 / z.1 * t (((X : ℤ) - u) % h).toNat (((Y : ℤ) - v) % w).toNat))).px i j).re -
        ((diffOf env ⟨false, false, it⟩ ref new ref.interped new.interped).px i j).re) = 0 := by
  rw [changed_sky_total env it ref new h w z hmr hmn hz hc hr hn hh hw gr gn A B A' B' t _ hA hA' hb hv fr fn ur un]
  rw [div_eq_zero_iff]
  left
  simp only [Finset.sum_sub_distrib, ← Finset.mul_sum]
  rw [sum_range_emod h u fun X => ∑ Y ∈ range w, t X (((Y : ℤ) - v) % w).toNat,
    Finset.sum_congr rfl fun X _ => sum_range_emod w v fun Y => t X Y, sub_self]

end

section
variable (lt : List CoImg → List CoImg → Option Bool) {n : ℕ} (hn : 0 < n)
    (d : Fin n → SinglePsf) (h w psfShape : ℕ) (procs : ℤ)
    (hs : ∀ j, (d j).interped.h = h ∧ (d j).interped.w = w ∧ (d j).mask.HasShape h w)
    (hp : procs ≤ n) (hp' : procs ≤ 2 ^ 25) (hb : procs * n ≤ 2 ^ 50) (hh : h ≠ 0) (hw : w ≠ 0)
    (ψ : Fin n → Img ℝ) (hψ : ∀ m, (d m).psf = toC (ψ m)) (A B : Fin n → ℤ)
    (hc : ∀ m, (d m).com = ((A m : ℝ), (B m : ℝ)))
    (hpow : ∀ k < h, ∀ l < w,
      zackayPower (fun j => (d j).zp) (fun j => (d j).var) (fun j => (d j).psfHat.px k l) ≠ 0)
include hn hp hp' hb hs hh hw hψ hc hpow

/-- C163: the coadd loses nothing of the common sky: R stays as it is under an addition to it only if the addition is zero
in every pixel. -/
theorem coadd_unchanged_iff (t : ℕ → ℕ → ℝ) :
    (∀ i < h, ∀ j < w, (coaddOf lt d psfShape procs fun m => plusImg (d m).interped
          (toC (through h w (ψ m) (A m) (B m) fun X Y => (d m).zp * t X Y))).px i j =
        (coaddOf lt d psfShape procs fun m => (d m).interped).px i j) ↔ ∀ X < h, ∀ Y < w, t X Y = 0 := by
  have gain : ∀ i j, (coaddOf lt d psfShape procs fun m => plusImg (d m).interped
          (toC (through h w (ψ m) (A m) (B m) fun X Y => (d m).zp * t X Y))).px i j =
        (coaddOf lt d psfShape procs fun m => (d m).interped).px i j +
      (ifftOrtho ⟨h, w, fun k l => ∑ m, gainCoadd d h w m k l *
        (fftOrtho (toC (through h w (ψ m) (A m) (B m) fun X Y => (d m).zp * t X Y))).px k l⟩).px i j := by
    intro i j
    have f' : ∀ m, ∑ a ∈ range h, ∑ b ∈ range w,
        (toC (through h w (ψ m) (A m) (B m) fun X Y => (d m).zp * t X Y)).px a b *
          impulseResp h w (gainCoadd d h w m) i j a b =
        (ifftOrtho ⟨h, w, fun k l => gainCoadd d h w m k l *
          (fftOrtho (toC (through h w (ψ m) (A m) (B m) fun X Y => (d m).zp * t X Y))).px k l⟩).px i j :=
      fun m => (filter_eq (toC (through h w (ψ m) (A m) (B m) fun X Y => (d m).zp * t X Y)) (gainCoadd d h w m) i j).symm
    rw [ifftOrtho_sum]
    simp only [← f']
    rw [coaddOf_eq lt hn d h w psfShape procs hs hp hp' hb
        (fun m => plusImg (d m).interped (toC (through h w (ψ m) (A m) (B m) fun X Y => (d m).zp * t X Y)))
        (fun m => ⟨(hs m).1, (hs m).2.1⟩),
      coaddOf_eq lt hn d h w psfShape procs hs hp hp' hb (fun m => (d m).interped)
        (fun m => ⟨(hs m).1, (hs m).2.1⟩)]
    simp only [plusImg, add_mul, Finset.sum_add_distrib]
  have step1 : (∀ i < h, ∀ j < w, (coaddOf lt d psfShape procs fun m => plusImg (d m).interped
          (toC (through h w (ψ m) (A m) (B m) fun X Y => (d m).zp * t X Y))).px i j =
        (coaddOf lt d psfShape procs fun m => (d m).interped).px i j) ↔
      ∀ i < h, ∀ j < w, (ifftOrtho ⟨h, w, fun k l => ∑ m, gainCoadd d h w m k l *
        (fftOrtho (toC (through h w (ψ m) (A m) (B m) fun X Y => (d m).zp * t X Y))).px k l⟩).px i j = 0 := by
    refine forall_congr' fun i => forall_congr' fun _ => forall_congr' fun j => forall_congr' fun _ => ?_
    rw [gain i j, add_eq_left]
  rw [step1, ifftOrtho_eq_zero_iff, ← empty_iff_phases h w hh hw]
  refine forall_congr' fun k => forall_congr' fun hk => forall_congr' fun l => forall_congr' fun hl => ?_
  rw [coadd_sky_hat d h w hs hh hw ψ hψ A B hc hpow t k l hk hl]
  have pw := hpow k hk l hl
  have pn := zackayPower_nonneg (fun j => (d j).zp) (fun j => (d j).var) (fun j => (d j).psfHat.px k l)
  have p1 : ((Real.sqrt (zackayPower (fun j => (d j).zp) (fun j => (d j).var) (fun j => (d j).psfHat.px k l)) : ℝ) : ℂ) ≠ 0 := by
    exact_mod_cast (Real.sqrt_pos.2 (lt_of_le_of_ne pn (Ne.symm pw))).ne'
  have p2 : ((Real.sqrt ((h * w : ℕ) : ℝ) : ℝ) : ℂ) ≠ 0 := by
    have : (0 : ℝ) < ((h * w : ℕ) : ℝ) := by exact_mod_cast Nat.mul_pos (by omega) (by omega)
    exact_mod_cast (Real.sqrt_pos.2 this).ne'
  have e : (∑ X ∈ range h, ∑ Y ∈ range w, (t X Y : ℂ) * (((Real.sqrt (zackayPower (fun j => (d j).zp) (fun j => (d j).var)
        (fun j => (d j).psfHat.px k l)) : ℝ) : ℂ) / (Real.sqrt ((h * w : ℕ) : ℝ) : ℂ) *
          shiftPhase h w ((X : ℝ), (Y : ℝ)) k l)) = ((Real.sqrt (zackayPower (fun j => (d j).zp) (fun j => (d j).var)
        (fun j => (d j).psfHat.px k l)) : ℝ) : ℂ) / (Real.sqrt ((h * w : ℕ) : ℝ) : ℂ) *
        ∑ X ∈ range h, ∑ Y ∈ range w, (t X Y : ℂ) * shiftPhase h w ((X : ℝ), (Y : ℝ)) k l := by
    simp only [Finset.mul_sum]
    exact Finset.sum_congr rfl fun X _ => Finset.sum_congr rfl fun Y _ => by ring
  rw [e, mul_eq_zero]
  exact ⟨fun q => q.resolve_left (div_ne_zero p1 p2), Or.inr⟩

end

/-! ## Cases -/

/-- A sky of brightness 0, 1, 0 seen by the new image one pixel further on: D gains twice the dipole. -/
theorem seeing_dipole : ∃ out,
    subtract (tinyEnv 1 2) ⟨false, false, true⟩ (seeingSub 5 7 0 1) (seeingSub 1 0 4 2) = .ok out ∧ ∀ j < 3,
      ((diffOf (tinyEnv 1 2) ⟨false, false, true⟩ (seeingSub 5 7 0 1) (seeingSub 1 0 4 2)
        (plusImg (seeingSub 5 7 0 1).interped (through 1 3 seeingPsf 0 1 fun _ Y => if Y = 1 then 1 else 0))
        (plusImg (seeingSub 1 0 4 2).interped
          (through 1 3 seeingPsf 0 1 fun X Y => 2 / 1 * (fun _ Y => if Y = 1 then 1 else 0)
            ((((X : ℤ) - 0) % 1).toNat) (((Y : ℤ) - 1) % 3).toNat))).px 0 j).re =
        (out.D.px 0 j).re + 2 * (out.P.px 0 j - out.P.px 0 ((j + 1) % 3)) / Real.sqrt 8 := by
  obtain ⟨out, e, k⟩ := misaligned (tinyEnv 1 2) true (seeingSub 5 7 0 1) (seeingSub 1 0 4 2) 1 3 (1, 2)
    (by intro a h; cases h) (by intro a h; cases h) rfl (Or.inl rfl) rfl rfl (by norm_num) (by norm_num)
    seeing_idle seeing_idle 0 1 0 1 0 1 (fun _ Y => if Y = 1 then 1 else 0)
    seeing_com seeing_com (by norm_num) (Or.inl (by norm_num [seeingSub]))
  refine ⟨out, e, fun j hj => (k 0 (by norm_num) j hj).trans ?_⟩
  have v : (seeingSub 5 7 0 1).var ^ 2 * (((1 : ℝ), (2 : ℝ)).2 / ((1 : ℝ), (2 : ℝ)).1) ^ 2 + (seeingSub 1 0 4 2).var ^ 2 = 8 := by
    norm_num [seeingSub]
  have i2 : (((j : ℤ) - (((1 : ℕ) : ℤ) + 1 - 1 - 1)) % ((3 : ℕ) : ℤ)).toNat = j := by omega
  have i3 : (((j : ℤ) - (((1 : ℕ) : ℤ) - 1 - 1)) % ((3 : ℕ) : ℤ)).toNat = (j + 1) % 3 := by omega
  rw [v, Finset.sum_range_one, Finset.sum_range_succ, Finset.sum_range_succ, Finset.sum_range_one, i2, i3]
  norm_num

/-- Only the same sky, three times as bright, leaves D as it is. -/
theorem seeing_unchanged (tr tn : ℕ → ℕ → ℝ) :
    (∀ i < 1, ∀ j < 3, (diffOf (tinyEnv 1 3) ⟨false, false, true⟩ (seeingSub 5 7 0 1) (seeingSub 1 0 4 2)
        (plusImg (seeingSub 5 7 0 1).interped (through 1 3 seeingPsf 0 1 tr))
        (plusImg (seeingSub 1 0 4 2).interped (through 1 3 seeingPsf 0 1 tn))).px i j =
      (diffOf (tinyEnv 1 3) ⟨false, false, true⟩ (seeingSub 5 7 0 1) (seeingSub 1 0 4 2)
        (seeingSub 5 7 0 1).interped (seeingSub 1 0 4 2).interped).px i j) ↔
      ∀ X < 1, ∀ Y < 3, tn X Y = 3 / 1 * tr X Y :=
  unchanged_iff (tinyEnv 1 3) true (seeingSub 5 7 0 1) (seeingSub 1 0 4 2) 1 3 (1, 3)
    (by intro a h; cases h) (by intro a h; cases h) rfl (Or.inl rfl) rfl rfl (by norm_num) (by norm_num)
    seeing_idle seeing_idle 0 1 0 1 tr tn (by rfl) (by rfl) (Or.inl (by norm_num [seeingSub]))

end PI
