import Verif.Props.BadPixels
import Verif.Props.SamePsf
import Verif.Props.SkyChange

/-!
# Property C197: stars at the edge of the frame

`subtract` and `coadd` treat the frame as periodic: light that leaves it on one side is expected on the other. Exposures do not show
that light.
-/

namespace PI

open Complex Finset

/-- The light of a star at `(X, Y)` in pixel `(i, j)`, through a PSF stamp whose pixel `(A, B)` lies on the star. There is none outside
the stamp. -/
def stampLight (psf : Img ℝ) (A B X Y : ℤ) (i j : ℤ) : ℝ :=
  if 0 ≤ i - X + A ∧ 0 ≤ j - Y + B then padPx psf (i - X + A).toNat (j - Y + B).toNat else 0

/-- What an exposure shows of a sky: cut off at the edges of the frame. -/
def cutSky (h w : ℕ) (psf : Img ℝ) (A B : ℤ) (t : ℕ → ℕ → ℝ) (i j : ℕ) : ℝ :=
  ∑ X ∈ range h, ∑ Y ∈ range w, t X Y * stampLight psf A B X Y i j

/-- The light of that sky that falls outside the frame, brought back in at the opposite edges. -/
def wrapped (h w : ℕ) (psf : Img ℝ) (A B : ℤ) (t : ℕ → ℕ → ℝ) (i j : ℕ) : ℝ :=
  ∑ X ∈ range h, ∑ Y ∈ range w, t X Y *
    (if (0 ≤ (i : ℤ) - X + A ∧ (i : ℤ) - X + A < h) ∧ 0 ≤ (j : ℤ) - Y + B ∧ (j : ℤ) - Y + B < w then 0
      else padPx psf (((i : ℤ) - X + A) % h).toNat (((j : ℤ) - Y + B) % w).toNat)

/-- The periodic sky is what the exposure shows and what it misses. -/
theorem cut_add_wrapped (h w : ℕ) (psf : Img ℝ) (hp : psf.h ≤ h ∧ psf.w ≤ w) (A B : ℤ) (t : ℕ → ℕ → ℝ) (i j : ℕ) :
    (through h w psf A B t).px i j = cutSky h w psf A B t i j + wrapped h w psf A B t i j := by
  change ∑ X ∈ range h, ∑ Y ∈ range w, t X Y * padPx psf (((i : ℤ) - X + A) % h).toNat (((j : ℤ) - Y + B) % w).toNat = _
  unfold cutSky wrapped
  rw [← Finset.sum_add_distrib]
  refine Finset.sum_congr rfl fun X _ => ?_
  rw [← Finset.sum_add_distrib]
  refine Finset.sum_congr rfl fun Y _ => ?_
  rw [← mul_add]
  congr 1
  unfold stampLight
  generalize (i : ℤ) - X + A = a
  generalize (j : ℤ) - Y + B = b
  by_cases c : (0 ≤ a ∧ a < h) ∧ 0 ≤ b ∧ b < w
  · rw [if_pos c, if_pos ⟨c.1.1, c.2.1⟩, Int.emod_eq_of_lt c.1.1 c.1.2, Int.emod_eq_of_lt c.2.1 c.2.2, add_zero]
  · rw [if_neg c]
    split
    · have : ¬ (a.toNat < psf.h ∧ b.toNat < psf.w) := by omega
      rw [padPx, padPx, if_neg this, zero_add]
    · rw [zero_add]

/-- Stars whose stamps lie in the frame miss nothing. -/
theorem wrapped_inside (h w : ℕ) (psf : Img ℝ) (A B : ℤ) (t : ℕ → ℕ → ℝ)
    (ht : ∀ X < h, ∀ Y < w, t X Y ≠ 0 → (A ≤ X ∧ X - A + psf.h ≤ h) ∧ B ≤ Y ∧ Y - B + psf.w ≤ w) (i j : ℕ) (hi : i < h) (hj : j < w) :
    wrapped h w psf A B t i j = 0 := by
  refine Finset.sum_eq_zero fun X hX => Finset.sum_eq_zero fun Y hY => ?_
  by_cases t0 : t X Y = 0
  · rw [t0, zero_mul]
  obtain ⟨⟨a1, a2⟩, b1, b2⟩ := ht X (mem_range.1 hX) Y (mem_range.1 hY) t0
  split
  · rw [mul_zero]
  · rename_i c
    have wrap : ∀ (n : ℕ) (v : ℤ), v < n → -n ≤ v → v < 0 → v % n = v + n := by
      intro n v _ h1 h2
      rw [← Int.add_emod_right, Int.emod_eq_of_lt (by omega) (by omega)]
    have : ¬ ((((i : ℤ) - X + A) % h).toNat < psf.h ∧ (((j : ℤ) - Y + B) % w).toNat < psf.w) := by
      rintro ⟨g1, g2⟩
      apply c
      refine ⟨⟨?_, by omega⟩, ?_, by omega⟩
      · by_contra q
        rw [wrap h _ (by omega) (by omega) (by omega)] at g1
        omega
      · by_contra q
        rw [wrap w _ (by omega) (by omega) (by omega)] at g2
        omega
    rw [padPx, if_neg this, mul_zero]

/-- The frame of `n` pixels, seen from `c`: the pixels in another order. -/
theorem sum_turned (n : ℕ) (hn : n ≠ 0) (c : ℤ) (g : ℕ → ℤ → ℝ) :
    ∑ i ∈ range n, g (((i : ℤ) - c) % n).toNat i = ∑ u ∈ range n, g u (((u : ℤ) + c) % n) := by
  have n0 : (n : ℤ) ≠ 0 := by exact_mod_cast hn
  refine Finset.sum_nbij' (fun i => (((i : ℤ) - c) % n).toNat) (fun u => (((u : ℤ) + c) % n).toNat) ?_ ?_ ?_ ?_ ?_
  · intro i _
    exact mem_range.2 (emod_toNat_lt n hn _)
  · intro u _
    exact mem_range.2 (emod_toNat_lt n hn _)
  · intro i hi
    have := mem_range.1 hi
    rw [Int.toNat_of_nonneg (Int.emod_nonneg _ n0), Int.emod_add_emod, sub_add_cancel, Int.emod_eq_of_lt (by omega) (by omega)]
    rfl
  · intro u hu
    have := mem_range.1 hu
    rw [Int.toNat_of_nonneg (Int.emod_nonneg _ n0), Int.emod_sub_emod, add_sub_cancel_right, Int.emod_eq_of_lt (by omega) (by omega)]
    rfl
  · intro i hi
    have := mem_range.1 hi
    rw [Int.toNat_of_nonneg (Int.emod_nonneg _ n0), Int.emod_add_emod, sub_add_cancel,
      Int.emod_eq_of_lt (a := (i : ℤ)) (by omega) (by omega)]

/-- C197: what a star of flux `c` at `(X, Y)` misses is the part of its stamp outside the frame. -/
theorem wrapped_star (h w : ℕ) (hh : h ≠ 0) (hw : w ≠ 0) (psf : Img ℝ) (hp : psf.h ≤ h ∧ psf.w ≤ w) (A B : ℤ) (X Y : ℕ)
    (hX : X < h) (hY : Y < w) (c : ℝ) :
    ∑ i ∈ range h, ∑ j ∈ range w, wrapped h w psf A B (fun X' Y' => if X' = X ∧ Y' = Y then c else 0) i j ^ 2 =
      c ^ 2 * ∑ u ∈ range psf.h, ∑ v ∈ range psf.w,
        if (0 ≤ (u : ℤ) + (X - A) ∧ (u : ℤ) + (X - A) < h) ∧ 0 ≤ (v : ℤ) + (Y - B) ∧ (v : ℤ) + (Y - B) < w then 0
        else psf.px u v ^ 2 := by
  have e1 : ∀ i j : ℕ, wrapped h w psf A B (fun X' Y' => if X' = X ∧ Y' = Y then c else 0) i j ^ 2 = c ^ 2 *
      (if (0 ≤ (i : ℤ) - (X - A) ∧ (i : ℤ) - (X - A) < h) ∧ 0 ≤ (j : ℤ) - (Y - B) ∧ (j : ℤ) - (Y - B) < w then 0
        else padPx psf (((i : ℤ) - (X - A)) % h).toNat (((j : ℤ) - (Y - B)) % w).toNat ^ 2) := by
    intro i j
    unfold wrapped
    rw [Finset.sum_eq_single X, Finset.sum_eq_single Y]
    · beta_reduce
      rw [if_pos (show X = X ∧ Y = Y from ⟨rfl, rfl⟩), mul_pow, show (i : ℤ) - (X - A) = i - X + A by ring,
        show (j : ℤ) - (Y - B) = j - Y + B by ring]
      congr 1
      split <;> simp
    · intro Y' _ n
      beta_reduce
      rw [if_neg (show ¬ (X = X ∧ Y' = Y) from fun q => n q.2), zero_mul]
    · intro n
      exact absurd (mem_range.2 hY) n
    · intro X' _ n
      refine Finset.sum_eq_zero fun Y' _ => ?_
      beta_reduce
      rw [if_neg (show ¬ (X' = X ∧ Y' = Y) from fun q => n q.1), zero_mul]
    · intro n
      exact absurd (mem_range.2 hX) n
  simp only [e1, ← Finset.mul_sum]
  congr 1
  have cond : ∀ (n u : ℕ) (o : ℤ), u < n → ((0 ≤ ((u : ℤ) + o) % n - o ∧ ((u : ℤ) + o) % n - o < n) ↔
      (0 ≤ (u : ℤ) + o ∧ (u : ℤ) + o < n)) := by
    intro n u o hu
    constructor
    · rintro ⟨q1, q2⟩
      have m := Int.emod_sub_emod ((u : ℤ) + o) n o
      rw [add_sub_cancel_right, Int.emod_eq_of_lt q1 q2, Int.emod_eq_of_lt (a := (u : ℤ)) (by omega) (by omega)] at m
      have p1 := Int.emod_nonneg ((u : ℤ) + o) (show (n : ℤ) ≠ 0 by omega)
      have p2 := Int.emod_lt_of_pos ((u : ℤ) + o) (show (0 : ℤ) < n by omega)
      omega
    · rintro ⟨q1, q2⟩
      rw [Int.emod_eq_of_lt q1 q2]
      omega
  have r2 : ∀ i : ℕ, (∑ j ∈ range w,
      if (0 ≤ (i : ℤ) - (X - A) ∧ (i : ℤ) - (X - A) < h) ∧ 0 ≤ (j : ℤ) - (Y - B) ∧ (j : ℤ) - (Y - B) < w then (0 : ℝ)
        else padPx psf (((i : ℤ) - (X - A)) % h).toNat (((j : ℤ) - (Y - B)) % w).toNat ^ 2) = ∑ v ∈ range w,
      if (0 ≤ (i : ℤ) - (X - A) ∧ (i : ℤ) - (X - A) < h) ∧ 0 ≤ (v : ℤ) + (Y - B) ∧ (v : ℤ) + (Y - B) < w then (0 : ℝ)
        else padPx psf (((i : ℤ) - (X - A)) % h).toNat v ^ 2 := by
    intro i
    rw [sum_turned w hw (Y - B) fun v j =>
      if (0 ≤ (i : ℤ) - (X - A) ∧ (i : ℤ) - (X - A) < h) ∧ 0 ≤ j - (Y - B) ∧ j - (Y - B) < w then (0 : ℝ)
        else padPx psf (((i : ℤ) - (X - A)) % h).toNat v ^ 2]
    exact Finset.sum_congr rfl fun v hv => by simp only [cond w v _ (mem_range.1 hv)]
  simp only [r2]
  rw [sum_turned h hh (X - A) fun u i => ∑ v ∈ range w,
      if (0 ≤ i - (X - A) ∧ i - (X - A) < h) ∧ 0 ≤ (v : ℤ) + (Y - B) ∧ (v : ℤ) + (Y - B) < w then (0 : ℝ)
        else padPx psf u v ^ 2]
  rw [← Finset.sum_subset (s₁ := range psf.h) (fun u hu => mem_range.2 (lt_of_lt_of_le (mem_range.1 hu) hp.1))]
  · refine Finset.sum_congr rfl fun u hu => ?_
    have hu := mem_range.1 hu
    rw [← Finset.sum_subset (s₁ := range psf.w) (fun v hv => mem_range.2 (lt_of_lt_of_le (mem_range.1 hv) hp.2))]
    · refine Finset.sum_congr rfl fun v hv => ?_
      simp only [cond h u _ (by omega)]
      rw [padPx, if_pos (show u < psf.h ∧ v < psf.w from ⟨hu, mem_range.1 hv⟩)]
    · intro v _ hv
      have : ¬ (u < psf.h ∧ v < psf.w) := fun q => hv (mem_range.2 q.2)
      rw [padPx, if_neg this]
      simp
  · intro u _ hu
    refine Finset.sum_eq_zero fun v _ => ?_
    have : ¬ (u < psf.h ∧ v < psf.w) := fun q => hu (mem_range.2 q.1)
    rw [padPx, if_neg this]
    simp

section
variable (env : SubEnv) (it : Bool) (ref new : SubImg) (h w : ℕ) (z : ℝ × ℝ)
    (hmr : ref.mask.HasShape h w) (hmn : new.mask.HasShape h w) (hz : env.zps = .ok z)
    (hc : env.fitted = true ∨ (0 ≤ (centerOfMass new.psf).1 ∧ 0 ≤ (centerOfMass new.psf).2))
    (hr : ref.interped.shape = (h, w)) (hn : new.interped.shape = (h, w))
    (h1 : AxisOK h (centerOfMass ref.psf).1) (h2 : AxisOK w (centerOfMass ref.psf).2)
    (h3 : AxisOK h (centerOfMass new.psf).1) (h4 : AxisOK w (centerOfMass new.psf).2)
    (hvr : ref.var ≠ 0) (hvn : new.var ≠ 0) (hh : h ≠ 0) (hw : w ≠ 0)
    (gr : GuardIdle h w ref.psf) (gn : GuardIdle h w new.psf)
    (hpr : ref.psf.h ≤ h ∧ ref.psf.w ≤ w) (hpn : new.psf.h ≤ h ∧ new.psf.w ≤ w) (A B A' B' : ℤ) (t : ℕ → ℕ → ℝ)
    (hx : (centerOfMass ref.psf).1 - A = (centerOfMass new.psf).1 - A')
    (hy : (centerOfMass ref.psf).2 - B = (centerOfMass new.psf).2 - B')

/-- What two exposures show of a sky `t` that does not change, `b` times as bright in the new one, and of other light `f`: of stars beyond
the frame, say. -/
def shownPair (b : ℝ) (f : Bool × Fin h × Fin w → ℝ) (q : Bool × Fin h × Fin w) : ℝ :=
  (if q.1 then cutSky h w new.psf A' B' (fun X Y => b * t X Y) q.2.1 q.2.2 else cutSky h w ref.psf A B t q.2.1 q.2.2) + f q

/-- What they miss of it. -/
def missedPair (b : ℝ) (q : Bool × Fin h × Fin w) : ℝ :=
  if q.1 then wrapped h w new.psf A' B' (fun X Y => b * t X Y) q.2.1 q.2.2 else wrapped h w ref.psf A B t q.2.1 q.2.2

include hmr hmn hz hc hr hn h1 h2 h3 h4 hh hw gr gn hpr hpn hx hy

/-- C197: an unchanged sky that is cut off at the edges does to D what the missing light would do with the opposite sign. -/
theorem edge_diff_eq (f : Bool × Fin h × Fin w → ℝ) (p : Fin h × Fin w) :
    diffChange env it ref new h w (shownPair ref new h w A B A' B' t (z.2 / z.1) f) p =
      diffChange env it ref new h w (fun q => f q - missedPair ref new h w A B A' B' t (z.2 / z.1) q) p := by
  have de := diffChange_eq env it ref new h w z hmr hmn hz hc hr hn h1 h2 h3 h4
  set s : Bool × Fin h × Fin w → ℝ := fun q =>
    if q.1 then (through h w new.psf A' B' fun X Y => z.2 / z.1 * t X Y).px q.2.1 q.2.2
    else (through h w ref.psf A B t).px q.2.1 q.2.2 with hs
  have split : ∀ q, shownPair ref new h w A B A' B' t (z.2 / z.1) f q =
      s q + (f q - missedPair ref new h w A B A' B' t (z.2 / z.1) q) := by
    intro q
    simp only [hs, shownPair, missedPair, cut_add_wrapped h w _ hpr, cut_add_wrapped h w _ hpn]
    split <;> ring
  have zero : diffChange env it ref new h w s p = 0 := by
    have c := constant_sky env it ref new h w z hmr hmn hz hc hr hn hh hw gr gn A B A' B' t hx hy p.1 p.2
    have dp := fun f e hf he => diffOf_plus env it ref new h w z hmr hmn hz hc hr hn f e hf he p.1 p.2
    rw [dp _ _ ⟨rfl, rfl⟩ ⟨rfl, rfl⟩] at c
    unfold diffChange noisyDiff
    rw [dp _ _ ⟨rfl, rfl⟩ ⟨rfl, rfl⟩]
    have same : ∀ x : Img ℝ, x.h = h → x.w = w →
        fftOrtho (toC (errImg fun q : Fin h × Fin w => x.px q.1 q.2)) = fftOrtho (toC x) := by
      intro x e1 e2
      subst e1 e2
      refine fftOrtho_congr _ _ _ _ fun i hi j hj => ?_
      have hi' := hi
      have hj' := hj
      change i < x.h at hi'
      change j < x.w at hj'
      simp only [errImg, dif_pos hi', dif_pos hj']
    have a1 := same (through h w new.psf A' B' fun X Y => z.2 / z.1 * t X Y) rfl rfl
    have a2 := same (through h w ref.psf A B t) rfl rfl
    simp only [hs, if_true, Bool.false_eq_true, if_false]
    rw [a1, a2]
    linear_combination c
  rw [de, de]
  rw [de] at zero
  have : ∑ q, diffKernel env it ref new h w p q * shownPair ref new h w A B A' B' t (z.2 / z.1) f q =
      (∑ q, diffKernel env it ref new h w p q * s q) +
      ∑ q, diffKernel env it ref new h w p q * (f q - missedPair ref new h w A B A' B' t (z.2 / z.1) q) := by
    rw [← Finset.sum_add_distrib]
    exact Finset.sum_congr rfl fun q _ => by rw [split q]; ring
  rw [this, ofReal_add, zero, zero_add]

include hvr hvn in
/-- C197: so its squares in D add up to at most those of the missing light, in units of the noise. -/
theorem edge_diff (f : Bool × Fin h × Fin w → ℝ) :
    ∑ p, ‖diffChange env it ref new h w (shownPair ref new h w A B A' B' t (z.2 / z.1) f) p‖ ^ 2 ≤
      ∑ q, (f q - missedPair ref new h w A B A' B' t (z.2 / z.1) q) ^ 2 / pairNoise ref new q ^ 2 := by
  rw [Finset.sum_congr rfl fun p _ => by
    rw [edge_diff_eq env it ref new h w z hmr hmn hz hc hr hn h1 h2 h3 h4 hh hw gr gn hpr hpn A B A' B' t hx hy f p]]
  exact diff_errors_bounded env it ref new h w z hmr hmn hz hc hr hn h1 h2 h3 h4 hvr hvn _

/-- C197: and stars whose stamps lie in the frame in both exposures leave nothing. -/
theorem edge_diff_inside
    (ht : ∀ X < h, ∀ Y < w, t X Y ≠ 0 → (A ≤ X ∧ X - A + ref.psf.h ≤ h) ∧ B ≤ Y ∧ Y - B + ref.psf.w ≤ w)
    (ht' : ∀ X < h, ∀ Y < w, t X Y ≠ 0 → (A' ≤ X ∧ X - A' + new.psf.h ≤ h) ∧ B' ≤ Y ∧ Y - B' + new.psf.w ≤ w)
    (p : Fin h × Fin w) :
    diffChange env it ref new h w (shownPair ref new h w A B A' B' t (z.2 / z.1) fun _ => 0) p = 0 := by
  rw [edge_diff_eq env it ref new h w z hmr hmn hz hc hr hn h1 h2 h3 h4 hh hw gr gn hpr hpn A B A' B' t hx hy,
    diffChange_eq env it ref new h w z hmr hmn hz hc hr hn h1 h2 h3 h4, Finset.sum_eq_zero, ofReal_zero]
  intro q _
  have : missedPair ref new h w A B A' B' t (z.2 / z.1) q = 0 := by
    unfold missedPair
    split
    · refine wrapped_inside h w new.psf A' B' _ (fun X hX Y hY t0 => ht' X hX Y hY fun k => t0 ?_) _ _ q.2.1.2 q.2.2.2
      rw [k, mul_zero]
    · exact wrapped_inside h w ref.psf A B t ht _ _ q.2.1.2 q.2.2.2
  rw [this, sub_zero, mul_zero]

include hvn in
omit h1 h2 h3 h4 hh hw gr gn hpr hpn hx hy in
/-- Errors of the new exposure alone are never lost. -/
theorem new_errors_seen (e : Bool × Fin h × Fin w → ℝ) (he : ∀ q, e (false, q) = 0)
    (hd : ∀ p, diffChange env it ref new h w e p = 0) (q : Fin h × Fin w) : e (true, q) = 0 := by
  have z0 : ∀ k l, (fftOrtho (toC (errImg fun p : Fin h × Fin w => e (false, p)))).px k l = 0 := by
    intro k l
    change (∑ i ∈ range h, ∑ j ∈ range w, (((errImg fun p : Fin h × Fin w => e (false, p)).px i j : ℝ) : ℂ) * _) / _ = 0
    rw [Finset.sum_eq_zero, zero_div]
    intro i _
    refine Finset.sum_eq_zero fun j _ => ?_
    simp [errImg, he]
  have g0 : ∀ k < h, ∀ l < w, gainNew ref new (z.2 / z.1) k l *
      (fftOrtho (toC (errImg fun p : Fin h × Fin w => e (true, p)))).px k l = 0 := by
    refine (ifftOrtho_eq_zero_iff h w _).1 fun i hi j hj => ?_
    have t := hd (⟨i, hi⟩, ⟨j, hj⟩)
    unfold diffChange noisyDiff at t
    rw [diffOf_plus env it ref new h w z hmr hmn hz hc hr hn _ _ ⟨rfl, rfl⟩ ⟨rfl, rfl⟩, add_sub_cancel_left] at t
    simpa only [z0, mul_zero, add_zero] using t
  have f0 : ∀ k < h, ∀ l < w, (fftOrtho (toC (errImg fun p : Fin h × Fin w => e (true, p)))).px k l = 0 := by
    intro k hk l hl
    refine (mul_eq_zero.1 (g0 k hk l hl)).resolve_left ?_
    unfold gainNew
    refine div_ne_zero ?_ ?_
    · unfold centredPsf
      refine mul_ne_zero (psfHat_ne_zero _ _ _) fun q => ?_
      have := normSq_shiftPhase ref.h ref.w (negPair (centerOfMass ref.psf)) k l
      rw [q, normSq_zero] at this
      exact zero_ne_one this
    · have p1 := psf_power_pos ref k l
      have p2 := psf_power_pos new k l
      have : 0 < normReal ref new (z.2 / z.1) k l := by
        unfold normReal
        positivity
      exact_mod_cast (Real.sqrt_pos.2 this).ne'
  have pw := fftOrtho_power h w fun i j => (((errImg fun p : Fin h × Fin w => e (true, p)).px i j : ℝ) : ℂ)
  have l0 : ∑ k ∈ range h, ∑ l ∈ range w,
      normSq ((fftOrtho ⟨h, w, fun i j => (((errImg fun p : Fin h × Fin w => e (true, p)).px i j : ℝ) : ℂ)⟩).px k l) = 0 := by
    refine Finset.sum_eq_zero fun k hk => Finset.sum_eq_zero fun l hl => ?_
    rw [show (fftOrtho ⟨h, w, fun i j => (((errImg fun p : Fin h × Fin w => e (true, p)).px i j : ℝ) : ℂ)⟩).px k l = 0 from
      f0 k (mem_range.1 hk) l (mem_range.1 hl), normSq_zero]
  rw [l0] at pw
  have p1 := (Finset.sum_eq_zero_iff_of_nonneg fun i _ => Finset.sum_nonneg fun j _ => normSq_nonneg _).1 pw.symm q.1
    (mem_range.2 q.1.2)
  have p2 := (Finset.sum_eq_zero_iff_of_nonneg fun j _ => normSq_nonneg _).1 p1 q.2 (mem_range.2 q.2.2)
  rw [normSq_eq_zero, ofReal_eq_zero, errImg_px] at p2
  exact p2

include hvn in
/-- C197: if the reference misses nothing, D is free of the sky only if the new exposure misses nothing either. -/
theorem edge_diff_iff (hm : ∀ i < h, ∀ j < w, wrapped h w ref.psf A B t i j = 0) :
    (∀ p, diffChange env it ref new h w (shownPair ref new h w A B A' B' t (z.2 / z.1) fun _ => 0) p = 0) ↔
      ∀ i < h, ∀ j < w, wrapped h w new.psf A' B' (fun X Y => z.2 / z.1 * t X Y) i j = 0 := by
  have ed := edge_diff_eq env it ref new h w z hmr hmn hz hc hr hn h1 h2 h3 h4 hh hw gr gn hpr hpn A B A' B' t hx hy fun _ => 0
  constructor
  · intro q i hi j hj
    have := new_errors_seen env it ref new h w z hmr hmn hz hc hr hn hvn
      (fun q => 0 - missedPair ref new h w A B A' B' t (z.2 / z.1) q)
      (fun q => by simp [missedPair, hm q.1 q.1.2 q.2 q.2.2]) (fun p => by rw [← ed, q p]) (⟨i, hi⟩, ⟨j, hj⟩)
    simpa [missedPair] using this
  · intro q p
    rw [ed, diffChange_eq env it ref new h w z hmr hmn hz hc hr hn h1 h2 h3 h4, Finset.sum_eq_zero, ofReal_zero]
    intro r _
    have : missedPair ref new h w A B A' B' t (z.2 / z.1) r = 0 := by
      unfold missedPair
      split
      · exact q _ r.2.1.2 _ r.2.2.2
      · exact hm _ r.2.1.2 _ r.2.2.2
    rw [this, sub_zero, mul_zero]

end

section
variable (lt : List CoImg → List CoImg → Option Bool) {n : ℕ} (hn : 0 < n)
    (d : Fin n → SinglePsf) (h w psfShape : ℕ) (procs : ℤ)
    (hs : ∀ j, (d j).interped.h = h ∧ (d j).interped.w = w ∧ (d j).mask.HasShape h w)
    (hp : procs ≤ n) (hp' : procs ≤ 2 ^ 25) (hb : procs * n ≤ 2 ^ 50)
    (ψ : Fin n → Img ℝ) (hψ : ∀ m, (d m).psf = toC (ψ m)) (A B : Fin n → ℤ)
    (hc : ∀ m, (d m).com = ((A m : ℝ), (B m : ℝ)))
    (x : Fin n → Img ℝ) (hx : ∀ m, (x m).h = h ∧ (x m).w = w)
    (hv : ∀ m, (d m).var ≠ 0) (hpow : ∀ k < h, ∀ l < w, powerAt d k l ≠ 0) (hh : h ≠ 0) (hw : w ≠ 0)
    (hpsf : ∀ m, (ψ m).h ≤ h ∧ (ψ m).w ≤ w) (t : ℕ → ℕ → ℝ)

/-- What the exposures show of a sky `t`, in proportion to their zero points, and of other light `f`. -/
def shownNight (f : Fin n × Fin h × Fin w → ℝ) (q : Fin n × Fin h × Fin w) : ℝ :=
  cutSky h w (ψ q.1) (A q.1) (B q.1) (fun X Y => (d q.1).zp * t X Y) q.2.1 q.2.2 + f q

/-- What they miss of it. -/
def missedNight (q : Fin n × Fin h × Fin w) : ℝ :=
  wrapped h w (ψ q.1) (A q.1) (B q.1) (fun X Y => (d q.1).zp * t X Y) q.2.1 q.2.2

include hn hs hp hp' hb hψ hc hx hv hpow hh hw hpsf

/-- C197: in a coadd the sky appears as seen through the returned PSF, but for errors whose squares add up to at most those of the
missing light in units of the noise, over the number of pixels. -/
theorem edge_coadd (f : Fin n × Fin h × Fin w → ℝ) : ∃ out,
    coaddCore lt ((List.ofFn d).map SinglePsf.toCoImg) psfShape procs = .ok out ∧
    ∑ p : Fin h × Fin w, ‖coaddChange lt d h w psfShape procs x (shownNight d h w ψ A B t f) p -
        ((Real.sqrt (powerAt d 0 0) : ℝ) : ℂ) * ∑ X ∈ range h, ∑ Y ∈ range w, (t X Y : ℂ) *
          out.Pr.px (((p.1 : ℤ) - (X - psfShape)) % h).toNat (((p.2 : ℤ) - (Y - psfShape)) % w).toNat‖ ^ 2 ≤
      (∑ q, (f q - missedNight d h w ψ A B t q) ^ 2 / nightNoise d q ^ 2) / (h * w : ℕ) := by
  obtain ⟨out, eo, k⟩ := coadd_sky_term lt hn d h w psfShape procs hs hp hp' hb hh hw ψ hψ A B hc hpow t
  refine ⟨out, eo, ?_⟩
  have ce := coaddChange_eq lt hn d h w psfShape procs hs hp hp' hb ψ hψ A B hc x hx
  refine le_of_eq_of_le (Finset.sum_congr rfl fun p _ => ?_) ((coadd_errors lt hn d h w psfShape procs hs hp hp' hb ψ hψ A B hc x hx
    hv hpow (Nat.mul_pos (by omega) (by omega))).1 fun q => f q - missedNight d h w ψ A B t q)
  congr 2
  have k0 := k p.1 p.1.2 p.2 p.2.2
  unfold powerAt
  rw [← k0, ce, ce, sub_eq_iff_eq_add]
  have im : ∀ m (q : Fin h × Fin w), impulseResp h w (gainCoadd d h w m) p.1 p.2 q.1 q.2 =
      ((coaddKernel d h w p (m, q) : ℝ) : ℂ) := by
    intro m q
    have := impulseResp_im h w (gainCoadd d h w m)
      (fun k hk l hl => gainCoadd_hermitian d h w hs ψ hψ A B hc m k l hk hl) p.1 p.2 q.1 q.2 q.1.2 q.2.2
    apply Complex.ext
    · rfl
    · rw [this, ofReal_im]
  have e2 : ∑ m, ∑ a ∈ range h, ∑ b ∈ range w, (toC (through h w (ψ m) (A m) (B m) fun X Y => (d m).zp * t X Y)).px a b *
      impulseResp h w (gainCoadd d h w m) p.1 p.2 a b =
      ((∑ q : Fin n × Fin h × Fin w, coaddKernel d h w p q *
        (through h w (ψ q.1) (A q.1) (B q.1) fun X Y => (d q.1).zp * t X Y).px q.2.1 q.2.2 : ℝ) : ℂ) := by
    rw [Fintype.sum_prod_type, ofReal_sum]
    refine Finset.sum_congr rfl fun m _ => ?_
    rw [sum_pixels, ofReal_sum]
    refine Finset.sum_congr rfl fun q _ => ?_
    rw [im m q, ofReal_mul, mul_comm]
    rfl
  rw [e2, ← ofReal_add, ← Finset.sum_add_distrib]
  congr 1
  refine Finset.sum_congr rfl fun q _ => ?_
  rw [cut_add_wrapped h w _ (hpsf q.1)]
  unfold shownNight missedNight
  ring

end

/-! ## Worked instances -/

theorem row_idle (a : ℝ) (ha : a ≠ 1 / 3) : GuardIdle 1 3 (rowPsf a) := by
  intro k hk l hl
  obtain rfl : k = 0 := by omega
  have e : (fftOrtho (padTo 1 3 (toC (rowPsf a)))).px 0 l =
      ((a : ℂ) + ((1 - 2 * a : ℝ) : ℂ) * tw 3 (l : ℝ) + (a : ℂ) * tw 3 ((2 * l : ℕ) : ℝ)) /
        (Real.sqrt ((1 * 3 : ℕ) : ℝ) : ℂ) := by
    change (∑ i ∈ range 1, ∑ j ∈ range 3, (if i < 1 ∧ j < 3 then ((if j = 1 then 1 - 2 * a else a : ℝ) : ℂ) else 0) *
      (tw 1 (((0 : ℕ) : ℝ) * i) * tw 3 ((l : ℝ) * j))) / (Real.sqrt ((1 * 3 : ℕ) : ℝ) : ℂ) = _
    congr 1
    simp only [Finset.sum_range_succ, Finset.sum_range_zero]
    norm_num [tw_zero]
    exact Or.inl (by rw [mul_comm (l : ℝ) 2])
  have hS : (0 : ℝ) < Real.sqrt ((1 * 3 : ℕ) : ℝ) := by positivity
  rw [e, Complex.div_ofReal_re]
  refine div_ne_zero ?_ hS.ne'
  rw [Complex.add_re, Complex.add_re, Complex.re_ofReal_mul, Complex.re_ofReal_mul, Complex.ofReal_re]
  by_cases h0 : l = 0
  · subst h0
    norm_num [tw_zero]
    intro q
    linarith
  · rw [tw_three_re l (by omega), tw_three_re (2 * l) (by omega)]
    intro q
    exact ha (by linarith)

/-- A sharp 1×3 exposure with unit noise. -/
noncomputable def sharpRow : SubImg where
  interped := ⟨1, 3, fun _ _ => 0⟩
  mask := none
  filled := ⟨1, 3, fun _ _ => 0⟩
  psf := ⟨1, 1, fun _ _ => 1⟩
  var := 1

/-- A star in the first pixel. -/
def edgeStar (X Y : ℕ) : ℝ := if X = 0 ∧ Y = 0 then 1 else 0

theorem edge_wrapped (a : ℝ) (j : ℕ) (hj : j < 3) :
    wrapped 1 3 (rowPsf a) 0 1 (fun X Y => (1 : ℝ) / 1 * edgeStar X Y) 0 j = if j = 2 then a else 0 := by
  unfold wrapped edgeStar
  simp only [Finset.sum_range_succ, Finset.sum_range_zero]
  interval_cases j <;> norm_num [padPx, rowPsf]

/-- The new exposure smears the star over the edge: a quarter of it is missing. So an unchanged star leaves something in D, but not more
than that quarter. -/
example :
    (¬ ∀ p, diffChange (tinyEnv 1 1) true sharpRow (rowSub (1 / 4) 1) 1 3
      (shownPair sharpRow (rowSub (1 / 4) 1) 1 3 0 0 0 1 edgeStar (1 / 1) fun _ => 0) p = 0) ∧
    ∑ p, ‖diffChange (tinyEnv 1 1) true sharpRow (rowSub (1 / 4) 1) 1 3
      (shownPair sharpRow (rowSub (1 / 4) 1) 1 3 0 0 0 1 edgeStar (1 / 1) fun _ => 0) p‖ ^ 2 ≤ (1 / 4) ^ 2 := by
  have cr : centerOfMass sharpRow.psf = (0, 0) := by simp [centerOfMass, rsum, sharpRow]
  have cn : centerOfMass (rowSub (1 / 4) 1).psf = (0, 1) := row_com _
  have in0 : ∀ i < 1, ∀ j < 3, wrapped 1 3 sharpRow.psf 0 0 edgeStar i j = 0 := fun i hi j hj =>
    wrapped_inside 1 3 sharpRow.psf 0 0 edgeStar (fun X hX Y hY _ => by simp only [sharpRow]; omega) i j hi hj
  have cw := edge_wrapped (1 / 4)
  constructor
  · intro q
    have := (edge_diff_iff (tinyEnv 1 1) true sharpRow (rowSub (1 / 4) 1) 1 3 (1, 1) (by intro a h; cases h) (by intro a h; cases h)
      rfl (Or.inl rfl) rfl rfl (Or.inl rfl) (Or.inl rfl) (Or.inl rfl) (Or.inl rfl) (by norm_num [rowSub]) (by norm_num)
      (by norm_num) (pixel_idle 1 3 (by norm_num) (by norm_num)) (row_idle _ (by norm_num)) (by norm_num [sharpRow])
      (by norm_num [rowSub, rowPsf]) 0 0 0 1 edgeStar (by rw [cr, cn]) (by rw [cr, cn]; norm_num) in0).1 q 0 (by norm_num) 2
      (by norm_num)
    rw [show (rowSub (1 / 4) 1).psf = rowPsf (1 / 4) from rfl, cw 2 (by norm_num)] at this
    norm_num at this
  · refine (edge_diff (tinyEnv 1 1) true sharpRow (rowSub (1 / 4) 1) 1 3 (1, 1) (by intro a h; cases h) (by intro a h; cases h)
      rfl (Or.inl rfl) rfl rfl (Or.inl rfl) (Or.inl rfl) (Or.inl rfl) (Or.inl rfl) (by norm_num [sharpRow]) (by norm_num [rowSub])
      (by norm_num) (by norm_num) (pixel_idle 1 3 (by norm_num) (by norm_num)) (row_idle _ (by norm_num)) (by norm_num [sharpRow])
      (by norm_num [rowSub, rowPsf]) 0 0 0 1 edgeStar (by rw [cr, cn]) (by rw [cr, cn]; norm_num) fun _ => 0).trans
      (le_of_eq ?_)
    rw [Fintype.sum_prod_type, Fintype.sum_bool, Fintype.sum_prod_type, Fintype.sum_prod_type]
    simp only [missedPair, pairNoise, if_true, Bool.false_eq_true, if_false, Fin.sum_univ_one, Fin.sum_univ_three]
    rw [show (rowSub (1 / 4) 1).psf = rowPsf (1 / 4) from rfl]
    have i0 := in0 0 (by norm_num)
    simp only [Fin.val_zero, Fin.val_one, Fin.val_two] at *
    rw [cw 0 (by norm_num), cw 1 (by norm_num), cw 2 (by norm_num), i0 0 (by norm_num), i0 1 (by norm_num), i0 2 (by norm_num)]
    norm_num [rowSub]

/-- A coadd of two exposures of nine pixels: their PSFs are one pixel, so nothing is missing. -/
example (lt : List CoImg → List CoImg → Option Bool) (t : ℕ → ℕ → ℝ) : ∃ out,
    coaddCore lt ((List.ofFn demoNight).map SinglePsf.toCoImg) 1 2 = .ok out ∧
    ∀ p : Fin 3 × Fin 3, coaddChange lt demoNight 3 3 1 2 (fun _ => ⟨3, 3, fun i j => i + j⟩)
        (shownNight demoNight 3 3 (fun _ => ⟨1, 1, fun _ _ => 1⟩) (fun _ => 0) (fun _ => 0) t fun _ => 0) p =
      ((Real.sqrt (powerAt demoNight 0 0) : ℝ) : ℂ) * ∑ X ∈ range 3, ∑ Y ∈ range 3, (t X Y : ℂ) *
        out.Pr.px (((p.1 : ℤ) - (X - (1 : ℕ))) % (3 : ℕ)).toNat (((p.2 : ℤ) - (Y - (1 : ℕ))) % (3 : ℕ)).toNat := by
  obtain ⟨out, e, k⟩ := edge_coadd lt (by norm_num) demoNight 3 3 1 2 (fun _ => ⟨rfl, rfl, fun a q => by cases q⟩) (by norm_num)
    (by norm_num) (by norm_num) (fun _ => ⟨1, 1, fun _ _ => 1⟩) (fun _ => by simp [demoNight, toC, Img.map]) (fun _ => 0)
    (fun _ => 0) (fun _ => by simp [demoNight]) (fun _ => ⟨3, 3, fun i j => i + j⟩) (fun _ => ⟨rfl, rfl⟩)
    (fun _ => by norm_num [demoNight]) (fun k _ l _ => (demoNight_power k l).ne') (by norm_num) (by norm_num)
    (fun _ => by norm_num) t fun _ => 0
  refine ⟨out, e, fun p => ?_⟩
  have m0 : ∀ q, missedNight demoNight 3 3 (fun _ => (⟨1, 1, fun _ _ => 1⟩ : Img ℝ)) (fun _ => 0) (fun _ => 0) t q = 0 := fun q =>
    wrapped_inside 3 3 _ 0 0 _ (fun X hX Y hY _ => by simp only []; omega) _ _ q.2.1.2 q.2.2.2
  simp only [m0, sub_zero, ne_eq, OfNat.ofNat_ne_zero, not_false_eq_true, zero_pow, zero_div, Finset.sum_const_zero] at k
  have k1 := (Finset.sum_eq_zero_iff_of_nonneg fun i _ => sq_nonneg _).1
    (le_antisymm k (Finset.sum_nonneg fun i _ => sq_nonneg _)) p (Finset.mem_univ p)
  exact sub_eq_zero.1 (norm_eq_zero.1 (pow_eq_zero_iff (two_ne_zero)|>.1 k1))

end PI
