import Verif.Props.Powerful
import Verif.Props.SkyChange

/-!
# Property C184: what does not see unchanging skies is a function of the difference image

D is a maximal invariant: two pairs of exposures have the same D exactly if they differ by an unchanging sky, so everything that
can be computed from a pair of exposures and that does not react to unchanging skies can be computed from D.
-/

namespace PI

open Complex Finset

/-- Every image is some sky seen through a PSF whose transform vanishes nowhere. -/
theorem through_onto (h w : ℕ) (hh : h ≠ 0) (hw : w ≠ 0) (psf : Img ℝ) (A B : ℤ)
    (h0 : ∀ k < h, ∀ l < w, (fftOrtho (padTo h w (toC psf))).px k l ≠ 0) (x : Fin h × Fin w → ℝ) :
    ∃ t : ℕ → ℕ → ℝ, ∀ p : Fin h × Fin w, (through h w psf A B t).px p.1 p.2 = x p := by
  have vec : ∀ (u : Fin h × Fin w → ℝ) (p : Fin h × Fin w), (through h w psf A B (errImg u).px).px p.1 p.2 =
      ∑ r : Fin h × Fin w, u r * padPx psf (((p.1 : ℤ) - r.1 + A) % h).toNat (((p.2 : ℤ) - r.2 + B) % w).toNat := by
    intro u p
    change ∑ X ∈ range h, ∑ Y ∈ range w, (errImg u).px X Y *
      padPx psf (((p.1 : ℤ) - X + A) % h).toNat (((p.2 : ℤ) - Y + B) % w).toNat = _
    rw [sum_pixels]
    exact Finset.sum_congr rfl fun r _ => by rw [errImg_px]
  let F : (Fin h × Fin w → ℝ) →ₗ[ℝ] (Fin h × Fin w → ℝ) :=
    { toFun := fun u p => (through h w psf A B (errImg u).px).px p.1 p.2
      map_add' := fun u u' => by
        funext p
        simp only [Pi.add_apply, vec, add_mul, Finset.sum_add_distrib]
      map_smul' := fun c u => by
        funext p
        simp only [Pi.smul_apply, smul_eq_mul, RingHom.id_apply, vec, Finset.mul_sum]
        exact Finset.sum_congr rfl fun r _ => by ring }
  have inj : Function.Injective F := by
    rw [injective_iff_map_eq_zero]
    intro u hu
    have ph : ∀ k < h, ∀ l < w, ∑ X ∈ range h, ∑ Y ∈ range w, ((errImg u).px X Y : ℂ) *
        shiftPhase h w ((X : ℝ), (Y : ℝ)) k l = 0 := by
      intro k hk l hl
      have f := fftOrtho_through h w hh hw psf A B (errImg u).px k l
      have z : (fftOrtho (toC (through h w psf A B (errImg u).px))).px k l = 0 := by
        change (∑ i ∈ range h, ∑ j ∈ range w, ((through h w psf A B (errImg u).px).px i j : ℂ) *
          (tw h ((k : ℝ) * i) * tw w ((l : ℝ) * j))) / (Real.sqrt ((h * w : ℕ) : ℝ) : ℂ) = 0
        rw [Finset.sum_eq_zero, zero_div]
        intro i hi
        refine Finset.sum_eq_zero fun j hj => ?_
        have := congrFun hu (⟨i, mem_range.1 hi⟩, ⟨j, mem_range.1 hj⟩)
        change (through h w psf A B (errImg u).px).px i j = 0 at this
        rw [this, ofReal_zero, zero_mul]
      rw [z] at f
      have g := (mul_eq_zero.1 f.symm).resolve_left (h0 k hk l hl)
      have s : ∀ X Y : ℕ, shiftPhase h w ((X : ℝ), (Y : ℝ)) k l =
          shiftPhase h w (((X - A : ℤ) : ℝ), ((Y - B : ℤ) : ℝ)) k l * shiftPhase h w ((A : ℝ), (B : ℝ)) k l := by
        intro X Y
        rw [← shiftPhase_add]
        congr 1
        push_cast
        simp
      simp only [s, ← mul_assoc, ← Finset.sum_mul]
      rw [g, zero_mul]
    have e := (empty_iff_phases h w hh hw (errImg u).px).1 ph
    funext p
    have := e p.1 p.1.2 p.2 p.2.2
    rwa [errImg_px] at this
  obtain ⟨u, hu⟩ := LinearMap.injective_iff_surjective.1 inj x
  exact ⟨(errImg u).px, fun p => congrFun hu p⟩

section
variable (env : SubEnv) (it : Bool) (ref new : SubImg) (h w : ℕ) (z : ℝ × ℝ)
    (hmr : ref.mask.HasShape h w) (hmn : new.mask.HasShape h w) (hz : env.zps = .ok z)
    (hc : env.fitted = true ∨ (0 ≤ (centerOfMass new.psf).1 ∧ 0 ≤ (centerOfMass new.psf).2))
    (hr : ref.interped.shape = (h, w)) (hn : new.interped.shape = (h, w)) (hh : h ≠ 0) (hw : w ≠ 0)
    (gr : GuardIdle h w ref.psf) (gn : GuardIdle h w new.psf) (A B A' B' : ℤ)
    (hx : (centerOfMass ref.psf).1 - A = (centerOfMass new.psf).1 - A')
    (hy : (centerOfMass ref.psf).2 - B = (centerOfMass new.psf).2 - B')
    (hv : new.var ≠ 0 ∨ (ref.var ≠ 0 ∧ z.2 / z.1 ≠ 0))

/-- The sky `t` in both exposures, `b` times as bright in the new one. -/
def unchangedSky (b : ℝ) (t : ℕ → ℕ → ℝ) : Bool × Fin h × Fin w → ℝ :=
  pixelVec fun m => if m then through h w new.psf A' B' fun X Y => b * t X Y else through h w ref.psf A B t

/-- The pixels of D of the exposures with `e` added to their pixels. -/
noncomputable def diffPix (e : Bool × Fin h × Fin w → ℝ) (p : Fin h × Fin w) : ℂ :=
  (noisyDiff env it ref new h w e).px p.1 p.2

include hmr hmn hz hc hr hn

/-- D of the exposures as a sum over pixels. -/
theorem diffPix_eq (e : Bool × Fin h × Fin w → ℝ) (p : Fin h × Fin w) :
    diffPix env it ref new h w e p = (diffOf env ⟨false, false, it⟩ ref new ref.interped new.interped).px p.1 p.2 +
      ∑ r : Fin h × Fin w, ((e (true, r) : ℂ) * respNew env ⟨false, false, it⟩ ref new p.1 p.2 r.1 r.2 +
        (e (false, r) : ℂ) * respRef env ⟨false, false, it⟩ ref new p.1 p.2 r.1 r.2) := by
  unfold diffPix noisyDiff
  rw [subtract_noise_linear env it ref new h w z hmr hmn hz hc hr hn, sum_pixels]
  simp only [errImg_px]

include hh hw gr gn hx hy hv

/-- C184: two pairs of exposures have the same D exactly if they differ by an unchanging sky. -/
theorem same_difference_iff (e e' : Bool × Fin h × Fin w → ℝ) :
    (∀ p, diffPix env it ref new h w e' p = diffPix env it ref new h w e p) ↔
      ∃ t : ℕ → ℕ → ℝ, ∀ q, e' q = e q + unchangedSky ref new h w A B A' B' (z.2 / z.1) t q := by
  have rh : ref.interped.h = h := congrArg Prod.fst hr
  have rw' : ref.interped.w = w := congrArg Prod.snd hr
  have nh : new.interped.h = h := congrArg Prod.fst hn
  have nw : new.interped.w = w := congrArg Prod.snd hn
  have key : ∀ tr tn : ℕ → ℕ → ℝ, (∀ r : Fin h × Fin w, e' (false, r) = e (false, r) + (through h w ref.psf A B tr).px r.1 r.2) →
      (∀ r : Fin h × Fin w, e' (true, r) = e (true, r) + (through h w new.psf A' B' tn).px r.1 r.2) →
      ((∀ p, diffPix env it ref new h w e' p = diffPix env it ref new h w e p) ↔
        ∀ X < h, ∀ Y < w, tn X Y = z.2 / z.1 * tr X Y) := by
    intro tr tn er en
    rw [← unchanged_iff env it ref new h w z hmr hmn hz hc hr hn hh hw gr gn A B A' B' tr tn hx hy hv]
    have step : ∀ p : Fin h × Fin w, (diffPix env it ref new h w e' p = diffPix env it ref new h w e p) ↔
        (diffOf env ⟨false, false, it⟩ ref new (plusImg ref.interped (through h w ref.psf A B tr))
          (plusImg new.interped (through h w new.psf A' B' tn))).px p.1 p.2 =
        (diffOf env ⟨false, false, it⟩ ref new ref.interped new.interped).px p.1 p.2 := by
      intro p
      rw [diffPix_eq env it ref new h w z hmr hmn hz hc hr hn, diffPix_eq env it ref new h w z hmr hmn hz hc hr hn,
        subtract_noise_linear env it ref new h w z hmr hmn hz hc hr hn, sum_pixels, add_right_inj, add_eq_left]
      simp only [er, en, ofReal_add, add_mul]
      have : ∀ a b c d : Fin h × Fin w → ℂ, ∑ r, (a r + b r + (c r + d r)) = ∑ r, (a r + c r) + ∑ r, (b r + d r) := by
        intro a b c d
        rw [← Finset.sum_add_distrib]
        exact Finset.sum_congr rfl fun r _ => by ring
      rw [this, add_eq_left]
    exact ⟨fun H i hi j hj => (step (⟨i, hi⟩, ⟨j, hj⟩)).1 (H _), fun H p => (step p).2 (H p.1 p.1.2 p.2 p.2.2)⟩
  constructor
  · intro H
    obtain ⟨tr, htr⟩ := through_onto h w hh hw ref.psf A B (fun k hk l hl => by
      rw [← psfHat_idle ref h w rh rw' gr k l hk hl]; exact psfHat_ne_zero ref k l)
      (fun r => e' (false, r) - e (false, r))
    obtain ⟨tn, htn⟩ := through_onto h w hh hw new.psf A' B' (fun k hk l hl => by
      rw [← psfHat_idle new h w nh nw gn k l hk hl]; exact psfHat_ne_zero new k l)
      (fun r => e' (true, r) - e (true, r))
    have k := (key tr tn (fun r => by rw [htr]; ring) (fun r => by rw [htn]; ring)).1 H
    refine ⟨tr, fun q => ?_⟩
    obtain ⟨m, r⟩ := q
    cases m with
    | false =>
      change e' (false, r) = e (false, r) + (through h w ref.psf A B tr).px r.1 r.2
      rw [htr]; ring
    | true =>
      change e' (true, r) = e (true, r) + (through h w new.psf A' B' fun X Y => z.2 / z.1 * tr X Y).px r.1 r.2
      have : (through h w new.psf A' B' fun X Y => z.2 / z.1 * tr X Y).px r.1 r.2 = (through h w new.psf A' B' tn).px r.1 r.2 := by
        change (∑ X ∈ range h, ∑ Y ∈ range w, (z.2 / z.1 * tr X Y) * _ : ℝ) = ∑ X ∈ range h, ∑ Y ∈ range w, tn X Y * _
        refine Finset.sum_congr rfl fun X hX => ?_
        refine Finset.sum_congr rfl fun Y hY => ?_
        rw [k X (mem_range.1 hX) Y (mem_range.1 hY)]
      rw [this, htn]; ring
  · rintro ⟨t, ht⟩
    exact (key t (fun X Y => z.2 / z.1 * t X Y) (fun r => ht (false, r)) (fun r => ht (true, r))).2 fun _ _ _ _ => rfl

/-- C184: whatever is computed from the two exposures, it does not react to unchanging skies exactly if it can be computed from
D. -/
theorem blind_iff_from_difference {α : Type} (g : (Bool × Fin h × Fin w → ℝ) → α) :
    (∀ (t : ℕ → ℕ → ℝ) e, g (fun q => e q + unchangedSky ref new h w A B A' B' (z.2 / z.1) t q) = g e) ↔
      ∃ f : (Fin h × Fin w → ℂ) → α, ∀ e, g e = f (diffPix env it ref new h w e) := by
  have same := same_difference_iff env it ref new h w z hmr hmn hz hc hr hn hh hw gr gn A B A' B' hx hy hv
  classical
  constructor
  · intro H
    refine ⟨fun y => if hy : ∃ e, diffPix env it ref new h w e = y then g hy.choose else g 0, fun e => ?_⟩
    have hy : ∃ e', diffPix env it ref new h w e' = diffPix env it ref new h w e := ⟨e, rfl⟩
    simp only [dif_pos hy]
    obtain ⟨t, ht⟩ := (same hy.choose e).1 fun p => (congrFun hy.choose_spec p).symm
    exact (congrArg g (funext ht)).trans (H t hy.choose)
  · rintro ⟨f, hf⟩ t e
    rw [hf, hf]
    exact congrArg f (funext ((same e _).2 ⟨t, fun q => rfl⟩))

end

/-! ## Worked instance -/

/-- Two frames of 1×3 pixels, flux ratio 3: what ignores a sky three times as bright in the new frame is a function of D. -/
example {α : Type} (g : (Bool × Fin 1 × Fin 3 → ℝ) → α) :
    (∀ (t : ℕ → ℕ → ℝ) e, g (fun q => e q + unchangedSky (seeingSub 5 7 0 1) (seeingSub 1 0 4 2) 1 3 0 1 0 1 (3 / 1) t q) = g e) ↔
      ∃ f : (Fin 1 × Fin 3 → ℂ) → α, ∀ e, g e = f (diffPix (tinyEnv 1 3) true (seeingSub 5 7 0 1) (seeingSub 1 0 4 2) 1 3 e) :=
  blind_iff_from_difference (tinyEnv 1 3) true (seeingSub 5 7 0 1) (seeingSub 1 0 4 2) 1 3 (1, 3)
    (by intro a h; cases h) (by intro a h; cases h) rfl (Or.inl rfl) rfl rfl (by norm_num) (by norm_num)
    seeing_idle seeing_idle 0 1 0 1 (by rfl) (by rfl)
    (.inl (by norm_num [seeingSub])) g

end PI
