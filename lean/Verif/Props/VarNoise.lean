import Verif.Props.VarFilter
import Verif.Props.Noise
import Verif.Lemmas.Parseval
import Verif.Props.CoaddSymm
import Verif.Props.SubtractReal

/-!
# Property C173, continued: the noise power of a coadd of images whose PSFs vary
-/

namespace PI

open Complex Finset

/-- The same image object with other pixels. -/
def VarPsf.withPixels (d : VarPsf) (x : Img ℝ) : VarPsf := { d with interped := x }

/-- R as a function of the pixels of the images (`0 × 0` if `coadd` raises). -/
noncomputable def coaddOfVar (lt : List CoImg → List CoImg → Option Bool) {n : ℕ} (d : Fin n → VarPsf)
    (psfShape : ℕ) (procs : ℤ) (x : Fin n → Img ℝ) : Img ℂ :=
  match coaddCore lt ((List.ofFn fun m => (d m).withPixels (x m)).map VarPsf.toCoImg) psfShape procs with
  | .ok out => out.R
  | .error _ => ⟨0, 0, fun _ _ => 0⟩

/-- Change of `R[i, j]` when pixel `(u, v)` of image `m` is one larger. -/
noncomputable def respCoaddVar (lt : List CoImg → List CoImg → Option Bool) {n : ℕ} (d : Fin n → VarPsf)
    (psfShape : ℕ) (procs : ℤ) (m : Fin n) (i j u v : ℕ) : ℂ :=
  (coaddOfVar lt d psfShape procs fun m' => if m' = m then bump (d m').interped u v 1 else (d m').interped).px i j -
    (coaddOfVar lt d psfShape procs fun m' => (d m').interped).px i j

/-- The transform of the PSF of a star at `(u, v)`. -/
noncomputable def starHat (d : VarPsf) (u v k l : ℕ) : ℂ :=
  (d.terms.map fun t => ((t.field u v : ℝ) : ℂ) * (d.psfHat t.psf).px k l).sum

/-- The power of the basis elements. -/
noncomputable def basisPower (d : VarPsf) (k l : ℕ) : ℝ := (d.terms.map fun t => normSq ((d.psfHat t.psf).px k l)).sum

theorem basisPower_nonneg (d : VarPsf) (k l : ℕ) : 0 ≤ basisPower d k l := by
  refine List.sum_nonneg fun x hx => ?_
  rw [List.mem_map] at hx
  obtain ⟨t, _, rfl⟩ := hx
  exact normSq_nonneg _

theorem psfSqnorm_power (d : VarPsf) (k l : ℕ) : d.psfSqnorm.px k l = ((basisPower d k l : ℝ) : ℂ) := by
  change (d.terms.map fun t => (d.psfHat t.psf).px k l * (starRingEnd ℂ) ((d.psfHat t.psf).px k l)).sum = _
  unfold basisPower
  induction d.terms with
  | nil => simp
  | cons t ts ih =>
    simp only [List.map_cons, List.sum_cons, Complex.ofReal_add, ← ih, Complex.mul_conj]

theorem fftOrtho_bump (x : Img ℂ) (u v : ℕ) (t : ℂ) (hu : u < x.h) (hv : v < x.w) (k l : ℕ) :
    (fftOrtho (bump x u v t)).px k l = (fftOrtho x).px k l +
      t * (tw x.h ((k : ℝ) * u) * tw x.w ((l : ℝ) * v)) / ((Real.sqrt ((x.h * x.w : ℕ) : ℝ) : ℝ) : ℂ) := by
  change (dft (bump x u v t)).px k l / _ = (dft x).px k l / _ + _
  rw [dft_bump x u v t hu hv, add_div]
  rfl

/-- One more count in one pixel, seen by the filter. -/
theorem sHatComp_bump (d : VarPsf) (u v : ℕ) (hu : u < d.interped.h) (hv : v < d.interped.w) (k l : ℕ) :
    (d.withPixels (bump d.interped u v 1)).sHatComp.px k l = d.sHatComp.px k l +
      ((d.zp / d.var ^ 2 : ℝ) : ℂ) * ((starRingEnd ℂ) (starHat d u v k l) / ((d.normalImg.px u v : ℝ) : ℂ) *
        (tw d.interped.h ((k : ℝ) * u) * tw d.interped.w ((l : ℝ) * v) /
          ((Real.sqrt ((d.interped.h * d.interped.w : ℕ) : ℝ) : ℝ) : ℂ)) *
        shiftPhase d.interped.h d.interped.w d.com k l) := by
  have term : ∀ t ∈ d.terms, ((d.withPixels (bump d.interped u v 1)).termHat t).px k l = (d.termHat t).px k l +
      ((t.field u v : ℝ) : ℂ) * (starRingEnd ℂ) ((d.psfHat t.psf).px k l) / ((d.normalImg.px u v : ℝ) : ℂ) *
        (tw d.interped.h ((k : ℝ) * u) * tw d.interped.w ((l : ℝ) * v) /
          ((Real.sqrt ((d.interped.h * d.interped.w : ℕ) : ℝ) : ℝ) : ℂ)) *
        shiftPhase d.interped.h d.interped.w d.com k l := by
    intro t _
    have img : (⟨d.interped.h, d.interped.w, fun i j =>
        (bump d.interped u v 1).px i j * t.field i j / d.normalImg.px i j⟩ : Img ℝ).toC =
      bump (⟨d.interped.h, d.interped.w, fun i j => d.interped.px i j * t.field i j / d.normalImg.px i j⟩ : Img ℝ).toC u v
        ((t.field u v / d.normalImg.px u v : ℝ) : ℂ) := by
      unfold bump Img.toC Img.map
      refine congrArg (Img.mk _ _) ?_
      funext i j
      by_cases q : i = u ∧ j = v
      · obtain ⟨rfl, rfl⟩ := q
        simp only [and_self, if_true]
        rw [← Complex.ofReal_add]
        congr 1
        ring
      · simp only [if_neg q]
    have f := fftOrtho_bump (⟨d.interped.h, d.interped.w, fun i j =>
      d.interped.px i j * t.field i j / d.normalImg.px i j⟩ : Img ℝ).toC u v ((t.field u v / d.normalImg.px u v : ℝ) : ℂ) hu hv k l
    rw [← img] at f
    change (fftOrtho (⟨d.interped.h, d.interped.w, fun i j =>
        (bump d.interped u v 1).px i j * t.field i j / d.normalImg.px i j⟩ : Img ℝ).toC).px k l *
          (starRingEnd ℂ) ((d.psfHat t.psf).px k l) * shiftPhase d.interped.h d.interped.w d.com k l =
      (fftOrtho (⟨d.interped.h, d.interped.w, fun i j =>
        d.interped.px i j * t.field i j / d.normalImg.px i j⟩ : Img ℝ).toC).px k l *
          (starRingEnd ℂ) ((d.psfHat t.psf).px k l) * shiftPhase d.interped.h d.interped.w d.com k l + _
    rw [f]
    change (_ + ((t.field u v / d.normalImg.px u v : ℝ) : ℂ) * (tw d.interped.h ((k : ℝ) * u) * tw d.interped.w ((l : ℝ) * v)) /
      ((Real.sqrt ((d.interped.h * d.interped.w : ℕ) : ℝ) : ℝ) : ℂ)) * _ * _ = _
    push_cast
    ring
  have tot : ∀ ts : List PsfTerm, (∀ t ∈ ts, ((d.withPixels (bump d.interped u v 1)).termHat t).px k l = (d.termHat t).px k l +
      ((t.field u v : ℝ) : ℂ) * (starRingEnd ℂ) ((d.psfHat t.psf).px k l) / ((d.normalImg.px u v : ℝ) : ℂ) *
        (tw d.interped.h ((k : ℝ) * u) * tw d.interped.w ((l : ℝ) * v) /
          ((Real.sqrt ((d.interped.h * d.interped.w : ℕ) : ℝ) : ℝ) : ℂ)) *
        shiftPhase d.interped.h d.interped.w d.com k l) →
      (ts.map fun t => ((d.withPixels (bump d.interped u v 1)).termHat t).px k l).sum =
        (ts.map fun t => (d.termHat t).px k l).sum +
        (starRingEnd ℂ) (ts.map fun t => ((t.field u v : ℝ) : ℂ) * (d.psfHat t.psf).px k l).sum / ((d.normalImg.px u v : ℝ) : ℂ) *
        (tw d.interped.h ((k : ℝ) * u) * tw d.interped.w ((l : ℝ) * v) /
          ((Real.sqrt ((d.interped.h * d.interped.w : ℕ) : ℝ) : ℝ) : ℂ)) *
        shiftPhase d.interped.h d.interped.w d.com k l := by
    intro ts
    induction ts with
    | nil => simp
    | cons t ts ih =>
      intro q
      have q1 := q t (List.mem_cons_self ..)
      have q2 := ih fun s hs => q s (List.mem_cons_of_mem _ hs)
      simp only [List.map_cons, List.sum_cons]
      rw [q1, q2, map_add, map_mul, Complex.conj_ofReal]
      ring
  change ((d.zp / d.var ^ 2 : ℝ) : ℂ) * (d.terms.map fun t => ((d.withPixels (bump d.interped u v 1)).termHat t).px k l).sum =
    ((d.zp / d.var ^ 2 : ℝ) : ℂ) * (d.terms.map fun t => (d.termHat t).px k l).sum + _
  rw [tot d.terms term, mul_add]
  rfl

theorem sum_swap3 (a b c : Finset ℕ) (f : ℕ → ℕ → ℕ → ℝ) :
    ∑ i ∈ a, ∑ u ∈ b, ∑ v ∈ c, f i u v = ∑ u ∈ b, ∑ v ∈ c, ∑ i ∈ a, f i u v := by
  rw [Finset.sum_comm]
  exact Finset.sum_congr rfl fun u _ => Finset.sum_comm

/-- Cauchy–Schwarz for a star's PSF in the basis. -/
theorem starHat_le (d : VarPsf) (u v k l : ℕ) :
    normSq (starHat d u v k l) ≤ (d.terms.map fun t => t.field u v ^ 2).sum * basisPower d k l := by
  unfold starHat basisPower
  have cs : ∀ ts : List PsfTerm,
      ‖(ts.map fun t => ((t.field u v : ℝ) : ℂ) * (d.psfHat t.psf).px k l).sum‖ ≤
      Real.sqrt ((ts.map fun t => t.field u v ^ 2).sum * (ts.map fun t => normSq ((d.psfHat t.psf).px k l)).sum) := by
    intro ts
    induction ts with
    | nil => simp
    | cons t ts ih =>
      simp only [List.map_cons, List.sum_cons]
      have A : 0 ≤ (ts.map fun t => t.field u v ^ 2).sum := List.sum_nonneg fun x hx => by
        rw [List.mem_map] at hx
        obtain ⟨t, _, rfl⟩ := hx
        exact sq_nonneg _
      have B : 0 ≤ (ts.map fun t => normSq ((d.psfHat t.psf).px k l)).sum := List.sum_nonneg fun x hx => by
        rw [List.mem_map] at hx
        obtain ⟨t, _, rfl⟩ := hx
        exact normSq_nonneg _
      refine (norm_add_le _ _).trans ?_
      refine (add_le_add_right ih _).trans ?_
      refine Real.le_sqrt_of_sq_le ?_
      rw [norm_mul, Complex.norm_real, Real.norm_eq_abs, Real.sqrt_mul A]
      have e1 := Real.sq_sqrt A
      have e2 := Real.sq_sqrt B
      have e3 := sq_abs (t.field u v)
      have e4 := Complex.normSq_eq_norm_sq ((d.psfHat t.psf).px k l)
      rw [e4]
      nlinarith [sq_nonneg (|t.field u v| * Real.sqrt (ts.map fun t => normSq ((d.psfHat t.psf).px k l)).sum -
        ‖(d.psfHat t.psf).px k l‖ * Real.sqrt (ts.map fun t => t.field u v ^ 2).sum)]
  have q := cs d.terms
  rw [Complex.normSq_eq_norm_sq]
  have P : 0 ≤ (d.terms.map fun t => t.field u v ^ 2).sum * (d.terms.map fun t => normSq ((d.psfHat t.psf).px k l)).sum := by
    refine mul_nonneg (List.sum_nonneg fun x hx => ?_) (basisPower_nonneg d k l)
    rw [List.mem_map] at hx
    obtain ⟨t, _, rfl⟩ := hx
    exact sq_nonneg _
  calc _ ≤ Real.sqrt _ ^ 2 := pow_le_pow_left₀ (norm_nonneg _) q 2
    _ = _ := Real.sq_sqrt P

section
variable (lt : List CoImg → List CoImg → Option Bool) {n : ℕ} (hn : 0 < n) (d : Fin n → VarPsf) (h w psfShape : ℕ) (procs : ℤ)
  (hs : ∀ m, (d m).interped.h = h ∧ (d m).interped.w = w ∧ (d m).mask.HasShape h w)
  (hp : procs ≤ n) (hp' : procs ≤ 2 ^ 25) (hb : procs * n ≤ 2 ^ 50)

/-- The power that `coadd` divides by. -/
noncomputable def varPower (d : Fin n → VarPsf) (k l : ℕ) : ℝ := ∑ m, ((d m).zp / (d m).var) ^ 2 * basisPower (d m) k l

include hn hs hp hp' hb

theorem coaddOfVar_eq (x : Fin n → Img ℝ) (hx : ∀ m, (x m).h = h ∧ (x m).w = w) :
    coaddOfVar lt d psfShape procs x = ifftDefault ⟨h, w, fun k l =>
      (∑ m, ((d m).withPixels (x m)).sHatComp.px k l) / ((Real.sqrt (varPower d k l) : ℝ) : ℂ)⟩ := by
  have hl : ((List.ofFn fun m => (d m).withPixels (x m)).map VarPsf.toCoImg).length = n := by simp
  have hall : AllShape ((List.ofFn fun m => (d m).withPixels (x m)).map VarPsf.toCoImg) h w := by
    intro im him
    rw [List.mem_map] at him
    obtain ⟨e, he, rfl⟩ := him
    rw [List.mem_ofFn] at he
    obtain ⟨m, rfl⟩ := he
    exact ⟨(hx m).1, (hx m).2, (hs m).2.2⟩
  obtain ⟨out, e, r, _⟩ := coadd_spec lt h w ((List.ofFn fun m => (d m).withPixels (x m)).map VarPsf.toCoImg) psfShape procs
    (by intro q; rw [q] at hl; simp at hl; omega) hall (by rw [hl]; exact hp) hp' (by rw [hl]; exact hb)
  unfold coaddOfVar
  rw [e]
  have eR : out.R = ifftDefault ⟨h, w, coaddRhat ((List.ofFn fun m => (d m).withPixels (x m)).map VarPsf.toCoImg)⟩ := by
    rw [← coadd_R_eq h w _ psfShape, ← r]
  refine eR.trans ?_
  congr 2
  funext k l
  unfold coaddRhat
  have eS : specS ((List.ofFn fun m => (d m).withPixels (x m)).map VarPsf.toCoImg) k l =
      ∑ m, ((d m).withPixels (x m)).sHatComp.px k l := by
    unfold specS
    rw [List.map_map, List.map_ofFn, List.sum_ofFn]
    rfl
  have eP : specP ((List.ofFn fun m => (d m).withPixels (x m)).map VarPsf.toCoImg) k l = ((varPower d k l : ℝ) : ℂ) := by
    unfold specP varPower
    rw [List.map_map, List.map_ofFn, List.sum_ofFn]
    push_cast
    refine Finset.sum_congr rfl fun m _ => ?_
    have e1 : ((d m).withPixels (x m)).psfSqnorm.px k l = ((basisPower (d m) k l : ℝ) : ℂ) := by
      rw [psfSqnorm_power]
      congr 1
      unfold basisPower VarPsf.psfHat
      change (List.map (fun t => normSq ((fftOrtho (padTo (x m).h (x m).w t.psf.toC)).px k l)) (d m).terms).sum = _
      rw [(hx m).1, (hx m).2, (hs m).1, (hs m).2.1]
    change _ * ((d m).withPixels (x m)).psfSqnorm.px k l = _
    rw [e1]
    rfl
  rw [eS, eP, csqrt_ofReal_nonneg]
  unfold varPower
  exact Finset.sum_nonneg fun m _ => mul_nonneg (sq_nonneg _) (basisPower_nonneg _ _ _)

theorem respCoaddVar_eq (m : Fin n) (i j u v : ℕ) (hu : u < h) (hv : v < w) :
    respCoaddVar lt d psfShape procs m i j u v = (ifftDefault ⟨h, w, fun k l =>
      (((d m).zp / (d m).var ^ 2 : ℝ) : ℂ) * ((starRingEnd ℂ) (starHat (d m) u v k l) / (((d m).normalImg.px u v : ℝ) : ℂ) *
        (tw h ((k : ℝ) * u) * tw w ((l : ℝ) * v) / ((Real.sqrt ((h * w : ℕ) : ℝ) : ℝ) : ℂ)) *
        shiftPhase h w (d m).com k l) / ((Real.sqrt (varPower d k l) : ℝ) : ℂ)⟩).px i j := by
  unfold respCoaddVar
  rw [coaddOfVar_eq lt hn d h w psfShape procs hs hp hp' hb _ (by
      intro m'
      split
      · exact ⟨(hs m').1, (hs m').2.1⟩
      · exact ⟨(hs m').1, (hs m').2.1⟩),
    coaddOfVar_eq lt hn d h w psfShape procs hs hp hp' hb (fun m' => (d m').interped) (fun m' => ⟨(hs m').1, (hs m').2.1⟩)]
  have key : ∀ k l, ∑ m', ((d m').withPixels (if m' = m then bump (d m').interped u v 1 else (d m').interped)).sHatComp.px k l =
      ∑ m', ((d m').withPixels (d m').interped).sHatComp.px k l +
      (((d m).zp / (d m).var ^ 2 : ℝ) : ℂ) * ((starRingEnd ℂ) (starHat (d m) u v k l) / (((d m).normalImg.px u v : ℝ) : ℂ) *
        (tw h ((k : ℝ) * u) * tw w ((l : ℝ) * v) / ((Real.sqrt ((h * w : ℕ) : ℝ) : ℝ) : ℂ)) *
        shiftPhase h w (d m).com k l) := by
    intro k l
    rw [← Finset.add_sum_erase _ _ (Finset.mem_univ m), ← Finset.add_sum_erase _ (fun m' =>
      ((d m').withPixels (d m').interped).sHatComp.px k l) (Finset.mem_univ m), if_pos rfl]
    have rest : ∑ m' ∈ univ.erase m,
        ((d m').withPixels (if m' = m then bump (d m').interped u v 1 else (d m').interped)).sHatComp.px k l =
        ∑ m' ∈ univ.erase m, ((d m').withPixels (d m').interped).sHatComp.px k l := by
      refine Finset.sum_congr rfl fun m' hm' => ?_
      rw [if_neg (Finset.ne_of_mem_erase hm')]
    rw [rest, sHatComp_bump (d m) u v (by rw [(hs m).1]; exact hu) (by rw [(hs m).2.1]; exact hv), (hs m).1, (hs m).2.1]
    change _ + _ + _ = (d m).sHatComp.px k l + _ + _
    ring
  change (∑ k ∈ range h, ∑ l ∈ range w, (∑ m', _) / _ * (tw h (-((k : ℝ) * i)) * tw w (-((l : ℝ) * j)))) / ((h * w : ℕ) : ℂ) -
    (∑ k ∈ range h, ∑ l ∈ range w, (∑ m', _) / _ * (tw h (-((k : ℝ) * i)) * tw w (-((l : ℝ) * j)))) / ((h * w : ℕ) : ℂ) =
    (∑ k ∈ range h, ∑ l ∈ range w, _ * (tw h (-((k : ℝ) * i)) * tw w (-((l : ℝ) * j)))) / ((h * w : ℕ) : ℂ)
  rw [← sub_div, ← Finset.sum_sub_distrib]
  congr 1
  refine Finset.sum_congr rfl fun k _ => ?_
  rw [← Finset.sum_sub_distrib]
  refine Finset.sum_congr rfl fun l _ => ?_
  rw [key k l]
  ring

/-- C173: independent errors of standard deviation `var` in the pixels of every image: the sum of the variances of all pixels of
the coadd is the mean, over positions and frequencies, of the power of the PSFs at the position over the power of the basis
elements. For PSFs that do not vary it is one (C105). -/
theorem coadd_var_noise (hv : ∀ m, (d m).var ≠ 0) :
    ∑ i ∈ range h, ∑ j ∈ range w, ∑ m, (d m).var ^ 2 * ∑ u ∈ range h, ∑ v ∈ range w,
      normSq (respCoaddVar lt d psfShape procs m i j u v) =
    1 / ((h * w : ℕ) : ℝ) ^ 2 * ∑ u ∈ range h, ∑ v ∈ range w, ∑ k ∈ range h, ∑ l ∈ range w,
      (∑ m, ((d m).zp / (d m).var) ^ 2 * (normSq (starHat (d m) u v k l) / (d m).normalImg.px u v ^ 2)) /
        ∑ m, ((d m).zp / (d m).var) ^ 2 * basisPower (d m) k l := by
  have tot : ∀ m, ∀ u < h, ∀ v < w, ∑ i ∈ range h, ∑ j ∈ range w, normSq (respCoaddVar lt d psfShape procs m i j u v) =
      1 / ((h * w : ℕ) : ℝ) ^ 2 * ∑ k ∈ range h, ∑ l ∈ range w, ((d m).zp / (d m).var ^ 2) ^ 2 *
        (normSq (starHat (d m) u v k l) / (d m).normalImg.px u v ^ 2) / varPower d k l := by
    intro m u hu v hv'
    have par := ifftOrtho_power h w (fun k l =>
      (((d m).zp / (d m).var ^ 2 : ℝ) : ℂ) * ((starRingEnd ℂ) (starHat (d m) u v k l) / (((d m).normalImg.px u v : ℝ) : ℂ) *
        (tw h ((k : ℝ) * u) * tw w ((l : ℝ) * v) / ((Real.sqrt ((h * w : ℕ) : ℝ) : ℝ) : ℂ)) *
        shiftPhase h w (d m).com k l) / ((Real.sqrt (varPower d k l) : ℝ) : ℂ))
    have hw0 : (0 : ℝ) < ((h * w : ℕ) : ℝ) := by exact_mod_cast Nat.mul_pos (by omega) (by omega)
    have each : ∀ i j, normSq (respCoaddVar lt d psfShape procs m i j u v) = normSq ((ifftOrtho ⟨h, w, fun k l =>
      (((d m).zp / (d m).var ^ 2 : ℝ) : ℂ) * ((starRingEnd ℂ) (starHat (d m) u v k l) / (((d m).normalImg.px u v : ℝ) : ℂ) *
        (tw h ((k : ℝ) * u) * tw w ((l : ℝ) * v) / ((Real.sqrt ((h * w : ℕ) : ℝ) : ℝ) : ℂ)) *
        shiftPhase h w (d m).com k l) / ((Real.sqrt (varPower d k l) : ℝ) : ℂ)⟩).px i j) / ((h * w : ℕ) : ℝ) := by
      intro i j
      rw [respCoaddVar_eq lt hn d h w psfShape procs hs hp hp' hb m i j u v hu hv']
      change normSq ((idftSum _).px i j / ((h * w : ℕ) : ℂ)) = normSq ((idftSum _).px i j / ((Real.sqrt ((h * w : ℕ) : ℝ) : ℝ) : ℂ)) / _
      rw [normSq_div, normSq_div, normSq_ofReal, Real.mul_self_sqrt hw0.le, ← Complex.ofReal_natCast, normSq_ofReal, div_div]
    simp only [each]
    simp only [← Finset.sum_div]
    rw [par, Finset.sum_div, Finset.mul_sum]
    refine Finset.sum_congr rfl fun k _ => ?_
    rw [Finset.sum_div, Finset.mul_sum]
    refine Finset.sum_congr rfl fun l _ => ?_
    have pn : 0 ≤ varPower d k l := by
      unfold varPower
      exact Finset.sum_nonneg fun m _ => mul_nonneg (sq_nonneg _) (basisPower_nonneg _ _ _)
    have n1 : ∀ (N : ℕ) (x : ℝ), normSq (tw N x) = 1 := by
      intro N x
      rw [Complex.normSq_eq_norm_sq, norm_tw, one_pow]
    rw [normSq_div, normSq_mul, normSq_mul, normSq_mul, normSq_div, normSq_div, normSq_mul, n1, n1, normSq_shiftPhase, normSq_conj,
      normSq_ofReal, normSq_ofReal, normSq_ofReal, normSq_ofReal, Real.mul_self_sqrt pn, Real.mul_self_sqrt hw0.le]
    field_simp
  have swap : ∑ i ∈ range h, ∑ j ∈ range w, ∑ m, (d m).var ^ 2 * ∑ u ∈ range h, ∑ v ∈ range w,
      normSq (respCoaddVar lt d psfShape procs m i j u v) =
      ∑ m, (d m).var ^ 2 * ∑ u ∈ range h, ∑ v ∈ range w, ∑ i ∈ range h, ∑ j ∈ range w,
        normSq (respCoaddVar lt d psfShape procs m i j u v) := by
    have a1 : ∀ i, ∑ j ∈ range w, ∑ m, (d m).var ^ 2 * ∑ u ∈ range h, ∑ v ∈ range w,
        normSq (respCoaddVar lt d psfShape procs m i j u v) =
        ∑ m, (d m).var ^ 2 * ∑ u ∈ range h, ∑ v ∈ range w, ∑ j ∈ range w,
          normSq (respCoaddVar lt d psfShape procs m i j u v) := by
      intro i
      rw [Finset.sum_comm]
      refine Finset.sum_congr rfl fun m _ => ?_
      rw [← Finset.mul_sum, sum_swap3]
    simp only [a1]
    rw [Finset.sum_comm]
    refine Finset.sum_congr rfl fun m _ => ?_
    rw [← Finset.mul_sum, sum_swap3]
  rw [swap, Finset.mul_sum]
  have step : ∀ m, (d m).var ^ 2 * ∑ u ∈ range h, ∑ v ∈ range w, ∑ i ∈ range h, ∑ j ∈ range w,
      normSq (respCoaddVar lt d psfShape procs m i j u v) =
      ∑ u ∈ range h, ∑ v ∈ range w, 1 / ((h * w : ℕ) : ℝ) ^ 2 * ∑ k ∈ range h, ∑ l ∈ range w, ((d m).zp / (d m).var) ^ 2 *
        (normSq (starHat (d m) u v k l) / (d m).normalImg.px u v ^ 2) / varPower d k l := by
    intro m
    rw [Finset.mul_sum]
    refine Finset.sum_congr rfl fun u hu => ?_
    rw [Finset.mul_sum]
    refine Finset.sum_congr rfl fun v hv' => ?_
    rw [tot m u (mem_range.1 hu) v (mem_range.1 hv'), mul_left_comm]
    congr 1
    rw [Finset.mul_sum]
    refine Finset.sum_congr rfl fun k _ => ?_
    rw [Finset.mul_sum]
    refine Finset.sum_congr rfl fun l _ => ?_
    have := hv m
    field_simp
  simp only [step]
  rw [Finset.sum_comm]
  refine Finset.sum_congr rfl fun u _ => ?_
  rw [Finset.sum_comm, Finset.mul_sum]
  refine Finset.sum_congr rfl fun v _ => ?_
  rw [← Finset.mul_sum]
  congr 1
  rw [Finset.sum_comm]
  refine Finset.sum_congr rfl fun k _ => ?_
  rw [Finset.sum_comm]
  refine Finset.sum_congr rfl fun l _ => ?_
  rw [Finset.sum_div]
  rfl

/-- C173: the total is at most the largest `Σ a² / norm²` of the coefficients. -/
theorem coadd_var_noise_le (hv : ∀ m, (d m).var ≠ 0) (hw : 0 < h * w) (C : ℝ) (hC : 0 ≤ C)
    (hc : ∀ m, ∀ u < h, ∀ v < w, ((d m).terms.map fun t => t.field u v ^ 2).sum ≤ C * (d m).normalImg.px u v ^ 2) :
    ∑ i ∈ range h, ∑ j ∈ range w, ∑ m, (d m).var ^ 2 * ∑ u ∈ range h, ∑ v ∈ range w,
      normSq (respCoaddVar lt d psfShape procs m i j u v) ≤ C := by
  rw [coadd_var_noise lt hn d h w psfShape procs hs hp hp' hb hv]
  have hw0 : (0 : ℝ) < ((h * w : ℕ) : ℝ) := by exact_mod_cast hw
  have each : ∀ u < h, ∀ v < w, ∀ k l,
      (∑ m, ((d m).zp / (d m).var) ^ 2 * (normSq (starHat (d m) u v k l) / (d m).normalImg.px u v ^ 2)) /
        ∑ m, ((d m).zp / (d m).var) ^ 2 * basisPower (d m) k l ≤ C := by
    intro u hu v hv' k l
    have num : ∑ m, ((d m).zp / (d m).var) ^ 2 * (normSq (starHat (d m) u v k l) / (d m).normalImg.px u v ^ 2) ≤
        C * ∑ m, ((d m).zp / (d m).var) ^ 2 * basisPower (d m) k l := by
      rw [Finset.mul_sum]
      refine Finset.sum_le_sum fun m _ => ?_
      rw [mul_left_comm]
      refine mul_le_mul_of_nonneg_left ?_ (sq_nonneg _)
      by_cases z : (d m).normalImg.px u v = 0
      · rw [z]
        norm_num
        exact mul_nonneg hC (basisPower_nonneg _ _ _)
      · rw [div_le_iff₀ (by positivity)]
        calc _ ≤ ((d m).terms.map fun t => t.field u v ^ 2).sum * basisPower (d m) k l := starHat_le (d m) u v k l
          _ ≤ C * (d m).normalImg.px u v ^ 2 * basisPower (d m) k l :=
            mul_le_mul_of_nonneg_right (hc m u hu v hv') (basisPower_nonneg _ _ _)
          _ = _ := by ring
    have den : 0 ≤ ∑ m, ((d m).zp / (d m).var) ^ 2 * basisPower (d m) k l :=
      Finset.sum_nonneg fun m _ => mul_nonneg (sq_nonneg _) (basisPower_nonneg _ _ _)
    rcases den.eq_or_lt with q | q
    · rw [← q, div_zero]
      exact hC
    · rw [div_le_iff₀ q]
      exact num
  have s1 : ∑ u ∈ range h, ∑ v ∈ range w, ∑ k ∈ range h, ∑ l ∈ range w,
      (∑ m, ((d m).zp / (d m).var) ^ 2 * (normSq (starHat (d m) u v k l) / (d m).normalImg.px u v ^ 2)) /
        ∑ m, ((d m).zp / (d m).var) ^ 2 * basisPower (d m) k l ≤
      ∑ u ∈ range h, ∑ v ∈ range w, ∑ k ∈ range h, ∑ l ∈ range w, C :=
    Finset.sum_le_sum fun u hu => Finset.sum_le_sum fun v hv' => Finset.sum_le_sum fun k _ => Finset.sum_le_sum fun l _ =>
      each u (mem_range.1 hu) v (mem_range.1 hv') k l
  simp only [Finset.sum_const, card_range, nsmul_eq_mul] at s1
  calc _ ≤ 1 / ((h * w : ℕ) : ℝ) ^ 2 * ((h : ℝ) * ((w : ℝ) * ((h : ℝ) * ((w : ℝ) * C)))) :=
        mul_le_mul_of_nonneg_left s1 (by positivity)
    _ = C := by
        have : (h : ℝ) * w ≠ 0 := by
          push_cast at hw0
          exact hw0.ne'
        have h1 : (h : ℝ) ≠ 0 := left_ne_zero_of_mul this
        have w1 : (w : ℝ) ≠ 0 := right_ne_zero_of_mul this
        push_cast
        field_simp

end

/-- An image whose PSF is the same everywhere, one half in each of two columns, described by the two basis elements
"first column" and "second column", which are orthonormal. -/
noncomputable def twoColumns (I : ℕ → ℝ) : VarPsf :=
  ⟨⟨1, 2, fun _ j => I j⟩, [⟨fun _ _ => 1 / 2, ⟨1, 2, fun _ j => if j = 0 then 1 else 0⟩⟩,
    ⟨fun _ _ => 1 / 2, ⟨1, 2, fun _ j => if j = 0 then 0 else 1⟩⟩], 1, 1, none⟩

/-- C173: the noise of the coadd of that one image has a quarter of the power that it has when the same PSF is given as one
basis element (C105: one). -/
theorem coadd_var_noise_two (lt : List CoImg → List CoImg → Option Bool) (I : ℕ → ℝ) :
    ∑ i ∈ range 1, ∑ j ∈ range 2, ∑ m, ((fun _ : Fin 1 => twoColumns I) m).var ^ 2 * ∑ u ∈ range 1, ∑ v ∈ range 2,
      normSq (respCoaddVar lt (fun _ : Fin 1 => twoColumns I) 5 1 m i j u v) = 1 / 4 := by
  rw [coadd_var_noise lt (by norm_num) (fun _ : Fin 1 => twoColumns I) 1 2 5 1 (fun _ => ⟨rfl, rfl, fun a q => by cases q⟩) (by norm_num)
    (by norm_num) (by norm_num) (fun _ => one_ne_zero)]
  have nrm : ∀ v < 2, (twoColumns I).normalImg.px 0 v = 1 := by
    intro v hv
    unfold VarPsf.normalImg twoColumns ndConvolve
    simp only [List.map_cons, List.map_nil, List.sum_cons, List.sum_nil, Finset.sum_range_succ, Finset.sum_range_zero]
    norm_num
  have q1 : ∀ l, (fftOrtho (padTo 1 2 (⟨1, 2, fun _ j => if j = 0 then 1 else 0⟩ : Img ℝ).toC)).px 0 l =
      1 / ((Real.sqrt ((1 * 2 : ℕ) : ℝ) : ℝ) : ℂ) := by
    intro l
    change (∑ i ∈ range 1, ∑ j ∈ range 2, (if i < 1 ∧ j < 2 then ((if j = 0 then (1 : ℝ) else 0 : ℝ) : ℂ) else 0) *
      (tw 1 (((0 : ℕ) : ℝ) * i) * tw 2 ((l : ℝ) * j))) / ((Real.sqrt ((1 * 2 : ℕ) : ℝ) : ℝ) : ℂ) = _
    simp [Finset.sum_range_succ, tw_zero]
  have q2 : ∀ l, (fftOrtho (padTo 1 2 (⟨1, 2, fun _ j => if j = 0 then 0 else 1⟩ : Img ℝ).toC)).px 0 l =
      tw 2 l / ((Real.sqrt ((1 * 2 : ℕ) : ℝ) : ℝ) : ℂ) := by
    intro l
    change (∑ i ∈ range 1, ∑ j ∈ range 2, (if i < 1 ∧ j < 2 then ((if j = 0 then (0 : ℝ) else 1 : ℝ) : ℂ) else 0) *
      (tw 1 (((0 : ℕ) : ℝ) * i) * tw 2 ((l : ℝ) * j))) / ((Real.sqrt ((1 * 2 : ℕ) : ℝ) : ℝ) : ℂ) = _
    simp [Finset.sum_range_succ, tw_zero]
  have hs2 : Real.sqrt ((1 * 2 : ℕ) : ℝ) * Real.sqrt ((1 * 2 : ℕ) : ℝ) = 2 := by
    rw [Real.mul_self_sqrt (by positivity)]
    norm_num
  have bp : ∀ l, basisPower (twoColumns I) 0 l = 1 := by
    intro l
    change normSq ((fftOrtho (padTo 1 2 (⟨1, 2, fun _ j => if j = 0 then 1 else 0⟩ : Img ℝ).toC)).px 0 l) +
      (normSq ((fftOrtho (padTo 1 2 (⟨1, 2, fun _ j => if j = 0 then 0 else 1⟩ : Img ℝ).toC)).px 0 l) + 0) = 1
    rw [q1, q2, normSq_div, normSq_div, normSq_ofReal, hs2, Complex.normSq_eq_norm_sq (tw 2 _), norm_tw]
    norm_num
  have sh : ∀ v l, normSq (starHat (twoColumns I) 0 v 0 l) = normSq (1 + tw 2 l) / 8 := by
    intro v l
    have : starHat (twoColumns I) 0 v 0 l = (1 + tw 2 l) / (2 * ((Real.sqrt ((1 * 2 : ℕ) : ℝ) : ℝ) : ℂ)) := by
      change ((1 / 2 : ℝ) : ℂ) * (fftOrtho (padTo 1 2 (⟨1, 2, fun _ j => if j = 0 then 1 else 0⟩ : Img ℝ).toC)).px 0 l +
        (((1 / 2 : ℝ) : ℂ) * (fftOrtho (padTo 1 2 (⟨1, 2, fun _ j => if j = 0 then 0 else 1⟩ : Img ℝ).toC)).px 0 l + 0) = _
      rw [q1, q2]
      push_cast
      field_simp
      ring
    rw [this, normSq_div, normSq_mul, normSq_ofReal, hs2]
    norm_num
  simp only [Finset.sum_range_succ, Finset.sum_range_zero, Finset.univ_unique, Finset.sum_singleton, zero_add, bp, sh,
    nrm 0 (by norm_num), nrm 1 (by norm_num)]
  norm_num [twoColumns, tw_zero, tw_two_one]

end PI
