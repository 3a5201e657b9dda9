import Verif.Lemmas.Filter
import Verif.Props.SubtractMore
import Verif.Props.CoaddResult

/-!
# Properties C104 and C105: the noise in the images that `subtract` and `coadd` return

Photometry, PSF and noise levels are held fixed; what varies are the pixels.
-/

namespace PI

open Complex Finset

/-! ## subtract -/

/-- Transfer function from the new image's pixels to D. -/
noncomputable def gainNew (ref new : SubImg) (b : ℝ) (k l : ℕ) : ℂ :=
  centredPsf ref k l / (Real.sqrt (normReal ref new b k l) : ℂ)

/-- Transfer function from the reference's pixels to D. -/
noncomputable def gainRef (ref new : SubImg) (b dx dy : ℝ) (k l : ℕ) : ℂ :=
  -(b * centredPsf new k l * shiftPhase ref.h ref.w (dx, dy) k l) / (Real.sqrt (normReal ref new b k l) : ℂ)

theorem ifftOrtho_add (h w : ℕ) (X Y : ℕ → ℕ → ℂ) (i j : ℕ) :
    (ifftOrtho ⟨h, w, fun k l => X k l + Y k l⟩).px i j =
      (ifftOrtho ⟨h, w, X⟩).px i j + (ifftOrtho ⟨h, w, Y⟩).px i j := by
  change (∑ k ∈ range h, ∑ l ∈ range w, (X k l + Y k l) * _) / _ =
    (∑ k ∈ range h, ∑ l ∈ range w, X k l * _) / _ + (∑ k ∈ range h, ∑ l ∈ range w, Y k l * _) / _
  rw [← add_div, ← Finset.sum_add_distrib]
  congr 1
  refine Finset.sum_congr rfl fun k _ => ?_
  rw [← Finset.sum_add_distrib]
  exact Finset.sum_congr rfl fun l _ => add_mul _ _ _

theorem dHat_filter (ref new : SubImg) (hh : new.h = ref.h) (hw : new.w = ref.w) (b dx dy : ℝ) (i j : ℕ) :
    (ifftOrtho (dHat ref new b dx dy)).px i j =
      (∑ x ∈ range ref.h, ∑ y ∈ range ref.w, (new.interped.px x y : ℂ) *
        impulseResp ref.h ref.w (gainNew ref new b) i j x y) +
      ∑ x ∈ range ref.h, ∑ y ∈ range ref.w, (ref.interped.px x y : ℂ) *
        impulseResp ref.h ref.w (gainRef ref new b dx dy) i j x y := by
  have e : dHat ref new b dx dy = ⟨ref.h, ref.w, fun k l =>
      gainNew ref new b k l * (fftOrtho (toC new.interped)).px k l +
        gainRef ref new b dx dy k l * (fftOrtho (toC ref.interped)).px k l⟩ := by
    have hpx : (dHat ref new b dx dy).px = fun k l =>
      gainNew ref new b k l * (fftOrtho (toC new.interped)).px k l +
        gainRef ref new b dx dy k l * (fftOrtho (toC ref.interped)).px k l := by
      funext k l
      rw [subtract_D_is_zackay ref new hh hw b dx dy k l]
      unfold zackayD gainNew gainRef
      have en : new.var ^ 2 * 1 ^ 2 * normSq (centredPsf ref k l) +
          ref.var ^ 2 * b ^ 2 * normSq (centredPsf new k l) = normReal ref new b k l := by
        rw [normSq_centredPsf, normSq_centredPsf]
        unfold normReal
        ring
      rw [en]
      unfold SubImg.interpedHat
      push_cast
      ring
    rw [← hpx]
    rfl
  rw [e, ifftOrtho_add]
  congr 1
  · have f := filter_eq (toC new.interped) (gainNew ref new b) i j
    have e1 : (toC new.interped).h = ref.h := hh
    have e2 : (toC new.interped).w = ref.w := hw
    rw [e1, e2] at f
    exact f
  · exact filter_eq (toC ref.interped) (gainRef ref new b dx dy) i j

theorem gain_power (ref new : SubImg) (b dx dy : ℝ) (k l : ℕ)
    (hv : new.var ≠ 0 ∨ (ref.var ≠ 0 ∧ b ≠ 0)) :
    new.var ^ 2 * normSq (gainNew ref new b k l) + ref.var ^ 2 * normSq (gainRef ref new b dx dy k l) = 1 := by
  obtain ⟨_, _, r, hr, hr'⟩ := subtract_norm_pos ref new b k l hv
  rw [normHat_eq] at hr'
  have hr2 : normReal ref new b k l = r := by exact_mod_cast hr'
  have hpos : 0 < normReal ref new b k l := by rw [hr2]; exact hr
  unfold gainNew gainRef
  rw [normSq_div, normSq_div, normSq_neg, normSq_mul, normSq_mul, normSq_ofReal, normSq_ofReal,
    normSq_shiftPhase, normSq_centredPsf, normSq_centredPsf, Real.mul_self_sqrt hpos.le]
  rw [mul_one, ← mul_div_assoc, ← mul_div_assoc, ← add_div, div_eq_one_iff_eq hpos.ne']
  unfold normReal
  ring

/-- The same image object with other pixels. -/
def SubImg.withPixels (d : SubImg) (x : Img ℝ) : SubImg := { d with interped := x }

/-- D as a function of the pixels of the two images (`0 × 0` if `subtract` raises). -/
noncomputable def diffOf (env : SubEnv) (o : SubOpts) (ref new : SubImg) (r n : Img ℝ) : Img ℂ :=
  match subtract env o (ref.withPixels r) (new.withPixels n) with
  | .ok out => out.D
  | .error _ => ⟨0, 0, fun _ _ => 0⟩

/-- Change of `D[i, j]` when the new image's pixel `(x, y)` is one larger. -/
noncomputable def respNew (env : SubEnv) (o : SubOpts) (ref new : SubImg) (i j x y : ℕ) : ℂ :=
  (diffOf env o ref new ref.interped (bump new.interped x y 1)).px i j -
    (diffOf env o ref new ref.interped new.interped).px i j

/-- Change of `D[i, j]` when the reference's pixel `(x, y)` is one larger. -/
noncomputable def respRef (env : SubEnv) (o : SubOpts) (ref new : SubImg) (i j x y : ℕ) : ℂ :=
  (diffOf env o ref new (bump ref.interped x y 1) new.interped).px i j -
    (diffOf env o ref new ref.interped new.interped).px i j

theorem diffOf_eq (env : SubEnv) (it : Bool) (ref new : SubImg) (h w : ℕ) (z : ℝ × ℝ)
    (hmr : ref.mask.HasShape h w) (hmn : new.mask.HasShape h w) (hz : env.zps = .ok z)
    (hc : env.fitted = true ∨ (0 ≤ (centerOfMass new.psf).1 ∧ 0 ≤ (centerOfMass new.psf).2))
    (hr0 : ref.interped.shape = (h, w)) (hn0 : new.interped.shape = (h, w))
    (r n : Img ℝ) (hr : r.shape = (h, w)) (hn : n.shape = (h, w)) (i j : ℕ) :
    (diffOf env ⟨false, false, it⟩ ref new r n).px i j =
      (∑ x ∈ range h, ∑ y ∈ range w, (n.px x y : ℂ) *
        impulseResp h w (gainNew ref new (z.2 / z.1)) i j x y) +
      ∑ x ∈ range h, ∑ y ∈ range w, (r.px x y : ℂ) *
        impulseResp h w (gainRef ref new (z.2 / z.1) 0 0) i j x y := by
  obtain ⟨out, e, hD, _⟩ := subtract_returns env it (ref.withPixels r) (new.withPixels n) h w hr hn hmr hmn z hz hc
  have ed : diffOf env ⟨false, false, it⟩ ref new r n = out.D := by
    unfold diffOf
    rw [e]
  have rh : r.h = h := congrArg Prod.fst hr
  have rw' : r.w = w := congrArg Prod.snd hr
  have nh : n.h = h := congrArg Prod.fst hn
  have nw : n.w = w := congrArg Prod.snd hn
  have rh0 : ref.interped.h = h := congrArg Prod.fst hr0
  have rw0 : ref.interped.w = w := congrArg Prod.snd hr0
  have nh0 : new.interped.h = h := congrArg Prod.fst hn0
  have nw0 : new.interped.w = w := congrArg Prod.snd hn0
  have k1 := dHat_filter (ref.withPixels r) (new.withPixels n) (nh.trans rh.symm) (nw.trans rw'.symm)
    (z.2 / z.1) 0 0 i j
  have a1 : (ref.withPixels r).h = h := rh
  have a2 : (ref.withPixels r).w = w := rw'
  rw [ed, hD, k1, a1, a2]
  have hp : ∀ (d : SubImg) (x : Img ℝ), d.interped.h = h → d.interped.w = w → x.h = h → x.w = w →
      centredPsf (d.withPixels x) = centredPsf d ∧ (d.withPixels x).psfHat = d.psfHat := by
    intro d x d1 d2 x1 x2
    have : (d.withPixels x).psfHat = d.psfHat := by
      unfold SubImg.psfHat SubImg.h SubImg.w SubImg.withPixels
      simp only []
      rw [d1, d2, x1, x2]
    refine ⟨?_, this⟩
    funext k l
    unfold centredPsf
    rw [this]
    unfold SubImg.h SubImg.w SubImg.withPixels
    simp only []
    rw [d1, d2, x1, x2]
  obtain ⟨p1, p2⟩ := hp ref r rh0 rw0 rh rw'
  obtain ⟨q1, q2⟩ := hp new n nh0 nw0 nh nw
  have en : ∀ k l, normReal (ref.withPixels r) (new.withPixels n) (z.2 / z.1) k l =
      normReal ref new (z.2 / z.1) k l := by
    intro k l
    unfold normReal
    rw [p2, q2]
    rfl
  have g1 : gainNew (ref.withPixels r) (new.withPixels n) (z.2 / z.1) = gainNew ref new (z.2 / z.1) := by
    funext k l
    unfold gainNew
    rw [p1, en]
  have g2 : gainRef (ref.withPixels r) (new.withPixels n) (z.2 / z.1) 0 0 = gainRef ref new (z.2 / z.1) 0 0 := by
    funext k l
    unfold gainRef
    rw [q1, en, a1, a2]
    unfold SubImg.h SubImg.w
    rw [rh0, rw0]
  rw [g1, g2]
  rfl

theorem sum_bump (h w : ℕ) (x : Img ℝ) (a b : ℕ) (ha : a < h) (hb : b < w) (K : ℕ → ℕ → ℂ) :
    ∑ i ∈ range h, ∑ j ∈ range w, ((bump x a b 1).px i j : ℂ) * K i j =
      (∑ i ∈ range h, ∑ j ∈ range w, (x.px i j : ℂ) * K i j) + K a b := by
  have e : ∀ i ∈ range h, ∀ j ∈ range w, ((bump x a b 1).px i j : ℂ) * K i j =
      (x.px i j : ℂ) * K i j + (if i = a then (if j = b then K i j else 0) else 0) := by
    intro i _ j _
    simp only [bump]
    by_cases h1 : i = a <;> by_cases h2 : j = b <;> simp [h1, h2]
    ring
  rw [Finset.sum_congr rfl fun i hi => Finset.sum_congr rfl fun j hj => e i hi j hj]
  simp only [Finset.sum_add_distrib]
  congr 1
  rw [Finset.sum_eq_single a]
  · rw [Finset.sum_eq_single b]
    · simp
    · intro j _ hj; simp [hj]
    · intro h; exact absurd (mem_range.2 hb) h
  · intro i _ hi; simp [hi]
  · intro h; exact absurd (mem_range.2 ha) h

section
variable (env : SubEnv) (it : Bool) (ref new : SubImg) (h w : ℕ) (z : ℝ × ℝ)
    (hmr : ref.mask.HasShape h w) (hmn : new.mask.HasShape h w) (hz : env.zps = .ok z)
    (hc : env.fitted = true ∨ (0 ≤ (centerOfMass new.psf).1 ∧ 0 ≤ (centerOfMass new.psf).2))
    (hr : ref.interped.shape = (h, w)) (hn : new.interped.shape = (h, w))
include hmr hmn hz hc hr hn

theorem resp_eq (i j x y : ℕ) (hx : x < h) (hy : y < w) :
    respNew env ⟨false, false, it⟩ ref new i j x y = impulseResp h w (gainNew ref new (z.2 / z.1)) i j x y ∧
    respRef env ⟨false, false, it⟩ ref new i j x y = impulseResp h w (gainRef ref new (z.2 / z.1) 0 0) i j x y := by
  have d := fun r n hr' hn' => diffOf_eq env it ref new h w z hmr hmn hz hc hr hn r n hr' hn' i j
  refine ⟨?_, ?_⟩
  · unfold respNew
    rw [d ref.interped (bump new.interped x y 1) hr hn, d ref.interped new.interped hr hn, sum_bump h w _ x y hx hy]
    ring
  · unfold respRef
    rw [d (bump ref.interped x y 1) new.interped hr hn, d ref.interped new.interped hr hn, sum_bump h w _ x y hx hy]
    ring

/-- C104: without fits D is a linear function of the two images' pixels: changing the pixels by `f` and `e`
changes D by the sum of the single-pixel responses. -/
theorem subtract_noise_linear (f e : Img ℝ) (i j : ℕ) :
    (diffOf env ⟨false, false, it⟩ ref new (plusImg ref.interped f) (plusImg new.interped e)).px i j =
      (diffOf env ⟨false, false, it⟩ ref new ref.interped new.interped).px i j +
      ∑ x ∈ range h, ∑ y ∈ range w, ((e.px x y : ℂ) * respNew env ⟨false, false, it⟩ ref new i j x y +
        (f.px x y : ℂ) * respRef env ⟨false, false, it⟩ ref new i j x y) := by
  have d := fun r n hr' hn' => diffOf_eq env it ref new h w z hmr hmn hz hc hr hn r n hr' hn' i j
  rw [d (plusImg ref.interped f) (plusImg new.interped e) hr hn, d ref.interped new.interped hr hn]
  have r := fun x hx y hy => resp_eq env it ref new h w z hmr hmn hz hc hr hn i j x y
    (mem_range.1 hx) (mem_range.1 hy)
  have q : ∑ x ∈ range h, ∑ y ∈ range w, ((e.px x y : ℂ) * respNew env ⟨false, false, it⟩ ref new i j x y +
        (f.px x y : ℂ) * respRef env ⟨false, false, it⟩ ref new i j x y) =
      ∑ x ∈ range h, ∑ y ∈ range w, ((e.px x y : ℂ) * impulseResp h w (gainNew ref new (z.2 / z.1)) i j x y +
        (f.px x y : ℂ) * impulseResp h w (gainRef ref new (z.2 / z.1) 0 0) i j x y) :=
    Finset.sum_congr rfl fun x hx => Finset.sum_congr rfl fun y hy => by
      rw [(r x hx y hy).1, (r x hx y hy).2]
  rw [q]
  simp only [plusImg, Complex.ofReal_add, add_mul, Finset.sum_add_distrib]
  ring

/-- C104: the noise in D is white with unit variance. Pixels of the new image with independent errors of
standard deviation `new.var`, and of the reference with `ref.var`, give D pixels of variance one, and no two
of them are correlated. -/
theorem subtract_noise_white (hv : new.var ≠ 0 ∨ (ref.var ≠ 0 ∧ z.2 / z.1 ≠ 0)) (i j i' j' : ℕ)
    (hi : i < h) (hj : j < w) (hi' : i' < h) (hj' : j' < w) :
    ∑ x ∈ range h, ∑ y ∈ range w,
      (((new.var ^ 2 : ℝ) : ℂ) * (respNew env ⟨false, false, it⟩ ref new i j x y *
          (starRingEnd ℂ) (respNew env ⟨false, false, it⟩ ref new i' j' x y)) +
        ((ref.var ^ 2 : ℝ) : ℂ) * (respRef env ⟨false, false, it⟩ ref new i j x y *
          (starRingEnd ℂ) (respRef env ⟨false, false, it⟩ ref new i' j' x y))) =
      if i = i' ∧ j = j' then 1 else 0 := by
  have r := fun i j x hx y hy => resp_eq env it ref new h w z hmr hmn hz hc hr hn i j x y
    (mem_range.1 hx) (mem_range.1 hy)
  rw [Finset.sum_congr rfl fun x hx => Finset.sum_congr rfl fun y hy => by
    rw [(r i j x hx y hy).1, (r i j x hx y hy).2, (r i' j' x hx y hy).1, (r i' j' x hx y hy).2]]
  have k := white_of_power (Finset.univ : Finset Bool) h w
    (fun n => if n then new.var ^ 2 else ref.var ^ 2)
    (fun n => if n then gainNew ref new (z.2 / z.1) else gainRef ref new (z.2 / z.1) 0 0) 1
    (by
      intro k _ l _
      rw [Fintype.sum_bool]
      have g := gain_power ref new (z.2 / z.1) 0 0 k l hv
      simp only [if_true, Bool.false_eq_true, if_false]
      exact_mod_cast g) i j i' j' hi hj hi' hj'
  rw [Fintype.sum_bool] at k
  simp only [if_true, Bool.false_eq_true, if_false] at k
  rw [← k]
  simp only [Finset.sum_add_distrib, Finset.mul_sum]

end

/-! ## coadd -/

/-- Transfer function from the pixels of image `m` to R. -/
noncomputable def gainCoadd {n : ℕ} (d : Fin n → SinglePsf) (h w : ℕ) (m : Fin n) (k l : ℕ) : ℂ :=
  ((d m).zp / (d m).var ^ 2 : ℝ) * (starRingEnd ℂ) ((d m).psfHat.px k l) * shiftPhase h w (d m).com k l /
    (Real.sqrt (zackayPower (fun j => (d j).zp) (fun j => (d j).var) (fun j => (d j).psfHat.px k l)) *
      Real.sqrt ((h * w : ℕ) : ℝ) : ℂ)

/-- The same image objects with other pixels. -/
def withPix {n : ℕ} (d : Fin n → SinglePsf) (x : Fin n → Img ℂ) : Fin n → SinglePsf :=
  fun m => { d m with interped := x m }

/-- R as a function of the images' pixels (`0 × 0` if `coadd` raises). -/
noncomputable def coaddOf (lt : List CoImg → List CoImg → Option Bool) {n : ℕ} (d : Fin n → SinglePsf)
    (psfShape : ℕ) (procs : ℤ) (x : Fin n → Img ℂ) : Img ℂ :=
  match coaddCore lt ((List.ofFn (withPix d x)).map SinglePsf.toCoImg) psfShape procs with
  | .ok out => out.R
  | .error _ => ⟨0, 0, fun _ _ => 0⟩

/-- The pixels of the images, with one added at pixel `(x, y)` of image `m`. -/
def bumpAt {n : ℕ} (d : Fin n → SinglePsf) (m : Fin n) (x y : ℕ) : Fin n → Img ℂ :=
  fun m' => if m' = m then bump (d m').interped x y 1 else (d m').interped

/-- Change of `R[i, j]` when pixel `(x, y)` of image `m` is one larger. -/
noncomputable def respCoadd (lt : List CoImg → List CoImg → Option Bool) {n : ℕ} (d : Fin n → SinglePsf)
    (psfShape : ℕ) (procs : ℤ) (m : Fin n) (i j x y : ℕ) : ℂ :=
  (coaddOf lt d psfShape procs (bumpAt d m x y)).px i j -
    (coaddOf lt d psfShape procs fun m' => (d m').interped).px i j

theorem ifftOrtho_sum {ι : Type} (s : Finset ι) (h w : ℕ) (X : ι → ℕ → ℕ → ℂ) (i j : ℕ) :
    (ifftOrtho ⟨h, w, fun k l => ∑ m ∈ s, X m k l⟩).px i j =
      ∑ m ∈ s, (ifftOrtho ⟨h, w, X m⟩).px i j := by
  change (∑ k ∈ range h, ∑ l ∈ range w, (∑ m ∈ s, X m k l) *
      (tw h (-((k : ℝ) * i)) * tw w (-((l : ℝ) * j)))) / (Real.sqrt ((h * w : ℕ) : ℝ) : ℂ) =
    ∑ m ∈ s, (∑ k ∈ range h, ∑ l ∈ range w, X m k l *
      (tw h (-((k : ℝ) * i)) * tw w (-((l : ℝ) * j)))) / (Real.sqrt ((h * w : ℕ) : ℝ) : ℂ)
  rw [← Finset.sum_div]
  congr 1
  rw [Finset.sum_comm (s := s)]
  refine Finset.sum_congr rfl fun k _ => ?_
  rw [Finset.sum_comm (s := s)]
  refine Finset.sum_congr rfl fun l _ => ?_
  rw [Finset.sum_mul]

section
variable (lt : List CoImg → List CoImg → Option Bool) {n : ℕ} (hn : 0 < n)
    (d : Fin n → SinglePsf) (h w psfShape : ℕ) (procs : ℤ)
    (hs : ∀ j, (d j).interped.h = h ∧ (d j).interped.w = w ∧ (d j).mask.HasShape h w)
    (hp : procs ≤ n) (hp' : procs ≤ 2 ^ 25) (hb : procs * n ≤ 2 ^ 50)
include hn hs hp hp' hb

theorem coaddOf_eq (x : Fin n → Img ℂ) (hx : ∀ m, (x m).h = h ∧ (x m).w = w) (i j : ℕ) :
    (coaddOf lt d psfShape procs x).px i j =
      ∑ m, ∑ a ∈ range h, ∑ b ∈ range w, (x m).px a b * impulseResp h w (gainCoadd d h w m) i j a b := by
  obtain ⟨out, e, _, _, hR⟩ := coadd_returns_zackay lt hn (withPix d x) h w psfShape procs
    (fun m => ⟨(hx m).1, (hx m).2, (hs m).2.2⟩) hp hp' hb
  have ed : coaddOf lt d psfShape procs x = out.R := by
    unfold coaddOf
    rw [e]
  have hpsf : ∀ m, (withPix d x m).psfHat = (d m).psfHat := by
    intro m
    unfold SinglePsf.psfHat withPix
    simp only []
    rw [(hx m).1, (hx m).2, (hs m).1, (hs m).2.1]
  have key : out.R.px i j = (ifftOrtho ⟨h, w, fun k l => ∑ m,
      gainCoadd d h w m k l * (fftOrtho (x m)).px k l⟩).px i j := by
    rw [hR i j]
    change _ = (∑ k ∈ range h, ∑ l ∈ range w, (∑ m, gainCoadd d h w m k l * (fftOrtho (x m)).px k l) *
      (tw h (-((k : ℝ) * i)) * tw w (-((l : ℝ) * j)))) / (Real.sqrt ((h * w : ℕ) : ℝ) : ℂ)
    rw [← sqrt_mul_self_cast, ← div_div]
    congr 1
    rw [Finset.sum_div]
    refine Finset.sum_congr rfl fun k _ => ?_
    rw [Finset.sum_div]
    refine Finset.sum_congr rfl fun l _ => ?_
    rw [mul_div_right_comm]
    congr 1
    unfold zackayR
    rw [div_div, Finset.sum_div]
    refine Finset.sum_congr rfl fun m _ => ?_
    unfold gainCoadd zackayPower
    simp only [hpsf]
    change ((((d m).zp / (d m).var ^ 2 : ℝ) : ℂ) * ((starRingEnd ℂ) _ * ((fftOrtho (x m)).px k l *
      shiftPhase h w (d m).com k l))) / (Real.sqrt (∑ j, (d j).zp ^ 2 / (d j).var ^ 2 * _) * _ : ℂ) = _
    ring
  rw [ed, key, ifftOrtho_sum]
  refine Finset.sum_congr rfl fun m _ => ?_
  have f := filter_eq (x m) (gainCoadd d h w m) i j
  rw [(hx m).1, (hx m).2] at f
  exact f

theorem respCoadd_eq (m : Fin n) (i j x y : ℕ) (hx : x < h) (hy : y < w) :
    respCoadd lt d psfShape procs m i j x y = impulseResp h w (gainCoadd d h w m) i j x y := by
  unfold respCoadd
  rw [coaddOf_eq lt hn d h w psfShape procs hs hp hp' hb (bumpAt d m x y)
      (by intro m'; unfold bumpAt; split <;> exact ⟨(hs m').1, (hs m').2.1⟩),
    coaddOf_eq lt hn d h w psfShape procs hs hp hp' hb (fun m' => (d m').interped)
      (fun m' => ⟨(hs m').1, (hs m').2.1⟩), ← Finset.sum_sub_distrib, Finset.sum_eq_single m]
  · simp only [bumpAt, if_true]
    have e : ∀ a ∈ range h, ∀ b ∈ range w, (bump (d m).interped x y 1).px a b *
        impulseResp h w (gainCoadd d h w m) i j a b = (d m).interped.px a b *
          impulseResp h w (gainCoadd d h w m) i j a b +
        (if a = x then (if b = y then impulseResp h w (gainCoadd d h w m) i j a b else 0) else 0) := by
      intro a _ b _
      simp only [bump]
      by_cases h1 : a = x <;> by_cases h2 : b = y <;> simp [h1, h2]
      ring
    rw [Finset.sum_congr rfl fun a ha => Finset.sum_congr rfl fun b hb => e a ha b hb]
    simp only [Finset.sum_add_distrib]
    rw [add_sub_cancel_left, Finset.sum_eq_single x]
    · rw [Finset.sum_eq_single y]
      · simp
      · intro b _ hb; simp [hb]
      · intro h; exact absurd (mem_range.2 hy) h
    · intro a _ ha; simp [ha]
    · intro h; exact absurd (mem_range.2 hx) h
  · intro m' _ hm'
    simp only [bumpAt, if_neg hm', sub_self]
  · intro h; exact absurd (Finset.mem_univ m) h

/-- C105: the coadd is a linear function of the pixels of the images. -/
theorem coadd_noise_linear (e : Fin n → Img ℂ) (i j : ℕ) :
    (coaddOf lt d psfShape procs fun m => plusImg (d m).interped (e m)).px i j =
      (coaddOf lt d psfShape procs fun m => (d m).interped).px i j +
      ∑ m, ∑ x ∈ range h, ∑ y ∈ range w, (e m).px x y * respCoadd lt d psfShape procs m i j x y := by
  rw [coaddOf_eq lt hn d h w psfShape procs hs hp hp' hb (fun m => plusImg (d m).interped (e m))
      (fun m => ⟨(hs m).1, (hs m).2.1⟩),
    coaddOf_eq lt hn d h w psfShape procs hs hp hp' hb (fun m => (d m).interped)
      (fun m => ⟨(hs m).1, (hs m).2.1⟩),
    ← Finset.sum_add_distrib]
  refine Finset.sum_congr rfl fun m _ => ?_
  rw [← Finset.sum_add_distrib]
  refine Finset.sum_congr rfl fun x hx => ?_
  rw [← Finset.sum_add_distrib]
  refine Finset.sum_congr rfl fun y hy => ?_
  rw [respCoadd_eq lt hn d h w psfShape procs hs hp hp' hb m i j x y (mem_range.1 hx) (mem_range.1 hy)]
  simp only [plusImg]
  ring

/-- C105: the noise in the coadd is white, but with variance `1 / (h w)`: pixels of image `m` with
independent errors of standard deviation `var m` give R pixels of variance `1 / (h w)`, no two of them
correlated. -/
theorem coadd_noise_white (hv : ∀ m, (d m).var ≠ 0)
    (hpow : ∀ k < h, ∀ l < w,
      zackayPower (fun j => (d j).zp) (fun j => (d j).var) (fun j => (d j).psfHat.px k l) ≠ 0)
    (i j i' j' : ℕ) (hi : i < h) (hj : j < w) (hi' : i' < h) (hj' : j' < w) :
    ∑ m, (((d m).var ^ 2 : ℝ) : ℂ) * ∑ x ∈ range h, ∑ y ∈ range w,
      respCoadd lt d psfShape procs m i j x y *
        (starRingEnd ℂ) (respCoadd lt d psfShape procs m i' j' x y) =
      if i = i' ∧ j = j' then 1 / ((h * w : ℕ) : ℂ) else 0 := by
  rw [← white_of_power (Finset.univ : Finset (Fin n)) h w (fun m => (d m).var ^ 2)
    (fun m => gainCoadd d h w m) (1 / ((h * w : ℕ) : ℂ)) ?_ i j i' j' hi hj hi' hj']
  · refine Finset.sum_congr rfl fun m _ => ?_
    congr 1
    refine Finset.sum_congr rfl fun x hx => Finset.sum_congr rfl fun y hy => ?_
    rw [respCoadd_eq lt hn d h w psfShape procs hs hp hp' hb m i j x y (mem_range.1 hx) (mem_range.1 hy),
      respCoadd_eq lt hn d h w psfShape procs hs hp hp' hb m i' j' x y (mem_range.1 hx) (mem_range.1 hy)]
  · intro k hk l hl
    have hhw : ((h * w : ℕ) : ℝ) ≠ 0 := by
      have h1 : h ≠ 0 := by omega
      have h2 : w ≠ 0 := by omega
      exact_mod_cast Nat.mul_ne_zero h1 h2
    have hpos : 0 ≤ zackayPower (fun j => (d j).zp) (fun j => (d j).var) (fun j => (d j).psfHat.px k l) :=
      zackayPower_nonneg _ _ _
    have e : ∀ m, (d m).var ^ 2 * normSq (gainCoadd d h w m k l) =
        (d m).zp ^ 2 / (d m).var ^ 2 * normSq ((d m).psfHat.px k l) /
          (zackayPower (fun j => (d j).zp) (fun j => (d j).var) (fun j => (d j).psfHat.px k l) *
            ((h * w : ℕ) : ℝ)) := by
      intro m
      unfold gainCoadd
      rw [normSq_div, normSq_mul, normSq_mul, normSq_mul, normSq_ofReal, normSq_ofReal, normSq_ofReal,
        normSq_shiftPhase, normSq_conj, Real.mul_self_sqrt hpos, Real.mul_self_sqrt (by positivity)]
      have := hv m
      have := hpow k hk l hl
      field_simp
    have s : ∑ m, (d m).var ^ 2 * normSq (gainCoadd d h w m k l) = 1 / ((h * w : ℕ) : ℝ) := by
      simp only [e]
      rw [← Finset.sum_div]
      change zackayPower (fun j => (d j).zp) (fun j => (d j).var) (fun j => (d j).psfHat.px k l) / _ = _
      have := hpow k hk l hl
      field_simp
    have s' := congrArg (fun t : ℝ => (t : ℂ)) s
    push_cast at s' ⊢
    exact s'

end

/-! ## Worked instances -/

/-- Two pixels with noise one and zero points 1 and 3: the response to one pixel is `1/√10`. -/
example (i j i' j' : ℕ) (hi : i < 1) (hj : j < 2) (hi' : i' < 1) (hj' : j' < 2) :
    ∑ x ∈ range 1, ∑ y ∈ range 2,
      ((((tinySub 1 0).var ^ 2 : ℝ) : ℂ) *
          (respNew (tinyEnv 1 3) ⟨false, false, false⟩ (tinySub 5 7) (tinySub 1 0) i j x y *
          (starRingEnd ℂ) (respNew (tinyEnv 1 3) ⟨false, false, false⟩ (tinySub 5 7) (tinySub 1 0) i' j' x y)) +
        (((tinySub 5 7).var ^ 2 : ℝ) : ℂ) *
          (respRef (tinyEnv 1 3) ⟨false, false, false⟩ (tinySub 5 7) (tinySub 1 0) i j x y *
          (starRingEnd ℂ) (respRef (tinyEnv 1 3) ⟨false, false, false⟩ (tinySub 5 7) (tinySub 1 0) i' j' x y))) =
      if i = i' ∧ j = j' then 1 else 0 :=
  subtract_noise_white (tinyEnv 1 3) false (tinySub 5 7) (tinySub 1 0) 1 2 (1, 3)
    (by intro a h; cases h) (by intro a h; cases h) rfl (Or.inl rfl) rfl rfl
    (Or.inl (by simp [tinySub])) i j i' j' hi hj hi' hj'

example (lt : List CoImg → List CoImg → Option Bool) :
    ∑ m : Fin 3, (((deltaDemo).var ^ 2 : ℝ) : ℂ) * ∑ x ∈ range 2, ∑ y ∈ range 3,
      respCoadd lt (fun _ : Fin 3 => deltaDemo) 5 2 m 1 2 x y *
        (starRingEnd ℂ) (respCoadd lt (fun _ : Fin 3 => deltaDemo) 5 2 m 1 2 x y) = 1 / 6 := by
  have k := coadd_noise_white lt (n := 3) (by norm_num) (fun _ => deltaDemo) 2 3 5 2
    (fun _ => ⟨rfl, rfl, by intro m hm; cases hm; exact ⟨rfl, rfl⟩⟩) (by norm_num) (by norm_num) (by norm_num)
    (fun _ => by norm_num [deltaDemo])
    (by
      intro k _ l _
      have e := psfHat_delta deltaDemo rfl k l (by norm_num [deltaDemo]) (by norm_num [deltaDemo])
      unfold zackayPower
      simp only [e]
      norm_num [deltaDemo]) 1 2 1 2 (by norm_num) (by norm_num) (by norm_num) (by norm_num)
  simp only [and_self, if_true] at k
  rw [k]
  norm_num

end PI
