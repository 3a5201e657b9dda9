import Verif.Lemmas.SigmaClip
import Verif.Props.SubtractMore
import Mathlib.Tactic.NormNum

/-!
# Properties C90, C91: the Gaussian PSF of the default `fitted_psf=True`

Specification vocabulary: `ellipse`, the squared elliptical radius of a Gaussian with the given widths
and position angle.
-/

namespace PI

open Real

/-- Half the squared elliptical radius: distances along the two principal axes in units of the widths. -/
noncomputable def ellipse (g : Gauss) (dx dy : ℝ) : ℝ :=
  ((cos g.theta * dx + sin g.theta * dy) ^ 2 / g.sx ^ 2 +
    (sin g.theta * dx - cos g.theta * dy) ^ 2 / g.sy ^ 2) / 2

theorem gaussVal_eq (amp x0 y0 : ℝ) (g : Gauss) (x y : ℝ) :
    gaussVal amp x0 y0 g x y = amp * exp (-(ellipse g (x - x0) (y - y0))) := by
  unfold gaussVal ellipse
  simp only [sin_two_mul]
  congr 3
  ring

/-! ## C90: where the PSF of `subtract` sits -/

/-- C90: pixel `(i, j)` of the PSF image is `exp` of minus the elliptical radius from row `w/2` and
column `h/2`. -/
theorem renderPsf_px (g : Gauss) (h w i j : ℕ) :
    (renderPsf g h w).px i j = exp (-(ellipse g ((j : ℝ) - h / 2) ((i : ℝ) - w / 2))) := by
  change gaussVal 1 _ _ g _ _ = _
  rw [gaussVal_eq, one_mul]

theorem ellipse_nonneg (g : Gauss) (dx dy : ℝ) : 0 ≤ ellipse g dx dy := by
  unfold ellipse; positivity

theorem ellipse_eq_zero (g : Gauss) (hx : g.sx ≠ 0) (hy : g.sy ≠ 0) (dx dy : ℝ) :
    ellipse g dx dy = 0 ↔ dx = 0 ∧ dy = 0 := by
  constructor
  · intro h
    unfold ellipse at h
    have p1 : 0 ≤ (cos g.theta * dx + sin g.theta * dy) ^ 2 / g.sx ^ 2 := by positivity
    have p2 : 0 ≤ (sin g.theta * dx - cos g.theta * dy) ^ 2 / g.sy ^ 2 := by positivity
    have h1 : (cos g.theta * dx + sin g.theta * dy) ^ 2 / g.sx ^ 2 = 0 := by linarith
    have h2 : (sin g.theta * dx - cos g.theta * dy) ^ 2 / g.sy ^ 2 = 0 := by linarith
    rw [div_eq_zero_iff] at h1 h2
    have e1 : cos g.theta * dx + sin g.theta * dy = 0 := by
      rcases h1 with h1 | h1
      · exact pow_eq_zero_iff two_ne_zero |>.1 h1
      · exact absurd (pow_eq_zero_iff two_ne_zero |>.1 h1) hx
    have e2 : sin g.theta * dx - cos g.theta * dy = 0 := by
      rcases h2 with h2 | h2
      · exact pow_eq_zero_iff two_ne_zero |>.1 h2
      · exact absurd (pow_eq_zero_iff two_ne_zero |>.1 h2) hy
    have t := sin_sq_add_cos_sq g.theta
    constructor
    · linear_combination cos g.theta * e1 + sin g.theta * e2 - dx * t
    · linear_combination sin g.theta * e1 - cos g.theta * e2 - dy * t
  · rintro ⟨rfl, rfl⟩
    simp [ellipse]

/-- C90: every pixel is positive and at most one, and it is one exactly at row `w/2`, column `h/2`: rows
and columns are exchanged. -/
theorem renderPsf_peak (g : Gauss) (hx : g.sx ≠ 0) (hy : g.sy ≠ 0) (h w i j : ℕ) :
    0 < (renderPsf g h w).px i j ∧ (renderPsf g h w).px i j ≤ 1 ∧
      ((renderPsf g h w).px i j = 1 ↔ 2 * i = w ∧ 2 * j = h) := by
  rw [renderPsf_px]
  refine ⟨exp_pos _, exp_le_one_iff.2 (neg_nonpos.2 (ellipse_nonneg _ _ _)), ?_⟩
  rw [exp_eq_one_iff, neg_eq_zero, ellipse_eq_zero g hx hy, sub_eq_zero, sub_eq_zero]
  constructor
  · rintro ⟨h1, h2⟩
    have a : (2 * i : ℝ) = w := by rw [h2]; ring
    have b : (2 * j : ℝ) = h := by rw [h1]; ring
    exact ⟨by exact_mod_cast a, by exact_mod_cast b⟩
  · rintro ⟨h1, h2⟩
    subst h1 h2
    push_cast
    exact ⟨by ring, by ring⟩

/-- C90: in an image at least twice as wide as high the peak is outside: no pixel reaches one. The same
for an image at least twice as high as wide. -/
theorem renderPsf_outside (g : Gauss) (hx : g.sx ≠ 0) (hy : g.sy ≠ 0) (h w : ℕ)
    (hs : 2 * h ≤ w ∨ 2 * w ≤ h) (i j : ℕ) (hi : i < h) (hj : j < w) : (renderPsf g h w).px i j < 1 := by
  obtain ⟨_, h2, h3⟩ := renderPsf_peak g hx hy h w i j
  refine lt_of_le_of_ne h2 fun e => ?_
  have := h3.1 e
  omega

/-- C90: a round Gaussian in an image at least twice as wide as high grows towards the last row: its
largest values are in that row. -/
theorem renderPsf_increases_downwards (s : ℝ) (hs : s ≠ 0) (h w : ℕ) (hw : 2 * h ≤ w) (i i' j : ℕ)
    (hii : i < i') (hi : i' < h) :
    (renderPsf ⟨s, s, 0⟩ h w).px i j < (renderPsf ⟨s, s, 0⟩ h w).px i' j := by
  rw [renderPsf_px, renderPsf_px, exp_lt_exp, neg_lt_neg_iff]
  unfold ellipse
  simp only [cos_zero, sin_zero, one_mul, zero_mul, add_zero, zero_sub, neg_sq]
  have s0 : 0 < s ^ 2 := by positivity
  have a : (i : ℝ) < i' := by exact_mod_cast hii
  have b : (i' : ℝ) < h := by exact_mod_cast hi
  have c : (2 * h : ℝ) ≤ w := by exact_mod_cast hw
  have key : ((i' : ℝ) - w / 2) ^ 2 < ((i : ℝ) - w / 2) ^ 2 := by nlinarith
  have := div_lt_div_of_pos_right key s0
  linarith

/-- C90: and in an image at least twice as high as wide it grows towards the last column. -/
theorem renderPsf_increases_rightwards (s : ℝ) (hs : s ≠ 0) (h w : ℕ) (hw : 2 * w ≤ h) (i j j' : ℕ)
    (hjj : j < j') (hj : j' < w) :
    (renderPsf ⟨s, s, 0⟩ h w).px i j < (renderPsf ⟨s, s, 0⟩ h w).px i j' := by
  rw [renderPsf_px, renderPsf_px, exp_lt_exp, neg_lt_neg_iff]
  unfold ellipse
  simp only [cos_zero, sin_zero, one_mul, zero_mul, add_zero, zero_sub, neg_sq]
  have s0 : 0 < s ^ 2 := by positivity
  have a : (j : ℝ) < j' := by exact_mod_cast hjj
  have b : (j' : ℝ) < w := by exact_mod_cast hj
  have c : (2 * w : ℝ) ≤ h := by exact_mod_cast hw
  have key : ((j' : ℝ) - h / 2) ^ 2 < ((j : ℝ) - h / 2) ^ 2 := by nlinarith
  have := div_lt_div_of_pos_right key s0
  linarith

/-- C90: for square images the PSF is centred: points mirrored at the centre have equal values. -/
theorem renderPsf_square_centred (g : Gauss) (n i j i' j' : ℕ) (hi : i + i' = n) (hj : j + j' = n) :
    (renderPsf g n n).px i j = (renderPsf g n n).px i' j' := by
  rw [renderPsf_px, renderPsf_px]
  have e1 : (i : ℝ) + i' = n := by exact_mod_cast hi
  have e2 : (j : ℝ) + j' = n := by exact_mod_cast hj
  have a : (i' : ℝ) - n / 2 = -((i : ℝ) - n / 2) := by linarith
  have b : (j' : ℝ) - n / 2 = -((j : ℝ) - n / 2) := by linarith
  rw [a, b]
  unfold ellipse
  congr 1
  ring

/-- The hypotheses of the theorems above hold: a 4 x 8 image peaks at row 4, outside; a 4 x 4 image at
row and column 2, inside. -/
theorem renderPsf_examples :
    (∀ i < 4, ∀ j < 8, (renderPsf ⟨2, 1, 0⟩ 4 8).px i j < 1) ∧ (renderPsf ⟨2, 1, 0⟩ 4 4).px 2 2 = 1 := by
  constructor
  · intro i hi j hj
    exact renderPsf_outside _ (by norm_num) (by norm_num) 4 8 (Or.inl (by omega)) i j hi hj
  · exact (renderPsf_peak ⟨2, 1, 0⟩ (by norm_num) (by norm_num) 4 4 2 2).2.2.2 ⟨rfl, rfl⟩

/-- C90: the PSF image is not normalised: in a square image of even size its pixels sum to more than
one. -/
theorem renderPsf_total (g : Gauss) (hx : g.sx ≠ 0) (hy : g.sy ≠ 0) (k : ℕ) (hk : 0 < k) :
    1 < rsum (renderPsf g (2 * k) (2 * k)) := by
  have pos : ∀ i j, 0 < (renderPsf g (2 * k) (2 * k)).px i j := fun i j =>
    (renderPsf_peak g hx hy (2 * k) (2 * k) i j).1
  have hone := (renderPsf_peak g hx hy (2 * k) (2 * k) k k).2.2.2 ⟨rfl, rfl⟩
  have hrow : ∀ i, 0 ≤ ∑ j ∈ Finset.range (2 * k), (renderPsf g (2 * k) (2 * k)).px i j := fun i =>
    Finset.sum_nonneg fun j _ => (pos i j).le
  have h1 : ∑ j ∈ Finset.range (2 * k), (renderPsf g (2 * k) (2 * k)).px k j ≤
      rsum (renderPsf g (2 * k) (2 * k)) :=
    Finset.single_le_sum (f := fun i => ∑ j ∈ Finset.range (2 * k), (renderPsf g (2 * k) (2 * k)).px i j)
      (fun i _ => hrow i) (Finset.mem_range.2 (show k < 2 * k by omega))
  refine lt_of_lt_of_le ?_ h1
  have hsub : ({0, k} : Finset ℕ) ⊆ Finset.range (2 * k) := by
    intro x hx
    rw [Finset.mem_insert, Finset.mem_singleton] at hx
    rw [Finset.mem_range]
    omega
  have h2 := Finset.sum_le_sum_of_subset_of_nonneg (f := fun j => (renderPsf g (2 * k) (2 * k)).px k j) hsub
    (fun j _ _ => (pos k j).le)
  rw [Finset.sum_pair (by omega)] at h2
  have h3 := pos k 0
  linarith

/-- C90: hence the P of a subtraction whose images have the same Gaussian PSF does not have unit sum. -/
theorem fitted_psf_not_unit (ref new : SubImg) (g : Gauss) (hx : g.sx ≠ 0) (hy : g.sy ≠ 0) (k : ℕ)
    (hk : 0 < k) (hr : ref.interped.shape = (2 * k, 2 * k)) (hn : new.interped.shape = (2 * k, 2 * k))
    (pr : ref.psf = renderPsf g (2 * k) (2 * k)) (pn : new.psf = renderPsf g (2 * k) (2 * k)) (b : ℝ)
    (hb : b ≠ 0) (hv : ref.var ≠ 0 ∨ new.var ≠ 0) : 1 < rsum (subP ref new b) := by
  have r1 : ref.h = 2 * k := congrArg Prod.fst hr
  have r2 : ref.w = 2 * k := congrArg Prod.snd hr
  have n1 : new.h = 2 * k := congrArg Prod.fst hn
  have n2 : new.w = 2 * k := congrArg Prod.snd hn
  have ht := renderPsf_total g hx hy k hk
  rw [subtract_psf_total_equal ref new (by rw [n1, r1]) (by rw [n2, r2])
    (by rw [r1, r2]; positivity)
    (by rw [pr, r1, r2]; exact ⟨le_refl _, le_refl _⟩) (by rw [pn, n1, n2]; exact ⟨le_refl _, le_refl _⟩)
    _ (by linarith) (by rw [pr]) (by rw [pn]) b hb hv]
  exact ht

/-! ## C91: averaging the fitted parameters -/

/-- The PSF a star was fitted with. -/
def StarFit.gauss (f : StarFit) : Gauss := ⟨f.sx, f.sy, f.theta⟩

theorem rMean_const (l : List ℝ) (hl : l ≠ []) (c : ℝ) (h : ∀ x ∈ l, x = c) : clippedMean l = c := by
  obtain ⟨a, b⟩ := clippedMean_between l hl c c (fun x hx => by rw [h x hx]; exact ⟨le_refl _, le_refl _⟩)
  exact le_antisymm b a

/-- C91: if all stars were fitted with the same parameters, those are the parameters of the PSF,
whatever the fitted amplitudes and backgrounds and whatever `inf_loss`. -/
theorem meanModel_identical (il : Option ℝ) (fits : List StarFit) (hne : fits ≠ []) (g : Gauss)
    (h : ∀ f ∈ fits, f.gauss = g) : meanModel il fits = g := by
  have hn : ∀ p : StarFit → ℝ, fits.map p ≠ [] := fun p e => hne (List.map_eq_nil_iff.1 e)
  have e : ∀ (p : StarFit → ℝ) (c : ℝ), (∀ f ∈ fits, p f = c) → clippedMean (fits.map p) = c := by
    intro p c hp
    refine rMean_const _ (hn p) c fun x hx => ?_
    obtain ⟨f, hf, rfl⟩ := List.mem_map.1 hx
    exact hp f hf
  obtain ⟨sx, sy, t⟩ := g
  unfold meanModel
  rw [e (·.sx) sx (fun f hf => congrArg Gauss.sx (h f hf)),
    e (·.sy) sy (fun f hf => congrArg Gauss.sy (h f hf)),
    e (·.theta) t (fun f hf => congrArg Gauss.theta (h f hf))]

/-- C91: the widths of the PSF lie between the smallest and the largest fitted ones; in particular they
are positive if all fitted ones are. -/
theorem meanModel_widths (il : Option ℝ) (fits : List StarFit) (hne : fits ≠ []) (a b : ℝ)
    (h : ∀ f ∈ fits, (a ≤ f.sx ∧ f.sx ≤ b) ∧ (a ≤ f.sy ∧ f.sy ≤ b)) :
    (a ≤ (meanModel il fits).sx ∧ (meanModel il fits).sx ≤ b) ∧
      (a ≤ (meanModel il fits).sy ∧ (meanModel il fits).sy ≤ b) := by
  have hn : ∀ p : StarFit → ℝ, fits.map p ≠ [] := fun p e => hne (List.map_eq_nil_iff.1 e)
  constructor
  · refine clippedMean_between _ (hn _) a b fun x hx => ?_
    obtain ⟨f, hf, rfl⟩ := List.mem_map.1 hx
    exact (h f hf).1
  · refine clippedMean_between _ (hn _) a b fun x hx => ?_
    obtain ⟨f, hf, rfl⟩ := List.mem_map.1 hx
    exact (h f hf).2

/-- C91: the order of the stars does not matter. -/
theorem meanModel_perm (il : Option ℝ) (fits fits' : List StarFit) (h : fits.Perm fits') :
    meanModel il fits = meanModel il fits' := by
  unfold meanModel
  rw [clippedMean_perm _ _ (h.map (·.sx)), clippedMean_perm _ _ (h.map (·.sy)),
    clippedMean_perm _ _ (h.map (·.theta))]

/-- C91: measuring all widths in another unit, turning all stars by the same angle or mirroring them
(`s = -1`) does the same to the PSF. -/
theorem meanModel_units (il : Option ℝ) (fits : List StarFit) (hne : fits ≠ []) (a s t : ℝ) (ha : a ≠ 0)
    (hs : s ≠ 0) (g : StarFit → StarFit)
    (hg : ∀ f ∈ fits, (g f).sx = a * f.sx ∧ (g f).sy = a * f.sy ∧ (g f).theta = s * f.theta + t) :
    meanModel il (fits.map g) =
      ⟨a * (meanModel il fits).sx, a * (meanModel il fits).sy, s * (meanModel il fits).theta + t⟩ := by
  have hn : ∀ p : StarFit → ℝ, fits.map p ≠ [] := fun p e => hne (List.map_eq_nil_iff.1 e)
  have e : ∀ (p : StarFit → ℝ) (u v : ℝ), u ≠ 0 → (∀ f ∈ fits, p (g f) = u * p f + v) →
      clippedMean ((fits.map g).map p) = u * clippedMean (fits.map p) + v := by
    intro p u v hu h
    rw [← clippedMean_affine u v hu _ (hn p), List.map_map, List.map_map]
    exact congrArg clippedMean (List.map_congr_left h)
  unfold meanModel
  rw [e (·.sx) a 0 ha fun f hf => by rw [(hg f hf).1, add_zero],
    e (·.sy) a 0 ha fun f hf => by rw [(hg f hf).2.1, add_zero],
    e (·.theta) s t hs fun f hf => (hg f hf).2.2, add_zero, add_zero]

/-- The hypotheses hold for a field of six stars seen in a mirror with twice the resolution. -/
example (il : Option ℝ) (f : StarFit) :
    meanModel il ((List.replicate 6 f).map fun f => { f with sx := 2 * f.sx, sy := 2 * f.sy, theta := -f.theta }) =
      ⟨2 * (meanModel il (List.replicate 6 f)).sx, 2 * (meanModel il (List.replicate 6 f)).sy,
        -1 * (meanModel il (List.replicate 6 f)).theta + 0⟩ :=
  meanModel_units il _ (by simp) 2 (-1) 0 (by norm_num) (by norm_num) _ fun f _ => ⟨rfl, rfl, by ring⟩

/-- C91: `inf_loss`, the amplitudes and the backgrounds have no influence. -/
theorem meanModel_ignores (il il' : Option ℝ) (fits fits' : List StarFit)
    (h : fits.map StarFit.gauss = fits'.map StarFit.gauss) : meanModel il fits = meanModel il' fits' := by
  have e : ∀ p : Gauss → ℝ, fits.map (fun f => p f.gauss) = fits'.map fun f => p f.gauss := by
    intro p
    have := congrArg (List.map p) h
    rw [List.map_map, List.map_map] at this
    exact this
  unfold meanModel
  rw [show fits.map (·.sx) = fits'.map (·.sx) from e Gauss.sx,
    show fits.map (·.sy) = fits'.map (·.sy) from e Gauss.sy,
    show fits.map (·.theta) = fits'.map (·.theta) from e Gauss.theta]

/-- C91: with up to five stars the clipping never removes anything: the parameters are plain means, and
a single wild fit moves them without limit. -/
theorem meanModel_few (il : Option ℝ) (fits : List StarFit) (h5 : fits.length ≤ 5) :
    meanModel il fits = ⟨(fits.map (·.sx)).sum / fits.length, (fits.map (·.sy)).sum / fits.length,
      (fits.map (·.theta)).sum / fits.length⟩ := by
  have e : ∀ p : StarFit → ℝ, clippedMean (fits.map p) = (fits.map p).sum / fits.length := by
    intro p
    rw [clippedMean_five _ (by rw [List.length_map]; exact h5)]
    unfold rMean
    rw [List.length_map]
  unfold meanModel
  rw [e, e, e]

/-- C91: the parameters of a Gaussian are not unique: exchanging the widths while turning by a right
angle, turning by half a turn, and changing the sign of a width all leave every value unchanged. -/
theorem gauss_same_profile (sx sy t dx dy : ℝ) :
    ellipse ⟨sy, sx, t + π / 2⟩ dx dy = ellipse ⟨sx, sy, t⟩ dx dy ∧
      ellipse ⟨sx, sy, t + π⟩ dx dy = ellipse ⟨sx, sy, t⟩ dx dy ∧
      ellipse ⟨-sx, sy, t⟩ dx dy = ellipse ⟨sx, sy, t⟩ dx dy ∧
      ellipse ⟨sx, -sy, t⟩ dx dy = ellipse ⟨sx, sy, t⟩ dx dy := by
  unfold ellipse
  simp only [cos_add_pi_div_two, sin_add_pi_div_two, cos_add_pi, sin_add_pi, neg_sq]
  refine ⟨?_, ?_, trivial, trivial⟩ <;> ring

/-- C91, the defect: two stars with exactly the same elongated profile, fitted with exchanged widths,
average to a round PSF, which neither of them has. -/
theorem gauss_mean_of_equal_stars (a b : ℝ) (ha : 0 < a) (hb : 0 < b) (hab : a ≠ b) (f f' : StarFit)
    (hf : f.gauss = ⟨a, b, 0⟩) (hf' : f'.gauss = ⟨b, a, π / 2⟩) (il : Option ℝ) :
    (∀ dx dy, ellipse f.gauss dx dy = ellipse f'.gauss dx dy) ∧
      (∀ dx dy, ellipse (meanModel il [f, f']) dx dy = (dx ^ 2 + dy ^ 2) / (2 * ((a + b) / 2) ^ 2)) ∧
      ellipse f.gauss 1 0 ≠ ellipse f.gauss 0 1 := by
  have hm : meanModel il [f, f'] = ⟨(a + b) / 2, (a + b) / 2, (π / 2) / 2⟩ := by
    rw [meanModel_few il [f, f'] (by simp)]
    have e1 : f.sx = a := congrArg Gauss.sx hf
    have e2 : f.sy = b := congrArg Gauss.sy hf
    have e3 : f.theta = 0 := congrArg Gauss.theta hf
    have e4 : f'.sx = b := congrArg Gauss.sx hf'
    have e5 : f'.sy = a := congrArg Gauss.sy hf'
    have e6 : f'.theta = π / 2 := congrArg Gauss.theta hf'
    simp only [List.map_cons, List.map_nil, List.sum_cons, List.sum_nil, List.length_cons,
      List.length_nil, e1, e2, e3, e4, e5, e6]
    congr 1 <;> push_cast <;> ring
  refine ⟨fun dx dy => ?_, fun dx dy => ?_, ?_⟩
  · rw [hf, hf']
    have := (gauss_same_profile a b 0 dx dy).1
    rw [zero_add] at this
    exact this.symm
  · rw [hm]
    unfold ellipse
    have t := sin_sq_add_cos_sq (π / 2 / 2)
    have hne : (a + b) / 2 ≠ 0 := by positivity
    simp only
    generalize π / 2 / 2 = u at t ⊢
    field_simp
    linear_combination (dx ^ 2 + dy ^ 2) * t
  · rw [hf]
    unfold ellipse
    simp only [cos_zero, sin_zero, mul_one, mul_zero, add_zero, zero_sub, sub_zero, neg_sq, one_pow]
    intro h
    have h2 : a ^ 2 = b ^ 2 := by
      have ha2 : a ^ 2 ≠ 0 := by positivity
      have hb2 : b ^ 2 ≠ 0 := by positivity
      field_simp at h
      linarith
    exact hab ((sq_eq_sq₀ ha.le hb.le).1 h2)

/-- C91, the defect for angles: the same star fitted at `θ = π/2` and at `-π/2` averages to angle zero,
turned by a right angle. -/
theorem gauss_mean_of_angles (a b : ℝ) (f f' : StarFit) (hf : f.gauss = ⟨a, b, π / 2⟩)
    (hf' : f'.gauss = ⟨a, b, -(π / 2)⟩) (il : Option ℝ) :
    (∀ dx dy, ellipse f.gauss dx dy = ellipse f'.gauss dx dy) ∧
      meanModel il [f, f'] = ⟨a, b, 0⟩ ∧
      (∀ dx dy, ellipse f.gauss dx dy = ellipse (meanModel il [f, f']) dy dx) := by
  have hm : meanModel il [f, f'] = ⟨a, b, 0⟩ := by
    rw [meanModel_few il [f, f'] (by simp)]
    have e1 : f.sx = a := congrArg Gauss.sx hf
    have e2 : f.sy = b := congrArg Gauss.sy hf
    have e3 : f.theta = π / 2 := congrArg Gauss.theta hf
    have e4 : f'.sx = a := congrArg Gauss.sx hf'
    have e5 : f'.sy = b := congrArg Gauss.sy hf'
    have e6 : f'.theta = -(π / 2) := congrArg Gauss.theta hf'
    simp only [List.map_cons, List.map_nil, List.sum_cons, List.sum_nil, List.length_cons,
      List.length_nil, e1, e2, e3, e4, e5, e6]
    congr 1 <;> push_cast <;> ring
  refine ⟨fun dx dy => ?_, hm, fun dx dy => ?_⟩
  · rw [hf, hf']
    unfold ellipse
    simp only [cos_neg, sin_neg, cos_pi_div_two, sin_pi_div_two]
    ring
  · rw [hm, hf]
    unfold ellipse
    simp only [cos_pi_div_two, sin_pi_div_two, cos_zero, sin_zero]
    ring

end PI
