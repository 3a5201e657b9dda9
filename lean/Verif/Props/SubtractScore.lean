import Verif.Props.SubtractReal
import Verif.Props.SubtractMore

/-! # Property C87: the score image S of `subtract` -/

namespace PI
open Complex Finset

/-- Circular convolution on an `h × w` grid. -/
noncomputable def circConv (h w : ℕ) (x y : ℕ → ℕ → ℂ) (i j : ℕ) : ℂ :=
  ∑ a ∈ range h, ∑ b ∈ range w, x a b * y ((i + (h - a)) % h) ((j + (w - b)) % w)

theorem dvd_shift_iff (n i a i' : ℕ) (ha : a < n) (hi' : i' < n) :
    (n : ℤ) ∣ (i' : ℤ) + ((a : ℤ) - (i : ℤ)) ↔ i' = (i + (n - a)) % n := by
  have hn : 0 < n := by omega
  have e : ((i + (n - a) : ℕ) : ℤ) = (i : ℤ) + ((n : ℤ) - a) := by push_cast [Nat.cast_sub ha.le]; ring
  constructor
  · intro h
    have h2 : (i' : ℤ) ≡ ((i + (n - a) : ℕ) : ℤ) [ZMOD n] := by
      rw [e]
      refine (Int.modEq_iff_dvd.2 ?_)
      have : (i : ℤ) + ((n : ℤ) - a) - i' = n - ((i' : ℤ) + ((a : ℤ) - i)) := by ring
      rw [this]
      exact dvd_sub (dvd_refl _) h
    have h3 := (Int.natCast_modEq_iff.1 h2)
    rw [Nat.ModEq, Nat.mod_eq_of_lt hi'] at h3
    exact h3
  · intro h
    have h3 : i' ≡ i + (n - a) [MOD n] := by rw [h]; exact Nat.mod_modEq _ _
    have h2 := (Int.natCast_modEq_iff.2 h3)
    rw [e] at h2
    have := (Int.modEq_iff_dvd.1 h2)
    have e2 : (i' : ℤ) + ((a : ℤ) - i) = n - ((i : ℤ) + ((n : ℤ) - a) - i') := by ring
    rw [e2]
    exact dvd_sub (dvd_refl _) this

/-- The convolution theorem. -/
theorem idftSum_dft_mul (x y : Img ℂ) (hh : y.h = x.h) (hw : y.w = x.w) (i j : ℕ) :
    (idftSum ((dft x).zip (· * ·) (dft y))).px i j =
      (x.h * x.w : ℂ) * circConv x.h x.w x.px y.px i j := by
  have s1 : (idftSum ((dft x).zip (· * ·) (dft y))).px i j =
      ∑ k ∈ range x.h, ∑ l ∈ range x.w, ∑ a ∈ range x.h, ∑ b ∈ range x.w, x.px a b *
        ((dft y).px k l * (tw x.h ((k : ℝ) * (((a : ℤ) - (i : ℤ) : ℤ) : ℝ)) *
          tw x.w ((l : ℝ) * (((b : ℤ) - (j : ℤ) : ℤ) : ℝ)))) := by
    change ∑ k ∈ range x.h, ∑ l ∈ range x.w, (dft x).px k l * (dft y).px k l *
      (tw x.h (-((k : ℝ) * i)) * tw x.w (-((l : ℝ) * j))) = _
    refine Finset.sum_congr rfl fun k _ => Finset.sum_congr rfl fun l _ => ?_
    change (∑ a ∈ range x.h, ∑ b ∈ range x.w, x.px a b *
      (tw x.h ((k : ℝ) * a) * tw x.w ((l : ℝ) * b))) * _ * _ = _
    rw [Finset.sum_mul, Finset.sum_mul]
    refine Finset.sum_congr rfl fun a _ => ?_
    rw [Finset.sum_mul, Finset.sum_mul]
    refine Finset.sum_congr rfl fun b _ => ?_
    push_cast
    rw [mul_sub, mul_sub, sub_eq_add_neg, sub_eq_add_neg, tw_add, tw_add]
    ring
  have s2 : ∑ k ∈ range x.h, ∑ l ∈ range x.w, ∑ a ∈ range x.h, ∑ b ∈ range x.w, x.px a b *
        ((dft y).px k l * (tw x.h ((k : ℝ) * (((a : ℤ) - (i : ℤ) : ℤ) : ℝ)) *
          tw x.w ((l : ℝ) * (((b : ℤ) - (j : ℤ) : ℤ) : ℝ)))) =
      ∑ a ∈ range x.h, ∑ b ∈ range x.w, x.px a b * ∑ k ∈ range x.h, ∑ l ∈ range x.w,
        ((dft y).px k l * (tw x.h ((k : ℝ) * (((a : ℤ) - (i : ℤ) : ℤ) : ℝ)) *
          tw x.w ((l : ℝ) * (((b : ℤ) - (j : ℤ) : ℤ) : ℝ)))) := by
    simp only [Finset.mul_sum]
    have e : ∀ k : ℕ, (∑ l ∈ range x.w, ∑ a ∈ range x.h, ∑ b ∈ range x.w, x.px a b *
        ((dft y).px k l * (tw x.h ((k : ℝ) * (((a : ℤ) - (i : ℤ) : ℤ) : ℝ)) *
          tw x.w ((l : ℝ) * (((b : ℤ) - (j : ℤ) : ℤ) : ℝ))))) =
        ∑ a ∈ range x.h, ∑ b ∈ range x.w, ∑ l ∈ range x.w, x.px a b *
        ((dft y).px k l * (tw x.h ((k : ℝ) * (((a : ℤ) - (i : ℤ) : ℤ) : ℝ)) *
          tw x.w ((l : ℝ) * (((b : ℤ) - (j : ℤ) : ℤ) : ℝ)))) := by
      intro k
      rw [Finset.sum_comm]
      exact Finset.sum_congr rfl fun a _ => Finset.sum_comm
    simp only [e]
    rw [Finset.sum_comm]
    exact Finset.sum_congr rfl fun a _ => Finset.sum_comm
  rw [s1, s2]
  unfold circConv
  rw [Finset.mul_sum]
  refine Finset.sum_congr rfl fun a ha => ?_
  rw [Finset.mul_sum]
  refine Finset.sum_congr rfl fun b hb => ?_
  have ha' := mem_range.1 ha
  have hb' := mem_range.1 hb
  have key := sum_dft_tw y (by omega) (by omega) ((a : ℤ) - (i : ℤ)) ((b : ℤ) - (j : ℤ))
  rw [hh, hw] at key
  rw [key, sum_pick x.h x.w y.px _ _ ((i + (x.h - a)) % x.h) ((j + (x.w - b)) % x.w)
    (Nat.mod_lt _ (by omega)) (Nat.mod_lt _ (by omega))
    (fun i' hi' => dvd_shift_iff x.h i a i' ha' hi') (fun j' hj' => dvd_shift_iff x.w j b j' hb' hj')]
  ring

/-- C87: the variance images are circular convolutions of (pixels + 1) with the squared kernel. -/
theorem score_variance (filled : Img ℝ) (kern : Img ℂ) (hh : kern.h = filled.h)
    (hw : kern.w = filled.w) (h0 : filled.h ≠ 0) (w0 : filled.w ≠ 0) (i j : ℕ) :
    (subV filled kern).px i j = circConv filled.h filled.w (fun a b => (filled.px a b : ℂ) + 1)
      (fun a b => kern.px a b ^ 2) i j := by
  set f : Img ℂ := filled.map fun x => ((x + 1 : ℝ) : ℂ) with hf
  set g : Img ℂ := kern.map fun z => z ^ 2 with hg
  have hpos : ((filled.h * filled.w : ℕ) : ℂ) ≠ 0 := by exact_mod_cast Nat.mul_ne_zero h0 w0
  have e : (fftOrtho f).zip (· * ·) (dft g) = ((dft f).zip (· * ·) (dft g)).map
      fun z => z / (Real.sqrt ((filled.h * filled.w : ℕ) : ℝ) : ℂ) := by
    unfold fftOrtho Img.zip Img.map
    congr 1
    funext k l
    change _ / (Real.sqrt ((filled.h * filled.w : ℕ) : ℝ) : ℂ) * _ = _
    ring
  change (ifftOrtho ((fftOrtho f).zip (· * ·) (dft g))).px i j = _
  rw [e]
  unfold ifftOrtho
  change (idftSum (((dft f).zip (· * ·) (dft g)).map _)).px i j /
    (Real.sqrt ((filled.h * filled.w : ℕ) : ℝ) : ℂ) = _
  rw [idftSum_map_div, idftSum_dft_mul f g hh hw, div_div, sqrt_mul_self_cast]
  change ((filled.h : ℂ) * (filled.w : ℂ)) * _ / _ = _
  push_cast at hpos ⊢
  rw [mul_div_cancel_left₀ _ hpos]
  unfold circConv
  refine Finset.sum_congr rfl fun a _ => Finset.sum_congr rfl fun b _ => ?_
  simp [hf, hg, Img.map]

/-- Zackay, Ofek & Gal-Yam (2016) eq. 28: the kernel applied to the reference image. -/
noncomputable def zackayKr (σr σn Fr Fn : ℝ) (Pr Pn : ℂ) : ℂ :=
  Fr * Fn ^ 2 * (starRingEnd ℂ) Pr * normSq Pn /
    ((σn ^ 2 * Fr ^ 2 * normSq Pr + σr ^ 2 * Fn ^ 2 * normSq Pn : ℝ) : ℂ)

/-- eq. 29: the kernel applied to the new image. -/
noncomputable def zackayKn (σr σn Fr Fn : ℝ) (Pr Pn : ℂ) : ℂ :=
  Fn * Fr ^ 2 * (starRingEnd ℂ) Pn * normSq Pr /
    ((σn ^ 2 * Fr ^ 2 * normSq Pr + σr ^ 2 * Fn ^ 2 * normSq Pn : ℝ) : ℂ)

/-- Zackay's reference kernel for zero points 1 and `b`, as an image. -/
noncomputable def krImg (ref new : SubImg) (b : ℝ) : Img ℂ :=
  ifftOrtho ⟨ref.h, ref.w, fun k l =>
    zackayKr ref.var new.var 1 b (ref.psfHat.px k l) (new.psfHat.px k l)⟩

/-- Zackay's kernel of the new image for zero points 1 and `b`, as an image. -/
noncomputable def knImg (ref new : SubImg) (b : ℝ) : Img ℂ :=
  ifftOrtho ⟨ref.h, ref.w, fun k l =>
    zackayKn ref.var new.var 1 b (ref.psfHat.px k l) (new.psfHat.px k l)⟩

theorem normHat_spec (ref new : SubImg) (b : ℝ) (k l : ℕ) :
    normHat ref new b k l = ((new.var ^ 2 * 1 ^ 2 * normSq (ref.psfHat.px k l) +
      ref.var ^ 2 * b ^ 2 * normSq (new.psfHat.px k l) : ℝ) : ℂ) := by
  rw [normHat_eq]
  congr 1
  unfold normReal
  ring

theorem ifftOrtho_smul (h w : ℕ) (c : ℂ) (f : ℕ → ℕ → ℂ) (i j : ℕ) :
    (ifftOrtho ⟨h, w, fun k l => c * f k l⟩).px i j = c * (ifftOrtho ⟨h, w, f⟩).px i j := by
  change (∑ k ∈ range h, ∑ l ∈ range w, c * f k l * _) / _ =
    c * ((∑ k ∈ range h, ∑ l ∈ range w, f k l * _) / _)
  rw [mul_div_assoc', Finset.mul_sum]
  congr 1
  refine Finset.sum_congr rfl fun k _ => ?_
  rw [Finset.mul_sum]
  exact Finset.sum_congr rfl fun l _ => by ring

/-- C87: the kernels used for the noise are `new.zp / b` times Zackay's. -/
theorem score_kernels (ref new : SubImg) (zpNew b : ℝ) (hb : b ≠ 0) (i j : ℕ) :
    (subKr ref new zpNew b).px i j = ((zpNew / b : ℝ) : ℂ) * (krImg ref new b).px i j ∧
    (subKn ref new zpNew b).px i j = ((zpNew / b : ℝ) : ℂ) * (knImg ref new b).px i j := by
  have hb' : (b : ℂ) ≠ 0 := by exact_mod_cast hb
  constructor
  · unfold krImg
    rw [← ifftOrtho_smul]
    unfold subKr
    congr 3
    funext k l
    rw [normHat_spec]
    unfold zackayKr
    rw [← mul_conj]
    push_cast
    field_simp
  · unfold knImg
    rw [← ifftOrtho_smul]
    unfold subKn
    congr 3
    funext k l
    rw [normHat_spec]
    unfold zackayKn
    rw [← mul_conj]
    push_cast
    field_simp

/-- The kernels are real images. -/
theorem kernels_real (ref new : SubImg) (hh : new.h = ref.h) (hw : new.w = ref.w) (b : ℝ) (i j : ℕ) :
    ((krImg ref new b).px i j).im = 0 ∧ ((knImg ref new b).px i j).im = 0 := by
  have e : ∀ k < ref.h, ∀ l < ref.w,
      ref.psfHat.px (negIdx ref.h k) (negIdx ref.w l) = (starRingEnd ℂ) (ref.psfHat.px k l) ∧
      new.psfHat.px (negIdx ref.h k) (negIdx ref.w l) = (starRingEnd ℂ) (new.psfHat.px k l) := by
    intro k hk l hl
    refine ⟨hermitian_psfHat ref k hk l hl, ?_⟩
    have := hermitian_psfHat new k (by change k < new.h; omega) l (by change l < new.w; omega)
    change new.psfHat.px (negIdx new.h k) (negIdx new.w l) = _ at this
    rwa [hh, hw] at this
  constructor
  · refine ifftOrtho_real _ (fun k hk l hl => ?_) i j
    obtain ⟨e1, e2⟩ := e k hk l hl
    change zackayKr _ _ _ _ (ref.psfHat.px (negIdx ref.h k) (negIdx ref.w l))
      (new.psfHat.px (negIdx ref.h k) (negIdx ref.w l)) = _
    rw [e1, e2]
    simp only [zackayKr, map_div₀, map_mul, map_pow, conj_ofReal, normSq_conj]
  · refine ifftOrtho_real _ (fun k hk l hl => ?_) i j
    obtain ⟨e1, e2⟩ := e k hk l hl
    change zackayKn _ _ _ _ (ref.psfHat.px (negIdx ref.h k) (negIdx ref.w l))
      (new.psfHat.px (negIdx ref.h k) (negIdx ref.w l)) = _
    rw [e1, e2]
    simp only [zackayKn, map_div₀, map_mul, map_pow, conj_ofReal, normSq_conj]

/-- The position `S` is centred on: the centre of mass of `P`, or its peak if they differ by more
than 30 pixels on an axis. -/
def ScoreCentre (peak : ℕ × ℕ) (P : Img ℝ) (c : ℝ × ℝ) : Prop :=
  (|(centerOfMass P).1 - peak.1| ≤ 30 ∧ |(centerOfMass P).2 - peak.2| ≤ 30 → c = centerOfMass P) ∧
  (¬ (|(centerOfMass P).1 - peak.1| ≤ 30 ∧ |(centerOfMass P).2 - peak.2| ≤ 30) →
    c = ((peak.1 : ℝ), (peak.2 : ℝ)))

theorem subCenter_spec (peak : Img ℝ → ℕ × ℕ) (P : Img ℝ) :
    ScoreCentre (peak P) P (subCenter peak P) := by
  unfold ScoreCentre subCenter
  constructor
  · rintro ⟨h1, h2⟩
    simp only
    rw [if_neg]
    push Not
    exact ⟨h1, h2⟩
  · intro h
    simp only
    rw [if_pos]
    by_contra hc
    push Not at hc
    exact h hc

/-- The matched filter of Zackay's eq. 12/27 at one frequency: `kn·N − kr·R`, the new image moved by
`c` minus the centre of the reference's PSF, the reference image by `c` minus the centre of the new
image's PSF plus the fitted shift. -/
noncomputable def scoreHat (ref new : SubImg) (b dx dy : ℝ) (c : ℝ × ℝ) (k l : ℕ) : ℂ :=
  zackayKn ref.var new.var 1 b (ref.psfHat.px k l) (new.psfHat.px k l) * new.interpedHat.px k l *
      shiftPhase ref.h ref.w (c.1 - (centerOfMass ref.psf).1, c.2 - (centerOfMass ref.psf).2) k l -
    zackayKr ref.var new.var 1 b (ref.psfHat.px k l) (new.psfHat.px k l) * ref.interpedHat.px k l *
      shiftPhase ref.h ref.w (c.1 - (centerOfMass new.psf).1 + dx,
        c.2 - (centerOfMass new.psf).2 + dy) k l

theorem shiftPhase_add (h w : ℕ) (d e : ℝ × ℝ) (k l : ℕ) :
    shiftPhase h w (d.1 + e.1, d.2 + e.2) k l = shiftPhase h w d k l * shiftPhase h w e k l := by
  unfold shiftPhase
  simp only
  rw [mul_add, mul_add, tw_add, tw_add]
  ring

/-- C87: every coefficient of the score image's numerator. -/
theorem score_hat (peak : Img ℝ → ℕ × ℕ) (ref new : SubImg) (hh : new.h = ref.h) (hw : new.w = ref.w)
    (b dx dy : ℝ) (hd : dZp ref new b ≠ 0) (k l : ℕ) :
    (sHat peak ref new b dx dy).px k l =
      scoreHat ref new b dx dy (subCenter peak (subP ref new b)) k l := by
  set c := subCenter peak (subP ref new b) with hc
  change (dZp ref new b : ℂ) * (dHat ref new b dx dy).px k l *
    (starRingEnd ℂ) ((pHat ref new b).px k l) * shiftPhase ref.h ref.w c k l = _
  rw [subtract_D_is_zackay ref new hh hw, subtract_P_is_zackay]
  have hph : ∀ d, shiftPhase new.h new.w d k l = shiftPhase ref.h ref.w d k l := by
    intro d; rw [hh, hw]
  have e1 : shiftPhase ref.h ref.w (c.1 - (centerOfMass ref.psf).1, c.2 - (centerOfMass ref.psf).2) k l =
      shiftPhase ref.h ref.w c k l * shiftPhase ref.h ref.w (negPair (centerOfMass ref.psf)) k l := by
    rw [← shiftPhase_add]; rfl
  have e2 : shiftPhase ref.h ref.w (c.1 - (centerOfMass new.psf).1 + dx,
        c.2 - (centerOfMass new.psf).2 + dy) k l =
      shiftPhase ref.h ref.w c k l * shiftPhase ref.h ref.w (negPair (centerOfMass new.psf)) k l *
        shiftPhase ref.h ref.w (dx, dy) k l := by
    rw [← shiftPhase_add, ← shiftPhase_add]; rfl
  unfold scoreHat
  rw [e1, e2]
  unfold zackayD zackayPD
  rw [normSq_centredPsf, normSq_centredPsf]
  unfold zackayKn zackayKr centredPsf
  rw [hph, ← subtract_dzp_is_zackay]
  have hN : (0 : ℝ) ≤ new.var ^ 2 * 1 ^ 2 * normSq (ref.psfHat.px k l) +
      ref.var ^ 2 * b ^ 2 * normSq (new.psfHat.px k l) := by
    have h1 := normSq_nonneg (ref.psfHat.px k l)
    have h2 := normSq_nonneg (new.psfHat.px k l)
    positivity
  set N0 : ℝ := new.var ^ 2 * 1 ^ 2 * normSq (ref.psfHat.px k l) +
      ref.var ^ 2 * b ^ 2 * normSq (new.psfHat.px k l) with hN0
  have hs : ((Real.sqrt N0 : ℝ) : ℂ) * ((Real.sqrt N0 : ℝ) : ℂ) = (N0 : ℂ) := by
    rw [← ofReal_mul, Real.mul_self_sqrt hN]
  have hd' : (dZp ref new b : ℂ) ≠ 0 := by exact_mod_cast hd
  simp only [map_div₀, map_mul, conj_ofReal]
  rw [← mul_conj (ref.psfHat.px k l), ← mul_conj (new.psfHat.px k l)]
  generalize (Real.sqrt N0 : ℝ) = s at hs ⊢
  rw [← hs]
  by_cases h0 : (s : ℂ) = 0
  · simp [h0]
  · push_cast
    field_simp

/-- The squared denominator of Zackay's corrected score (eq. 25–31, shot noise only, for an image whose
pixels plus one are the variances) at pixel `(i, j)`. -/
noncomputable def scoreVar (ref new : SubImg) (b : ℝ) (i j : ℕ) : ℂ :=
  circConv ref.h ref.w (fun a b' => (new.filled.px a b' : ℂ) + 1)
      (fun a b' => (knImg ref new b).px a b' ^ 2) i j +
    circConv ref.h ref.w (fun a b' => (ref.filled.px a b' : ℂ) + 1)
      (fun a b' => (krImg ref new b).px a b' ^ 2) i j

theorem circConv_smul (h w : ℕ) (x y : ℕ → ℕ → ℂ) (c : ℂ) (i j : ℕ) :
    circConv h w x (fun a b => c * y a b) i j = c * circConv h w x y i j := by
  unfold circConv
  rw [Finset.mul_sum]
  refine Finset.sum_congr rfl fun a _ => ?_
  rw [Finset.mul_sum]
  exact Finset.sum_congr rfl fun b _ => by ring

/-- Both variance images together: the square of `new.zp / b` times Zackay's. -/
theorem score_var_total (ref new : SubImg)
    (hfr : ref.filled.shape = (ref.h, ref.w)) (hfn : new.filled.shape = (ref.h, ref.w))
    (h0 : ref.h ≠ 0) (w0 : ref.w ≠ 0) (zpNew b : ℝ) (hb : b ≠ 0) (i j : ℕ) :
    (subV new.filled (subKn ref new zpNew b)).px i j + (subV ref.filled (subKr ref new zpNew b)).px i j =
      (((zpNew / b) ^ 2 : ℝ) : ℂ) * scoreVar ref new b i j := by
  have r1 : ref.filled.h = ref.h := congrArg Prod.fst hfr
  have r2 : ref.filled.w = ref.w := congrArg Prod.snd hfr
  have n1 : new.filled.h = ref.h := congrArg Prod.fst hfn
  have n2 : new.filled.w = ref.w := congrArg Prod.snd hfn
  rw [score_variance new.filled _ (by rw [n1]; rfl) (by rw [n2]; rfl) (by omega) (by omega),
    score_variance ref.filled _ (by rw [r1]; rfl) (by rw [r2]; rfl) (by omega) (by omega)]
  unfold scoreVar
  rw [n1, n2, r1, r2, mul_add, ← circConv_smul, ← circConv_smul]
  congr 2
  · funext a b'
    rw [(score_kernels ref new zpNew b hb a b').2]
    push_cast
    ring
  · funext a b'
    rw [(score_kernels ref new zpNew b hb a b').1]
    push_cast
    ring

theorem circConv_real_nonneg (h w : ℕ) (x : ℕ → ℕ → ℝ) (y : ℕ → ℕ → ℂ)
    (hx : ∀ a < h, ∀ b < w, -1 ≤ x a b) (hy : ∀ a b, (y a b).im = 0) (i j : ℕ) :
    ∃ v : ℝ, 0 ≤ v ∧ circConv h w (fun a b => (x a b : ℂ) + 1) (fun a b => y a b ^ 2) i j = (v : ℂ) := by
  refine ⟨∑ a ∈ range h, ∑ b ∈ range w, (x a b + 1) *
    ((y ((i + (h - a)) % h) ((j + (w - b)) % w)).re) ^ 2, ?_, ?_⟩
  · refine Finset.sum_nonneg fun a ha => Finset.sum_nonneg fun b hb => ?_
    have := hx a (mem_range.1 ha) b (mem_range.1 hb)
    exact mul_nonneg (by linarith) (sq_nonneg _)
  · unfold circConv
    push_cast
    refine Finset.sum_congr rfl fun a _ => Finset.sum_congr rfl fun b _ => ?_
    have : y ((i + (h - a)) % h) ((j + (w - b)) % w) =
        ((y ((i + (h - a)) % h) ((j + (w - b)) % w)).re : ℂ) := by
      apply Complex.ext
      · rfl
      · rw [hy]; rfl
    rw [← this]

/-- C87: if no pixel is below −1 the denominator is a non-negative real number. -/
theorem scoreVar_real_nonneg (ref new : SubImg) (hh : new.h = ref.h) (hw : new.w = ref.w) (b : ℝ)
    (hr : ∀ i < ref.h, ∀ j < ref.w, -1 ≤ ref.filled.px i j)
    (hn : ∀ i < ref.h, ∀ j < ref.w, -1 ≤ new.filled.px i j) (i j : ℕ) :
    ∃ v : ℝ, 0 ≤ v ∧ scoreVar ref new b i j = (v : ℂ) := by
  obtain ⟨v1, p1, e1⟩ := circConv_real_nonneg ref.h ref.w new.filled.px (knImg ref new b).px hn
    (fun a b' => (kernels_real ref new hh hw b a b').2) i j
  obtain ⟨v2, p2, e2⟩ := circConv_real_nonneg ref.h ref.w ref.filled.px (krImg ref new b).px hr
    (fun a b' => (kernels_real ref new hh hw b a b').1) i j
  refine ⟨v1 + v2, by linarith, ?_⟩
  unfold scoreVar
  rw [e1, e2]
  push_cast
  rfl

/-- C87, C24: whatever the options, a call that returns does so with some fitted scale and shift, and
then every pixel of D, P and S is given in closed form; for S the pixels must not be below −1. The
score is Zackay's corrected score times `|b / new.zp|`. -/
theorem subtract_output (env : SubEnv) (o : SubOpts) (ref new : SubImg) (out : SubOut)
    (h : subtract env o ref new = .ok out) (h0 : ref.h ≠ 0) (w0 : ref.w ≠ 0)
    (hfr : ref.filled.shape = (ref.h, ref.w)) (hfn : new.filled.shape = (ref.h, ref.w)) :
    ∃ (z : ℝ × ℝ) (b dx dy : ℝ), env.zps = .ok z ∧
      scaleShift env.opt o env.gamma out.mask ref new z.1 z.2 = .ok (b, dx, dy) ∧
      (∀ i j, out.D.px i j = (∑ k ∈ range ref.h, ∑ l ∈ range ref.w,
        zackayD ref.var new.var 1 b (centredPsf ref k l) (centredPsf new k l)
          (ref.interpedHat.px k l * shiftPhase ref.h ref.w (dx, dy) k l) (new.interpedHat.px k l) *
        (tw ref.h (-((k : ℝ) * i)) * tw ref.w (-((l : ℝ) * j)))) /
          (Real.sqrt ((ref.h * ref.w : ℕ) : ℝ) : ℂ)) ∧
      (∀ i j, ((out.P.px i j : ℝ) : ℂ) = (∑ k ∈ range ref.h, ∑ l ∈ range ref.w,
        zackayPD ref.var new.var 1 b (ref.psfHat.px k l) (new.psfHat.px k l) *
        (tw ref.h (-((k : ℝ) * i)) * tw ref.w (-((l : ℝ) * j)))) /
          (Real.sqrt ((ref.h * ref.w : ℕ) : ℝ) : ℂ)) ∧
      (b ≠ 0 → (ref.var ≠ 0 ∨ new.var ≠ 0) →
        (∀ i < ref.h, ∀ j < ref.w, -1 ≤ ref.filled.px i j) →
        (∀ i < ref.h, ∀ j < ref.w, -1 ≤ new.filled.px i j) →
        ∃ c, ScoreCentre (env.peak out.P) out.P c ∧ ∀ i j, ∃ v : ℝ, 0 ≤ v ∧
          scoreVar ref new b i j = (v : ℂ) ∧
          out.S.px i j = |b / z.2| * (((∑ k ∈ range ref.h, ∑ l ∈ range ref.w,
              scoreHat ref new b dx dy c k l *
              (tw ref.h (-((k : ℝ) * i)) * tw ref.w (-((l : ℝ) * j)))) /
            (Real.sqrt ((ref.h * ref.w : ℕ) : ℝ) : ℂ)).re / Real.sqrt v)) := by
  unfold subtract at h
  by_cases hs : new.interped.shape ≠ ref.interped.shape
  · rw [if_pos hs] at h; cases h
  rw [if_neg hs] at h
  push Not at hs
  have hh : new.h = ref.h := congrArg Prod.fst hs
  have hw : new.w = ref.w := congrArg Prod.snd hs
  simp only [bind, Except.bind] at h
  cases hm : new.mask.maskOr ref.mask with
  | error e => rw [hm] at h; cases h
  | ok m =>
  rw [hm] at h
  cases hz : env.zps with
  | error e => rw [hz] at h; cases h
  | ok z =>
  rw [hz] at h
  simp only at h
  split at h
  · cases h
  cases hsc : scaleShift env.opt o env.gamma m ref new z.1 z.2 with
  | error e => rw [hsc] at h; cases h
  | ok s =>
  rw [hsc] at h
  obtain rfl := (Except.ok.inj h).symm
  obtain ⟨b, dx, dy⟩ := s
  refine ⟨z, b, dx, dy, rfl, hsc, ?_, ?_, ?_⟩
  · intro i j
    change (∑ k ∈ range ref.h, ∑ l ∈ range ref.w, (dHat ref new b dx dy).px k l * _) / _ = _
    congr 1
    refine Finset.sum_congr rfl fun k _ => Finset.sum_congr rfl fun l _ => ?_
    rw [subtract_D_is_zackay ref new hh hw]
    rfl
  · intro i j
    change (((subP ref new b).px i j : ℝ) : ℂ) = _
    rw [subtract_P_real ref new hh hw]
    change (∑ k ∈ range ref.h, ∑ l ∈ range ref.w, (pHat ref new b).px k l * _) / _ = _
    congr 1
    refine Finset.sum_congr rfl fun k _ => Finset.sum_congr rfl fun l _ => ?_
    rw [subtract_P_is_zackay]
    rfl
  · intro hb hv hr hn
    refine ⟨_, subCenter_spec env.peak (subP ref new b), fun i j => ?_⟩
    obtain ⟨v, hv0, hve⟩ := scoreVar_real_nonneg ref new hh hw b hr hn i j
    refine ⟨v, hv0, hve, ?_⟩
    have hd : dZp ref new b ≠ 0 := by
      unfold dZp
      refine div_ne_zero hb (Real.sqrt_ne_zero'.2 ?_)
      rcases hv with hv | hv
      · have : 0 < ref.var ^ 2 * b ^ 2 := by positivity
        have := sq_nonneg new.var
        linarith
      · have : 0 < new.var ^ 2 := by positivity
        have : 0 ≤ ref.var ^ 2 * b ^ 2 := by positivity
        linarith
    have hS : (ifftOrtho (sHat env.peak ref new b dx dy)).px i j = (∑ k ∈ range ref.h, ∑ l ∈ range ref.w,
              scoreHat ref new b dx dy (subCenter env.peak (subP ref new b)) k l *
              (tw ref.h (-((k : ℝ) * i)) * tw ref.w (-((l : ℝ) * j)))) /
            (Real.sqrt ((ref.h * ref.w : ℕ) : ℝ) : ℂ) := by
      change (∑ k ∈ range ref.h, ∑ l ∈ range ref.w, (sHat env.peak ref new b dx dy).px k l * _) / _ = _
      congr 1
      refine Finset.sum_congr rfl fun k _ => Finset.sum_congr rfl fun l _ => ?_
      rw [score_hat env.peak ref new hh hw b dx dy hd]
      rfl
    rw [← hS]
    change ((ifftOrtho (sHat env.peak ref new b dx dy)).px i j /
      csqrt ((subV new.filled (subKn ref new z.2 b)).px i j +
        (subV ref.filled (subKr ref new z.2 b)).px i j)).re = _
    rw [score_var_total ref new hfr hfn h0 w0 z.2 b hb, hve, ← ofReal_mul,
      csqrt_ofReal_nonneg _ (by positivity), Real.sqrt_mul (sq_nonneg _), Real.sqrt_sq_eq_abs,
      div_ofReal_re, abs_div, abs_div]
    rw [div_mul_eq_div_div, div_div_eq_mul_div]
    ring

theorem csqrt_scale (c : ℝ) (hc : c ≠ 0) (v : ℂ) : csqrt (((c ^ 2 : ℝ) : ℂ) * v) = (|c| : ℝ) * csqrt v := by
  unfold csqrt
  by_cases hv : v = 0
  · rw [hv, mul_zero, zero_cpow (by norm_num), mul_zero]
  · have h2 : 0 < c ^ 2 := by positivity
    have hne : (((c ^ 2 : ℝ) : ℂ) * v) ≠ 0 := mul_ne_zero (by exact_mod_cast h2.ne') hv
    rw [cpow_def_of_ne_zero hne, cpow_def_of_ne_zero hv, log_ofReal_mul h2 hv, add_mul, exp_add]
    congr 1
    rw [← sq_abs, Real.log_pow]
    push_cast
    rw [show (2 * ((Real.log |c| : ℝ) : ℂ)) * (1 / 2) = ((Real.log |c| : ℝ) : ℂ) by ring, ← ofReal_exp,
      Real.exp_log (abs_pos.2 hc)]

/-- C87: multiplying both photometric zero points by the same number changes neither D nor P but divides S
by that number, although only the ratio of the zero points has a meaning. -/
theorem subtract_score_units (env env' : SubEnv) (it it' : Bool) (ref new : SubImg) (h w : ℕ)
    (hr : ref.interped.shape = (h, w)) (hn : new.interped.shape = (h, w))
    (hmr : ref.mask.HasShape h w) (hmn : new.mask.HasShape h w)
    (hfr : ref.filled.shape = (h, w)) (hfn : new.filled.shape = (h, w)) (h0 : h ≠ 0) (w0 : w ≠ 0)
    (zr zn c : ℝ) (hzr : zr ≠ 0) (hzn : zn ≠ 0) (hc : c ≠ 0)
    (hz : env.zps = .ok (zr, zn)) (hz' : env'.zps = .ok (c * zr, c * zn)) (hp : env'.peak = env.peak)
    (hf : env.fitted = true) (hf' : env'.fitted = true) :
    ∃ out out', subtract env ⟨false, false, it⟩ ref new = .ok out ∧
      subtract env' ⟨false, false, it'⟩ ref new = .ok out' ∧
      out'.D = out.D ∧ out'.P = out.P ∧ ∀ i j, out'.S.px i j = out.S.px i j / |c| := by
  obtain ⟨out, e, hD, hP, hS⟩ := subtract_returns env it ref new h w hr hn hmr hmn _ hz (Or.inl hf)
  obtain ⟨out', e', hD', hP', hS'⟩ :=
    subtract_returns env' it' ref new h w hr hn hmr hmn _ hz' (Or.inl hf')
  have hb : c * zn / (c * zr) = zn / zr := mul_div_mul_left _ _ hc
  simp only [hb] at hD' hP' hS'
  refine ⟨out, out', e, e', by rw [hD, hD'], by rw [hP, hP'], fun i j => ?_⟩
  have rh : ref.h = h := congrArg Prod.fst hr
  have rw' : ref.w = w := congrArg Prod.snd hr
  have hb0 : zn / zr ≠ 0 := div_ne_zero hzn hzr
  have hfr' : ref.filled.shape = (ref.h, ref.w) := by rw [hfr, rh, rw']
  have hfn' : new.filled.shape = (ref.h, ref.w) := by rw [hfn, rh, rw']
  rw [hS, hS', hp]
  change ((ifftOrtho (sHat env.peak ref new (zn / zr) 0 0)).px i j /
      csqrt ((subV new.filled (subKn ref new (c * zn) (zn / zr))).px i j +
        (subV ref.filled (subKr ref new (c * zn) (zn / zr))).px i j)).re =
    ((ifftOrtho (sHat env.peak ref new (zn / zr) 0 0)).px i j /
      csqrt ((subV new.filled (subKn ref new zn (zn / zr))).px i j +
        (subV ref.filled (subKr ref new zn (zn / zr))).px i j)).re / |c|
  rw [score_var_total ref new hfr' hfn' (by omega) (by omega) _ _ hb0,
    score_var_total ref new hfr' hfn' (by omega) (by omega) _ _ hb0]
  have e3 : c * zn / (zn / zr) = c * (zn / (zn / zr)) := by ring
  rw [e3, mul_pow, ofReal_mul, mul_assoc, csqrt_scale c hc, mul_comm ((|c| : ℝ) : ℂ), ← div_div,
    div_ofReal_re]

example : ∃ out out', subtract (tinyEnv 1 2) ⟨false, false, false⟩ (tinySub 5 7) (tinySub 1 0) = .ok out ∧
    subtract (tinyEnv (10 * 1) (10 * 2)) ⟨false, false, false⟩ (tinySub 5 7) (tinySub 1 0) = .ok out' ∧
    out'.D = out.D ∧ out'.P = out.P ∧ ∀ i j, out'.S.px i j = out.S.px i j / |10| :=
  subtract_score_units (tinyEnv 1 2) (tinyEnv (10 * 1) (10 * 2)) false false (tinySub 5 7) (tinySub 1 0) 1 2
    rfl rfl (by intro a h; cases h) (by intro a h; cases h) rfl rfl (by norm_num) (by norm_num)
    1 2 10 (by norm_num) (by norm_num) (by norm_num) rfl rfl rfl rfl rfl

/-- C29: the total of the P that `subtract` returns. -/
theorem subtract_returned_psf_total (env : SubEnv) (o : SubOpts) (ref new : SubImg) (out : SubOut)
    (h : subtract env o ref new = .ok out) (hpos : 0 < ref.h * ref.w)
    (fr : ref.psf.h ≤ ref.h ∧ ref.psf.w ≤ ref.w) (fn : new.psf.h ≤ new.h ∧ new.psf.w ≤ new.w)
    (hr : rsum ref.psf ≠ 0) (hn : rsum new.psf ≠ 0) (hv : ref.var ≠ 0 ∨ new.var ≠ 0) :
    ∃ (z : ℝ × ℝ) (b dx dy : ℝ), env.zps = .ok z ∧
      scaleShift env.opt o env.gamma out.mask ref new z.1 z.2 = .ok (b, dx, dy) ∧
      (b ≠ 0 → rsum out.P =
        rsum ref.psf * rsum new.psf * Real.sqrt (new.var ^ 2 + b ^ 2 * ref.var ^ 2) /
          Real.sqrt (new.var ^ 2 * rsum ref.psf ^ 2 + b ^ 2 * ref.var ^ 2 * rsum new.psf ^ 2)) := by
  unfold subtract at h
  by_cases hs : new.interped.shape ≠ ref.interped.shape
  · rw [if_pos hs] at h; cases h
  rw [if_neg hs] at h
  push Not at hs
  have hh : new.h = ref.h := congrArg Prod.fst hs
  have hw : new.w = ref.w := congrArg Prod.snd hs
  simp only [bind, Except.bind] at h
  cases hm : new.mask.maskOr ref.mask with
  | error e => rw [hm] at h; cases h
  | ok m =>
  rw [hm] at h
  cases hz : env.zps with
  | error e => rw [hz] at h; cases h
  | ok z =>
  rw [hz] at h
  simp only at h
  split at h
  · cases h
  cases hsc : scaleShift env.opt o env.gamma m ref new z.1 z.2 with
  | error e => rw [hsc] at h; cases h
  | ok s =>
  rw [hsc] at h
  obtain rfl := (Except.ok.inj h).symm
  obtain ⟨b, dx, dy⟩ := s
  exact ⟨z, b, dx, dy, rfl, hsc, fun hb => subtract_psf_total ref new hh hw hpos fr fn hr hn b hb hv⟩

end PI
