import Verif.Props.Translate

/-!
# Property C125: subtract and the unit of the counts

Measuring both images in another unit multiplies pixels, backgrounds and noise estimates by a constant.
-/

namespace PI

open Complex Finset

/-- An array in another unit. -/
noncomputable def Img.times (k : ℝ) (a : Img ℝ) : Img ℝ := a.map fun x => k * x

/-- The image object in another unit. -/
noncomputable def SubImg.times (k : ℝ) (d : SubImg) : SubImg :=
  ⟨d.interped.times k, d.mask, d.filled.times k, d.psf, k * d.var⟩

section
variable (k : ℝ) (hk : 0 < k) (ref new : SubImg)

theorem times_psfHat (d : SubImg) : (d.times k).psfHat = d.psfHat := rfl

theorem times_interpedHat (d : SubImg) (a b : ℕ) :
    (d.times k).interpedHat.px a b = k * d.interpedHat.px a b := by
  change (∑ i ∈ range d.interped.h, ∑ j ∈ range d.interped.w, ((k * d.interped.px i j : ℝ) : ℂ) *
      (tw d.interped.h ((a : ℝ) * i) * tw d.interped.w ((b : ℝ) * j))) / _ =
    k * ((∑ i ∈ range d.interped.h, ∑ j ∈ range d.interped.w, ((d.interped.px i j : ℝ) : ℂ) *
      (tw d.interped.h ((a : ℝ) * i) * tw d.interped.w ((b : ℝ) * j))) / _)
  rw [← mul_div_assoc, Finset.mul_sum]
  refine congrArg₂ _ ?_ rfl
  refine Finset.sum_congr rfl fun i _ => ?_
  rw [Finset.mul_sum]
  refine Finset.sum_congr rfl fun j _ => ?_
  push_cast
  ring

theorem times_dHatR (a b : ℕ) : (dHatR (ref.times k) (new.times k)).px a b = k * (dHatR ref new).px a b := by
  change new.psfHat.px a b * (ref.times k).interpedHat.px a b * shiftPhase new.h new.w _ a b =
    k * (new.psfHat.px a b * ref.interpedHat.px a b * shiftPhase new.h new.w _ a b)
  rw [times_interpedHat]
  ring_nf
  rfl

theorem times_dHatN (a b : ℕ) : (dHatN (ref.times k) (new.times k)).px a b = k * (dHatN ref new).px a b := by
  change ref.psfHat.px a b * (new.times k).interpedHat.px a b * shiftPhase ref.h ref.w _ a b =
    k * (ref.psfHat.px a b * new.interpedHat.px a b * shiftPhase ref.h ref.w _ a b)
  rw [times_interpedHat]
  ring_nf
  rfl

theorem times_normReal (b : ℝ) (x y : ℕ) :
    normReal (ref.times k) (new.times k) b x y = k ^ 2 * normReal ref new b x y := by
  unfold normReal
  change (k * new.var) ^ 2 * normSq (ref.psfHat.px x y) + b ^ 2 * (k * ref.var) ^ 2 * normSq (new.psfHat.px x y) = _
  ring

include hk in
theorem times_csqrt (b : ℝ) (x y : ℕ) :
    csqrt (normHat (ref.times k) (new.times k) b x y) = k * csqrt (normHat ref new b x y) := by
  rw [csqrt_normHat, csqrt_normHat, times_normReal, Real.sqrt_mul (sq_nonneg k), Real.sqrt_sq hk.le, ofReal_mul]

include hk in
theorem times_dHat (b : ℝ) : dHat (ref.times k) (new.times k) b 0 0 = dHat ref new b 0 0 := by
  have hk0 : (k : ℂ) ≠ 0 := by exact_mod_cast hk.ne'
  unfold dHat
  simp only [and_self, if_true]
  refine congrArg (Img.mk ref.h ref.w) ?_
  funext x y
  rw [times_csqrt k hk, times_dHatN]
  change (_ - b * (dHatR (ref.times k) (new.times k)).px x y) / _ = (_ - b * (dHatR ref new).px x y) / _
  rw [times_dHatR, mul_left_comm (b : ℂ), ← mul_sub, mul_div_mul_left _ _ hk0]

include hk in
theorem times_dZp (b : ℝ) : dZp (ref.times k) (new.times k) b = dZp ref new b / k := by
  unfold dZp
  change b / Real.sqrt ((k * ref.var) ^ 2 * b ^ 2 + (k * new.var) ^ 2) = _
  rw [show (k * ref.var) ^ 2 * b ^ 2 + (k * new.var) ^ 2 = k ^ 2 * (ref.var ^ 2 * b ^ 2 + new.var ^ 2) by ring,
    Real.sqrt_mul (sq_nonneg k), Real.sqrt_sq hk.le, div_div, mul_comm]

include hk in
theorem times_pHat (b : ℝ) : pHat (ref.times k) (new.times k) b = pHat ref new b := by
  have hk0 : (k : ℂ) ≠ 0 := by exact_mod_cast hk.ne'
  unfold pHat
  refine congrArg (Img.mk ref.h ref.w) ?_
  funext x y
  rw [times_csqrt k hk, times_dZp k hk, times_psfHat, times_psfHat, ofReal_div,
    show (k : ℂ) * csqrt (normHat ref new b x y) * (dZp ref new b / k : ℂ) =
      csqrt (normHat ref new b x y) * dZp ref new b by field_simp]

include hk in
theorem times_subP (b : ℝ) : subP (ref.times k) (new.times k) b = subP ref new b := by
  unfold subP
  rw [times_pHat k hk]

include hk in
theorem times_sHat (peak : Img ℝ → ℕ × ℕ) (b : ℝ) (x y : ℕ) :
    (sHat peak (ref.times k) (new.times k) b 0 0).px x y = (1 / k : ℂ) * (sHat peak ref new b 0 0).px x y := by
  change (dZp (ref.times k) (new.times k) b : ℂ) * (dHat (ref.times k) (new.times k) b 0 0).px x y *
      (starRingEnd ℂ) ((pHat (ref.times k) (new.times k) b).px x y) *
        shiftPhase ref.h ref.w (subCenter peak (subP (ref.times k) (new.times k) b)) x y =
    (1 / k : ℂ) * ((dZp ref new b : ℂ) * (dHat ref new b 0 0).px x y * (starRingEnd ℂ) ((pHat ref new b).px x y) *
        shiftPhase ref.h ref.w (subCenter peak (subP ref new b)) x y)
  rw [times_dHat k hk, times_pHat k hk, times_subP k hk, times_dZp k hk, ofReal_div]
  ring

/-- The noise that the score would allow for if the counts were `k` times as large. -/
noncomputable def countNoise (k : ℝ) (ref new : SubImg) (b : ℝ) (i j : ℕ) : ℝ :=
  ∑ x ∈ range ref.h, ∑ y ∈ range ref.w,
    ((k * new.filled.px x y + 1) *
        ((knImg ref new b).px ((i + (ref.h - x)) % ref.h) ((j + (ref.w - y)) % ref.w)).re ^ 2 +
      (k * ref.filled.px x y + 1) *
        ((krImg ref new b).px ((i + (ref.h - x)) % ref.h) ((j + (ref.w - y)) % ref.w)).re ^ 2)

theorem countNoise_one (b : ℝ) (i j : ℕ) : countNoise 1 ref new b i j = varNew ref new b i j + varRef ref new b i j := by
  unfold countNoise varNew varRef
  simp only [one_mul, Finset.sum_add_distrib]

theorem times_sub_kn (z b : ℝ) (x y : ℕ) :
    (subKn (ref.times k) (new.times k) z b).px x y = (1 / k ^ 2 : ℂ) * (subKn ref new z b).px x y ∧
    (subKr (ref.times k) (new.times k) z b).px x y = (1 / k ^ 2 : ℂ) * (subKr ref new z b).px x y := by
  have e : ∀ u v, normHat (ref.times k) (new.times k) b u v = k ^ 2 * normHat ref new b u v := by
    intro u v
    rw [normHat_eq, normHat_eq, times_normReal]
    push_cast
    rfl
  unfold subKn subKr
  rw [← ifftOrtho_const_mul, ← ifftOrtho_const_mul]
  refine ⟨ifftOrtho_congr ref.h ref.w _ _ (fun u _ v _ => ?_) x y, ifftOrtho_congr ref.h ref.w _ _ (fun u _ v _ => ?_) x y⟩
  · rw [e, times_psfHat, times_psfHat, ← div_div, div_right_comm, one_div_mul_eq_div]
  · rw [e, times_psfHat, times_psfHat, ← div_div, div_right_comm, one_div_mul_eq_div]

theorem times_subV (f : Img ℝ) (K K' : Img ℂ) (hh : K'.h = K.h) (hw : K'.w = K.w)
    (hK : ∀ x y, K'.px x y = (1 / k ^ 2 : ℂ) * K.px x y) (i j : ℕ) :
    (subV f K').px i j = ((1 / k ^ 4 : ℝ) : ℂ) * (subV f K).px i j := by
  have ed : ∀ a b, (dft (K'.map fun z => z ^ 2)).px a b = ((1 / k ^ 4 : ℝ) : ℂ) * (dft (K.map fun z => z ^ 2)).px a b := by
    intro a b
    change ∑ i ∈ range K'.h, ∑ j ∈ range K'.w, K'.px i j ^ 2 * (tw K'.h ((a : ℝ) * i) * tw K'.w ((b : ℝ) * j)) =
      _ * ∑ i ∈ range K.h, ∑ j ∈ range K.w, K.px i j ^ 2 * (tw K.h ((a : ℝ) * i) * tw K.w ((b : ℝ) * j))
    rw [hh, hw, Finset.mul_sum]
    refine Finset.sum_congr rfl fun i _ => ?_
    rw [Finset.mul_sum]
    refine Finset.sum_congr rfl fun j _ => ?_
    rw [hK]
    push_cast
    ring
  have r := ifftOrtho_const_mul f.h f.w ((1 / k ^ 4 : ℝ) : ℂ)
    ((fftOrtho (f.map fun x => ((x + 1 : ℝ) : ℂ))).zip (· * ·) (dft (K.map fun z => z ^ 2))).px i j
  refine Eq.trans ?_ r
  refine ifftOrtho_congr f.h f.w _ _ (fun u _ v _ => ?_) i j
  change _ * (dft (K'.map fun z => z ^ 2)).px u v = _ * (_ * (dft (K.map fun z => z ^ 2)).px u v)
  rw [ed]
  ring

/-- The image with only the counts that enter the score's denominator in the new unit. -/
noncomputable def SubImg.recount (k : ℝ) (d : SubImg) : SubImg := { d with filled := d.filled.times k }

theorem sCorr_px (peak : Img ℝ → ℕ × ℕ) (z b : ℝ) (i j : ℕ) :
    (sCorr peak ref new z b 0 0).px i j = (ifftOrtho (sHat peak ref new b 0 0)).px i j /
      csqrt ((subV new.filled (subKn ref new z b)).px i j + (subV ref.filled (subKr ref new z b)).px i j) := rfl

theorem sHat_recount (peak : Img ℝ → ℕ × ℕ) (b : ℝ) :
    sHat peak (ref.recount k) (new.recount k) b 0 0 = sHat peak ref new b 0 0 := rfl

theorem sub_kn_recount (z b : ℝ) : subKn (ref.recount k) (new.recount k) z b = subKn ref new z b := rfl

theorem sub_kr_recount (z b : ℝ) : subKr (ref.recount k) (new.recount k) z b = subKr ref new z b := rfl

include hk in
theorem times_sBack (peak : Img ℝ → ℕ × ℕ) (b : ℝ) (i j : ℕ) :
    (ifftOrtho (sHat peak (ref.times k) (new.times k) b 0 0)).px i j =
      (1 / k : ℂ) * (ifftOrtho (sHat peak ref new b 0 0)).px i j := by
  rw [show (ifftOrtho (sHat peak ref new b 0 0)).px i j =
      (ifftOrtho ⟨ref.h, ref.w, fun u v => (sHat peak ref new b 0 0).px u v⟩).px i j from rfl, ← ifftOrtho_const_mul]
  exact ifftOrtho_congr ref.h ref.w _ _ (fun u _ v _ => times_sHat k hk ref new peak b u v) i j

include hk in
theorem times_ratio (q v v1 v2 w1 w2 : ℂ) (h1 : w1 = ((1 / k ^ 4 : ℝ) : ℂ) * v1) (h2 : w2 = ((1 / k ^ 4 : ℝ) : ℂ) * v2)
    (hv : v = (1 / k : ℂ) * q) : v / csqrt (w1 + w2) = k * (q / csqrt (v1 + v2)) := by
  have hk0 : (k : ℂ) ≠ 0 := by exact_mod_cast hk.ne'
  have e : csqrt (w1 + w2) = ((1 / k ^ 2 : ℝ) : ℂ) * csqrt (v1 + v2) := by
    rw [h1, h2, ← mul_add, show (1 / k ^ 4 : ℝ) = (1 / k ^ 2) ^ 2 by ring, csqrt_scale _ (by positivity),
      abs_of_pos (by positivity)]
  rw [e, hv]
  generalize csqrt (v1 + v2) = c
  push_cast
  rcases eq_or_ne c 0 with rfl | hc
  · simp
  · field_simp

theorem times_dims : (ref.times k).h = ref.h ∧ (ref.times k).w = ref.w := ⟨rfl, rfl⟩

theorem sub_kn_dims (z b : ℝ) : (subKn ref new z b).h = ref.h ∧ (subKn ref new z b).w = ref.w ∧
    (subKr ref new z b).h = ref.h ∧ (subKr ref new z b).w = ref.w := ⟨rfl, rfl, rfl, rfl⟩

include hk in
theorem times_sCorr (peak : Img ℝ → ℕ × ℕ) (z b : ℝ) (i j : ℕ) :
    (sCorr peak (ref.times k) (new.times k) z b 0 0).px i j =
      k * (sCorr peak (ref.recount k) (new.recount k) z b 0 0).px i j := by
  rw [sCorr_px, sCorr_px, sHat_recount, sub_kn_recount, sub_kr_recount]
  obtain ⟨d1, d2⟩ := times_dims k ref
  obtain ⟨a1, a2, a3, a4⟩ := sub_kn_dims (ref.times k) (new.times k) z b
  obtain ⟨b1, b2, b3, b4⟩ := sub_kn_dims ref new z b
  have h1 := times_subV k (new.filled.times k) (subKn ref new z b) (subKn (ref.times k) (new.times k) z b)
      (by rw [a1, b1, d1]) (by rw [a2, b2, d2]) (fun x y => (times_sub_kn k ref new z b x y).1) i j
  have h2 := times_subV k (ref.filled.times k) (subKr ref new z b) (subKr (ref.times k) (new.times k) z b)
      (by rw [a3, b3, d1]) (by rw [a4, b4, d2]) (fun x y => (times_sub_kn k ref new z b x y).2) i j
  exact times_ratio k hk _ _ _ _ _ _ h1 h2 (times_sBack k hk ref new peak b i j)

include hk in
theorem times_scaleCost (gamma : Img ℝ) (m : NMask) :
    scaleCost (gamma.times k) m (ref.times k) (new.times k) = scaleCost gamma m ref new := by
  have hk0 : (k : ℂ) ≠ 0 := by exact_mod_cast hk.ne'
  funext b
  have key : ∀ X X' : ℕ → ℕ → ℂ, (∀ u v, X' u v = k * X u v) →
      (fun u v => X' u v / csqrt (normHat (ref.times k) (new.times k) b u v)) =
        fun u v => X u v / csqrt (normHat ref new b u v) := by
    intro X X' h
    funext u v
    rw [h, times_csqrt k hk, mul_div_mul_left _ _ hk0]
  have eg : ∀ i j, (gammaP (gamma.times k) (ref.times k) (new.times k) b).px i j = (gammaP gamma ref new b).px i j := by
    intro i j
    change k * gamma.px i j / Real.sqrt ((k * new.var) ^ 2 + b ^ 2 * (k * ref.var) ^ 2) = gamma.px i j / _
    rw [show (k * new.var) ^ 2 + b ^ 2 * (k * ref.var) ^ 2 = k ^ 2 * (new.var ^ 2 + b ^ 2 * ref.var ^ 2) by ring,
      Real.sqrt_mul (sq_nonneg k), Real.sqrt_sq hk.le, mul_div_mul_left _ _ hk.ne']
  unfold scaleCost
  simp only [key (dHatN ref new).px _ (times_dHatN k ref new), key (dHatR ref new).px _ (times_dHatR k ref new), eg]
  rfl

end

/-- Everything outside `subtract`, for images in another unit (the optimisers and the zero points are the same). -/
noncomputable def SubEnv.times (k : ℝ) (env : SubEnv) : SubEnv := { env with gamma := env.gamma.times k }

/-- C125: in another unit, `subtract` returns the same D, P and mask, whether the scale is fitted or not, or raises the
same error. Its score is `k` times the score of the images as they were, but with the counts of the new unit in the
denominator. -/
theorem subtract_units (k : ℝ) (hk : 0 < k) (env : SubEnv) (bt it : Bool) (ref new : SubImg) :
    (∃ er, subtract env ⟨bt, false, it⟩ ref new = .error er ∧
      subtract (env.times k) ⟨bt, false, it⟩ (ref.times k) (new.times k) = .error er) ∨
    ∃ out out' out'', subtract env ⟨bt, false, it⟩ ref new = .ok out ∧
      subtract (env.times k) ⟨bt, false, it⟩ (ref.times k) (new.times k) = .ok out' ∧
      subtract env ⟨bt, false, it⟩ (ref.recount k) (new.recount k) = .ok out'' ∧
      out'.D = out.D ∧ out'.P = out.P ∧ out'.mask = out.mask ∧ out'.S = out''.S.times k := by
  have hid : ∀ r : Py NMask, r = r.map id := by
    rintro (er | m) <;> rfl
  rcases subtract_pair env env bt it ref new (ref.recount k) (new.recount k) id rfl rfl Iff.rfl (hid _) Iff.rfl
    (fun m _ => rfl) (fun m _ => rfl) with ⟨er, e1, e2⟩ | ⟨m, z, b, _, hm, hz, e1, e2⟩
  · rcases subtract_pair env (env.times k) bt it (ref.recount k) (new.recount k) (ref.times k) (new.times k) id rfl rfl
      Iff.rfl (hid _) Iff.rfl (fun m _ => times_scaleCost k hk ref new env.gamma m) (fun m _ => rfl) with ⟨er', e3, e4⟩ | ⟨_, _, _, _, _, _, e3, _⟩
    · rw [e2] at e3
      cases e3
      exact Or.inl ⟨er, e1, e4⟩
    · rw [e2] at e3
      cases e3
  rcases subtract_pair env (env.times k) bt it (ref.recount k) (new.recount k) (ref.times k) (new.times k) id rfl rfl
      Iff.rfl (hid _) Iff.rfl (fun m _ => times_scaleCost k hk ref new env.gamma m) (fun m _ => rfl) with ⟨er', e3, _⟩ | ⟨m', z', b', _, _, _, e3, e4⟩
  · rw [e2] at e3
    cases e3
  have q : outAt env (ref.recount k) (new.recount k) z.2 b m = outAt env (ref.recount k) (new.recount k) z'.2 b' m' := by
    rw [e2] at e3
    exact Except.ok.inj e3
  refine Or.inr ⟨_, _, _, e1, e4, e3, ?_, ?_, ?_, ?_⟩
  · refine Eq.trans ?_ (congrArg SubOut.D q).symm
    change ifftOrtho (dHat (ref.times k) (new.times k) b' 0 0) = ifftOrtho (dHat ref new b' 0 0)
    rw [times_dHat k hk]
  · refine Eq.trans ?_ (congrArg SubOut.P q).symm
    exact times_subP k hk ref new b'
  · exact (congrArg SubOut.mask q).symm
  · change (sCorr env.peak (ref.times k) (new.times k) z'.2 b' 0 0).map re =
      ((sCorr env.peak (ref.recount k) (new.recount k) z'.2 b' 0 0).map re).map fun x => k * x
    refine congrArg (Img.mk ref.h ref.w) ?_
    funext i j
    change ((sCorr env.peak (ref.times k) (new.times k) z'.2 b' 0 0).px i j).re =
      k * ((sCorr env.peak (ref.recount k) (new.recount k) z'.2 b' 0 0).px i j).re
    rw [times_sCorr k hk, re_ofReal_mul]

/-- Where the noise is positive, the score is its numerator over the root of the noise. -/
theorem score_over_noise (peak : Img ℝ → ℕ × ℕ) (ref new : SubImg) (h w : ℕ) (h0 : h ≠ 0) (w0 : w ≠ 0)
    (hr : ref.interped.shape = (h, w)) (hn : new.interped.shape = (h, w))
    (hfr : ref.filled.shape = (h, w)) (hfn : new.filled.shape = (h, w)) (z b : ℝ) (hb : b ≠ 0) (i j : ℕ)
    (hv : 0 ≤ countNoise 1 ref new b i j) :
    ((sCorr peak ref new z b 0 0).px i j).re =
      ((ifftOrtho (sHat peak ref new b 0 0)).px i j).re / (|z / b| * Real.sqrt (countNoise 1 ref new b i j)) := by
  have r1 : ref.h = h := congrArg Prod.fst hr
  have r2 : ref.w = w := congrArg Prod.snd hr
  have n1 : new.h = h := congrArg Prod.fst hn
  have n2 : new.w = w := congrArg Prod.snd hn
  rw [sCorr_px, score_var_total ref new (by rw [hfr, r1, r2]) (by rw [hfn, r1, r2]) (by omega) (by omega) z b hb,
    scoreVar_split ref new (by omega) (by omega), ← countNoise_one, ← ofReal_mul, csqrt_ofReal_nonneg _ (by positivity),
    Real.sqrt_mul (by positivity), Real.sqrt_sq_eq_abs, div_ofReal_re]

/-- C125: the score does depend on the unit: it goes with `k`, divided by how the noise grows, which has a part that
goes with the counts and a part that does not. -/
theorem score_units (k : ℝ) (hk : 0 < k) (env : SubEnv) (it : Bool) (ref new : SubImg) (h w : ℕ) (h0 : h ≠ 0) (w0 : w ≠ 0)
    (hr : ref.interped.shape = (h, w)) (hn : new.interped.shape = (h, w))
    (hmr : ref.mask.HasShape h w) (hmn : new.mask.HasShape h w)
    (hfr : ref.filled.shape = (h, w)) (hfn : new.filled.shape = (h, w)) (z : ℝ × ℝ) (hz : env.zps = .ok z)
    (z1 : z.1 ≠ 0) (z2 : z.2 ≠ 0) (hc : env.fitted = true ∨ (0 ≤ (centerOfMass new.psf).1 ∧ 0 ≤ (centerOfMass new.psf).2)) :
    ∃ out out', subtract env ⟨false, false, it⟩ ref new = .ok out ∧
      subtract (env.times k) ⟨false, false, it⟩ (ref.times k) (new.times k) = .ok out' ∧
      ∀ i j, 0 < countNoise 1 ref new (z.2 / z.1) i j → 0 < countNoise k ref new (z.2 / z.1) i j →
        out'.S.px i j = k * Real.sqrt (countNoise 1 ref new (z.2 / z.1) i j / countNoise k ref new (z.2 / z.1) i j) *
          out.S.px i j := by
  obtain ⟨out, e, _, _, hS⟩ := subtract_returns env it ref new h w hr hn hmr hmn z hz hc
  obtain ⟨out', e', _, _, hS'⟩ := subtract_returns (env.times k) it (ref.times k) (new.times k) h w hr hn hmr hmn z hz hc
  refine ⟨out, out', e, e', fun i j v1 vk => ?_⟩
  have hb : z.2 / z.1 ≠ 0 := div_ne_zero z2 z1
  rw [hS, hS']
  change ((sCorr env.peak (ref.times k) (new.times k) z.2 (z.2 / z.1) 0 0).px i j).re =
    _ * ((sCorr env.peak ref new z.2 (z.2 / z.1) 0 0).px i j).re
  have er : countNoise 1 (ref.recount k) (new.recount k) (z.2 / z.1) i j = countNoise k ref new (z.2 / z.1) i j := by
    unfold countNoise
    simp only [one_mul]
    rfl
  rw [times_sCorr k hk, re_ofReal_mul, score_over_noise env.peak ref new h w h0 w0 hr hn hfr hfn z.2 _ hb i j v1.le,
    score_over_noise env.peak (ref.recount k) (new.recount k) h w h0 w0 hr hn hfr hfn z.2 _ hb i j (by rw [er]; exact vk.le),
    er, sHat_recount, Real.sqrt_div v1.le]
  have q1 : Real.sqrt (countNoise 1 ref new (z.2 / z.1) i j) ≠ 0 := (Real.sqrt_pos.2 v1).ne'
  have qk : Real.sqrt (countNoise k ref new (z.2 / z.1) i j) ≠ 0 := (Real.sqrt_pos.2 vk).ne'
  have qb : |z.2 / (z.2 / z.1)| ≠ 0 := abs_ne_zero.2 (div_ne_zero z2 hb)
  generalize |z.2 / (z.2 / z.1)| = c at *
  field_simp

/-- In the noise of two dots, one part follows the counts and one does not. -/
theorem dot_countNoise (k : ℝ) (u v : ℕ → ℝ) (j : ℕ) (hj : j < 3) :
    countNoise k (dotSub u) (dotSub v) (1 / 1) 0 j = (k * (u ((j + 1) % 3) + v ((j + 1) % 3)) + 2) / 4 := by
  have e : countNoise k (dotSub u) (dotSub v) (1 / 1) 0 j =
      countNoise 1 (dotSub fun i => k * u i) (dotSub fun i => k * v i) (1 / 1) 0 j := by
    unfold countNoise
    simp only [one_mul]
    rfl
  rw [e, countNoise_one, (dot_var _ _ j hj).1, (dot_var _ _ j hj).2]
  ring

/-- Two dots of unit noise with `s` counts between them in a pixel: the score there becomes `k √((s + 2) / (k s + 2))`
times what it was; without counts it is `k` times as large, with many counts `√k` times. -/
theorem dot_units (k : ℝ) (hk : 0 < k) (u v : ℕ → ℝ) (hu : ∀ j, 0 ≤ u j) (hv : ∀ j, 0 ≤ v j) (j : ℕ) (hj : j < 3) :
    ∃ out out', subtract (tinyEnv 1 1) ⟨false, false, true⟩ (dotSub u) (dotSub v) = .ok out ∧
      subtract ((tinyEnv 1 1).times k) ⟨false, false, true⟩ ((dotSub u).times k) ((dotSub v).times k) = .ok out' ∧
      out'.S.px 0 j = k * Real.sqrt ((u ((j + 1) % 3) + v ((j + 1) % 3) + 2) /
        (k * (u ((j + 1) % 3) + v ((j + 1) % 3)) + 2)) * out.S.px 0 j := by
  obtain ⟨out, out', e, e', h⟩ := score_units k hk (tinyEnv 1 1) true (dotSub u) (dotSub v) 1 3
    (by norm_num) (by norm_num) rfl rfl (by intro a h; cases h) (by intro a h; cases h) rfl rfl (1, 1) rfl one_ne_zero
    one_ne_zero (Or.inl rfl)
  refine ⟨out, out', e, e', ?_⟩
  have h1 := dot_countNoise 1 u v j hj
  have h2 := dot_countNoise k u v j hj
  have p : 0 ≤ u ((j + 1) % 3) + v ((j + 1) % 3) := add_nonneg (hu _) (hv _)
  have h3 := h 0 j (by rw [h1]; positivity) (by rw [h2]; positivity)
  rw [h3, h1, h2, one_mul, div_div_div_cancel_right₀ (by norm_num)]

end PI
