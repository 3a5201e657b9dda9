import Verif.Props.Powerful

/-!
# Property C182: a new image minus a coadd, with Gaussian noise

All exposures carry independent Gaussian errors; the earlier ones are coadded and the coadd is subtracted from the new image.
The law of D, and what any other test of all the exposures could find.
-/

namespace PI

open Complex Finset MeasureTheory ProbabilityTheory
open scoped NNReal ENNReal

/-- What independent Gaussian pixels deviate from their means. -/
theorem pixelLaw_errors {ι : Type} [Fintype ι] (m s : ι → ℝ) :
    GaussErrors (pixelLaw m s) (fun i (x : ι → ℝ) => x i - m i) s where
  law i := by
    refine ⟨((measurable_pi_apply i).sub_const _).aemeasurable, ?_⟩
    have k : (pixelLaw m s).map (fun x : ι → ℝ => x i) = gaussianReal (m i) ((s i ^ 2).toNNReal) :=
      (measurePreserving_eval (fun i => gaussianReal (m i) ((s i ^ 2).toNNReal)) i).map_eq
    have c : (pixelLaw m s).map (fun x : ι → ℝ => x i - m i) =
        ((pixelLaw m s).map fun x : ι → ℝ => x i).map fun y => y - m i :=
      (Measure.map_map (g := fun y => y - m i) (by fun_prop) (measurable_pi_apply i)).symm
    rw [c, k, gaussianReal_map_sub_const, sub_self]
  indep := iIndepFun_pi (X := fun i y => y - m i) fun _ => by fun_prop

section
variable (lt : List CoImg → List CoImg → Option Bool) {n : ℕ} (hn : 0 < n)
    (d : Fin n → SinglePsf) (h w psfShape : ℕ) (procs : ℤ)
    (hs : ∀ j, (d j).interped.h = h ∧ (d j).interped.w = w ∧ (d j).mask.HasShape h w)
    (hp : procs ≤ n) (hp' : procs ≤ 2 ^ 25) (hb : procs * n ≤ 2 ^ 50)
    (ψ : Fin n → Img ℝ) (hψ : ∀ m, (d m).psf = toC (ψ m)) (A B : Fin n → ℤ)
    (hc : ∀ m, (d m).com = ((A m : ℝ), (B m : ℝ)))
    (env : SubEnv) (it : Bool) (ref new : SubImg) (z : ℝ × ℝ)
    (hr : ref.interped.shape = (h, w)) (hnw : new.interped.shape = (h, w)) (hh : h ≠ 0) (hw : w ≠ 0)
    (hpow : ∀ k < h, ∀ l < w, powerAt d k l ≠ 0) (out : CoaddOut)
    (ho : coaddCore lt ((List.ofFn d).map SinglePsf.toCoImg) psfShape procs = .ok out)
    (hpsf : ref.psf = out.Pr.map re) (hcom : centerOfMass ref.psf = ((psfShape : ℝ), (psfShape : ℝ)))
    (hvar : ref.var = 1 / Real.sqrt ((h * w : ℕ) : ℝ))
    (gr : GuardIdle h w ref.psf) (gn : GuardIdle h w new.psf) (A' B' : ℤ)
    (hA' : centerOfMass new.psf = ((A' : ℝ), (B' : ℝ)))
    (zn : ℝ) (hzn : z.2 / z.1 = zn / Real.sqrt (powerAt d 0 0))
    (hmr : ref.mask.HasShape h w) (hmn : new.mask.HasShape h w) (hz : env.zps = .ok z)
    (hf : env.fitted = true ∨ (0 ≤ (centerOfMass new.psf).1 ∧ 0 ≤ (centerOfMass new.psf).2))

/-- D of the new image (`none`) and the coadd of the others, when the exposures show the pixels `e`. -/
noncomputable def chainDiff (e : Option (Fin n) × Fin h × Fin w → ℝ) : Img ℂ :=
  chainOf env ⟨false, false, it⟩ lt d psfShape procs ref new (fun m => errImg fun r => e (some m, r)) (errImg fun r => e (none, r))

/-- The noise level of each pixel of each exposure. -/
def chainNoise (q : Option (Fin n) × Fin h × Fin w) : ℝ := chainSigma d new q.1

/-- The change of pixel `p` of D per unit of pixel `q`. -/
noncomputable def chainKernel (p : Fin h × Fin w) (q : Option (Fin n) × Fin h × Fin w) : ℝ :=
  (impulseResp h w (gainChain d h w ref new (z.2 / z.1) q.1) p.1 p.2 q.2.1 q.2.2).re

include hn hs hp hp' hb hψ hc hr hnw hmr hmn hz hf

theorem chainDiff_re (e : Option (Fin n) × Fin h × Fin w → ℝ) (p : Fin h × Fin w) :
    ((chainDiff lt d h w psfShape procs env it ref new e).px p.1 p.2).re = ∑ q, chainKernel d h w ref new z p q * e q := by
  unfold chainDiff
  rw [chain_eq lt hn d h w psfShape procs hs hp hp' hb ψ hψ A B hc env it ref new z hmr hmn hz hf hr hnw
    (fun m => errImg fun r => e (some m, r)) (fun _ => ⟨rfl, rfl⟩) (errImg fun r => e (none, r)) rfl]
  rw [Fintype.sum_prod_type (f := fun q => chainKernel d h w ref new z p q * e q), Fintype.sum_option, add_re, sum_pixels,
    re_sum, re_sum]
  congr 1
  · refine Finset.sum_congr rfl fun q _ => ?_
    rw [errImg_px, re_ofReal_mul, mul_comm]
    rfl
  · refine Finset.sum_congr rfl fun m _ => ?_
    rw [sum_pixels, re_sum]
    refine Finset.sum_congr rfl fun q _ => ?_
    rw [errImg_px, re_ofReal_mul, mul_comm]
    rfl

omit hr hnw in
include hcom hA' in
theorem chainOf_im (x : Fin n → Img ℝ) (hx : ∀ m, (x m).h = h ∧ (x m).w = w) (y : Img ℝ) (hy : y.shape = (h, w)) (i j : ℕ) :
    ((chainOf env ⟨false, false, it⟩ lt d psfShape procs ref new x y).px i j).im = 0 := by
  obtain ⟨sh, -⟩ := coadd_real_hat lt hn d h w psfShape procs hs hp hp' hb ψ hψ A B hc x hx
  unfold chainOf
  exact diffOf_im env it ref new h w z hmr hmn hz hf (by rw [hcom]; exact .inr ⟨psfShape, by push_cast; rfl⟩)
    (by rw [hcom]; exact .inr ⟨psfShape, by push_cast; rfl⟩) (by rw [hA']; exact .inr ⟨A', rfl⟩)
    (by rw [hA']; exact .inr ⟨B', rfl⟩) _ y sh hy i j

include lt it hcom hA' hvar hh hw hpow hzn in
theorem chainKernel_white (hv : ∀ m, (d m).var ≠ 0) (hz0 : zn ≠ 0) (p p' : Fin h × Fin w) :
    ∑ q, chainKernel d h w ref new z p q * chainKernel d h w ref new z p' q * chainNoise d h w new q ^ 2 =
      if p = p' then 1 else 0 := by
  let x : Fin n → Img ℝ := fun _ => ⟨h, w, fun _ _ => 0⟩
  let y : Img ℝ := ⟨h, w, fun _ _ => 0⟩
  have k := chain_noise_white lt hn d h w psfShape procs hs hp hp' hb ψ hψ A B hc env it ref new z hr hnw hh hw hpow hvar
    zn hzn hmr hmn hz hf x (fun _ => ⟨rfl, rfl⟩) y rfl hv hz0 p.1 p.2 p'.1 p'.2 p.1.2 p.2.2 p'.1.2 p'.2.2
  have im : ∀ m i j a b, (respChain env ⟨false, false, it⟩ lt d psfShape procs ref new x y m i j a b).im = 0 := by
    have c := fun x' hx' y' hy' i j => chainOf_im lt hn d h w psfShape procs hs hp hp' hb ψ hψ A B hc env it ref new z
      hcom A' B' hA' hmr hmn hz hf x' hx' y' hy' i j
    intro m i j a b
    cases m with
    | none =>
      change (_ - _ : ℂ).im = 0
      rw [sub_im, c x (fun _ => ⟨rfl, rfl⟩) (bump y a b 1) rfl, c x (fun _ => ⟨rfl, rfl⟩) y rfl, sub_zero]
    | some m =>
      change (_ - _ : ℂ).im = 0
      rw [sub_im, c (fun m' => if m' = m then bump (x m') a b 1 else x m')
        (by intro m'; by_cases q : m' = m <;> simp only [q, if_true, if_false] <;> exact ⟨rfl, rfl⟩) y rfl,
        c x (fun _ => ⟨rfl, rfl⟩) y rfl, sub_zero]
  have kr := congrArg Complex.re k
  have e1 : (if (p.1 : ℕ) = p'.1 ∧ (p.2 : ℕ) = p'.2 then (1 : ℂ) else 0).re = if p = p' then 1 else 0 := by
    by_cases q : p = p'
    · subst q
      simp
    · rw [if_neg q, if_neg]
      · rfl
      · rintro ⟨a, b⟩
        exact q (Prod.ext (Fin.ext a) (Fin.ext b))
  rw [e1] at kr
  rw [← kr, Fintype.sum_prod_type, re_sum]
  refine Finset.sum_congr rfl fun m _ => ?_
  rw [re_ofReal_mul, sum_pixels, re_sum, Finset.mul_sum]
  refine Finset.sum_congr rfl fun q _ => ?_
  have r := fun i j => respChain_eq lt hn d h w psfShape procs hs hp hp' hb ψ hψ A B hc env it ref new z hmr hmn hz hf hr hnw
    x (fun _ => ⟨rfl, rfl⟩) y rfl m i j q.1 q.2 q.1.2 q.2.2
  rw [mul_re, conj_re, conj_im, im, zero_mul, sub_zero, r, r]
  unfold chainKernel chainNoise
  ring

include hcom hA' hvar hh hw hpow hzn in
/-- C182: the law of D. The exposures have independent Gaussian pixels around `m`, with the stated noise levels. The pixels of
D are real, independent, and Gaussian of variance one around those of D of the noiseless exposures. -/
theorem chain_gaussian (hv : ∀ m, (d m).var ≠ 0) (hz0 : zn ≠ 0) (m : Option (Fin n) × Fin h × Fin w → ℝ) :
    (∀ e, ∀ i j, ((chainDiff lt d h w psfShape procs env it ref new e).px i j).im = 0) ∧
    (∀ p : Fin h × Fin w, HasLaw (fun e => ((chainDiff lt d h w psfShape procs env it ref new e).px p.1 p.2).re)
      (gaussianReal ((chainDiff lt d h w psfShape procs env it ref new m).px p.1 p.2).re 1)
      (pixelLaw m (chainNoise d h w new))) ∧
    iIndepFun (fun (p : Fin h × Fin w) e => ((chainDiff lt d h w psfShape procs env it ref new e).px p.1 p.2).re)
      (pixelLaw m (chainNoise d h w new)) := by
  have hX := pixelLaw_errors m (chainNoise d h w new)
  have wh := chainKernel_white lt hn d h w psfShape procs hs hp hp' hb ψ hψ A B hc env it ref new z hr hnw hh hw hpow hcom hvar A' B'
    hA' zn hzn hmr hmn hz hf hv hz0
  have hl := chainDiff_re lt hn d h w psfShape procs hs hp hp' hb ψ hψ A B hc env it ref new z hr hnw hmr hmn hz hf
  obtain ⟨base, hbase⟩ : ∃ base : Fin h × Fin w → ℝ,
      ∀ p, base p = ((chainDiff lt d h w psfShape procs env it ref new m).px p.1 p.2).re := ⟨_, fun _ => rfl⟩
  have hl' : ∀ e p, ((chainDiff lt d h w psfShape procs env it ref new e).px p.1 p.2).re =
      base p + ∑ q, chainKernel d h w ref new z p q * (e q - m q) := by
    intro e p
    rw [hbase, hl, hl, ← Finset.sum_add_distrib]
    exact Finset.sum_congr rfl fun q _ => by ring
  refine ⟨fun e i j => ?_, fun p => ?_, ?_⟩
  · exact chainOf_im lt hn d h w psfShape procs hs hp hp' hb ψ hψ A B hc env it ref new z
      hcom A' B' hA' hmr hmn hz hf _ (fun _ => ⟨rfl, rfl⟩) _ rfl i j
  · rw [← hbase]
    simp only [hl' _ p]
    have L := hX.linear (base p) (chainKernel d h w ref new z p)
    have e : ∑ q, chainKernel d h w ref new z p q ^ 2 * chainNoise d h w new q ^ 2 = 1 := by
      rw [← if_pos (c := p = p) (t := (1 : ℝ)) (e := 0) rfl, ← wh p p]
      exact Finset.sum_congr rfl fun q _ => by ring
    rwa [e, Real.toNNReal_one] at L
  · simp only [hl']
    refine hX.independent base (chainKernel d h w ref new z) fun p p' hpp => ?_
    rw [wh, if_neg hpp]

include hcom hA' hvar hh hw hpow hzn in
/-- C182: the rate of false alarms where the noiseless D is zero, for instance on a sky that did not change (C177). -/
theorem chain_false_alarms (hv : ∀ m, (d m).var ≠ 0) (hz0 : zn ≠ 0) (m : Option (Fin n) × Fin h × Fin w → ℝ)
    (h0 : ∀ i < h, ∀ j < w, (chainDiff lt d h w psfShape procs env it ref new m).px i j = 0) (t : ℝ) :
    pixelLaw m (chainNoise d h w new)
        {e | ∀ p : Fin h × Fin w, ((chainDiff lt d h w psfShape procs env it ref new e).px p.1 p.2).re ≤ t} =
      gaussianReal 0 1 (Set.Iic t) ^ (h * w) := by
  obtain ⟨-, hl, hi⟩ := chain_gaussian lt hn d h w psfShape procs hs hp hp' hb ψ hψ A B hc env it ref new z hr hnw hh hw hpow
    hcom hvar A' B' hA' zn hzn hmr hmn hz hf hv hz0 m
  refine none_exceeds _ 1 (fun p => ?_) hi t
  have := hl p
  rwa [h0 p.1 p.1.2 p.2 p.2.2, zero_re] at this

/-- The test gives the same answer when stars that do not change are added to all exposures. -/
def BlindToUnchanged (S : Set (Option (Fin n) × Fin h × Fin w → ℝ)) : Prop :=
  ∀ (X Y : ℤ) (a : ℝ) (x : Option (Fin n) × Fin h × Fin w → ℝ),
    (fun q => x q + a * pixelVec (chainConstant h w d ψ A B new A' B' zn X Y) q) ∈ S ↔ x ∈ S

include hcom hA' hvar hh hw hpow hzn ho hpsf gr gn in
/-- C182: the test that reports a new star when its sum in D, new image minus coadd, exceeds `t`. Of all tests of all the
exposures that do not see unchanged stars and raise no more false alarms, none finds the star with a greater probability. -/
theorem chain_most_powerful (hv : ∀ m, (d m).var ≠ 0) (hvn : new.var ≠ 0) (hz0 : zn ≠ 0) (X Y : ℤ) :
    ∃ sub, subtract env ⟨false, false, it⟩ ref new = .ok sub ∧
      ∀ (D : (Option (Fin n) × Fin h × Fin w → ℝ) → ℝ),
        (∀ e, D e = starSum h w (ref.var ^ 2 * (z.2 / z.1) ^ 2 + new.var ^ 2) sub.P
          (chainDiff lt d h w psfShape procs env it ref new e) (X - A' - psfShape) (Y - B' - psfShape)) →
        (∀ t, MeasurableSet {e | t < D e} ∧ BlindToUnchanged d h w ψ A B new A' B' zn {e | t < D e}) ∧
        (∀ (m : Option (Fin n) × Fin h × Fin w → ℝ) (α : ℝ≥0∞), 0 < α → α < 1 →
          ∃ t, pixelLaw m (chainNoise d h w new) {e | t < D e} = α) ∧
        ∀ (t : ℝ) (S : Set (Option (Fin n) × Fin h × Fin w → ℝ)), MeasurableSet S →
          BlindToUnchanged d h w ψ A B new A' B' zn S →
          ∀ m : Option (Fin n) × Fin h × Fin w → ℝ,
          pixelLaw m (chainNoise d h w new) S ≤ pixelLaw m (chainNoise d h w new) {e | t < D e} →
          ∀ c : ℝ, 0 < c →
            pixelLaw (fun q => m q + c * pixelVec (chainNew h w new A' B' X Y) q) (chainNoise d h w new) S ≤
              pixelLaw (fun q => m q + c * pixelVec (chainNew h w new A' B' X Y) q) (chainNoise d h w new) {e | t < D e} := by
  have N0 : (0 : ℝ) < ((h * w : ℕ) : ℝ) := by exact_mod_cast Nat.mul_pos (by omega) (by omega)
  have rv0 : ref.var ≠ 0 := by
    rw [hvar]
    exact (one_div_pos.2 (Real.sqrt_pos.2 N0)).ne'
  have F0 := powerAt_pos d h w hpow 0 0 (by omega) (by omega)
  have b0 : z.2 / z.1 ≠ 0 := by rw [hzn]; exact div_ne_zero hz0 (Real.sqrt_pos.2 F0).ne'
  let x : Fin n → Img ℝ := fun _ => ⟨h, w, fun _ _ => 0⟩
  let y : Img ℝ := ⟨h, w, fun _ _ => 0⟩
  obtain ⟨sub, es, opt⟩ := chain_optimal lt hn d h w psfShape procs hs hp hp' hb ψ hψ A B hc env it ref new z hr hnw hh hw
    hpow out ho hpsf hcom hvar gr gn A' B' hA' zn hzn hmr hmn hz hf x (fun _ => ⟨rfl, rfl⟩) y rfl hv hz0 X Y
  obtain ⟨sub', es', rpos⟩ := subtract_resp_pos env it ref new h w z hmr hmn hz hf hr hnw hh hw gn psfShape psfShape A' B'
    (by rw [hcom, Int.cast_natCast]) hA' b0 (Or.inl rv0) X Y
  rw [es] at es'
  cases es'
  refine ⟨sub, es, fun D hD => ?_⟩
  set V : ℝ := ref.var ^ 2 * (z.2 / z.1) ^ 2 + new.var ^ 2 with hV
  have V0 : 0 < V := by rw [hV]; positivity
  have sV : 0 < 1 / Real.sqrt V := by
    have := Real.sqrt_pos.2 V0
    positivity
  obtain ⟨r, r0, hrr⟩ := rpos _ rfl
  set q : ℕ → ℕ → ℂ := fun i j => (sub.P.px (((i : ℤ) - (X - A' - psfShape)) % h).toNat
    (((j : ℤ) - (Y - B' - psfShape)) % w).toNat : ℂ) with hq
  set T := pixelWeights h w q (respChain env ⟨false, false, it⟩ lt d psfShape procs ref new x y) with hT
  obtain ⟨ign, npos, best⟩ := opt T rfl
  have rc := fun m i j a ha b hb' => respChain_eq lt hn d h w psfShape procs hs hp hp' hb ψ hψ A B hc env it ref new z hmr hmn
    hz hf hr hnw x (fun _ => ⟨rfl, rfl⟩) y rfl m i j a b ha hb'
  have rp := fun i j a ha b hb' => resp_eq env it ref new h w z hmr hmn hz hf hr hnw i j a b ha hb'
  have resp : linResp h w T (chainNew h w new A' B' X Y) = (r : ℂ) := by
    rw [← hrr, hT, linResp_pixels, linResp_pixels]
    refine Finset.sum_congr rfl fun i _ => Finset.sum_congr rfl fun j _ => ?_
    congr 1
    rw [Fintype.sum_option, Fintype.sum_bool]
    simp only [chainNew, newStar, pairResp, if_true, Bool.false_eq_true, if_false, Complex.ofReal_zero, zero_mul,
      Finset.sum_const_zero, add_zero]
    refine Finset.sum_congr rfl fun a ha => Finset.sum_congr rfl fun b hb' => ?_
    rw [rc none i j a (mem_range.1 ha) b (mem_range.1 hb'), (rp i j a (mem_range.1 ha) b (mem_range.1 hb')).1]
    rfl
  set Tr : Option (Fin n) × Fin h × Fin w → ℝ := fun q => (T q.1 q.2.1 q.2.2).re with hTr
  have σ0 : ∀ q, chainNoise d h w new q ≠ 0 := by
    rintro ⟨m, p⟩
    cases m
    · exact hvn
    · exact hv _
  have lin : ∀ e, D e = 1 / Real.sqrt V * ∑ q, Tr q * e q := by
    intro e
    rw [hD]
    unfold starSum
    simp only [chainDiff_re lt hn d h w psfShape procs hs hp hp' hb ψ hψ A B hc env it ref new z hr hnw hmr hmn hz hf e]
    have t : ∀ q, Tr q = ∑ p : Fin h × Fin w, sub.P.px (backBy h (X - A' - psfShape) p.1) (backBy w (Y - B' - psfShape) p.2) *
        chainKernel d h w ref new z p q := by
      intro q
      change (pixelWeights h w _ _ q.1 q.2.1 q.2.2).re = _
      unfold pixelWeights
      rw [sum_pixels, re_sum]
      refine Finset.sum_congr rfl fun p _ => ?_
      rw [rc q.1 p.1 p.2 q.2.1 q.2.1.2 q.2.2 q.2.2.2, re_ofReal_mul]
      rfl
    simp only [t, Finset.mul_sum, Finset.sum_mul]
    rw [Finset.sum_comm]
    exact Finset.sum_congr rfl fun q _ => Finset.sum_congr rfl fun p _ => by ring
  have eD : ∀ t, {e | t < D e} = {e | t / (1 / Real.sqrt V) < ∑ q, Tr q * e q} := by
    intro t
    ext e
    simp only [Set.mem_ofPred_eq]
    rw [lin, div_lt_iff₀ sV, mul_comm (1 / Real.sqrt V)]
  have ig : ∀ U W : ℤ, ∑ q, Tr q * pixelVec (chainConstant h w d ψ A B new A' B' zn U W) q = 0 := by
    intro U W
    rw [← linResp_re, ign U W, zero_re]
  let W : Submodule ℝ (Option (Fin n) × Fin h × Fin w → ℝ) := Submodule.span ℝ
    {y | ∃ U U' : ℤ, y = pixelVec (chainConstant h w d ψ A B new A' B' zn U U')}
  have hTW : ∀ y ∈ W, ∑ q, Tr q * y q = 0 := by
    intro y hy
    induction hy using Submodule.span_induction with
    | mem y hy => obtain ⟨U, U', rfl⟩ := hy; exact ig U U'
    | zero => simp
    | add x y _ _ hx hy => simp only [Pi.add_apply, mul_add, Finset.sum_add_distrib, hx, hy, add_zero]
    | smul a x _ hx =>
      have : ∑ q, Tr q * (a • x) q = a * ∑ q, Tr q * x q := by
        rw [Finset.mul_sum]
        exact Finset.sum_congr rfl fun q _ => by simp only [Pi.smul_apply, smul_eq_mul]; ring
      rw [this, hx, mul_zero]
  have Tpos : 0 < ∑ q, Tr q * pixelVec (chainNew h w new A' B' X Y) q := by
    rw [← linResp_re, resp, ofReal_re]
    exact r0
  refine ⟨fun t => ⟨?_, ?_⟩, fun m α a0 a1 => ?_, ?_⟩
  · rw [eD]
    exact measurableSet_lt measurable_const (by fun_prop)
  · intro U U' a e
    rw [eD]
    simp only [Set.mem_ofPred_eq]
    have : ∑ q, Tr q * (e q + a * pixelVec (chainConstant h w d ψ A B new A' B' zn U U') q) =
        ∑ q, Tr q * e q + a * ∑ q, Tr q * pixelVec (chainConstant h w d ψ A B new A' B' zn U U') q := by
      rw [Finset.mul_sum, ← Finset.sum_add_distrib]
      exact Finset.sum_congr rfl fun q _ => by ring
    rw [this, ig, mul_zero, add_zero]
  · obtain ⟨t, ht⟩ := linear_threshold m (chainNoise d h w new) Tr σ0 (by
      by_contra no
      push Not at no
      simp only [no, zero_mul, Finset.sum_const_zero, lt_self_iff_false] at Tpos) α a0 a1
    refine ⟨t * (1 / Real.sqrt V), ?_⟩
    rw [eD, mul_div_cancel_right₀ _ sV.ne']
    exact ht
  · intro t S mS blind m hfa c hcp
    have inv : ∀ y ∈ W, ∀ x, x + y ∈ S ↔ x ∈ S := by
      have inv' : ∀ y ∈ W, ∀ (a : ℝ) x, x + a • y ∈ S ↔ x ∈ S := by
        intro y hy
        induction hy using Submodule.span_induction with
        | mem y hy => obtain ⟨U, U', rfl⟩ := hy; exact fun a x => blind U U' a x
        | zero => intro a x; rw [smul_zero, add_zero]
        | add y y' _ _ h1 h2 => intro a x; rw [smul_add, ← add_assoc, h2, h1]
        | smul a' y _ h1 => intro a x; rw [smul_smul, h1]
      intro y hy x
      have := inv' y hy 1 x
      rwa [one_smul] at this
    rw [eD] at hfa ⊢
    refine unseen_most_powerful W (chainNoise d h w new) σ0 (pixelVec (chainNew h w new A' B' X Y)) Tr
      (r ^ 2 / linNoise h w (chainSigma d new) T) hTW Tpos ?_ ?_ m c hcp _ S mS inv hfa
    · rw [← linResp_re, resp, ofReal_re]
      have k := mul_le_mul_of_nonneg_right (linNoise_re_le (h := h) (w := w) (chainSigma d new) T)
        (div_nonneg (sq_nonneg r) npos.le)
      rwa [mul_div_cancel₀ _ npos.ne'] at k
    · intro g hg
      have b := best (vecWeights g) fun U U' => by rw [linResp_vec, hg _ (Submodule.subset_span ⟨U, U', rfl⟩), ofReal_zero]
      rw [linResp_vec, linNoise_vec, normSq_ofReal, resp, normSq_ofReal] at b
      rw [← mul_div_assoc, le_div_iff₀ npos]
      have e1 : ∑ q, g q ^ 2 * chainNoise d h w new q ^ 2 = ∑ q : Option (Fin n) × Fin h × Fin w, g q ^ 2 * chainSigma d new q.1 ^ 2 := rfl
      rw [e1, sq, sq r, mul_comm (∑ q : Option (Fin n) × Fin h × Fin w, g q ^ 2 * chainSigma d new q.1 ^ 2)]
      exact b

end

/-- Two exposures of 3×3 pixels with zero points 1 and 2 and noise level 2; the new image has noise level 1 and three times the
flux scale of the coadd. The dark sky: no false alarm in any pixel, and any blind test against the sum for a star at (2, 0). -/
example (lt : List CoImg → List CoImg → Option Bool) (t : ℝ) :
    ∃ out, coaddCore lt ((List.ofFn demoNight).map SinglePsf.toCoImg) 1 2 = .ok out ∧
      ∀ ref : SubImg, ref = ⟨out.R.map re, none, out.R.map re, out.Pr.map re, 1 / Real.sqrt ((3 * 3 : ℕ) : ℝ)⟩ →
        pixelLaw (fun _ => 0) (chainNoise demoNight 3 3 demoTonight)
            {e | ∀ p : Fin 3 × Fin 3, ((chainDiff lt demoNight 3 3 1 2 (tinyEnv 1 3) true ref demoTonight e).px p.1 p.2).re ≤ t} =
          gaussianReal 0 1 (Set.Iic t) ^ 9 ∧
        ∃ sub, subtract (tinyEnv 1 3) ⟨false, false, true⟩ ref demoTonight = .ok sub ∧
          ∀ S, MeasurableSet S →
            BlindToUnchanged demoNight 3 3 (fun _ => ⟨1, 1, fun _ _ => 1⟩) (fun _ => 0) (fun _ => 0) demoTonight 0 0
              (3 * Real.sqrt (powerAt demoNight 0 0)) S →
            0 < pixelLaw (fun _ => 0) (chainNoise demoNight 3 3 demoTonight) S →
            pixelLaw (fun _ => 0) (chainNoise demoNight 3 3 demoTonight) S < 1 →
            ∃ (u : ℝ) (B : Set (Option (Fin 2) × Fin 3 × Fin 3 → ℝ)),
              B = {e | u < starSum 3 3 (ref.var ^ 2 * (3 / 1) ^ 2 + 1 ^ 2) sub.P
                (chainDiff lt demoNight 3 3 1 2 (tinyEnv 1 3) true ref demoTonight e) (2 - 0 - (1 : ℕ)) (0 - 0 - (1 : ℕ))} ∧
              pixelLaw (fun _ => 0) (chainNoise demoNight 3 3 demoTonight) B =
                pixelLaw (fun _ => 0) (chainNoise demoNight 3 3 demoTonight) S ∧
              pixelLaw (fun q => 0 + 7 * pixelVec (chainNew 3 3 demoTonight 0 0 2 0) q) (chainNoise demoNight 3 3 demoTonight) S ≤
                pixelLaw (fun q => 0 + 7 * pixelVec (chainNew 3 3 demoTonight 0 0 2 0) q)
                  (chainNoise demoNight 3 3 demoTonight) B := by
  have hs : ∀ j, (demoNight j).interped.h = 3 ∧ (demoNight j).interped.w = 3 ∧ (demoNight j).mask.HasShape 3 3 :=
    fun _ => ⟨rfl, rfl, fun a q => by cases q⟩
  have hψ : ∀ m, (demoNight m).psf = toC ⟨1, 1, fun _ _ => 1⟩ := fun _ => by simp [demoNight, toC, Img.map]
  have hpow : ∀ k < 3, ∀ l < 3, powerAt demoNight k l ≠ 0 := fun k _ l _ => (demoNight_power k l).ne'
  obtain ⟨out, e, _⟩ := coadd_returns_psf lt (by norm_num) demoNight 3 3 1 2 (by norm_num) (by norm_num) hs (by norm_num)
    (by norm_num) (by norm_num)
  obtain ⟨out2, e2, rh, rw0, _⟩ := coadd_returns_zackay lt (by norm_num) demoNight 3 3 1 2 hs (by norm_num) (by norm_num)
    (by norm_num)
  rw [e] at e2
  obtain rfl : out = out2 := by injection e2
  refine ⟨out, e, fun ref hr => ?_⟩
  have F0 := Real.sqrt_pos.2 (demoNight_power 0 0)
  have centred := coadd_psf_centred lt (by norm_num) demoNight 1 2 hs (by norm_num) (by norm_num) (by norm_num)
    (hpow 0 (by norm_num) 0 (by norm_num)) out e
  have idle := coadd_guard_idle lt (by norm_num) demoNight 3 3 1 2 hs (by norm_num) (by norm_num) (by norm_num)
    (fun _ => ⟨1, 1, fun _ _ => 1⟩) hψ hpow out e (by norm_num) (by norm_num)
  have sh : ref.interped.shape = (3, 3) := by rw [hr]; exact congrArg₂ Prod.mk rh rw0
  have mr : ref.mask.HasShape 3 3 := by rw [hr]; intro a q; cases q
  constructor
  · refine chain_false_alarms lt (by norm_num) demoNight 3 3 1 2 hs (by norm_num) (by norm_num) (by norm_num)
      (fun _ => ⟨1, 1, fun _ _ => 1⟩) hψ (fun _ => 0) (fun _ => 0) (fun _ => by simp [demoNight])
      (tinyEnv 1 3) true ref demoTonight (1, 3) sh rfl (by norm_num) (by norm_num) hpow (by rw [hr]; exact centred)
      (by rw [hr]) 0 0 (by simp [centerOfMass, rsum, demoTonight]) (3 * Real.sqrt (powerAt demoNight 0 0)) (by field_simp) mr
      (fun a q => by cases q) rfl (Or.inl rfl) (fun _ => by norm_num [demoNight]) (by positivity) _ (fun i hi j hj => ?_) t
    unfold chainDiff
    rw [chain_eq lt (by norm_num) demoNight 3 3 1 2 hs (by norm_num) (by norm_num) (by norm_num)
      (fun _ => ⟨1, 1, fun _ _ => 1⟩) hψ (fun _ => 0) (fun _ => 0) (fun _ => by simp [demoNight]) (tinyEnv 1 3) true ref
      demoTonight (1, 3) mr (fun a q => by cases q) rfl (Or.inl rfl) sh rfl _ (fun _ => ⟨rfl, rfl⟩) _ rfl]
    simp [errImg]
  · obtain ⟨sub, es, k⟩ := chain_most_powerful lt (by norm_num) demoNight 3 3 1 2 hs (by norm_num) (by norm_num) (by norm_num)
      (fun _ => ⟨1, 1, fun _ _ => 1⟩) hψ (fun _ => 0) (fun _ => 0) (fun _ => by simp [demoNight])
      (tinyEnv 1 3) true ref demoTonight (1, 3) sh rfl (by norm_num) (by norm_num) hpow out e (by rw [hr])
      (by rw [hr]; exact centred) (by rw [hr]) (by rw [hr]; exact idle) (pixel_idle 3 3 (by norm_num) (by norm_num)) 0 0
      (by simp [centerOfMass, rsum, demoTonight]) (3 * Real.sqrt (powerAt demoNight 0 0)) (by field_simp) mr
      (fun a q => by cases q) rfl (Or.inl rfl) (fun _ => by norm_num [demoNight]) (by norm_num [demoTonight]) (by positivity) 2 0
    refine ⟨sub, es, fun S mS bS q1 q2 => ?_⟩
    obtain ⟨_, thr, mp⟩ := k _ fun _ => rfl
    obtain ⟨u, hu⟩ := thr (fun _ => 0) _ q1 q2
    exact ⟨u, _, rfl, hu, mp u S mS bS _ hu.symm.le 7 (by norm_num)⟩

end PI
