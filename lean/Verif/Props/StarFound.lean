import Verif.Props.MaximaClip
import Verif.Props.ScoreStar
import Verif.Props.SubtractMore
import Mathlib.Algebra.Order.Chebyshev

/-!
# Property C176: a new star, from the two exposures to the list of local maxima

What `subtract` makes of a star that is only in the new image, handed on to `find_S_local_maxima`.
-/

namespace PI

open Complex Finset

/-! ## When a pixel is above the threshold -/

theorem sum_indices (h w : ℕ) (f : ℕ → ℕ → ℝ) :
    ((Img.indices h w).map fun p => f p.1 p.2).sum = ∑ i ∈ range h, ∑ j ∈ range w, f i j := by
  have inner' : ∀ i, ((List.range w).map fun j => f i j).sum = ∑ j ∈ range w, f i j := fun i => rfl
  unfold Img.indices
  induction h with
  | zero => simp
  | succ n ih =>
    rw [List.range_succ, List.flatMap_append, List.map_append, List.sum_append, Finset.sum_range_succ]
    refine congrArg₂ (· + ·) ih ?_
    simp only [List.flatMap_cons, List.flatMap_nil, List.append_nil, List.map_map]
    exact inner' n

theorem sublist_sum_le (l l' : List ℝ) (hs : l.Sublist l') (f : ℝ → ℝ) (hf : ∀ x, 0 ≤ f x) :
    (l.map f).sum ≤ (l'.map f).sum := by
  induction hs with
  | slnil => exact le_rfl
  | cons a _ ih => simp only [List.map_cons, List.sum_cons]; linarith [hf a]
  | cons_cons a _ ih => simp only [List.map_cons, List.sum_cons]; linarith

/-- **C176 (outlier).** Whatever the clipping does, a pixel far enough above some level is detected: it is if its squared
distance from the level, times 27 times the number of pixels, is more than `64 (1 + threshold²)` times the sum of the squared
distances of all pixels. -/
theorem outlier_detected (tol : ℝ) (h1 : tol ≤ 1) (S : Img ℚ) (mean std thr : ℚ)
    (h : Clipped tol S mean std) (hthr : 0 ≤ thr) (c : ℝ) (i j : ℕ) (hi : i < S.h) (hj : j < S.w) (hc : c < S.px i j)
    (hbig : 64 * (1 + (thr * (1 + tol)) ^ 2) * ∑ a ∈ range S.h, ∑ b ∈ range S.w, ((S.px a b : ℝ) - c) ^ 2 <
      27 * ((S.h * S.w : ℕ) : ℝ) * ((S.px i j : ℝ) - c) ^ 2) :
    (detected S mean std thr).px i j = true := by
  have hS : 0 < S.h * S.w := Nat.mul_pos (by omega) (by omega)
  have hn := keptValues_ne S hS
  have hlen : (0 : ℝ) < (keptValues S).length := by exact_mod_cast List.length_pos_iff.2 hn
  have hlen2 : 27 * ((S.h * S.w : ℕ) : ℝ) ≤ 64 * (keptValues S).length := by exact_mod_cast keptValues_length S hS
  have hN : (0 : ℝ) < (S.h * S.w : ℕ) := by exact_mod_cast hS
  set l := keptValues S with hl
  set Q := ∑ a ∈ range S.h, ∑ b ∈ range S.w, ((S.px a b : ℝ) - c) ^ 2 with hQ
  have hQl : (l.map fun x => (x - c) ^ 2).sum ≤ Q := by
    refine (sublist_sum_le l (scoreValues S) (clipN_sublist 3 3 _) (fun x => (x - c) ^ 2) fun x => sq_nonneg _).trans ?_
    unfold scoreValues
    rw [List.map_map]
    exact (sum_indices S.h S.w fun a b => ((S.px a b : ℝ) - c) ^ 2).le
  have hsplit : (l.map fun x => (x - c) ^ 2).sum = l.length * (rVar l + (rMean l - c) ^ 2) := by
    have e := sum_sq_shift 1 (rMean l - c) (rMean l) l
    rw [sum_sub_const, ← rMean_mul l hn] at e
    have e2 : rVar l * l.length = (l.map fun x => (x - rMean l) ^ 2).sum := by
      unfold rVar
      field_simp
    have e3 : (l.map fun x => (x - c) ^ 2).sum = (l.map fun x => (1 * (x - rMean l) + (rMean l - c)) ^ 2).sum := by
      congr 1
      refine List.map_congr_left fun x _ => ?_
      ring
    rw [e3, e, ← e2]
    ring
  have hv : rStd l ^ 2 = rVar l := Real.sq_sqrt (rVar_nonneg l)
  set t : ℝ := thr * (1 + tol) with ht
  set d : ℝ := (S.px i j : ℝ) - c with hd
  have hd0 : 0 < d := by rw [hd]; linarith
  set u := rMean l - c with hu
  have key : (1 + t ^ 2) * (rStd l ^ 2 + u ^ 2) < d ^ 2 := by
    have hc1 : 0 < 1 + t ^ 2 := by positivity
    have a1 : (1 + t ^ 2) * (l.length * (rStd l ^ 2 + u ^ 2)) ≤ (1 + t ^ 2) * Q := by
      rw [hv, ← hsplit]
      exact mul_le_mul_of_nonneg_left hQl hc1.le
    have a2 : (1 + t ^ 2) * (rStd l ^ 2 + u ^ 2) * (64 * l.length) < d ^ 2 * (64 * l.length) := by
      calc _ = 64 * ((1 + t ^ 2) * (l.length * (rStd l ^ 2 + u ^ 2))) := by ring
        _ ≤ 64 * ((1 + t ^ 2) * Q) := by linarith
        _ < 27 * ((S.h * S.w : ℕ) : ℝ) * d ^ 2 := by linarith
        _ ≤ 64 * l.length * d ^ 2 := mul_le_mul_of_nonneg_right hlen2 (sq_nonneg d)
        _ = _ := by ring
    exact lt_of_mul_lt_mul_right a2 (by positivity)
  have hlt : u + t * rStd l < d := by
    refine lt_of_pow_lt_pow_left₀ 2 hd0.le (lt_of_le_of_lt ?_ key)
    nlinarith [sq_nonneg (t * u - rStd l)]
  rw [detected_iff S mean std thr (h.std_nonneg h1)]
  have hthr' : (0 : ℝ) ≤ thr := by exact_mod_cast hthr
  have h3 := mul_le_mul_of_nonneg_left h.hi hthr'
  have h4 : (0 : ℝ) ≤ thr * std := by
    have : 0 ≤ thr * std := mul_nonneg hthr (h.std_nonneg h1)
    exact_mod_cast this
  have hm := h.mean_eq
  have : ((cutLevel mean std thr : ℚ) : ℝ) < S.px i j := by
    have e5 : t * rStd l = thr * ((1 + tol) * rStd l) := by rw [ht]; ring
    rw [← hl] at h3 hm
    unfold cutLevel
    split
    · linarith
    · push_cast
      linarith
  exact_mod_cast this

/-- **C176 (faint pixel).** The darkest pixel is never detected. -/
theorem darkest_not_detected (tol : ℝ) (h1 : tol ≤ 1) (S : Img ℚ) (mean std thr : ℚ)
    (h : Clipped tol S mean std) (hthr : 0 ≤ thr) (i j : ℕ) (hi : i < S.h) (hj : j < S.w)
    (hmin : ∀ a < S.h, ∀ b < S.w, S.px i j ≤ S.px a b) : (detected S mean std thr).px i j = false := by
  by_contra hc
  have hd := detected_real tol h1 S mean std thr h hthr i j (by simpa using hc)
  have hS : 0 < S.h * S.w := Nat.mul_pos (by omega) (by omega)
  have hn := keptValues_ne S hS
  have hb : (S.px i j : ℝ) ≤ rMean (keptValues S) := by
    have hlen : (0 : ℝ) < (keptValues S).length := by exact_mod_cast List.length_pos_iff.2 hn
    have := sum_ge_count (keptValues S) (S.px i j : ℝ) fun x hx => by
      obtain ⟨a, ha, b, hb, e⟩ := (mem_scoreValues S x).1 ((clipN_sublist 3 3 _).subset hx)
      rw [← e]
      exact_mod_cast hmin a ha b hb
    unfold rMean
    rw [le_div_iff₀ hlen]
    linarith
  linarith [hd.2]

/-- **C176 (outlier in a score image that is known up to rounding).** `R` is the exact score image, `S` the one computed, off by
at most `δ` times the value at the pixel: the pixel is detected if the root mean square of `R` is at most `r` times its value
there and `64 (1 + threshold²) (r + δ)² < 27 (1 - δ)²`. -/
theorem outlier_detected_near (tol : ℝ) (h1 : tol ≤ 1) (S : Img ℚ) (mean std thr : ℚ)
    (h : Clipped tol S mean std) (hthr : 0 ≤ thr) (R : Img ℝ) (i j : ℕ) (hi : i < S.h) (hj : j < S.w)
    (r δ : ℝ) (hr : 0 ≤ r) (hδ0 : 0 ≤ δ) (hδ1 : δ < 1) (hpos : 0 < R.px i j)
    (hnear : ∀ a < S.h, ∀ b < S.w, |(S.px a b : ℝ) - R.px a b| ≤ δ * R.px i j)
    (hrms : ∑ a ∈ range S.h, ∑ b ∈ range S.w, R.px a b ^ 2 ≤ r ^ 2 * ((S.h * S.w : ℕ) : ℝ) * R.px i j ^ 2)
    (hcond : 64 * (1 + (thr * (1 + tol)) ^ 2) * (r + δ) ^ 2 < 27 * (1 - δ) ^ 2) :
    (detected S mean std thr).px i j = true := by
  have hS : 0 < S.h * S.w := Nat.mul_pos (by omega) (by omega)
  have hN : (0 : ℝ) < (S.h * S.w : ℕ) := by exact_mod_cast hS
  set v := R.px i j with hv
  set N : ℝ := ((S.h * S.w : ℕ) : ℝ) with hNd
  have hp := abs_le.1 (hnear i hi j hj)
  have hlow : (1 - δ) * v ≤ S.px i j := by nlinarith [hp.1]
  have hd1 : 0 < (1 - δ) * v := mul_pos (by linarith) hpos
  refine outlier_detected tol h1 S mean std thr h hthr 0 i j hi hj (lt_of_lt_of_le hd1 hlow) ?_
  simp only [sub_zero]
  have habs : ∑ a ∈ range S.h, ∑ b ∈ range S.w, |R.px a b| ≤ r * N * v := by
    have c1 : (∑ a ∈ range S.h, ∑ b ∈ range S.w, |R.px a b|) ^ 2 ≤ N * ∑ a ∈ range S.h, ∑ b ∈ range S.w, R.px a b ^ 2 := by
      rw [← Finset.sum_product', ← Finset.sum_product']
      refine (sq_sum_le_card_mul_sum_sq (s := range S.h ×ˢ range S.w) (f := fun x => |R.px x.1 x.2|)).trans ?_
      simp only [card_product, card_range, sq_abs]
      rw [hNd]
    have c2 : (∑ a ∈ range S.h, ∑ b ∈ range S.w, |R.px a b|) ^ 2 ≤ (r * N * v) ^ 2 := by
      refine c1.trans ?_
      calc _ ≤ N * (r ^ 2 * N * v ^ 2) := mul_le_mul_of_nonneg_left hrms hN.le
        _ = _ := by ring
    exact (le_abs_self _).trans (abs_le_of_sq_le_sq c2 (by positivity))
  have hsum : ∑ a ∈ range S.h, ∑ b ∈ range S.w, (S.px a b : ℝ) ^ 2 ≤ N * v ^ 2 * (r + δ) ^ 2 := by
    have c3 : ∑ a ∈ range S.h, ∑ b ∈ range S.w, (S.px a b : ℝ) ^ 2 ≤
        ∑ a ∈ range S.h, ∑ b ∈ range S.w, (R.px a b ^ 2 + 2 * (δ * v) * |R.px a b| + (δ * v) ^ 2) := by
      refine Finset.sum_le_sum fun a ha => Finset.sum_le_sum fun b hb => ?_
      have hq := hnear a (mem_range.1 ha) b (mem_range.1 hb)
      have h2 : |(S.px a b : ℝ)| ≤ |R.px a b| + δ * v := by
        have := abs_sub_abs_le_abs_sub (S.px a b : ℝ) (R.px a b)
        linarith
      have h3 := pow_le_pow_left₀ (abs_nonneg _) h2 2
      rw [sq_abs] at h3
      nlinarith [sq_abs (R.px a b)]
    refine c3.trans ?_
    simp only [Finset.sum_add_distrib, ← Finset.mul_sum, Finset.sum_const, card_range, nsmul_eq_mul]
    have hδv : 0 ≤ 2 * (δ * v) := by positivity
    have c4 := mul_le_mul_of_nonneg_left habs hδv
    have hNN : (S.w : ℝ) * ((S.h : ℝ) * (δ * v) ^ 2) = N * (δ * v) ^ 2 := by rw [hNd]; push_cast; ring
    rw [hNN]
    nlinarith
  have hT : 0 ≤ 64 * (1 + ((thr : ℝ) * (1 + tol)) ^ 2) := by positivity
  calc _ ≤ 64 * (1 + ((thr : ℝ) * (1 + tol)) ^ 2) * (N * v ^ 2 * (r + δ) ^ 2) := mul_le_mul_of_nonneg_left hsum hT
    _ = N * v ^ 2 * (64 * (1 + ((thr : ℝ) * (1 + tol)) ^ 2) * (r + δ) ^ 2) := by ring
    _ < N * v ^ 2 * (27 * (1 - δ) ^ 2) := mul_lt_mul_of_pos_left hcond (by positivity)
    _ = 27 * N * ((1 - δ) * v) ^ 2 := by ring
    _ ≤ 27 * N * (S.px i j : ℝ) ^ 2 := mul_le_mul_of_nonneg_left (pow_le_pow_left₀ hd1.le hlow 2) (by positivity)

/-! ## The score image of a new star -/

theorem ifftOrtho_mod (h w : ℕ) (X : ℕ → ℕ → ℂ) (h0 : h ≠ 0) (w0 : w ≠ 0) (i j : ℕ) :
    (ifftOrtho ⟨h, w, X⟩).px (i % h) (j % w) = (ifftOrtho ⟨h, w, X⟩).px i j := by
  have tm : ∀ n k m : ℕ, n ≠ 0 → tw n (-((k : ℝ) * ((m % n : ℕ) : ℝ))) = tw n (-((k : ℝ) * m)) := by
    intro n k m hn
    rw [← conj_tw, tw_mod n hn, conj_tw]
  change (∑ k ∈ range h, ∑ l ∈ range w, X k l * (tw h (-((k : ℝ) * ((i % h : ℕ) : ℝ))) *
      tw w (-((l : ℝ) * ((j % w : ℕ) : ℝ))))) / _ =
    (∑ k ∈ range h, ∑ l ∈ range w, X k l * (tw h (-((k : ℝ) * i)) * tw w (-((l : ℝ) * j)))) / _
  simp only [tm h _ i h0, tm w _ j w0]

/-- The PSF stamp in the corner of an empty frame. -/
noncomputable def psfFrame (h w : ℕ) (psf : Img ℝ) : Img ℝ := ⟨h, w, padPx psf⟩

theorem psfHat_frame (d : SubImg) (h w : ℕ) (hd : d.interped.shape = (h, w)) (g : GuardIdle h w d.psf) (k l : ℕ)
    (hk : k < h) (hl : l < w) : d.psfHat.px k l = (fftOrtho (toC (psfFrame h w d.psf))).px k l := by
  rw [psfHat_idle d h w (congrArg Prod.fst hd) (congrArg Prod.snd hd) g k l hk hl]
  refine congrArg (fun x => (fftOrtho x).px k l) ?_
  unfold padTo toC Img.map psfFrame padPx
  congr 1
  funext i j
  simp only
  split <;> simp

section
variable (env : SubEnv) (it : Bool) (ref new : SubImg) (h w : ℕ) (z : ℝ)
    (hmr : ref.mask.HasShape h w) (hmn : new.mask.HasShape h w) (hz : env.zps = .ok (z, z)) (hz0 : z ≠ 0)
    (hc : env.fitted = true ∨ (0 ≤ (centerOfMass new.psf).1 ∧ 0 ≤ (centerOfMass new.psf).2))
    (hr : ref.interped.shape = (h, w)) (hfr : ref.filled.shape = (h, w)) (hfn : new.filled.shape = (h, w))
    (h0 : h ≠ 0) (w0 : w ≠ 0) (hv : ref.var ≠ 0 ∨ new.var ≠ 0)
    (hpr : ∀ i < h, ∀ j < w, -1 ≤ ref.filled.px i j) (hpn : ∀ i < h, ∀ j < w, -1 ≤ new.filled.px i j)
    (hpsf : new.psf = ref.psf) (gn : GuardIdle h w ref.psf)
    (p q : ℕ) (hp : p < h) (hq : q < w) (flux : ℝ)
    (hpix : new.interped = plusImg ref.interped (starAt h w ref.psf p q flux))
    (out : SubOut) (hout : subtract env ⟨false, false, it⟩ ref new = .ok out) (c : ℝ × ℝ)
    (hcen : ScoreCentre (env.peak out.P) out.P c) (s t : ℤ)
    (h1 : c.1 - (centerOfMass ref.psf).1 = s) (h2 : c.2 - (centerOfMass ref.psf).2 = t)
include hmr hmn hz hz0 hc hr hfr hfn h0 w0 hv hpr hpn hpsf gn hp hq hpix hout hcen h1 h2

/-- **C176 (score).** Two exposures with the same PSF and zero point that differ only by a star: the score image is the
autocorrelation of the returned P around the star, over the noise the score allows for, which contains the star. -/
theorem lone_star_score (i j : ℕ) (hi : i < h) (hj : j < w) :
    out.S.px i j = flux / (|z| * (ref.var ^ 2 + new.var ^ 2) * Real.sqrt ((h * w : ℕ) : ℝ)) *
      selfCorr out.P (backBy h (s + p) i) (backBy w (t + q) j) /
        Real.sqrt (varNew ref new 1 i j + varRef ref new 1 i j) := by
  obtain ⟨ni, nm, nf, np, nv⟩ := new
  simp only at hpix hpsf hfn hpn hmn hc hv
  subst hpix hpsf
  have hzz : z / z = 1 := div_self hz0
  have hn : (plusImg ref.interped (starAt h w ref.psf p q flux)).shape = (h, w) := hr
  let base : SubImg := ⟨ref.interped, nm, nf, ref.psf, nv⟩
  obtain ⟨outB, eB, -, hS0⟩ := subtract_self_zero env it ref base h w hr rfl rfl hmr hmn z hz0 hz hc
  obtain ⟨out', eo, -, hP, -⟩ := subtract_returns env it ref
    ⟨plusImg ref.interped (starAt h w ref.psf p q flux), nm, nf, ref.psf, nv⟩ h w hr hn hmr hmn (z, z) hz hc
  rw [hout] at eo
  cases eo
  obtain ⟨outB', eo', -, hPB, -⟩ := subtract_returns env it ref base h w hr hr hmr hmn (z, z) hz hc
  rw [eB] at eo'
  cases eo'
  have hPP : outB.P = out.P := by rw [hPB, hP]; rfl
  have st := score_star_new env it ref base h w (z, z) hmr hmn hz hc hr hr hfr hfn h0 w0 (by simp [hzz]) hv hpr hpn outB eB c
    (by rw [hPP]; exact hcen) p q hp hq flux gn s t h1 h2 i j hi hj
  have hso : scoreOf env ⟨false, false, it⟩ ref base ref.interped
      (plusImg base.interped (starAt h w base.psf p q flux)) = out.S := by
    have : subtract env ⟨false, false, it⟩ (ref.withPixels ref.interped)
      (base.withPixels (plusImg base.interped (starAt h w base.psf p q flux))) = .ok out := hout
    unfold scoreOf
    rw [this]
  rw [hso, hS0, zero_add, hPP] at st
  simp only [hzz, mul_one, one_pow] at st
  exact st

omit hp hq hfr hfn hpr hpn hcen h1 h2 in
/-- With equal PSFs and zero points the autocorrelation of the returned P is that of the PSF. -/
theorem same_psf_corr (a b : ℕ) : selfCorr out.P a b = selfCorr (psfFrame h w ref.psf) a b := by
  have hn : new.interped.shape = (h, w) := by rw [hpix]; exact hr
  have hzz : z / z = 1 := div_self hz0
  obtain ⟨out', eo, -, hP, -⟩ := subtract_returns env it ref new h w hr hn hmr hmn (z, z) hz hc
  rw [hout] at eo
  cases eo
  simp only [hzz] at hP
  have rh0 : ref.interped.h = h := congrArg Prod.fst hr
  have rw0 : ref.interped.w = w := congrArg Prod.snd hr
  have nh0 : new.interped.h = h := congrArg Prod.fst hn
  have nw0 : new.interped.w = w := congrArg Prod.snd hn
  have hPp : pHat ref new 1 = ⟨h, w, (pHat ref new 1).px⟩ := by
    conv_rhs => rw [← rh0, ← rw0]
    rfl
  have e1 := ifftOrtho_normSq h w (pHat ref new 1).px out.P.px h0 w0
    (fun i j => by
      rw [hP, subtract_P_real ref new (nh0.trans rh0.symm) (nw0.trans rw0.symm)]
      exact congrArg (fun x => (ifftOrtho x).px i j) hPp) a b
  have e2 := ifftOrtho_normSq h w (fftOrtho (toC (psfFrame h w ref.psf))).px
    (fun i j => (psfFrame h w ref.psf).px (i % h) (j % w)) h0 w0
    (fun i j => by
      have t := ifftOrtho_fftOrtho (toC (psfFrame h w ref.psf)) (i % h) (j % w)
        (Nat.mod_lt i (Nat.pos_of_ne_zero h0)) (Nat.mod_lt j (Nat.pos_of_ne_zero w0))
      exact t.symm.trans (ifftOrtho_mod h w _ h0 w0 i j)) a b
  have hpow : ∀ k < h, ∀ l < w, ((normSq ((pHat ref new 1).px k l) : ℝ) : ℂ) =
      ((normSq ((fftOrtho (toC (psfFrame h w ref.psf))).px k l) : ℝ) : ℂ) := by
    intro k hk l hl
    have pe := power_eq ref new (z, z) (by simp [hzz]) hv k l
    simp only [hzz] at pe
    have en : new.psfHat.px k l = ref.psfHat.px k l := by
      rw [psfHat_frame new h w hn (hpsf ▸ gn) k l hk hl, psfHat_frame ref h w hr gn k l hk hl, hpsf]
    rw [← psfHat_frame ref h w hr gn k l hk hl]
    have hne : normSq (ref.psfHat.px k l) ≠ 0 := by
      rw [Ne, normSq_eq_zero, psfHat_idle ref h w rh0 rw0 gn k l hk hl]
      intro h00
      exact gn k hk l hl (by rw [h00]; rfl)
    have hV : ref.var ^ 2 + new.var ^ 2 ≠ 0 := by
      rcases hv with hv | hv
      · have : 0 < ref.var ^ 2 := by positivity
        positivity
      · have : 0 < new.var ^ 2 := by positivity
        positivity
    have hnr : normReal ref new 1 k l = (ref.var ^ 2 + new.var ^ 2) * normSq (ref.psfHat.px k l) := by
      unfold normReal
      rw [en]
      ring
    rw [hnr, en, ← ofReal_div, ofReal_inj] at pe
    rw [ofReal_inj]
    rw [one_pow, mul_one] at pe
    field_simp at pe
    linarith
  rw [ifftOrtho_congr h w _ _ hpow a b, e2, ofReal_inj] at e1
  have hN : Real.sqrt ((h * w : ℕ) : ℝ) ≠ 0 := by
    have : 0 < h * w := Nat.mul_pos (Nat.pos_of_ne_zero h0) (Nat.pos_of_ne_zero w0)
    have : (0 : ℝ) < ((h * w : ℕ) : ℝ) := by exact_mod_cast this
    positivity
  have e3 := (div_left_inj' hN).1 e1
  have hPh : out.P.h = h := by rw [hP]; exact rh0
  have hPw : out.P.w = w := by rw [hP]; exact rw0
  unfold selfCorr
  rw [hPh, hPw]
  refine e3.symm.trans (Finset.sum_congr rfl fun i hi => Finset.sum_congr rfl fun j hj => ?_)
  have hi' : i % h = i := Nat.mod_eq_of_lt (mem_range.1 hi)
  have hj' : j % w = j := Nat.mod_eq_of_lt (mem_range.1 hj)
  rw [Nat.mod_mod, Nat.mod_mod, hi', hj']
  rfl

omit hmr hmn hz hz0 hc hfr hfn hp hq hpix hout hcen h1 h2 in
/-- The noise the score allows for is positive if the pixels of the new image are above -1. -/
theorem score_noise_pos (hn : new.interped.shape = (h, w)) (hpn' : ∀ i < h, ∀ j < w, -1 < new.filled.px i j)
    (i j : ℕ) (hi : i < h) (hj : j < w) : 0 < varNew ref new 1 i j + varRef ref new 1 i j := by
  have rh0 : ref.h = h := congrArg Prod.fst hr
  have rw0 : ref.w = w := congrArg Prod.snd hr
  have nh0 : new.h = h := congrArg Prod.fst hn
  have nw0 : new.w = w := congrArg Prod.snd hn
  have hR : 0 ≤ varRef ref new 1 i j := by
    unfold varRef
    rw [rh0, rw0]
    refine Finset.sum_nonneg fun x hx => Finset.sum_nonneg fun y hy => mul_nonneg ?_ (sq_nonneg _)
    linarith [hpr x (mem_range.1 hx) y (mem_range.1 hy)]
  have hex : ∃ a < h, ∃ b < w, (knImg ref new 1).px a b ≠ 0 := by
    by_contra hno
    push Not at hno
    have e := fftOrtho_ifftOrtho ⟨h, w, fun k l => zackayKn ref.var new.var 1 1 (ref.psfHat.px k l) (new.psfHat.px k l)⟩ 0 0
      (Nat.pos_of_ne_zero h0) (Nat.pos_of_ne_zero w0)
    have hk : knImg ref new 1 =
        ifftOrtho ⟨h, w, fun k l => zackayKn ref.var new.var 1 1 (ref.psfHat.px k l) (new.psfHat.px k l)⟩ := by
      unfold knImg
      rw [rh0, rw0]
    rw [← hk] at e
    have z0 : (fftOrtho (knImg ref new 1)).px 0 0 = 0 := by
      rw [hk]
      change (∑ a ∈ range h, ∑ b ∈ range w, _ * _) / _ = (0 : ℂ)
      rw [Finset.sum_eq_zero fun a ha => Finset.sum_eq_zero fun b hb => ?_, zero_div]
      have := hno a (mem_range.1 ha) b (mem_range.1 hb)
      rw [hk] at this
      rw [this, zero_mul]
    rw [z0] at e
    have en : new.psfHat.px 0 0 = ref.psfHat.px 0 0 := by
      rw [psfHat_frame new h w hn (hpsf ▸ gn) 0 0 (Nat.pos_of_ne_zero h0) (Nat.pos_of_ne_zero w0),
        psfHat_frame ref h w hr gn 0 0 (Nat.pos_of_ne_zero h0) (Nat.pos_of_ne_zero w0), hpsf]
    have hne : ref.psfHat.px 0 0 ≠ 0 := by
      rw [psfHat_idle ref h w rh0 rw0 gn 0 0 (Nat.pos_of_ne_zero h0) (Nat.pos_of_ne_zero w0)]
      intro h00
      exact gn 0 (Nat.pos_of_ne_zero h0) 0 (Nat.pos_of_ne_zero w0) (by rw [h00]; rfl)
    have hq : 0 < normSq (ref.psfHat.px 0 0) := normSq_pos.2 hne
    have hden : (new.var ^ 2 * 1 ^ 2 * normSq (ref.psfHat.px 0 0) + ref.var ^ 2 * 1 ^ 2 * normSq (ref.psfHat.px 0 0) : ℝ) ≠ 0 := by
      rcases hv with hv | hv
      · have : 0 < ref.var ^ 2 := by positivity
        positivity
      · have : 0 < new.var ^ 2 := by positivity
        positivity
    change (0 : ℂ) = zackayKn ref.var new.var 1 1 (ref.psfHat.px 0 0) (new.psfHat.px 0 0) at e
    rw [en] at e
    unfold zackayKn at e
    refine div_ne_zero (mul_ne_zero (mul_ne_zero (by norm_num) ?_) ?_) ?_ e.symm
    · exact (map_ne_zero _).2 hne
    · exact_mod_cast hq.ne'
    · exact_mod_cast hden
  obtain ⟨a, ha, b, hb, hab⟩ := hex
  have hre : ((knImg ref new 1).px a b).re ≠ 0 := fun h00 =>
    hab (Complex.ext h00 (kernels_real ref new (nh0.trans rh0.symm) (nw0.trans rw0.symm) 1 a b).2)
  have back : ∀ n u v : ℕ, u < n → v < n → (u + (n - (u + (n - v)) % n)) % n = v := by
    intro n u v hu hv
    by_cases hc : v ≤ u
    · rw [show u + (n - v) = (u - v) + n by omega, Nat.add_mod_right, Nat.mod_eq_of_lt (show u - v < n by omega),
        show u + (n - (u - v)) = v + n by omega, Nat.add_mod_right, Nat.mod_eq_of_lt hv]
    · rw [Nat.mod_eq_of_lt (show u + (n - v) < n by omega), show u + (n - (u + (n - v))) = v by omega, Nat.mod_eq_of_lt hv]
  have hNpos : 0 < varNew ref new 1 i j := by
    unfold varNew
    rw [rh0, rw0]
    have nn : ∀ x ∈ range h, ∀ y ∈ range w, 0 ≤ (new.filled.px x y + 1) *
        ((knImg ref new 1).px ((i + (h - x)) % h) ((j + (w - y)) % w)).re ^ 2 := fun x hx y hy =>
      mul_nonneg (by linarith [hpn x (mem_range.1 hx) y (mem_range.1 hy)]) (sq_nonneg _)
    have hx : (i + (h - a)) % h < h := Nat.mod_lt _ (Nat.pos_of_ne_zero h0)
    have hy : (j + (w - b)) % w < w := Nat.mod_lt _ (Nat.pos_of_ne_zero w0)
    refine Finset.sum_pos' (fun x hx => Finset.sum_nonneg (nn x hx)) ⟨_, mem_range.2 hx,
      Finset.sum_pos' (nn _ (mem_range.2 hx)) ⟨_, mem_range.2 hy, mul_pos (by linarith [hpn' _ hx _ hy]) ?_⟩⟩
    rw [back h i a hi ha, back w j b hj hb]
    positivity
  linarith

/-- **C176 (found).** A new star of positive flux, from the two exposures to the list of local maxima, whatever its flux: if the
root mean square of the autocorrelation of the PSF over the noise is at most `r` times its value at the star, and the score
image is computed to `δ` times its peak, with `64 (1 + threshold²) (r + δ)² < 27 (1 - δ)²`, then the star's pixel is detected and belongs
to an entry of the list. The call can raise only if the score image has negative pixels. -/
theorem new_star_found (hflux : 0 < flux) (hpn' : ∀ i < h, ∀ j < w, -1 < new.filled.px i j)
    (r δ : ℝ) (hr0 : 0 ≤ r) (hδ0 : 0 ≤ δ) (hδ1 : δ < 1)
    (hwide : ∑ i ∈ range h, ∑ j ∈ range w,
        selfCorr (psfFrame h w ref.psf) (backBy h (s + p) i) (backBy w (t + q) j) ^ 2 /
          (varNew ref new 1 i j + varRef ref new 1 i j) ≤
      r ^ 2 * ((h * w : ℕ) : ℝ) * (selfCorr (psfFrame h w ref.psf) 0 0 ^ 2 /
        (varNew ref new 1 ((s + p) % h).toNat ((t + q) % w).toNat +
          varRef ref new 1 ((s + p) % h).toNat ((t + q) % w).toNat)))
    (label : Img Bool → Labels) (hL : ∀ m, IsLabelling m (label m)) (tol : ℝ) (htol : tol ≤ 1)
    (S : Img ℚ) (hS : S.shape = (h, w)) (mean std thr nb : ℚ) (hthr : 0 ≤ thr) (hclip : Clipped tol S mean std)
    (hcond : 64 * (1 + (thr * (1 + tol)) ^ 2) * (r + δ) ^ 2 < 27 * (1 - δ) ^ 2)
    (hnear : ∀ i < h, ∀ j < w, |(S.px i j : ℝ) - out.S.px i j| ≤
      δ * out.S.px ((s + p) % h).toNat ((t + q) % w).toNat) :
    0 < out.S.px ((s + p) % h).toNat ((t + q) % w).toNat ∧
    (detected S mean std thr).px ((s + p) % h).toNat ((t + q) % w).toNat = true ∧
    (∀ l, findMaxima label S mean std thr nb = .ok l → ∃ k < l.length,
      (label (detected S mean std thr)).lab ((s + p) % h).toNat ((t + q) % w).toNat = k + 1) ∧
    ((∀ i < h, ∀ j < w, 0 ≤ S.px i j) → ∃ l, findMaxima label S mean std thr nb = .ok l) := by
  have sc := lone_star_score env it ref new h w z hmr hmn hz hz0 hc hr hfr hfn h0 w0 hv hpr hpn hpsf gn p q hp hq flux hpix out
    hout c hcen s t h1 h2
  have pc := same_psf_corr env it ref new h w z hmr hmn hz hz0 hc hr h0 w0 hv hpsf gn p q flux hpix out hout
  simp only [pc] at sc
  have hSh : S.h = h := congrArg Prod.fst hS
  have hSw : S.w = w := congrArg Prod.snd hS
  have hlt : ∀ (n : ℕ) (a : ℤ), n ≠ 0 → (a % n).toNat < n := by
    intro n a hn0
    have := Int.emod_lt_of_pos a (show (0 : ℤ) < n by omega)
    omega
  have hpos : ∀ i < h, ∀ j < w, 0 < varNew ref new 1 i j + varRef ref new 1 i j := fun i hi j hj =>
    score_noise_pos ref new h w hr h0 w0 hv hpr hpn hpsf gn (by rw [hpix]; exact hr) hpn' i j hi hj
  have hi := hlt h (s + p) h0
  have hj := hlt w (t + q) w0
  set I := ((s + p) % h).toNat with hI
  set J := ((t + q) % w).toNat with hJ
  have hbI : backBy h (s + p) I = 0 := backBy_self h h0 (s + p)
  have hbJ : backBy w (t + q) J = 0 := backBy_self w w0 (t + q)
  have s0 := sc I J hi hj
  rw [hbI, hbJ] at s0
  have hC : 0 < selfCorr (psfFrame h w ref.psf) 0 0 := by
    rw [(selfCorr_le _ 0 0).2]
    refine lt_of_le_of_ne (Finset.sum_nonneg fun a _ => Finset.sum_nonneg fun b _ => sq_nonneg _) fun hz => ?_
    have hall : ∀ a ∈ range h, ∀ b ∈ range w, (psfFrame h w ref.psf).px a b = 0 := by
      intro a ha b hb
      have q1 := (Finset.sum_eq_zero_iff_of_nonneg fun a _ => Finset.sum_nonneg fun b _ => sq_nonneg _).1 hz.symm a ha
      have q2 := (Finset.sum_eq_zero_iff_of_nonneg fun b _ => sq_nonneg _).1 q1 b hb
      exact pow_eq_zero_iff (two_ne_zero) |>.1 q2
    refine gn 0 (Nat.pos_of_ne_zero h0) 0 (Nat.pos_of_ne_zero w0) ?_
    rw [← psfHat_idle ref h w (congrArg Prod.fst hr) (congrArg Prod.snd hr) gn 0 0 (Nat.pos_of_ne_zero h0)
      (Nat.pos_of_ne_zero w0), psfHat_frame ref h w hr gn 0 0 (Nat.pos_of_ne_zero h0) (Nat.pos_of_ne_zero w0)]
    change ((∑ a ∈ range h, ∑ b ∈ range w, (((psfFrame h w ref.psf).px a b : ℝ) : ℂ) * _) / _).re = 0
    rw [Finset.sum_eq_zero fun a ha => Finset.sum_eq_zero fun b hb => by rw [hall a ha b hb, ofReal_zero, zero_mul], zero_div]
    rfl
  have hV : 0 < ref.var ^ 2 + new.var ^ 2 := by
    rcases hv with hv | hv
    · have : 0 < ref.var ^ 2 := by positivity
      positivity
    · have : 0 < new.var ^ 2 := by positivity
      positivity
  have hN : (0 : ℝ) < ((h * w : ℕ) : ℝ) := by
    exact_mod_cast Nat.mul_pos (Nat.pos_of_ne_zero h0) (Nat.pos_of_ne_zero w0)
  have hA : 0 < flux / (|z| * (ref.var ^ 2 + new.var ^ 2) * Real.sqrt ((h * w : ℕ) : ℝ)) := by
    have : 0 < |z| := abs_pos.2 hz0
    positivity
  set A := flux / (|z| * (ref.var ^ 2 + new.var ^ 2) * Real.sqrt ((h * w : ℕ) : ℝ)) with hAd
  have hp0 : 0 < out.S.px I J := by
    rw [s0]
    have := Real.sqrt_pos.2 (hpos I hi J hj)
    positivity
  have hsq : ∀ i < h, ∀ j < w, out.S.px i j ^ 2 = A ^ 2 *
      (selfCorr (psfFrame h w ref.psf) (backBy h (s + p) i) (backBy w (t + q) j) ^ 2 /
          (varNew ref new 1 i j + varRef ref new 1 i j)) := by
    intro i hi j hj
    rw [sc i j hi hj, div_pow, Real.sq_sqrt (hpos i hi j hj).le, mul_pow, mul_div_assoc]
  have hdet := outlier_detected_near tol htol S mean std thr hclip hthr out.S I J (by omega) (by omega) r δ hr0 hδ0 hδ1 hp0
    (fun a ha b hb => hnear a (by omega) b (by omega))
    (by
      rw [hSh, hSw, Finset.sum_congr rfl fun i hi => Finset.sum_congr rfl fun j hj =>
        hsq i (mem_range.1 hi) j (mem_range.1 hj), hsq I hi J hj, hbI, hbJ]
      simp only [← Finset.mul_sum]
      have := mul_le_mul_of_nonneg_left hwide (sq_nonneg A)
      linarith)
    hcond
  refine ⟨hp0, hdet, fun l hl => ?_, fun hnn => ?_⟩
  · obtain ⟨k, hk, e⟩ := detected_entry label hL S mean std thr nb l hl I J (by omega) (by omega) hdet
    exact ⟨k, hk, e⟩
  · have hs := hclip.std_nonneg htol
    have hm : 0 ≤ mean := by
      have hm' : (0 : ℝ) ≤ mean := by
        rw [hclip.mean_eq]
        unfold rMean
        refine div_nonneg (List.sum_nonneg fun x hx => ?_) (Nat.cast_nonneg _)
        obtain ⟨a, ha, b, hb, e⟩ := (mem_scoreValues S x).1 ((clipN_sublist 3 3 _).subset hx)
        rw [← e]
        exact_mod_cast hnn a (by omega) b (by omega)
      exact_mod_cast hm'
    obtain ⟨l, hl, -⟩ := maxima_positive label S mean std thr nb hL hs (by
      unfold cutLevel
      split
      · exact hm
      · have := mul_nonneg hthr hs
        linarith)
    exact ⟨l, hl⟩

/-- **C176 (faded star).** A star that is fainter in the new image is not found: where the noise is nowhere lower than at the star,
its pixel is the darkest of the score image, and stays so under every rounding that keeps the order. -/
theorem faded_star_missed (hflux : flux ≤ 0)
    (hV : ∀ i < h, ∀ j < w, 0 < varNew ref new 1 i j + varRef ref new 1 i j ∧
      varNew ref new 1 ((s + p) % h).toNat ((t + q) % w).toNat + varRef ref new 1 ((s + p) % h).toNat ((t + q) % w).toNat ≤
        varNew ref new 1 i j + varRef ref new 1 i j)
    (tol : ℝ) (htol : tol ≤ 1) (S : Img ℚ) (hS : S.shape = (h, w)) (mean std thr : ℚ) (hthr : 0 ≤ thr)
    (hclip : Clipped tol S mean std)
    (hmono : ∀ i < h, ∀ j < w, out.S.px ((s + p) % h).toNat ((t + q) % w).toNat ≤ out.S.px i j →
      S.px ((s + p) % h).toNat ((t + q) % w).toNat ≤ S.px i j) :
    (detected S mean std thr).px ((s + p) % h).toNat ((t + q) % w).toNat = false := by
  have sc := lone_star_score env it ref new h w z hmr hmn hz hz0 hc hr hfr hfn h0 w0 hv hpr hpn hpsf gn p q hp hq flux hpix out
    hout c hcen s t h1 h2
  have hSh : S.h = h := congrArg Prod.fst hS
  have hSw : S.w = w := congrArg Prod.snd hS
  have hlt : ∀ (n : ℕ) (a : ℤ), n ≠ 0 → (a % n).toNat < n := by
    intro n a hn0
    have := Int.emod_lt_of_pos a (show (0 : ℤ) < n by omega)
    omega
  have hi := hlt h (s + p) h0
  have hj := hlt w (t + q) w0
  set I := ((s + p) % h).toNat with hI
  set J := ((t + q) % w).toNat with hJ
  have hbI : backBy h (s + p) I = 0 := backBy_self h h0 (s + p)
  have hbJ : backBy w (t + q) J = 0 := backBy_self w w0 (t + q)
  have s0 := sc I J hi hj
  rw [hbI, hbJ] at s0
  refine darkest_not_detected tol htol S mean std thr hclip hthr I J (by omega) (by omega) fun a ha b hb => ?_
  rw [hSh] at ha
  rw [hSw] at hb
  refine hmono a ha b hb ?_
  rw [s0, sc a b ha hb]
  have hA : flux / (|z| * (ref.var ^ 2 + new.var ^ 2) * Real.sqrt ((h * w : ℕ) : ℝ)) ≤ 0 :=
    div_nonpos_of_nonpos_of_nonneg hflux (by positivity)
  generalize flux / (|z| * (ref.var ^ 2 + new.var ^ 2) * Real.sqrt ((h * w : ℕ) : ℝ)) = A at hA
  have hC := (selfCorr_le out.P (backBy h (s + p) a) (backBy w (t + q) b))
  have hC0 : 0 ≤ selfCorr out.P 0 0 := by
    rw [hC.2]
    exact Finset.sum_nonneg fun a _ => Finset.sum_nonneg fun b _ => sq_nonneg _
  have hs0 := Real.sqrt_pos.2 (hV I hi J hj).1
  have hs1 := Real.sqrt_le_sqrt (hV a ha b hb).2
  calc A * selfCorr out.P 0 0 / Real.sqrt (varNew ref new 1 I J + varRef ref new 1 I J)
      ≤ A * selfCorr out.P 0 0 / Real.sqrt (varNew ref new 1 a b + varRef ref new 1 a b) := by
        rw [mul_div_assoc, mul_div_assoc]
        exact mul_le_mul_of_nonpos_left (div_le_div_of_nonneg_left hC0 hs0 hs1) hA
    _ ≤ _ := div_le_div_of_nonneg_right (mul_le_mul_of_nonpos_left hC.1 hA) (Real.sqrt_nonneg _)

end

/-- The condition holds for the default threshold of 5/2 with `r = 23/100` and a score image computed to 1/200 of its peak. -/
theorem default_found (tol : ℝ) (h0 : 0 ≤ tol) (h1 : tol ≤ 1 / 100) :
    64 * (1 + (((5 / 2 : ℚ) : ℝ) * (1 + tol)) ^ 2) * ((23 / 100 : ℝ) + 1 / 200) ^ 2 < 27 * (1 - 1 / 200) ^ 2 := by
  push_cast
  nlinarith

/-! ## One-pixel PSFs -/

/-- An exposure of unit noise whose PSF is one pixel. -/
noncomputable def pixelSub (h w : ℕ) (sky filled : ℕ → ℕ → ℝ) : SubImg where
  interped := ⟨h, w, sky⟩
  mask := none
  filled := ⟨h, w, filled⟩
  psf := ⟨1, 1, fun _ _ => 1⟩
  var := 1

theorem pixel_padded (h w : ℕ) (h0 : h ≠ 0) (w0 : w ≠ 0) (k l : ℕ) :
    (fftOrtho (padTo h w (toC ⟨1, 1, fun _ _ => 1⟩))).px k l = (((Real.sqrt ((h * w : ℕ) : ℝ))⁻¹ : ℝ) : ℂ) := by
  change (∑ i ∈ range h, ∑ j ∈ range w,
    (if i < 1 ∧ j < 1 then ((1 : ℝ) : ℂ) else 0) * (tw h ((k : ℝ) * i) * tw w ((l : ℝ) * j))) / _ = _
  rw [Finset.sum_eq_single 0, Finset.sum_eq_single 0]
  · simp only [Nat.cast_zero, mul_zero, tw_zero, mul_one]
    rw [if_pos ⟨by omega, by omega⟩]
    push_cast
    rw [one_div]
    rfl
  · intro j _ hj
    rw [if_neg (by omega), zero_mul]
  · intro hn; exact absurd (mem_range.2 (Nat.pos_of_ne_zero w0)) hn
  · intro i _ hi
    refine Finset.sum_eq_zero fun j _ => ?_
    rw [if_neg (by omega), zero_mul]
  · intro hn; exact absurd (mem_range.2 (Nat.pos_of_ne_zero h0)) hn

theorem pixel_idle (h w : ℕ) (h0 : h ≠ 0) (w0 : w ≠ 0) : GuardIdle h w ⟨1, 1, fun _ _ => 1⟩ := by
  intro k hk l hl
  rw [pixel_padded h w h0 w0, ofReal_re]
  have : (0 : ℝ) < ((h * w : ℕ) : ℝ) := by exact_mod_cast Nat.mul_pos (Nat.pos_of_ne_zero h0) (Nat.pos_of_ne_zero w0)
  positivity

theorem pixel_corr (h w : ℕ) (h0 : h ≠ 0) (w0 : w ≠ 0) (a b : ℕ) :
    selfCorr (psfFrame h w ⟨1, 1, fun _ _ => 1⟩) a b = if a % h = 0 ∧ b % w = 0 then 1 else 0 := by
  unfold selfCorr
  change ∑ x ∈ range h, ∑ y ∈ range w, (if (a + x) % h < 1 ∧ (b + y) % w < 1 then (1 : ℝ) else 0) *
    (if x < 1 ∧ y < 1 then (1 : ℝ) else 0) = _
  rw [Finset.sum_eq_single 0, Finset.sum_eq_single 0]
  · rw [if_pos (show 0 < 1 ∧ 0 < 1 by omega), mul_one, add_zero, add_zero]
    simp only [Nat.lt_one_iff]
  · intro j _ hj
    rw [if_neg (show ¬ (0 < 1 ∧ j < 1) by omega), mul_zero]
  · intro hn; exact absurd (mem_range.2 (Nat.pos_of_ne_zero w0)) hn
  · intro i _ hi
    refine Finset.sum_eq_zero fun j _ => ?_
    rw [if_neg (show ¬ (i < 1 ∧ j < 1) by omega), mul_zero]
  · intro hn; exact absurd (mem_range.2 (Nat.pos_of_ne_zero h0)) hn

theorem pixel_com : centerOfMass (⟨1, 1, fun _ _ => 1⟩ : Img ℝ) = (0, 0) := by
  unfold centerOfMass rsum
  simp

/-- The P of two exposures with one-pixel PSFs has its centre in the corner. -/
theorem pixel_P_com (ref new : SubImg) (h w : ℕ) (h0 : h ≠ 0) (w0 : w ≠ 0) (hr : ref.interped.shape = (h, w))
    (hn : new.interped.shape = (h, w)) (pr : ref.psf = ⟨1, 1, fun _ _ => 1⟩) (pn : new.psf = ⟨1, 1, fun _ _ => 1⟩)
    (hv : ref.var ≠ 0 ∨ new.var ≠ 0) : centerOfMass (subP ref new 1) = (0, 0) := by
  have hN : (0 : ℝ) < ((h * w : ℕ) : ℝ) := by exact_mod_cast Nat.mul_pos (Nat.pos_of_ne_zero h0) (Nat.pos_of_ne_zero w0)
  set s := Real.sqrt ((h * w : ℕ) : ℝ) with hs
  have hs0 : 0 < s := Real.sqrt_pos.2 hN
  have rh0 : ref.interped.h = h := congrArg Prod.fst hr
  have rw0 : ref.interped.w = w := congrArg Prod.snd hr
  have nh0 : new.interped.h = h := congrArg Prod.fst hn
  have nw0 : new.interped.w = w := congrArg Prod.snd hn
  have er : ∀ k < h, ∀ l < w, ref.psfHat.px k l = ((s⁻¹ : ℝ) : ℂ) := fun k hk l hl => by
    rw [psfHat_idle ref h w rh0 rw0 (pr ▸ pixel_idle h w h0 w0) k l hk hl, pr, pixel_padded h w h0 w0]
  have en : ∀ k < h, ∀ l < w, new.psfHat.px k l = ((s⁻¹ : ℝ) : ℂ) := fun k hk l hl => by
    rw [psfHat_idle new h w nh0 nw0 (pn ▸ pixel_idle h w h0 w0) k l hk hl, pn, pixel_padded h w h0 w0]
  have hV : 0 < ref.var ^ 2 + new.var ^ 2 := by
    rcases hv with hv | hv
    · have : 0 < ref.var ^ 2 := by positivity
      positivity
    · have : 0 < new.var ^ 2 := by positivity
      positivity
  have hp : ∀ k < h, ∀ l < w, (pHat ref new 1).px k l = (fftOrtho (padTo h w (toC ⟨1, 1, fun _ _ => 1⟩))).px k l := by
    intro k hk l hl
    have e := pHat_eq ref new (1, 1) (by norm_num) hv k l
    simp only [div_one] at e
    have hnr : normReal ref new 1 k l = (ref.var ^ 2 + new.var ^ 2) * s⁻¹ ^ 2 := by
      unfold normReal
      rw [er k hk l hl, en k hk l hl, normSq_ofReal]
      ring
    rw [hnr, er k hk l hl, en k hk l hl, Real.sqrt_mul hV.le, Real.sqrt_sq (by positivity), one_pow, mul_one] at e
    rw [pixel_padded h w h0 w0, ← hs]
    have hq : (Real.sqrt (ref.var ^ 2 + new.var ^ 2) : ℂ) ≠ 0 := by exact_mod_cast (Real.sqrt_pos.2 hV).ne'
    have hs' : ((s⁻¹ : ℝ) : ℂ) ≠ 0 := by exact_mod_cast (inv_pos.2 hs0).ne'
    rw [ofReal_mul, ofReal_div, ofReal_one] at e
    have e' := congrArg (fun x => (Real.sqrt (ref.var ^ 2 + new.var ^ 2) : ℂ) * x) e
    rw [← mul_assoc, mul_one_div_cancel hq, one_mul] at e'
    rw [← e']
    field_simp
  have hP : ∀ i < h, ∀ j < w, (subP ref new 1).px i j = if i < 1 ∧ j < 1 then 1 else 0 := by
    intro i hi j hj
    have hPp : pHat ref new 1 = ⟨h, w, (pHat ref new 1).px⟩ := by
      conv_rhs => rw [← rh0, ← rw0]
      rfl
    change ((ifftOrtho (pHat ref new 1)).px i j).re = _
    rw [hPp, ifftOrtho_congr h w _ _ hp i j]
    have e := ifftOrtho_fftOrtho (padTo h w (toC ⟨1, 1, fun _ _ => 1⟩)) i j hi hj
    refine (congrArg Complex.re e).trans ?_
    change (if i < 1 ∧ j < 1 then ((1 : ℝ) : ℂ) else 0).re = _
    split <;> simp
  have hh : (subP ref new 1).h = h := rh0
  have hw : (subP ref new 1).w = w := rw0
  have n1 : ∑ i ∈ range h, ∑ j ∈ range w, (i : ℝ) * (subP ref new 1).px i j = 0 := by
    refine Finset.sum_eq_zero fun i hi => Finset.sum_eq_zero fun j hj => ?_
    rw [hP i (mem_range.1 hi) j (mem_range.1 hj)]
    split
    · rename_i hc
      rw [show i = 0 by omega, Nat.cast_zero, zero_mul]
    · rw [mul_zero]
  have n2 : ∑ i ∈ range h, ∑ j ∈ range w, (j : ℝ) * (subP ref new 1).px i j = 0 := by
    refine Finset.sum_eq_zero fun i hi => Finset.sum_eq_zero fun j hj => ?_
    rw [hP i (mem_range.1 hi) j (mem_range.1 hj)]
    split
    · rename_i hc
      rw [show j = 0 by omega, Nat.cast_zero, zero_mul]
    · rw [mul_zero]
  unfold centerOfMass rsum
  simp only [hh, hw]
  rw [n1, n2, zero_div]

/-- A star of the given flux in the pixel `(p, q)` in front of a sky. -/
noncomputable def pixelStar (h w : ℕ) (sky : ℕ → ℕ → ℝ) (p q : ℕ) (flux : ℝ) : Img ℝ :=
  plusImg ⟨h, w, sky⟩ (starAt h w ⟨1, 1, fun _ _ => 1⟩ p q flux)

theorem pixelStar_px (h w : ℕ) (sky : ℕ → ℕ → ℝ) (p q : ℕ) (hp : p < h) (hq : q < w) (flux : ℝ) (i j : ℕ) (hi : i < h)
    (hj : j < w) : (pixelStar h w sky p q flux).px i j = sky i j + if i = p ∧ j = q then flux else 0 := by
  change sky i j + (starAt h w ⟨1, 1, fun _ _ => 1⟩ p q flux).px i j = _
  rw [starAt_inside h w _ p q flux (by change p + 1 ≤ h; omega) (by change q + 1 ≤ w; omega) i j hi hj]
  congr 1
  by_cases hc : i = p ∧ j = q
  · rw [if_pos hc, if_pos (by change _ ∧ i < p + 1 ∧ _ ∧ j < q + 1; omega), mul_one]
  · rw [if_neg hc, if_neg (by change ¬ (_ ∧ i < p + 1 ∧ _ ∧ j < q + 1); omega)]

/-- **C176 (one-pixel PSFs).** In images of 19 or more pixels with one-pixel PSFs a new star of whatever positive flux, in front of
whatever sky, is found with the default threshold. -/
theorem pixel_star_found (h w : ℕ) (hN : 19 ≤ h * w) (sky f g : ℕ → ℕ → ℝ) (hf : ∀ i < h, ∀ j < w, -1 < f i j)
    (hg : ∀ i < h, ∀ j < w, -1 < g i j) (p q : ℕ) (hp : p < h) (hq : q < w) (flux : ℝ) (hflux : 0 < flux) :
    ∃ out, subtract (tinyEnv 1 1) ⟨false, false, true⟩ (pixelSub h w sky f)
        ((pixelSub h w sky g).withPixels (pixelStar h w sky p q flux)) = .ok out ∧
      ∀ (label : Img Bool → Labels), (∀ m, IsLabelling m (label m)) → ∀ (tol : ℝ), 0 ≤ tol → tol ≤ 1 / 100 →
      ∀ (S : Img ℚ) (mean std nb : ℚ), S.shape = (h, w) → Clipped tol S mean std →
        (∀ i < h, ∀ j < w, |(S.px i j : ℝ) - out.S.px i j| ≤ 1 / 200 * out.S.px p q) →
        (detected S mean std (5 / 2)).px p q = true ∧
        ∀ l, findMaxima label S mean std (5 / 2) nb = .ok l →
          ∃ k < l.length, (label (detected S mean std (5 / 2))).lab p q = k + 1 := by
  have h0 : h ≠ 0 := by omega
  have w0 : w ≠ 0 := by omega
  set ref := pixelSub h w sky f with href
  set new := (pixelSub h w sky g).withPixels (pixelStar h w sky p q flux) with hnew
  obtain ⟨out, eo, -, hP, -⟩ := subtract_returns (tinyEnv 1 1) true ref new h w rfl rfl (fun a q => by cases q) (fun a q => by cases q)
    (1, 1) rfl (Or.inl rfl)
  refine ⟨out, eo, fun label hL tol ht0 ht1 S mean std nb hS hclip hnear => ?_⟩
  simp only [div_one] at hP
  have hcm : centerOfMass out.P = (0, 0) := by
    rw [hP]
    exact pixel_P_com ref new h w h0 w0 rfl rfl rfl rfl (Or.inl one_ne_zero)
  have hpix : new.interped = plusImg ref.interped (starAt h w ref.psf p q flux) := rfl
  have eI : (((0 : ℤ) + p) % h).toNat = p := by
    rw [zero_add, Int.emod_eq_of_lt (by omega) (by omega)]; rfl
  have eJ : (((0 : ℤ) + q) % w).toNat = q := by
    rw [zero_add, Int.emod_eq_of_lt (by omega) (by omega)]; rfl
  have m := new_star_found (tinyEnv 1 1) true ref new h w 1 (fun a q => by cases q) (fun a q => by cases q) rfl one_ne_zero
    (Or.inl rfl) rfl rfl rfl h0 w0 (Or.inl one_ne_zero) (fun i hi j hj => (hf i hi j hj).le)
    (fun i hi j hj => (hg i hi j hj).le) rfl (pixel_idle h w h0 w0) p q hp hq flux hpix out eo (0, 0)
    ⟨fun _ => hcm.symm, fun hn => absurd (by rw [hcm]; norm_num [tinyEnv]) hn⟩ 0 0
    (by rw [show ref.psf = ⟨1, 1, fun _ _ => 1⟩ from rfl, pixel_com]; norm_num)
    (by rw [show ref.psf = ⟨1, 1, fun _ _ => 1⟩ from rfl, pixel_com]; norm_num)
    hflux hg (23 / 100) (1 / 200) (by norm_num) (by norm_num) (by norm_num)
    (by
      rw [show ref.psf = ⟨1, 1, fun _ _ => 1⟩ from rfl]
      rw [eI, eJ]
      simp only [pixel_corr h w h0 w0]
      have V0 := score_noise_pos ref new h w rfl h0 w0 (Or.inl one_ne_zero) (fun i hi j hj => (hf i hi j hj).le)
        (fun i hi j hj => (hg i hi j hj).le) rfl (pixel_idle h w h0 w0) rfl hg p q hp hq
      have bk : ∀ n u v : ℕ, u < n → v < n → (backBy n ((0 : ℤ) + u) v % n = 0 ↔ v = u) := by
        intro n u v hu hv
        unfold backBy
        rw [zero_add]
        constructor
        · intro e
          have hn : (n : ℤ) ≠ 0 := by omega
          have e1 : ((v : ℤ) - u) % n = 0 := by
            have a1 := Int.emod_nonneg ((v : ℤ) - u) hn
            have a2 := Int.emod_lt_of_pos ((v : ℤ) - u) (show (0 : ℤ) < n by omega)
            rw [Nat.mod_eq_of_lt (by omega)] at e
            omega
          obtain ⟨c, hc⟩ := Int.dvd_of_emod_eq_zero e1
          have c0 : c = 0 := by
            by_contra hne
            rcases lt_or_gt_of_ne hne with hl | hl
            · have : (n : ℤ) * c ≤ -n := by nlinarith
              omega
            · have : (n : ℤ) ≤ n * c := by nlinarith
              omega
          rw [c0, mul_zero] at hc
          omega
        · intro e
          subst e
          simp
      rw [Finset.sum_eq_single p, Finset.sum_eq_single q]
      · rw [if_pos ⟨(bk h p p hp hp).2 rfl, (bk w q q hq hq).2 rfl⟩, if_pos ⟨Nat.zero_mod _, Nat.zero_mod _⟩]
        have : (19 : ℝ) ≤ ((h * w : ℕ) : ℝ) := by exact_mod_cast hN
        have hx := (div_pos one_pos V0).le
        rw [one_pow]
        nlinarith
      · intro j hj hne
        rw [if_neg fun hc => hne ((bk w q j hq (mem_range.1 hj)).1 hc.2)]
        simp
      · intro hn; exact absurd (mem_range.2 hq) hn
      · intro i hi hne
        refine Finset.sum_eq_zero fun j _ => ?_
        rw [if_neg fun hc => hne ((bk h p i hp (mem_range.1 hi)).1 hc.1)]
        simp
      · intro hn; exact absurd (mem_range.2 hp) hn)
    label hL tol (by linarith) S hS mean std (5 / 2) nb (by norm_num) hclip (default_found tol ht0 ht1)
    (by rw [eI, eJ]; exact hnear)
  rw [eI, eJ] at m
  exact ⟨m.2.1, m.2.2.1⟩

theorem sum_range_back {M : Type*} [AddCommMonoid M] (n i : ℕ) (f : ℕ → M) :
    ∑ x ∈ range n, f ((i + (n - x)) % n) = ∑ x ∈ range n, f x := by
  rw [← sum_range_roll n (i + 1) f, ← Finset.sum_range_reflect]
  refine Finset.sum_congr rfl fun x hx => ?_
  have := mem_range.1 hx
  rw [show i + (n - (n - 1 - x)) = i + 1 + x by omega]

/-- With flat images the noise the score allows for is the same everywhere. -/
theorem flat_noise (ref new : SubImg) (b : ℝ) (cr cn : ℝ) (hr : ∀ x < ref.h, ∀ y < ref.w, ref.filled.px x y = cr)
    (hn : ∀ x < ref.h, ∀ y < ref.w, new.filled.px x y = cn) (i j : ℕ) :
    varNew ref new b i j + varRef ref new b i j = varNew ref new b 0 0 + varRef ref new b 0 0 := by
  have key : ∀ (c : ℝ) (f : ℕ → ℕ → ℝ) (K : ℕ → ℕ → ℝ), (∀ x < ref.h, ∀ y < ref.w, f x y = c) → ∀ i j,
      ∑ x ∈ range ref.h, ∑ y ∈ range ref.w, (f x y + 1) * K ((i + (ref.h - x)) % ref.h) ((j + (ref.w - y)) % ref.w) =
        (c + 1) * ∑ x ∈ range ref.h, ∑ y ∈ range ref.w, K x y := by
    intro c f K hf i j
    rw [← sum_range_back ref.h i fun x => ∑ y ∈ range ref.w, K x y, Finset.mul_sum]
    refine Finset.sum_congr rfl fun x hx => ?_
    rw [← sum_range_back ref.w j fun y => K ((i + (ref.h - x)) % ref.h) y, Finset.mul_sum]
    refine Finset.sum_congr rfl fun y hy => ?_
    rw [hf x (mem_range.1 hx) y (mem_range.1 hy)]
  unfold varNew varRef
  rw [key cn new.filled.px (fun x y => ((knImg ref new b).px x y).re ^ 2) hn,
    key cn new.filled.px (fun x y => ((knImg ref new b).px x y).re ^ 2) hn,
    key cr ref.filled.px (fun x y => ((krImg ref new b).px x y).re ^ 2) hr,
    key cr ref.filled.px (fun x y => ((krImg ref new b).px x y).re ^ 2) hr]

/-- The same star in front of the same sky, fainter in the new image than in the reference: never found, with whatever threshold. -/
theorem pixel_star_faded (h w : ℕ) (sky : ℕ → ℕ → ℝ) (p q : ℕ) (hp : p < h) (hq : q < w) (flux : ℝ) (hflux : flux ≤ 0) :
    ∃ out, subtract (tinyEnv 1 1) ⟨false, false, true⟩ (pixelSub h w sky fun _ _ => 0)
        ((pixelSub h w sky fun _ _ => 0).withPixels (pixelStar h w sky p q flux)) = .ok out ∧
      ∀ (tol : ℝ), tol ≤ 1 → ∀ (S : Img ℚ) (mean std thr : ℚ), S.shape = (h, w) → 0 ≤ thr → Clipped tol S mean std →
        (∀ i < h, ∀ j < w, out.S.px p q ≤ out.S.px i j → S.px p q ≤ S.px i j) → (detected S mean std thr).px p q = false := by
  have h0 : h ≠ 0 := by omega
  have w0 : w ≠ 0 := by omega
  set ref := pixelSub h w sky fun _ _ => 0 with href
  set new := (pixelSub h w sky fun _ _ => 0).withPixels (pixelStar h w sky p q flux) with hnew
  obtain ⟨out, eo, -, hP, -⟩ := subtract_returns (tinyEnv 1 1) true ref new h w rfl rfl (fun a q => by cases q) (fun a q => by cases q)
    (1, 1) rfl (Or.inl rfl)
  refine ⟨out, eo, fun tol ht S mean std thr hS hthr hclip hmono => ?_⟩
  simp only [div_one] at hP
  have hcm : centerOfMass out.P = (0, 0) := by
    rw [hP]
    exact pixel_P_com ref new h w h0 w0 rfl rfl rfl rfl (Or.inl one_ne_zero)
  have eI : (((0 : ℤ) + p) % h).toNat = p := by
    rw [zero_add, Int.emod_eq_of_lt (by omega) (by omega)]; rfl
  have eJ : (((0 : ℤ) + q) % w).toNat = q := by
    rw [zero_add, Int.emod_eq_of_lt (by omega) (by omega)]; rfl
  have hfl : ∀ i < h, ∀ j < w, (-1 : ℝ) < new.filled.px i j := fun i _ j _ => by change (-1 : ℝ) < 0; norm_num
  have V0 := score_noise_pos ref new h w rfl h0 w0 (Or.inl one_ne_zero) (fun i hi j hj => (hfl i hi j hj).le)
    (fun i hi j hj => (hfl i hi j hj).le) rfl (pixel_idle h w h0 w0) rfl hfl
  have fl := flat_noise ref new 1 0 0 (fun _ _ _ _ => rfl) (fun _ _ _ _ => rfl)
  have m := faded_star_missed (tinyEnv 1 1) true ref new h w 1 (fun a q => by cases q) (fun a q => by cases q) rfl one_ne_zero
    (Or.inl rfl) rfl rfl rfl h0 w0 (Or.inl one_ne_zero) (fun i hi j hj => (hfl i hi j hj).le)
    (fun i hi j hj => (hfl i hi j hj).le) rfl (pixel_idle h w h0 w0) p q hp hq flux rfl out eo (0, 0)
    ⟨fun _ => hcm.symm, fun hn => absurd (by rw [hcm]; norm_num [tinyEnv]) hn⟩ 0 0
    (by rw [show ref.psf = ⟨1, 1, fun _ _ => 1⟩ from rfl, pixel_com]; norm_num)
    (by rw [show ref.psf = ⟨1, 1, fun _ _ => 1⟩ from rfl, pixel_com]; norm_num)
    hflux (fun i hi j hj => ⟨V0 i j hi hj, by rw [fl _ _, fl i j]⟩) tol ht S hS mean std thr hthr hclip
    (by rw [eI, eJ]; exact hmono)
  rwa [eI, eJ] at m

end PI
