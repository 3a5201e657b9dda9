import Verif.Props.TransparencyMore
import Verif.Props.ScoreStar
import Verif.Props.CoaddSymm

/-!
# Properties C127 and C128: an image and a brighter copy of it, from the photometry to the result

`transparency` measures the zero points that `subtract` and `coadd` use; here the two are put together.
-/

namespace PI

open Complex Finset

/-- A row of the catalogue of an exposure `r` times as bright. -/
def Src.brighter (r : ℚ) (s : Src) : Src := { s with flux := r * s.flux }

/-- The sum of the magnitudes in a catalogue. -/
noncomputable def magSum (c : Cat) : ℝ := (c.rows.map fun s => magOf s.flux).sum

/-- 2.5 log₁₀ of the ratio of brightness. -/
noncomputable def magGain (r : ℚ) : ℝ := 5 / 2 * Real.logb 10 (r : ℝ)

/-- The zero points of an image and of a copy `r` times as bright. -/
theorem transparency_brighter (q : Query) (hq : KdContract q)
    (lsqr : ℕ → ℕ → List ℝ → ℕ → ℝ) (hl : MinLsqSolver lsqr) (st : Store) (m k : ℕ) (r : ℚ) (hr : 0 < r)
    (hfresh : (st m).Fresh) (hrows : (st k).rows = (st m).rows.map (Src.brighter r)) (hne : (st m).rows ≠ [])
    (hnd : (st m).xy.Nodup) (hpos : ∀ s ∈ (st m).rows, 0 < s.flux) :
    ∃ z0 z1 mm st', transparency q lsqr st [m, k] none = .ok ([z0, z1], mm, st') ∧
      z0 = (magSum (st m) + magGain r) / ((st m).rows.length + 2) ∧
      z1 = (magSum (st m) - ((st m).rows.length + 1) * magGain r) / ((st m).rows.length + 2) := by
  obtain ⟨D, a, b, zps, mm, st', h1, h2, h3, h4, h5⟩ :=
    transparency_two_closed_form q hq lsqr hl st m k hfresh
  have hxy : (st k).xy = (st m).xy := by simp [Cat.xy, hrows, Src.brighter]
  have hmut := identical_mutual q hq (st m) (st k) hxy hnd
  have hDmem : ∀ o, o ∈ D ↔ o < (st m).rows.length := by
    intro o
    rw [h2]
    exact ⟨fun h => h.1, fun h => ⟨h, o, hmut o h⟩⟩
  have hDr : D = List.range (st m).rows.length := by
    apply List.Perm.eq_of_pairwise (le := (· < ·))
    · intro x y _ _ hxy hyx; omega
    · exact h3
    · exact List.pairwise_lt_range
    · refine (List.perm_ext_iff_of_nodup (h3.imp fun h => Nat.ne_of_lt h) List.nodup_range).2 ?_
      intro o
      rw [hDmem]; simp
  have hlen : D.length = (st m).rows.length := by rw [hDr]; simp
  have hn0 : 0 < (st m).rows.length := List.length_pos_iff.2 hne
  have hDne : D ≠ [] := List.length_pos_iff.1 (by omega)
  have hDget : ∀ s, s < (st m).rows.length → D[s]? = some s := by
    intro s hs; rw [hDr]; simp [hs]
  have ha : ∀ s (hs : s < (st m).rows.length), a s = ((st m).rows[s]).flux := by
    intro s hs
    have := (h4 s s (hDget s hs)).1
    rw [List.getElem?_eq_getElem hs] at this
    simpa using this.symm
  have hb : ∀ s (hs : s < (st m).rows.length), b s = r * ((st m).rows[s]).flux := by
    intro s hs
    obtain ⟨i, hi, hfl⟩ := (h4 s s (hDget s hs)).2
    have : s = i := ((mutual_unique q _ _ _ s s s i (hmut s hs) hi).1 rfl)
    subst this
    rw [hrows, List.getElem?_map, List.getElem?_eq_getElem hs] at hfl
    simpa [Src.brighter] using hfl.symm
  have hA : ∑ s ∈ range D.length, magOf (a s) = magSum (st m) := by
    rw [hlen, sum_range_list]
    unfold magSum
    congr 1
    apply List.ext_getElem
    · simp
    · intro i h1 h2
      have hi : i < (st m).rows.length := by simpa using h2
      simp [ha i hi]
  have hB : ∑ s ∈ range D.length, magOf (b s) = magSum (st m) - (st m).rows.length * magGain r := by
    have e : ∀ s ∈ range (st m).rows.length, magOf (b s) = magOf (a s) - magGain r := by
      intro s hs
      have hs' := mem_range.1 hs
      rw [ha s hs', hb s hs']
      have := magOf_ratio ((st m).rows[s]).flux r (hpos _ (List.getElem_mem _)) hr
      unfold magGain
      linarith
    rw [← hA, hlen, Finset.sum_congr rfl e, Finset.sum_sub_distrib, Finset.sum_const, Finset.card_range, nsmul_eq_mul]
  have hz := h5 hDne _ _ rfl rfl
  rw [hA, hB, hlen] at hz
  have hn : ((st m).rows.length : ℝ) ≠ 0 := by positivity
  have hn2 : ((st m).rows.length : ℝ) + 2 ≠ 0 := by positivity
  have hn3 : 2 + ((st m).rows.length : ℝ) ≠ 0 := by positivity
  subst hz
  refine ⟨_, _, mm, st', h1, ?_, ?_⟩
  · field_simp
    ring
  · field_simp
    ring

theorem magOf_pos (f : ℚ) (h0 : 0 < f) (h8 : f < 10 ^ 8) : 0 < magOf f := by
  have : Real.logb 10 (f : ℝ) < 8 := by
    rw [Real.logb_lt_iff_lt_rpow (by norm_num) (by exact_mod_cast h0)]
    have : ((f : ℚ) : ℝ) < ((10 ^ 8 : ℚ) : ℝ) := by exact_mod_cast h8
    norm_num at this ⊢
    exact this
  unfold magOf
  linarith

theorem magSum_pos (c : Cat) (hne : c.rows ≠ []) (h : ∀ s ∈ c.rows, 0 < s.flux ∧ s.flux < 10 ^ 8) : 0 < magSum c := by
  unfold magSum
  refine List.sum_pos _ ?_ (by simpa using hne)
  intro x hx
  obtain ⟨s, hs, rfl⟩ := List.mem_map.1 hx
  exact magOf_pos _ (h s hs).1 (h s hs).2

theorem magGain_pos (r : ℚ) (hr : 1 < r) : 0 < magGain r := by
  have : 0 < Real.logb 10 (r : ℝ) := Real.logb_pos (by norm_num) (by exact_mod_cast hr)
  unfold magGain
  linarith

/-- The scale `subtract` takes from the photometry of an image (as reference) and a copy of it `r` times as bright (as
the new image). -/
noncomputable def photScale (c : Cat) (r : ℚ) : ℝ :=
  (magSum c - (c.rows.length + 1) * magGain r) / (magSum c + magGain r)

/-- The scale is below one for a brighter copy. -/
theorem photScale_lt (c : Cat) (r : ℚ) (hr : 1 < r) (hs : 0 < magSum c) : photScale c r < 1 := by
  have hg := magGain_pos r hr
  unfold photScale
  rw [div_lt_one (by linarith)]
  have : (0 : ℝ) ≤ c.rows.length := by positivity
  nlinarith

/-- `zps[0], zps[1]` of the result of `transparency` (operations.py:147-150). -/
noncomputable def firstTwo (t : Py (List ℝ × Option (List ℝ) × Store)) : Py (ℝ × ℝ) :=
  t.bind fun p => match p.1 with
    | a :: b :: _ => .ok (a, b)
    | _ => .error .IndexError

/-- C127: `subtract` without fits, the reference being image `m` and the new image a copy `r` times as bright: the
difference image is proportional to `r` minus a scale that is below one if `r` is above one, so it vanishes only if
the image does. -/
theorem subtract_brighter_copy (q : Query) (hq : KdContract q)
    (lsqr : ℕ → ℕ → List ℝ → ℕ → ℝ) (hl : MinLsqSolver lsqr) (st : Store) (m k : ℕ) (r : ℚ) (hr : 1 < r)
    (hfresh : (st m).Fresh) (hrows : (st k).rows = (st m).rows.map (Src.brighter r)) (hne : (st m).rows ≠ [])
    (hnd : (st m).xy.Nodup) (hpos : ∀ s ∈ (st m).rows, 0 < s.flux ∧ s.flux < 10 ^ 8)
    (env : SubEnv) (hz : env.zps = firstTwo (transparency q lsqr st [m, k] none)) (it : Bool) (ref new : SubImg) (h w : ℕ)
    (hri : ref.interped.shape = (h, w)) (hn : new.interped = ref.interped.times r) (hps : new.psf = ref.psf)
    (hmr : ref.mask.HasShape h w) (hmn : new.mask.HasShape h w) (hv : new.var ≠ 0)
    (hc : env.fitted = true ∨ (0 ≤ (centerOfMass ref.psf).1 ∧ 0 ≤ (centerOfMass ref.psf).2)) :
    photScale (st m) r < 1 ∧
    ∃ (out : SubOut) (E : Img ℂ), subtract env ⟨false, false, it⟩ ref new = .ok out ∧
      (∀ i j, out.D.px i j = ((r - photScale (st m) r : ℝ) : ℂ) * E.px i j) ∧
      ((∀ i < h, ∀ j < w, out.D.px i j = 0) ↔ ∀ i < h, ∀ j < w, ref.interped.px i j = 0) := by
  have hS := magSum_pos (st m) hne hpos
  have hG := magGain_pos r hr
  obtain ⟨z0, z1, mm, st', ht, e0, e1⟩ := transparency_brighter q hq lsqr hl st m k r (by linarith) hfresh hrows hne hnd
    (fun s hs => (hpos s hs).1)
  have hlt := photScale_lt (st m) r hr hS
  refine ⟨hlt, ?_⟩
  have hz' : env.zps = .ok (z0, z1) := by rw [hz, ht]; rfl
  have hb : z1 / z0 = photScale (st m) r := by
    have : ((st m).rows.length : ℝ) + 2 ≠ 0 := by positivity
    rw [e0, e1, div_div_div_cancel_right₀ this]
    rfl
  have hni : new.interped.shape = (h, w) := by rw [hn]; exact hri
  obtain ⟨out, e, hD, _, _⟩ := subtract_returns env it ref new h w hri hni hmr hmn (z0, z1) hz' (by rw [hps]; exact hc)
  simp only [hb] at hD
  set b := photScale (st m) r with hbdef
  have r1 : ref.h = h := congrArg Prod.fst hri
  have r2 : ref.w = w := congrArg Prod.snd hri
  have hp : new.psfHat = ref.psfHat := by
    simp only [SubImg.psfHat, SubImg.h, SubImg.w, hn, hps]
    rfl
  have hi : ∀ a b, new.interpedHat.px a b = (r : ℝ) * ref.interpedHat.px a b := by
    intro a b
    have := times_interpedHat (r : ℝ) ref a b
    rw [← this]
    unfold SubImg.interpedHat
    rw [hn]
    rfl
  let F : ℕ → ℕ → ℂ := fun a c => ref.psfHat.px a c * ref.interpedHat.px a c *
    shiftPhase ref.h ref.w (negPair (centerOfMass ref.psf)) a c / csqrt (normHat ref new b a c)
  have hd : ∀ a c, (dHat ref new b 0 0).px a c = ((r - b : ℝ) : ℂ) * F a c := by
    intro a c
    have n1 : new.h = ref.h := by rw [SubImg.h, hn]; rfl
    have n2 : new.w = ref.w := by rw [SubImg.w, hn]; rfl
    unfold dHat
    simp only [and_self, if_true]
    change ((ref.psfHat.px a c * new.interpedHat.px a c * shiftPhase ref.h ref.w (negPair (centerOfMass ref.psf)) a c) -
      b * (new.psfHat.px a c * ref.interpedHat.px a c * shiftPhase new.h new.w (negPair (centerOfMass new.psf)) a c)) / _ = _
    rw [hi, hp, hps, n1, n2]
    push_cast
    ring
  have hD' : ∀ i j, out.D.px i j = ((r - b : ℝ) : ℂ) * (ifftOrtho ⟨ref.h, ref.w, F⟩).px i j := by
    intro i j
    rw [hD, ← ifftOrtho_const_mul]
    exact ifftOrtho_congr ref.h ref.w _ _ (fun a _ c _ => hd a c) i j
  have hrb : ((r - b : ℝ) : ℂ) ≠ 0 := by
    have : (1 : ℝ) < r := by exact_mod_cast hr
    exact_mod_cast (show (r : ℝ) - b ≠ 0 by linarith)
  refine ⟨out, ifftOrtho ⟨ref.h, ref.w, F⟩, e, hD', ?_⟩
  constructor
  · intro h0 i hi' j hj'
    have hF : ∀ a < h, ∀ c < w, F a c = 0 := by
      intro a ha c hc'
      have q := fftOrtho_ifftOrtho ⟨ref.h, ref.w, F⟩ a c (by rw [r1]; exact ha) (by rw [r2]; exact hc')
      change _ = F a c at q
      rw [← q]
      change (∑ x ∈ range ref.h, ∑ y ∈ range ref.w, (ifftOrtho ⟨ref.h, ref.w, F⟩).px x y * _) / _ = 0
      rw [Finset.sum_eq_zero, zero_div]
      intro x hx
      refine Finset.sum_eq_zero fun y hy => ?_
      have := h0 x (by rw [← r1]; exact mem_range.1 hx) y (by rw [← r2]; exact mem_range.1 hy)
      rw [hD'] at this
      rw [(mul_eq_zero.1 this).resolve_left hrb, zero_mul]
    have hI : ∀ a < h, ∀ c < w, ref.interpedHat.px a c = 0 := by
      intro a ha c hc'
      obtain ⟨_, _, s, hs, es⟩ := subtract_norm_pos ref new b a c (Or.inl hv)
      have q := hF a ha c hc'
      have n0 : csqrt (normHat ref new b a c) ≠ 0 := by
        rw [es, csqrt_ofReal_nonneg _ hs.le]
        exact_mod_cast (Real.sqrt_pos.2 hs).ne'
      have p0 : shiftPhase ref.h ref.w (negPair (centerOfMass ref.psf)) a c ≠ 0 := by
        unfold shiftPhase
        exact mul_ne_zero (tw_ne_zero _ _) (tw_ne_zero _ _)
      have q1 := (div_eq_zero_iff.1 q).resolve_right n0
      have q2 := (mul_eq_zero.1 q1).resolve_right p0
      exact (mul_eq_zero.1 q2).resolve_left (psfHat_ne_zero ref a c)
    have q := ifftOrtho_fftOrtho (toC ref.interped) i j (by change i < ref.h; omega) (by change j < ref.w; omega)
    have z : (ifftOrtho (fftOrtho (toC ref.interped))).px i j = 0 := by
      change (∑ a ∈ range ref.h, ∑ c ∈ range ref.w, ref.interpedHat.px a c * _) / _ = 0
      rw [Finset.sum_eq_zero, zero_div]
      intro a ha
      refine Finset.sum_eq_zero fun c hc' => ?_
      rw [hI a (by rw [← r1]; exact mem_range.1 ha) c (by rw [← r2]; exact mem_range.1 hc'), zero_mul]
    rw [z] at q
    have : ((ref.interped.px i j : ℝ) : ℂ) = 0 := q.symm
    exact_mod_cast this
  · intro h0 i _ j _
    rw [hD']
    have hI : ∀ a c, ref.interpedHat.px a c = 0 := by
      intro a c
      change (∑ x ∈ range ref.h, ∑ y ∈ range ref.w, ((ref.interped.px x y : ℝ) : ℂ) * _) / _ = 0
      rw [Finset.sum_eq_zero, zero_div]
      intro x hx
      refine Finset.sum_eq_zero fun y hy => ?_
      rw [h0 x (by rw [← r1]; exact mem_range.1 hx) y (by rw [← r2]; exact mem_range.1 hy), ofReal_zero, zero_mul]
    have : (ifftOrtho ⟨ref.h, ref.w, F⟩).px i j = 0 := by
      change (∑ a ∈ range ref.h, ∑ c ∈ range ref.w, F a c * _) / _ = 0
      rw [Finset.sum_eq_zero, zero_div]
      intro a _
      refine Finset.sum_eq_zero fun c _ => ?_
      change (_ * ref.interpedHat.px a c * _ / _) * _ = 0
      rw [hI, mul_zero, zero_mul, zero_div, zero_mul]
    rw [this, mul_zero]

/-- A catalogue with one star of ten thousand counts, and the catalogue of an exposure ten times as long. -/
def starStore (j : ℕ) : Cat := ⟨[⟨5, 7, if j = 0 then 10 ^ 4 else 10 ^ 5, 0⟩], false, none⟩

theorem starStore_scale : photScale (starStore 0) 10 = 2 / 5 := by
  have h4 : Real.logb 10 (((10 : ℚ) ^ 4 : ℚ) : ℝ) = 4 := by
    push_cast
    rw [show ((10 : ℝ) ^ 4) = (10 : ℝ) ^ ((4 : ℕ) : ℝ) by rw [Real.rpow_natCast], Real.logb_rpow (by norm_num) (by norm_num)]
    norm_num
  have h1 : Real.logb 10 (((10 : ℚ)) : ℝ) = 1 := by
    push_cast
    exact Real.logb_self_eq_one (by norm_num)
  have hs : magSum (starStore 0) = 10 := by
    unfold magSum starStore magOf
    simp only [if_true, List.map_cons, List.map_nil, List.sum_cons, List.sum_nil]
    rw [h4]
    norm_num
  have hg : magGain 10 = 5 / 2 := by
    unfold magGain
    rw [h1]
    norm_num
  unfold photScale
  rw [hs, hg]
  norm_num [starStore]

/-- The star is ten times as bright in the new image, but the scale used is two fifths. -/
example (lsqr : ℕ → ℕ → List ℝ → ℕ → ℝ) (hl : MinLsqSolver lsqr) :
    ∃ (out : SubOut) (E : Img ℂ), subtract
        { tinyEnv 1 1 with zps := firstTwo (transparency bruteQuery lsqr starStore [0, 1] none) } ⟨false, false, true⟩
        (dotSub fun j => if j = 1 then 10 ^ 4 else 0) (dotSub fun j => 10 * if j = 1 then 10 ^ 4 else 0) = .ok out ∧
      (∀ i j, out.D.px i j = ((10 - 2 / 5 : ℝ) : ℂ) * E.px i j) ∧ ¬ ∀ i < 1, ∀ j < 3, out.D.px i j = 0 := by
  obtain ⟨_, out, E, e, hD, hiff⟩ := subtract_brighter_copy bruteQuery bruteQuery_contract lsqr hl starStore 0 1 10
    (by norm_num) rfl (by norm_num [starStore, Src.brighter]) (by simp [starStore]) (by simp [starStore, Cat.xy])
    (by intro s hs; simp [starStore] at hs; subst hs; norm_num)
    { tinyEnv 1 1 with zps := firstTwo (transparency bruteQuery lsqr starStore [0, 1] none) } rfl true
    (dotSub fun j => if j = 1 then 10 ^ 4 else 0) (dotSub fun j => 10 * if j = 1 then 10 ^ 4 else 0) 1 3 rfl
    (by unfold dotSub Img.times Img.map; norm_num) rfl (by intro a h; cases h) (by intro a h; cases h) one_ne_zero (Or.inl rfl)
  rw [starStore_scale] at hD
  refine ⟨out, E, e, ?_, ?_⟩
  · intro i j
    rw [hD]
    norm_num
  · intro h
    have := hiff.1 h 0 (by norm_num) 1 (by norm_num)
    norm_num [dotSub] at this

/-! ## coadd -/

/-- The same exposure with a zero point. -/
def SinglePsf.withZp (d : SinglePsf) (z : ℝ) : SinglePsf := { d with zp := z }

/-- An exposure `r` times as bright (pixels and noise) with a zero point. -/
noncomputable def SinglePsf.longer (d : SinglePsf) (r z : ℝ) : SinglePsf :=
  { d with interped := d.interped.map fun x => (r : ℂ) * x, var := r * d.var, zp := z }

/-- What is left of the gain by coadding an exposure and one `r` times as bright, for the zero points given to them. -/
noncomputable def pairGain (r z0 z1 : ℝ) : ℝ := (z0 + z1 / r) / Real.sqrt (z0 ^ 2 + (z1 / r) ^ 2)

theorem coadd_pair_factor (lt : List CoImg → List CoImg → Option Bool) (d : SinglePsf) (psfShape : ℕ) (r z0 z1 : ℝ)
    (hr : 0 < r) (hv : 0 < d.var) (procs : ℤ) (hp : procs ≤ 2) (hm : d.mask.HasShape d.interped.h d.interped.w) :
    ∃ out one, coaddCore lt [(d.withZp z0).toCoImg, (d.longer r z1).toCoImg] psfShape procs = .ok out ∧
      coaddCore lt [(d.withZp 1).toCoImg] psfShape 1 = .ok one ∧
      ∀ i j, out.R.px i j = (pairGain r z0 z1 : ℂ) * one.R.px i j := by
  obtain ⟨out, e, eR, _⟩ := coadd_single_spec lt (n := 2) (by norm_num) ![d.withZp z0, d.longer r z1] d.interped.h d.interped.w
    psfShape procs (by intro j; fin_cases j <;> exact ⟨rfl, rfl, hm⟩) (by exact_mod_cast hp) (by omega) (by omega)
  obtain ⟨one, e1, eR1, _⟩ := coadd_single_spec lt (n := 1) (by norm_num) ![d.withZp 1] d.interped.h d.interped.w
    psfShape 1 (by intro j; fin_cases j; exact ⟨rfl, rfl, hm⟩) (by norm_num) (by norm_num) (by norm_num)
  refine ⟨out, one, by simpa [List.ofFn_succ] using e, by simpa [List.ofFn_succ] using e1, fun i j => ?_⟩
  have hv0 : d.var ≠ 0 := hv.ne'
  have hr0 : r ≠ 0 := hr.ne'
  have key : ∀ k l, coaddRhat ((List.ofFn ![d.withZp z0, d.longer r z1]).map SinglePsf.toCoImg) k l =
      (pairGain r z0 z1 : ℂ) * coaddRhat ((List.ofFn ![d.withZp 1]).map SinglePsf.toCoImg) k l := by
    intro k l
    set A := (fftOrtho d.interped).px k l * (starRingEnd ℂ) (d.psfHat.px k l) *
      shiftPhase d.interped.h d.interped.w d.com k l with hA
    set N := normSq (d.psfHat.px k l) with hN
    have hN0 : 0 ≤ N := normSq_nonneg _
    have s2 : specS ((List.ofFn ![d.withZp z0, d.longer r z1]).map SinglePsf.toCoImg) k l =
        (((z0 + z1 / r) / d.var ^ 2 : ℝ) : ℂ) * A := by
      rw [specS_ofFn, Fin.sum_univ_two]
      change ((z0 / d.var ^ 2 : ℝ) : ℂ) * A + ((z1 / (r * d.var) ^ 2 : ℝ) : ℂ) *
        ((fftOrtho (d.interped.map fun x => (r : ℂ) * x)).px k l * (starRingEnd ℂ) (d.psfHat.px k l) *
          shiftPhase d.interped.h d.interped.w d.com k l) = _
      rw [times_fft, mul_assoc (r : ℂ), mul_assoc (r : ℂ), ← hA]
      have : (z0 + z1 / r) / d.var ^ 2 = z0 / d.var ^ 2 + z1 / (r * d.var) ^ 2 * r := by field_simp
      rw [this]
      push_cast
      ring
    have s1 : specS ((List.ofFn ![d.withZp 1]).map SinglePsf.toCoImg) k l = ((1 / d.var ^ 2 : ℝ) : ℂ) * A := by
      rw [specS_ofFn, Fin.sum_univ_one]
      rfl
    have p2 : specP ((List.ofFn ![d.withZp z0, d.longer r z1]).map SinglePsf.toCoImg) k l =
        (((z0 ^ 2 + (z1 / r) ^ 2) * (N / d.var ^ 2) : ℝ) : ℂ) := by
      rw [specP_ofFn, Fin.sum_univ_two]
      change (((z0 / d.var) ^ 2 : ℝ) : ℂ) * (d.psfHat.px k l * (starRingEnd ℂ) (d.psfHat.px k l)) +
        (((z1 / (r * d.var)) ^ 2 : ℝ) : ℂ) * (d.psfHat.px k l * (starRingEnd ℂ) (d.psfHat.px k l)) = _
      rw [mul_conj, ← hN, ← ofReal_mul, ← ofReal_mul, ← ofReal_add]
      congr 1
      field_simp
    have p1 : specP ((List.ofFn ![d.withZp 1]).map SinglePsf.toCoImg) k l = ((N / d.var ^ 2 : ℝ) : ℂ) := by
      rw [specP_ofFn, Fin.sum_univ_one]
      change (((1 / d.var) ^ 2 : ℝ) : ℂ) * (d.psfHat.px k l * (starRingEnd ℂ) (d.psfHat.px k l)) = _
      rw [mul_conj, ← hN, ← ofReal_mul]
      congr 1
      field_simp
    unfold coaddRhat
    rw [s2, s1, p2, p1, csqrt_ofReal_nonneg _ (by positivity), csqrt_ofReal_nonneg _ (by positivity),
      Real.sqrt_mul (by positivity)]
    unfold pairGain
    push_cast
    ring
  rw [eR, eR1]
  change (∑ k ∈ range d.interped.h, ∑ l ∈ range d.interped.w, _) / _ =
    _ * ((∑ k ∈ range d.interped.h, ∑ l ∈ range d.interped.w, _) / _)
  rw [← mul_div_assoc, Finset.mul_sum]
  congr 1
  refine Finset.sum_congr rfl fun k _ => ?_
  rw [Finset.mul_sum]
  refine Finset.sum_congr rfl fun l _ => ?_
  change coaddRhat ((List.ofFn ![d.withZp z0, d.longer r z1]).map SinglePsf.toCoImg) k l * _ =
    _ * (coaddRhat ((List.ofFn ![d.withZp 1]).map SinglePsf.toCoImg) k l * _)
  rw [key, mul_assoc]

/-- With zero points in the ratio of the brightnesses the second exposure brings the full `√2`. -/
theorem pairGain_true (r z : ℝ) (hr : 0 < r) (hz : 0 < z) : pairGain r z (r * z) = Real.sqrt 2 := by
  unfold pairGain
  rw [mul_div_cancel_left₀ _ hr.ne', show z ^ 2 + z ^ 2 = 2 * z ^ 2 by ring, Real.sqrt_mul (by norm_num), Real.sqrt_sq hz.le,
    ← two_mul, mul_div_mul_right _ _ hz.ne', Real.div_sqrt]

/-- With a zero point of the brighter image that is not larger than the other one, less is gained than by the sum of
one and `1/r` parts. -/
theorem pairGain_lt (r z0 z1 : ℝ) (hr : 1 < r) (hz : 0 < z0) (h : z1 < z0) :
    pairGain r z0 z1 < (r + 1) / Real.sqrt (r ^ 2 + 1) := by
  have hr0 : 0 < r := by linarith
  have hq : 0 < Real.sqrt (r ^ 2 + 1) := Real.sqrt_pos.2 (by positivity)
  have hd : 0 < z0 ^ 2 + (z1 / r) ^ 2 := by positivity
  have hp : 0 < Real.sqrt (z0 ^ 2 + (z1 / r) ^ 2) := Real.sqrt_pos.2 hd
  have hrhs : 0 < (r + 1) / Real.sqrt (r ^ 2 + 1) := by positivity
  by_cases hneg : z0 + z1 / r ≤ 0
  · exact lt_of_le_of_lt (div_nonpos_of_nonpos_of_nonneg hneg hp.le) hrhs
  have hpos : 0 < z0 + z1 / r := not_le.1 hneg
  unfold pairGain
  refine lt_of_pow_lt_pow_left₀ 2 hrhs.le ?_
  rw [div_pow (z0 + z1 / r), div_pow (r + 1), Real.sq_sqrt hd.le, Real.sq_sqrt (by positivity), div_lt_div_iff₀ hd (by positivity)]
  set u := z1 / r with hu
  have hz1 : z1 = r * u := by rw [hu]; field_simp
  have hru : r * u < z0 := by rw [← hz1]; exact h
  have k1 : 0 < r * z0 - u := by nlinarith
  nlinarith [mul_pos (sub_pos.2 hru) k1]

/-- This bound tends to one for large `r`. -/
theorem pairGain_bound (r : ℝ) (hr : 0 < r) : (r + 1) / Real.sqrt (r ^ 2 + 1) ≤ 1 + 1 / r := by
  have h : r ≤ Real.sqrt (r ^ 2 + 1) := Real.le_sqrt_of_sq_le (by linarith)
  calc (r + 1) / Real.sqrt (r ^ 2 + 1) ≤ (r + 1) / r := div_le_div_of_nonneg_left (by linarith) hr h
    _ = 1 + 1 / r := by field_simp

/-- C128: `coadd` of an exposure and one `r > 1` times as bright, of the same quality, with the zero points that
`transparency` measures: the result is that of the first exposure alone times a factor below `(r+1)/√(r²+1)`, which tends
to one for large `r`; the true ratio would give `√2`. -/
theorem coadd_brighter_copy (q : Query) (hq : KdContract q)
    (lsqr : ℕ → ℕ → List ℝ → ℕ → ℝ) (hl : MinLsqSolver lsqr) (st : Store) (m k : ℕ) (r : ℚ) (hr : 1 < r)
    (hfresh : (st m).Fresh) (hrows : (st k).rows = (st m).rows.map (Src.brighter r)) (hne : (st m).rows ≠ [])
    (hnd : (st m).xy.Nodup) (hpos : ∀ s ∈ (st m).rows, 0 < s.flux ∧ s.flux < 10 ^ 8)
    (lt : List CoImg → List CoImg → Option Bool) (d : SinglePsf) (psfShape : ℕ) (hv : 0 < d.var) (procs : ℤ) (hp : procs ≤ 2)
    (hm : d.mask.HasShape d.interped.h d.interped.w) :
    ∃ z0 z1 mm st' out one fit, transparency q lsqr st [m, k] none = .ok ([z0, z1], mm, st') ∧
      coaddCore lt [(d.withZp z0).toCoImg, (d.longer r z1).toCoImg] psfShape procs = .ok out ∧
      coaddCore lt [(d.withZp 1).toCoImg] psfShape 1 = .ok one ∧
      coaddCore lt [(d.withZp 1).toCoImg, (d.longer r r).toCoImg] psfShape procs = .ok fit ∧
      (∀ i j, out.R.px i j = (pairGain r z0 z1 : ℂ) * one.R.px i j) ∧
      (∀ i j, fit.R.px i j = (Real.sqrt 2 : ℂ) * one.R.px i j) ∧
      pairGain r z0 z1 < (r + 1) / Real.sqrt (r ^ 2 + 1) := by
  have hS := magSum_pos (st m) hne hpos
  have hG := magGain_pos r hr
  have hr1 : (1 : ℝ) < r := by exact_mod_cast hr
  obtain ⟨z0, z1, mm, st', ht, e0, e1⟩ := transparency_brighter q hq lsqr hl st m k r (by linarith) hfresh hrows hne hnd
    (fun s hs => (hpos s hs).1)
  obtain ⟨out, one, e, eo, hR⟩ := coadd_pair_factor lt d psfShape r z0 z1 (by linarith) hv procs hp hm
  obtain ⟨fit, one', e', eo', hR'⟩ := coadd_pair_factor lt d psfShape r 1 r (by linarith) hv procs hp hm
  rw [eo] at eo'
  cases eo'
  have ht2 := pairGain_true r 1 (by linarith) one_pos
  rw [mul_one] at ht2
  rw [ht2] at hR'
  have hn2 : (0 : ℝ) < (st m).rows.length + 2 := by positivity
  have hz0 : 0 < z0 := by rw [e0]; positivity
  have hz : z1 < z0 := by
    rw [e0, e1, div_lt_div_iff_of_pos_right hn2]
    have : (0 : ℝ) ≤ (st m).rows.length := by positivity
    nlinarith
  exact ⟨z0, z1, mm, st', out, one, fit, ht, e, eo, e', hR, hR', pairGain_lt r z0 z1 hr1 hz0 hz⟩

/-- The star of `starStore` in two exposures of three pixels. -/
example (lt : List CoImg → List CoImg → Option Bool) :
    ∃ z0 z1 mm st' out, transparency bruteQuery (fun p n m => closedForm p n (vecOf m)) starStore [0, 1] none =
        .ok ([z0, z1], mm, st') ∧
      coaddCore lt [((twoExposures 0).withZp z0).toCoImg, ((twoExposures 0).longer 10 z1).toCoImg] 0 2 = .ok out ∧
      pairGain 10 z0 z1 < ((10 : ℝ) + 1) / Real.sqrt (10 ^ 2 + 1) := by
  obtain ⟨z0, z1, mm, st', out, _, _, ht, e, _, _, _, _, hg⟩ := coadd_brighter_copy bruteQuery bruteQuery_contract _
    minLsqSolver_exists starStore 0 1 10 (by norm_num) rfl (by norm_num [starStore, Src.brighter]) (by simp [starStore])
    (by simp [starStore, Cat.xy]) (by intro s hs; simp [starStore] at hs; subst hs; norm_num) lt (twoExposures 0) 0
    (by norm_num [twoExposures]) 2 le_rfl (twoExposures_shape 0).2.2
  refine ⟨z0, z1, mm, st', out, ht, ?_, ?_⟩
  · simpa using e
  · simpa using hg

/-- Ten times as bright: less than eleven percent is gained instead of forty-one. -/
example : ((10 : ℝ) + 1) / Real.sqrt (10 ^ 2 + 1) < 11 / 10 := by
  have h : (10 : ℝ) < Real.sqrt (10 ^ 2 + 1) := by
    rw [Real.lt_sqrt (by norm_num)]
    norm_num
  generalize Real.sqrt (10 ^ 2 + 1) = x at h ⊢
  rw [div_lt_iff₀ (by linarith)]
  linarith

end PI
