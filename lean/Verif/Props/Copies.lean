import Verif.Props.Photometry
import Mathlib.Algebra.Order.BigOperators.Ring.Finset

/-!
# Property C129: copies of one exposure, from the photometry to the coadd
-/

namespace PI

open Complex Finset

/-! ## Zero points of copies -/

/-- The sum of the magnitudes written for image `j` of `p` images with the same `n` stars of magnitudes `M`: its own stars
for the master, otherwise a stretch of the list in which each star comes `p - 1` times in a row. -/
noncomputable def copyBlock (p n : ℕ) (M : ℕ → ℝ) (j : ℕ) : ℝ :=
  ∑ i ∈ range n, M (if j = 0 then i else ((j - 1) * n + i) / (p - 1))

/-- The zero point of image `j`. -/
noncomputable def copyZp (p n : ℕ) (M : ℕ → ℝ) (j : ℕ) : ℝ :=
  (copyBlock p n M j - p * (∑ i ∈ range n, M i) / (p + n)) / n

/-- The magnitude of row `i`. -/
noncomputable def rowMag (c : Cat) (i : ℕ) : ℝ := magOf ((c.rows[i]?).map (·.flux) |>.getD 0)

theorem sum_div_block (M : ℕ → ℝ) (n w : ℕ) (hw : 0 < w) :
    ∑ k ∈ range (n * w), M (k / w) = w * ∑ i ∈ range n, M i := by
  rw [sum_range_block (fun k => M (k / w)), Finset.mul_sum]
  refine sum_congr rfl fun j _ => ?_
  rw [sum_congr rfl (g := fun _ => M j), sum_const, card_range, nsmul_eq_mul]
  intro i hi
  have hi' := mem_range.1 hi
  rw [Nat.mul_comm, Nat.mul_add_div hw, Nat.div_eq_of_lt hi', add_zero]

/-- The zero points of images with the same catalogue. -/
theorem transparency_copies (q : Query) (hq : KdContract q) (lsqr : ℕ → ℕ → List ℝ → ℕ → ℝ) (hl : MinLsqSolver lsqr)
    (st : Store) (m : ℕ) (imgs : List ℕ) (hi : imgs.Nodup) (hfresh : (st m).Fresh)
    (hrows : ∀ k ∈ imgs, (st k).rows = (st m).rows) (hne : (st m).rows ≠ []) (hnd : (st m).xy.Nodup) :
    ∃ mm st', transparency q lsqr st (m :: imgs) none =
      .ok ((List.range (imgs.length + 1)).map (copyZp (imgs.length + 1) (st m).rows.length (rowMag (st m))), mm, st') := by
  obtain ⟨r, D, F, h1, h2, _, _, h4, h5, h6, h7, h8, h9⟩ :=
    transparency_detect q hq st (m :: imgs) none m imgs rfl hi hfresh
  have hmut : ∀ k ∈ imgs, ∀ o < (st m).rows.length, MutualAt q (st m).xy (st k).xy radius2 o o := fun k hk o ho =>
    identical_mutual q hq (st m) (st k) (by simp [Cat.xy, hrows k hk]) hnd o ho
  have hDr : D = List.range (st m).rows.length := by
    apply List.Perm.eq_of_pairwise (le := (· < ·))
    · intro x y _ _ hxy hyx; omega
    · exact h4
    · exact List.pairwise_lt_range
    · refine (List.perm_ext_iff_of_nodup (h4.imp fun h => Nat.ne_of_lt h) List.nodup_range).2 fun o => ?_
      rw [h6, List.mem_range]
      exact ⟨fun h => h.1, fun h => ⟨h, fun k hk => ⟨o, hmut k hk o h⟩⟩⟩
  set n := (st m).rows.length with hn
  have hlen : D.length = n := by rw [hDr]; simp
  have hpos : 0 < n := List.length_pos_iff.2 hne
  have hDne : D ≠ [] := List.length_pos_iff.1 (by omega)
  have hDget : ∀ s < n, D[s]? = some s := by intro s hs; rw [hDr]; simp [hs]
  have hF : ∀ j < imgs.length + 1, ∀ s < n, magOf (F j s) = rowMag (st m) s := by
    intro j hj s hs
    unfold rowMag
    rcases Nat.eq_zero_or_pos j with rfl | hj0
    · rw [h8 s s (hDget s hs)]
      rfl
    · obtain ⟨t, rfl⟩ : ∃ t, j = t + 1 := ⟨j - 1, by omega⟩
      have ht : t < imgs.length := by omega
      obtain ⟨i, hmi, hfl⟩ := h9 s s t imgs[t] (hDget s hs) (List.getElem?_eq_getElem ht)
      have hk := List.getElem_mem ht
      have : s = i := (mutual_unique q _ _ _ s s s i (hmut _ hk s hs) hmi).1 rfl
      subst this
      rw [hrows _ hk] at hfl
      rw [hfl]
      rfl
  set p := imgs.length + 1 with hp
  have hp1 : 1 ≤ p := by omega
  -- the right-hand sides
  have hv0 : ∀ i < n, vecOf (r.fluxes.map magOf) i = rowMag (st m) i := by
    intro i hi
    rw [h7 hDne, h2, hlen, vecOf_map_of_getElem _ _ _ (rhsList_master p n F i hi), hF 0 (by omega) i hi]
  have hv1 : ∀ k < n * (p - 1), vecOf (r.fluxes.map magOf) (n + k) = rowMag (st m) (k / (p - 1)) := by
    intro k hk
    have hw : 0 < p - 1 := by
      rcases Nat.eq_zero_or_pos (p - 1) with h | h
      · rw [h] at hk; omega
      · exact h
    have e := rhsList_other p n F (k / (p - 1)) (k % (p - 1)) ((Nat.div_lt_iff_lt_mul hw).2 hk) (Nat.mod_lt _ hw)
    rw [show k / (p - 1) * (p - 1) + k % (p - 1) = k by rw [Nat.mul_comm]; exact Nat.div_add_mod k (p - 1)] at e
    have hlt := Nat.mod_lt k hw
    rw [h7 hDne, h2, hlen, vecOf_map_of_getElem _ _ _ e, hF _ (by omega) _ ((Nat.div_lt_iff_lt_mul hw).2 hk)]
  have hblock : ∀ j < p, ∑ i ∈ range n, vecOf (r.fluxes.map magOf) (j * n + i) = copyBlock p n (rowMag (st m)) j := by
    intro j hj
    unfold copyBlock
    refine sum_congr rfl fun i hi => ?_
    have hi' := mem_range.1 hi
    rcases Nat.eq_zero_or_pos j with rfl | hj0
    · rw [Nat.zero_mul, Nat.zero_add, hv0 i hi', if_pos rfl]
    · obtain ⟨t, rfl⟩ : ∃ t, j = t + 1 := ⟨j - 1, by omega⟩
      rw [if_neg (by omega), Nat.add_sub_cancel, show (t + 1) * n + i = n + (t * n + i) by ring, hv1]
      have : (t + 1) * n ≤ (p - 1) * n := Nat.mul_le_mul_right n (by omega)
      rw [Nat.mul_comm n]
      calc t * n + i < t * n + n := by omega
        _ = (t + 1) * n := by ring
        _ ≤ _ := this
  have htotal : ∑ c ∈ range (p * n), vecOf (r.fluxes.map magOf) c = p * ∑ i ∈ range n, rowMag (st m) i := by
    have e : p * n = n + n * (p - 1) := by
      obtain ⟨p', hp'⟩ : ∃ p', p = p' + 1 := ⟨p - 1, by omega⟩
      rw [hp', Nat.add_sub_cancel]
      ring
    rw [e, sum_range_add, sum_congr rfl fun i hi => hv0 i (mem_range.1 hi),
      sum_congr rfl fun k hk => hv1 k (mem_range.1 hk)]
    rcases Nat.eq_zero_or_pos (p - 1) with h | h
    · rw [h, Nat.mul_zero, sum_range_zero, show p = 1 by omega]
      simp
    · rw [sum_div_block _ _ _ h, Nat.cast_sub hp1]
      push_cast
      ring
  obtain ⟨zps, mm, e, ez⟩ := transparency_closed_form q lsqr hl st (m :: imgs) none r h1 (by omega) n
    (by rw [h5, hlen]) hpos
  refine ⟨mm, r.store, ?_⟩
  rw [e, ez, h2]
  congr 2
  refine List.map_congr_left fun j hj => ?_
  have hj' : j < p := List.mem_range.1 hj
  rw [hblock j hj', htotal]
  rfl

/-! ## When they agree -/

/-- The zero points agree if and only if every stretch sums to the same as the master's. -/
theorem copyZp_eq_iff (p n : ℕ) (hn : 0 < n) (M : ℕ → ℝ) (j : ℕ) :
    copyZp p n M j = copyZp p n M 0 ↔ copyBlock p n M j = ∑ i ∈ range n, M i := by
  have hn' : (n : ℝ) ≠ 0 := by positivity
  have h0 : copyBlock p n M 0 = ∑ i ∈ range n, M i := by simp [copyBlock]
  unfold copyZp
  rw [div_left_inj' hn', sub_left_inj, h0]

/-- Copies get equal zero points, whatever the magnitudes, if and only if there are at most two of them or at most one
star. -/
theorem copyZp_equal_iff (p n : ℕ) (hn : 0 < n) :
    (∀ M : ℕ → ℝ, ∀ j < p, copyZp p n M j = copyZp p n M 0) ↔ p ≤ 2 ∨ n ≤ 1 := by
  constructor
  · intro h
    by_contra hc
    have hp : 3 ≤ p := by omega
    have hn2 : 2 ≤ n := by omega
    have e := (copyZp_eq_iff p n hn _ 1).1 (h (fun i => if i = 0 then 1 else 0) 1 (by omega))
    unfold copyBlock at e
    simp only [Nat.sub_self, Nat.zero_mul, Nat.zero_add, if_neg one_ne_zero] at e
    rw [sum_ite_eq' (range n) 0 (fun _ => (1 : ℝ)), if_pos (mem_range.2 hn)] at e
    have h2 : ∑ i ∈ range 2, (if i / (p - 1) = 0 then (1 : ℝ) else 0) ≤
        ∑ i ∈ range n, if i / (p - 1) = 0 then (1 : ℝ) else 0 := by
      refine sum_le_sum_of_subset_of_nonneg (range_subset_range.2 hn2) fun i _ _ => ?_
      split <;> norm_num
    rw [e, sum_range_succ, sum_range_one, Nat.zero_div, if_pos rfl, if_pos (Nat.div_eq_of_lt (by omega))] at h2
    norm_num at h2
  · intro h M j hj
    rw [copyZp_eq_iff p n hn]
    unfold copyBlock
    refine sum_congr rfl fun i hi => ?_
    have hi' := mem_range.1 hi
    split
    · rfl
    · rename_i hj0
      rcases h with h | h
      · obtain rfl : p = 2 := by omega
        obtain rfl : j = 1 := by omega
        simp
      · obtain rfl : n = 1 := by omega
        obtain rfl : i = 0 := by omega
        rw [Nat.div_eq_of_lt (by omega)]

/-- Three copies with two stars: the difference of two zero points is the difference of the stars. -/
theorem copyZp_three_two (M : ℕ → ℝ) : copyZp 3 2 M 0 = (M 0 + M 1) / 5 ∧
    copyZp 3 2 M 1 = (7 * M 0 - 3 * M 1) / 10 ∧ copyZp 3 2 M 2 = (7 * M 1 - 3 * M 0) / 10 := by
  refine ⟨?_, ?_, ?_⟩ <;>
  · simp only [copyZp, copyBlock, sum_range_succ, sum_range_zero]
    norm_num
    ring

/-! ## The coadd of copies -/

/-- What `p` copies with zero points `z` bring over one. -/
noncomputable def copyGain {p : ℕ} (z : Fin p → ℝ) : ℝ := (∑ j, z j) / Real.sqrt (∑ j, z j ^ 2)

theorem sum_sq_dev {p : ℕ} (hp : 0 < p) (z : Fin p → ℝ) :
    ∑ j, (z j - (∑ i, z i) / p) ^ 2 = ∑ j, z j ^ 2 - (∑ j, z j) ^ 2 / p := by
  have hp' : (p : ℝ) ≠ 0 := by positivity
  simp only [sub_sq, sum_add_distrib, sum_sub_distrib, ← Finset.sum_mul, ← Finset.mul_sum, sum_const, card_univ, Fintype.card_fin,
    nsmul_eq_mul]
  field_simp
  ring

/-- At most `√p`, and that only for equal positive zero points. -/
theorem copyGain_le {p : ℕ} (hp : 0 < p) (z : Fin p → ℝ) :
    copyGain z ≤ Real.sqrt p ∧ (copyGain z = Real.sqrt p ↔ ∃ c, 0 < c ∧ ∀ j, z j = c) := by
  have hp' : (0 : ℝ) < p := by positivity
  have hs := sum_sq_dev hp z
  have hdev : 0 ≤ ∑ j, (z j - (∑ i, z i) / p) ^ 2 := sum_nonneg fun j _ => sq_nonneg _
  have hcs : (∑ j, z j) ^ 2 ≤ p * ∑ j, z j ^ 2 := by
    rw [hs, sub_nonneg, div_le_iff₀ hp'] at hdev
    linarith
  have hQ : 0 ≤ ∑ j, z j ^ 2 := sum_nonneg fun j _ => sq_nonneg _
  have hsp : 0 < Real.sqrt p := Real.sqrt_pos.2 hp'
  have hle : ∑ j, z j ≤ Real.sqrt p * Real.sqrt (∑ j, z j ^ 2) := by
    rw [← Real.sqrt_mul hp'.le]
    exact Real.le_sqrt_of_sq_le hcs
  unfold copyGain
  rcases hQ.eq_or_lt with h0 | hQ0
  · rw [← h0, Real.sqrt_zero, div_zero]
    refine ⟨hsp.le, fun h => absurd h hsp.ne, ?_⟩
    rintro ⟨c, hc, hz⟩
    simp only [hz, sum_const, card_univ, Fintype.card_fin, nsmul_eq_mul] at h0
    have : 0 < (p : ℝ) * c ^ 2 := by positivity
    exact absurd h0 this.ne
  · have hq : 0 < Real.sqrt (∑ j, z j ^ 2) := Real.sqrt_pos.2 hQ0
    refine ⟨(div_le_iff₀ hq).2 hle, ?_⟩
    rw [div_eq_iff hq.ne']
    constructor
    · intro h
      have hpos : 0 < ∑ j, z j := by rw [h]; positivity
      have hsq : (∑ j, z j) ^ 2 = p * ∑ j, z j ^ 2 := by
        rw [h, mul_pow, Real.sq_sqrt hp'.le, Real.sq_sqrt hQ]
      have hz0 : ∑ j, (z j - (∑ i, z i) / p) ^ 2 = 0 := by
        rw [hs, hsq]
        field_simp
        ring
      refine ⟨(∑ i, z i) / p, by positivity, fun j => ?_⟩
      have := (sum_eq_zero_iff_of_nonneg fun j _ => sq_nonneg _).1 hz0 j (mem_univ j)
      exact sub_eq_zero.1 (pow_eq_zero_iff two_ne_zero |>.1 this)
    · rintro ⟨c, hc, hz⟩
      simp only [hz, sum_const, card_univ, Fintype.card_fin, nsmul_eq_mul]
      rw [← Real.sqrt_mul hp'.le, show (p : ℝ) * (p * c ^ 2) = (p * c) ^ 2 by ring, Real.sqrt_sq (by positivity)]

/-- `coadd` of `p` copies of an exposure with any zero points. -/
theorem coadd_copies_factor (lt : List CoImg → List CoImg → Option Bool) (d : SinglePsf) (psfShape : ℕ) {p : ℕ} (hp : 0 < p)
    (z : Fin p → ℝ) (hv : 0 < d.var) (procs : ℤ) (hpr : procs ≤ p) (hpr' : procs ≤ 2 ^ 25) (hb : procs * p ≤ 2 ^ 50)
    (hm : d.mask.HasShape d.interped.h d.interped.w) :
    ∃ out one, coaddCore lt (List.ofFn fun j => (d.withZp (z j)).toCoImg) psfShape procs = .ok out ∧
      coaddCore lt [(d.withZp 1).toCoImg] psfShape 1 = .ok one ∧
      ∀ i j, out.R.px i j = (copyGain z : ℂ) * one.R.px i j := by
  have hmap : (List.ofFn fun j => (d.withZp (z j)).toCoImg) = (List.ofFn fun j => d.withZp (z j)).map SinglePsf.toCoImg := by
    rw [List.map_ofFn]
    rfl
  obtain ⟨out, e, eR, _⟩ := coadd_single_spec lt hp (fun j => d.withZp (z j)) d.interped.h d.interped.w
    psfShape procs (fun j => ⟨rfl, rfl, hm⟩) hpr hpr' hb
  obtain ⟨one, e1, eR1, _⟩ := coadd_single_spec lt (n := 1) (by norm_num) ![d.withZp 1] d.interped.h d.interped.w
    psfShape 1 (by intro j; fin_cases j; exact ⟨rfl, rfl, hm⟩) (by norm_num) (by norm_num) (by norm_num)
  refine ⟨out, one, by rw [hmap]; exact e, by simpa [List.ofFn_succ] using e1, fun i j => ?_⟩
  have hv0 : d.var ≠ 0 := hv.ne'
  have key : ∀ k l, coaddRhat ((List.ofFn fun j => d.withZp (z j)).map SinglePsf.toCoImg) k l =
      (copyGain z : ℂ) * coaddRhat ((List.ofFn ![d.withZp 1]).map SinglePsf.toCoImg) k l := by
    intro k l
    set A := (fftOrtho d.interped).px k l * (starRingEnd ℂ) (d.psfHat.px k l) *
      shiftPhase d.interped.h d.interped.w d.com k l with hA
    set N := normSq (d.psfHat.px k l) with hN
    have hN0 : 0 ≤ N := normSq_nonneg _
    have s2 : specS ((List.ofFn fun j => d.withZp (z j)).map SinglePsf.toCoImg) k l =
        (((∑ j, z j) / d.var ^ 2 : ℝ) : ℂ) * A := by
      rw [specS_ofFn]
      change ∑ j, ((z j / d.var ^ 2 : ℝ) : ℂ) * A = _
      rw [← Finset.sum_mul, ← ofReal_sum, Finset.sum_div]
    have s1 : specS ((List.ofFn ![d.withZp 1]).map SinglePsf.toCoImg) k l = ((1 / d.var ^ 2 : ℝ) : ℂ) * A := by
      rw [specS_ofFn, Fin.sum_univ_one]
      rfl
    have p2 : specP ((List.ofFn fun j => d.withZp (z j)).map SinglePsf.toCoImg) k l =
        (((∑ j, z j ^ 2) * (N / d.var ^ 2) : ℝ) : ℂ) := by
      rw [specP_ofFn]
      change ∑ j, (((z j / d.var) ^ 2 : ℝ) : ℂ) * (d.psfHat.px k l * (starRingEnd ℂ) (d.psfHat.px k l)) = _
      rw [← Finset.sum_mul, ← ofReal_sum, mul_conj, ← hN, ← ofReal_mul]
      congr 1
      simp only [div_pow]
      rw [← Finset.sum_div]
      ring
    have p1 : specP ((List.ofFn ![d.withZp 1]).map SinglePsf.toCoImg) k l = ((N / d.var ^ 2 : ℝ) : ℂ) := by
      rw [specP_ofFn, Fin.sum_univ_one]
      change (((1 / d.var) ^ 2 : ℝ) : ℂ) * (d.psfHat.px k l * (starRingEnd ℂ) (d.psfHat.px k l)) = _
      rw [mul_conj, ← hN, ← ofReal_mul]
      congr 1
      field_simp
    have hQ : 0 ≤ ∑ j, z j ^ 2 := sum_nonneg fun j _ => sq_nonneg _
    unfold coaddRhat
    rw [s2, s1, p2, p1, csqrt_ofReal_nonneg _ (by positivity), csqrt_ofReal_nonneg _ (by positivity),
      Real.sqrt_mul hQ]
    unfold copyGain
    push_cast
    ring
  rw [eR, eR1]
  change (∑ k ∈ range d.interped.h, ∑ l ∈ range d.interped.w, _) / _ =
    _ * ((∑ k ∈ range d.interped.h, ∑ l ∈ range d.interped.w, _) / _)
  rw [← mul_div_assoc, Finset.mul_sum]
  congr 1
  refine Finset.sum_congr rfl fun k _ => ?_
  rw [Finset.mul_sum]
  refine Finset.sum_congr rfl fun l _ => ?_
  change coaddRhat ((List.ofFn fun j => d.withZp (z j)).map SinglePsf.toCoImg) k l * _ =
    _ * (coaddRhat ((List.ofFn ![d.withZp 1]).map SinglePsf.toCoImg) k l * _)
  rw [key, mul_assoc]

/-- The zero point given to image `j` by what `transparency` returned. -/
noncomputable def zpAt (t : Py (List ℝ × Option (List ℝ) × Store)) (j : ℕ) : ℝ :=
  match t with
  | .ok (zps, _) => zps.getD j 0
  | .error _ => 0

/-- C129: `coadd` of copies of an exposure with the zero points `transparency` measures for them: the coadd of one times a
factor at most `√p`. The factor is `√p` exactly if all stretches of magnitudes have the sum `S` of the catalogue's
and `S` is positive. -/
theorem coadd_copies_measured (q : Query) (hq : KdContract q) (lsqr : ℕ → ℕ → List ℝ → ℕ → ℝ) (hl : MinLsqSolver lsqr)
    (st : Store) (m : ℕ) (imgs : List ℕ) (hi : imgs.Nodup) (hfresh : (st m).Fresh)
    (hrows : ∀ k ∈ imgs, (st k).rows = (st m).rows) (hne : (st m).rows ≠ []) (hnd : (st m).xy.Nodup)
    (lt : List CoImg → List CoImg → Option Bool) (d : SinglePsf) (psfShape : ℕ) (hv : 0 < d.var) (p n : ℕ)
    (hp : p = imgs.length + 1) (hn : n = (st m).rows.length)
    (procs : ℤ) (hpr : procs ≤ p) (hpr' : procs ≤ 2 ^ 25) (hb : procs * p ≤ 2 ^ 50)
    (hm : d.mask.HasShape d.interped.h d.interped.w) :
    ∃ out one, coaddCore lt
        (List.ofFn fun j : Fin p => (d.withZp (zpAt (transparency q lsqr st (m :: imgs) none) j)).toCoImg) psfShape procs = .ok out ∧
      coaddCore lt [(d.withZp 1).toCoImg] psfShape 1 = .ok one ∧
      ∃ g : ℝ, (∀ i j, out.R.px i j = (g : ℂ) * one.R.px i j) ∧
        g = copyGain (fun j : Fin p => copyZp p n (rowMag (st m)) j) ∧ g ≤ Real.sqrt p ∧
        (g = Real.sqrt p ↔ 0 < magSum (st m) ∧ ∀ j < p, copyBlock p n (rowMag (st m)) j = magSum (st m)) := by
  have hp0 : 0 < p := by omega
  obtain ⟨mm, st', ht⟩ := transparency_copies q hq lsqr hl st m imgs hi hfresh hrows hne hnd
  rw [← hp, ← hn] at ht
  have hz : ∀ j : Fin p, zpAt (transparency q lsqr st (m :: imgs) none) j = copyZp p n (rowMag (st m)) j := by
    intro j
    rw [ht]
    simp [zpAt]
  simp only [hz]
  obtain ⟨out, one, e, e1, hR⟩ := coadd_copies_factor lt d psfShape hp0 (fun j : Fin p => copyZp p n (rowMag (st m)) j) hv procs
    hpr hpr' hb hm
  obtain ⟨hle, hiff⟩ := copyGain_le hp0 (fun j : Fin p => copyZp p n (rowMag (st m)) j)
  have hn0 : 0 < n := by rw [hn]; exact List.length_pos_iff.2 hne
  have hS : ∑ i ∈ range n, rowMag (st m) i = magSum (st m) := by
    unfold magSum
    rw [sum_range_list, hn]
    congr 1
    apply List.ext_getElem
    · simp
    · intro i h1 h2
      have hi : i < (st m).rows.length := by simpa using h2
      simp [rowMag, hi]
  have h0 : copyZp p n (rowMag (st m)) 0 = magSum (st m) / (p + n) := by
    unfold copyZp
    rw [show copyBlock p n (rowMag (st m)) 0 = ∑ i ∈ range n, rowMag (st m) i by simp [copyBlock], hS]
    have : (n : ℝ) ≠ 0 := by positivity
    have : (p + n : ℝ) ≠ 0 := by positivity
    field_simp
    ring
  refine ⟨out, one, e, e1, _, hR, rfl, hle, hiff.trans ?_⟩
  have hpn : (0 : ℝ) < p + n := by positivity
  constructor
  · rintro ⟨c, hc, hz⟩
    have hc0 := hz ⟨0, hp0⟩
    simp only [h0] at hc0
    refine ⟨?_, fun j hj => ?_⟩
    · rw [div_eq_iff hpn.ne'] at hc0
      rw [hc0]
      positivity
    · rw [← hS, ← copyZp_eq_iff p n hn0, hz ⟨j, hj⟩, ← hz ⟨0, hp0⟩]
  · rintro ⟨hpos, hB⟩
    refine ⟨magSum (st m) / (p + n), by positivity, fun j => ?_⟩
    rw [← h0, copyZp_eq_iff p n hn0, hS]
    exact hB j j.2

/-- Three copies with two stars of a hundred and ten thousand counts. -/
def twoStars : Store := fun _ => ⟨[⟨0, 0, 10 ^ 2, 0⟩, ⟨50, 50, 10 ^ 4, 0⟩], false, none⟩

/-- Zero points 5, 7.5 and 2.5 for three copies of one exposure, whose coadd falls short of the full gain. -/
theorem twoStars_gain (lt : List CoImg → List CoImg → Option Bool) :
    ∃ out one, coaddCore lt (List.ofFn fun j : Fin 3 => ((twoExposures 0).withZp
        (zpAt (transparency bruteQuery (fun p n m => closedForm p n (vecOf m)) twoStars [0, 1, 2] none) j)).toCoImg) 0 2 = .ok out ∧
      coaddCore lt [((twoExposures 0).withZp 1).toCoImg] 0 1 = .ok one ∧
      ∃ g : ℝ, (∀ i j, out.R.px i j = (g : ℂ) * one.R.px i j) ∧ g = 15 / Real.sqrt (175 / 2) ∧ g < Real.sqrt 3 := by
  have m0 : rowMag (twoStars 0) 0 = 15 := by
    have := magOf_pow10 2
    simp only [rowMag, twoStars, List.getElem?_cons_zero, Option.map_some, Option.getD_some]
    rw [this]
    norm_num
  have m1 : rowMag (twoStars 0) 1 = 10 := by
    have := magOf_pow10 4
    simp only [rowMag, twoStars, List.getElem?_cons_succ, List.getElem?_cons_zero, Option.map_some, Option.getD_some]
    rw [this]
    norm_num
  obtain ⟨z0, z1, z2⟩ := copyZp_three_two (rowMag (twoStars 0))
  rw [m0, m1] at z0 z1 z2
  obtain ⟨out, one, e, e1, g, hR, hg, hle, hiff⟩ := coadd_copies_measured bruteQuery bruteQuery_contract _ minLsqSolver_exists
    twoStars 0 [1, 2] (by simp) rfl (fun _ _ => rfl) (by simp [twoStars]) (by simp [twoStars, Cat.xy]) lt (twoExposures 0) 0
    (by norm_num [twoExposures]) 3 2 rfl rfl 2 (by norm_num) (by norm_num) (by norm_num) (twoExposures_shape 0).2.2
  refine ⟨out, one, e, e1, g, hR, ?_, lt_of_le_of_ne (by exact_mod_cast hle) fun h => ?_⟩
  · rw [hg]
    unfold copyGain
    rw [Fin.sum_univ_three, Fin.sum_univ_three]
    change (copyZp 3 2 _ 0 + copyZp 3 2 _ 1 + copyZp 3 2 _ 2) / Real.sqrt (copyZp 3 2 _ 0 ^ 2 + copyZp 3 2 _ 1 ^ 2 +
      copyZp 3 2 _ 2 ^ 2) = _
    rw [z0, z1, z2]
    norm_num
  · have hb := (hiff.1 (by exact_mod_cast h)).2 1 (by norm_num)
    have hs : magSum (twoStars 0) = 25 := by
      have a2 := magOf_pow10 2
      have a4 := magOf_pow10 4
      simp only [magSum, twoStars, List.map_cons, List.map_nil, List.sum_cons, List.sum_nil]
      rw [a2, a4]
      norm_num
    rw [hs] at hb
    simp only [copyBlock, sum_range_succ, sum_range_zero] at hb
    norm_num [m0, m1] at hb

/-! ## Subtracting a copy -/

/-- `subtract` of two copies with the zero points measured for them: nothing is left, provided the magnitudes do not sum
to zero (then the scale would be 0/0). -/
theorem subtract_copies_measured (q : Query) (hq : KdContract q) (lsqr : ℕ → ℕ → List ℝ → ℕ → ℝ) (hl : MinLsqSolver lsqr)
    (st : Store) (m k : ℕ) (hfresh : (st m).Fresh) (hrows : (st k).rows = (st m).rows) (hne : (st m).rows ≠ [])
    (hnd : (st m).xy.Nodup) (hS : magSum (st m) ≠ 0)
    (env : SubEnv) (hz : env.zps = firstTwo (transparency q lsqr st [m, k] none)) (it : Bool) (ref new : SubImg) (h w : ℕ)
    (hri : ref.interped.shape = (h, w)) (hn : new.interped = ref.interped) (hps : new.psf = ref.psf)
    (hmr : ref.mask.HasShape h w) (hmn : new.mask.HasShape h w)
    (hc : env.fitted = true ∨ (0 ≤ (centerOfMass new.psf).1 ∧ 0 ≤ (centerOfMass new.psf).2)) :
    ∃ out, subtract env ⟨false, false, it⟩ ref new = .ok out ∧
      (∀ i j, out.D.px i j = 0) ∧ (∀ i j, out.S.px i j = 0) := by
  obtain ⟨z, mm, st', ht, ez, _⟩ := transparency_identical_images q hq lsqr hl st m k hfresh hrows hne hnd
  have hz0 : z ≠ 0 := by
    rw [ez]
    exact div_ne_zero hS (by positivity)
  exact subtract_self_zero env it ref new h w hri hn hps hmr hmn z hz0 (by rw [hz, ht]; rfl) hc

end PI
