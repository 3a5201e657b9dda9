import Verif.Props.Copies

/-!
# Property C135: exchanging images in `transparency`, and what follows for `subtract` and `coadd`
-/

namespace PI

open Complex Finset

open Classical in
/-- The pairs of stars of two catalogues that are each other's nearest within the radius. -/
noncomputable def commonPairs (q : Query) (c d : Cat) : Finset (ℕ × ℕ) :=
  ((range c.rows.length) ×ˢ (range d.rows.length)).filter fun p => MutualAt q c.xy d.xy radius2 p.1 p.2

/-- Being each other's nearest has no first and second. -/
theorem mutual_symm (q : Query) (A B : List Pt) (b : Bound) (o i : ℕ) : MutualAt q A B b o i ↔ MutualAt q B A b i o :=
  ⟨fun ⟨mo, ci, h1, h2, h3, h4⟩ => ⟨ci, mo, h2, h1, h4, h3⟩, fun ⟨mo, ci, h1, h2, h3, h4⟩ => ⟨ci, mo, h2, h1, h4, h3⟩⟩

open Classical in
theorem mem_commonPairs (q : Query) (c d : Cat) (p : ℕ × ℕ) :
    p ∈ commonPairs q c d ↔ MutualAt q c.xy d.xy radius2 p.1 p.2 := by
  unfold commonPairs
  rw [mem_filter, mem_product, mem_range, mem_range]
  refine ⟨fun h => h.2, fun h => ⟨?_, h⟩⟩
  obtain ⟨mo, ci, h1, h2, _, _⟩ := h
  have l1 := (List.getElem?_eq_some_iff.1 h1).1
  have l2 := (List.getElem?_eq_some_iff.1 h2).1
  simp only [Cat.xy, List.length_map] at l1 l2
  exact ⟨l1, l2⟩

theorem commonPairs_swap (q : Query) (c d : Cat) : commonPairs q d c = (commonPairs q c d).map (Equiv.prodComm ℕ ℕ).toEmbedding := by
  ext ⟨i, o⟩
  rw [mem_commonPairs]
  simp only [mem_map, Equiv.coe_toEmbedding, Equiv.prodComm_apply]
  constructor
  · intro h
    exact ⟨(o, i), (mem_commonPairs _ _ _ _).2 ((mutual_symm _ _ _ _ _ _).1 h), rfl⟩
  · rintro ⟨⟨o', i'⟩, h, e⟩
    obtain ⟨rfl, rfl⟩ := Prod.mk.inj e
    exact (mutual_symm _ _ _ _ _ _).1 ((mem_commonPairs _ _ _ _).1 h)

/-- The zero point of an image whose common stars have magnitudes summing to `S`, the other's summing to `T`. -/
noncomputable def pairZp (n : ℕ) (S T : ℝ) : ℝ := if n = 0 then 1 else (S - (S + T) / (2 + n)) / n

/-- The zero points of two images: the pairs of stars in common decide, and nothing else. -/
theorem transparency_pairs (q : Query) (hq : KdContract q) (lsqr : ℕ → ℕ → List ℝ → ℕ → ℝ) (hl : MinLsqSolver lsqr)
    (st : Store) (m k : ℕ) (hfresh : (st m).Fresh) :
    ∃ mm st', transparency q lsqr st [m, k] none = .ok
      ([pairZp (commonPairs q (st m) (st k)).card (∑ p ∈ commonPairs q (st m) (st k), rowMag (st m) p.1)
          (∑ p ∈ commonPairs q (st m) (st k), rowMag (st k) p.2),
        pairZp (commonPairs q (st m) (st k)).card (∑ p ∈ commonPairs q (st m) (st k), rowMag (st k) p.2)
          (∑ p ∈ commonPairs q (st m) (st k), rowMag (st m) p.1)], mm, st') := by
  obtain ⟨D, a, b, zps, mm, st', h1, h2, h3, h4, h5⟩ := transparency_two_closed_form q hq lsqr hl st m k hfresh
  have gD : ∀ s (hs : s < D.length), D.getD s 0 = D[s] := by
    intro s hs
    simp [hs]
  have hex : ∀ s : ℕ, ∃ i, s < D.length → MutualAt q (st m).xy (st k).xy radius2 (D.getD s 0) i ∧
      ((st k).rows[i]?).map (·.flux) = some (b s) := by
    intro s
    by_cases hs : s < D.length
    · obtain ⟨_, i, hi⟩ := h4 s D[s] (List.getElem?_eq_getElem hs)
      refine ⟨i, fun _ => ?_⟩
      rw [gD _ hs]
      exact hi
    · exact ⟨0, fun h => absurd h hs⟩
  choose P hP using hex
  have bij : ∀ f : ℕ × ℕ → ℝ, ∑ s ∈ range D.length, f (D.getD s 0, P s) = ∑ p ∈ commonPairs q (st m) (st k), f p := by
    intro f
    refine sum_bij (fun s _ => (D.getD s 0, P s)) ?_ ?_ ?_ ?_
    · intro s hs
      exact (mem_commonPairs _ _ _ _).2 (hP s (mem_range.1 hs)).1
    · intro s hs t ht e
      have hs' := mem_range.1 hs
      have ht' := mem_range.1 ht
      have e1 := (Prod.mk.inj e).1
      rw [gD _ hs', gD _ ht'] at e1
      exact (List.Nodup.getElem_inj_iff (h3.imp fun h => Nat.ne_of_lt h)).1 e1
    · rintro ⟨o, i⟩ hp
      have hm := (mem_commonPairs _ _ _ _).1 hp
      have ho : o ∈ D := by
        rw [h2]
        refine ⟨?_, i, hm⟩
        obtain ⟨mo, _, e, _⟩ := hm
        have := (List.getElem?_eq_some_iff.1 e).1
        simpa only [Cat.xy, List.length_map] using this
      obtain ⟨s, hs, e⟩ := List.getElem_of_mem ho
      refine ⟨s, mem_range.2 hs, ?_⟩
      have hps := (hP s hs).1
      rw [gD _ hs, e] at hps ⊢
      rw [(mutual_unique q _ _ _ _ _ _ _ hps hm).1 rfl]
    · intro s hs; rfl
  have hcard : (commonPairs q (st m) (st k)).card = D.length := by
    have := bij fun _ => 1
    simp only [sum_const, card_range, nsmul_eq_mul, mul_one] at this
    exact_mod_cast this.symm
  have hS0 : ∑ p ∈ commonPairs q (st m) (st k), rowMag (st m) p.1 = ∑ s ∈ range D.length, magOf (a s) := by
    rw [← bij fun p => rowMag (st m) p.1]
    refine sum_congr rfl fun s hs => ?_
    have hs' := mem_range.1 hs
    have := (h4 s D[s] (List.getElem?_eq_getElem hs')).1
    unfold rowMag
    rw [gD _ hs', this]
    rfl
  have hS1 : ∑ p ∈ commonPairs q (st m) (st k), rowMag (st k) p.2 = ∑ s ∈ range D.length, magOf (b s) := by
    rw [← bij fun p => rowMag (st k) p.2]
    refine sum_congr rfl fun s hs => ?_
    unfold rowMag
    rw [(hP s (mem_range.1 hs)).2]
    rfl
  by_cases hD : D = []
  · have h0 : (commonPairs q (st m) (st k)).card = 0 := by rw [hcard, hD]; rfl
    rw [h0]
    have hno : ∀ o i, ¬ MutualAt q (st m).xy (st k).xy radius2 o i := by
      intro o i h
      have := (mem_commonPairs q (st m) (st k) (o, i)).2 h
      rw [card_eq_zero.1 h0] at this
      simp at this
    obtain ⟨r, D', F, k1, k2, _, _, k4, k5, k6, k7, k8, k9⟩ :=
      transparency_detect q hq st [m, k] none m [k] rfl (by simp) hfresh
    have hD' : D' = [] := by
      rw [List.eq_nil_iff_forall_not_mem]
      intro o ho
      obtain ⟨i, hi⟩ := ((k6 o).1 ho).2 k (by simp)
      exact hno o i hi
    have hc : r.det.count true = 0 := by rw [k5, hD']; rfl
    have hr : r.p = 2 := k2
    refine ⟨none, r.store, ?_⟩
    simp [transparency, k1, hc, hr, pairZp]
  · have hn : (commonPairs q (st m) (st k)).card ≠ 0 := by
      rw [hcard]; exact fun h => hD (List.length_eq_zero_iff.1 h)
    refine ⟨mm, st', ?_⟩
    rw [h1, h5 hD _ _ rfl rfl, ← hS0, ← hS1, ← hcard]
    unfold pairZp
    rw [if_neg hn, if_neg hn, add_comm (∑ p ∈ commonPairs q (st m) (st k), rowMag (st k) p.2)]

/-- C135: the same two images in the other order get the same zero points, exchanged. -/
theorem transparency_swap (q : Query) (hq : KdContract q) (lsqr : ℕ → ℕ → List ℝ → ℕ → ℝ) (hl : MinLsqSolver lsqr)
    (st : Store) (m k : ℕ) (hm : (st m).Fresh) (hk : (st k).Fresh) :
    ∃ z0 z1 mm mm' st' st'', transparency q lsqr st [m, k] none = .ok ([z0, z1], mm, st') ∧
      transparency q lsqr st [k, m] none = .ok ([z1, z0], mm', st'') := by
  obtain ⟨mm, s', e⟩ := transparency_pairs q hq lsqr hl st m k hm
  obtain ⟨mm', s'', e'⟩ := transparency_pairs q hq lsqr hl st k m hk
  refine ⟨_, _, mm, mm', s', s'', e, ?_⟩
  rw [e', commonPairs_swap q (st m) (st k), card_map, sum_map, sum_map]
  rfl

/-- C135: `subtract` without fits on the measured zero points: exchanging reference and new image changes the sign of the
difference image, provided the ratio of the zero points is positive. -/
theorem subtract_swap_measured (q : Query) (hq : KdContract q) (lsqr : ℕ → ℕ → List ℝ → ℕ → ℝ) (hl : MinLsqSolver lsqr)
    (st : Store) (m k : ℕ) (hm : (st m).Fresh) (hk : (st k).Fresh) (env env' : SubEnv) (it it' : Bool) (ref new : SubImg)
    (h w : ℕ) (hr : ref.interped.shape = (h, w)) (hn : new.interped.shape = (h, w))
    (hmr : ref.mask.HasShape h w) (hmn : new.mask.HasShape h w)
    (hz : env.zps = firstTwo (transparency q lsqr st [m, k] none))
    (hz' : env'.zps = firstTwo (transparency q lsqr st [k, m] none))
    (hpos : 0 < zpAt (transparency q lsqr st [m, k] none) 1 / zpAt (transparency q lsqr st [m, k] none) 0)
    (hf : env.fitted = true) (hf' : env'.fitted = true) :
    ∃ out out', subtract env ⟨false, false, it⟩ ref new = .ok out ∧ subtract env' ⟨false, false, it'⟩ new ref = .ok out' ∧
      ∀ i j, out'.D.px i j = -out.D.px i j := by
  obtain ⟨z0, z1, mm, mm', s', s'', e, e'⟩ := transparency_swap q hq lsqr hl st m k hm hk
  rw [e] at hz hpos
  rw [e'] at hz'
  exact subtract_swap_calls env env' it it' ref new h w hr hn hmr hmn z0 z1 hz hz' hpos hf hf'

/-- C135: `coadd` of two images with the measured zero points does not depend on their order. -/
theorem coadd_pair_swap_measured (q : Query) (hq : KdContract q) (lsqr : ℕ → ℕ → List ℝ → ℕ → ℝ) (hl : MinLsqSolver lsqr)
    (st : Store) (m k : ℕ) (hm : (st m).Fresh) (hk : (st k).Fresh) (lt lt' : List CoImg → List CoImg → Option Bool)
    (a b : SinglePsf) (h w psfShape : ℕ) (ha : a.interped.h = h ∧ a.interped.w = w ∧ a.mask.HasShape h w)
    (hb : b.interped.h = h ∧ b.interped.w = w ∧ b.mask.HasShape h w) (procs procs' : ℤ) (hp : procs ≤ 2) (hp' : procs' ≤ 2) :
    ∃ out out',
      coaddCore lt [(a.withZp (zpAt (transparency q lsqr st [m, k] none) 0)).toCoImg,
        (b.withZp (zpAt (transparency q lsqr st [m, k] none) 1)).toCoImg] psfShape procs = .ok out ∧
      coaddCore lt' [(b.withZp (zpAt (transparency q lsqr st [k, m] none) 0)).toCoImg,
        (a.withZp (zpAt (transparency q lsqr st [k, m] none) 1)).toCoImg] psfShape procs' = .ok out' ∧
      out.R = out'.R ∧ out.Pr = out'.Pr ∧ (∀ i < h, ∀ j < w, out.mask.marks i j = out'.mask.marks i j) := by
  obtain ⟨z0, z1, mm, mm', s', s'', e, e'⟩ := transparency_swap q hq lsqr hl st m k hm hk
  rw [e, e']
  have hall := allShape_single ![a.withZp z0, b.withZp z1] h w (by
    intro j
    fin_cases j
    · exact ha
    · exact hb)
  obtain ⟨out, out', h1, h2, h3, h4, h5, _⟩ := coadd_order_independent lt lt' h w
    [(a.withZp z0).toCoImg, (b.withZp z1).toCoImg] [(b.withZp z1).toCoImg, (a.withZp z0).toCoImg] psfShape procs procs'
    (by simp) (by simpa [List.ofFn_succ] using hall) (List.Perm.swap _ _ _) (by simpa using hp) (by omega) (by simp; omega)
    (by simpa using hp') (by omega) (by simp; omega)
  exact ⟨out, out', h1, h2, h3, h4, h5⟩

/-! ## Three images -/

theorem ifftDefault_sum {ι : Type} (s : Finset ι) (h w : ℕ) (c : ι → ℂ) (X : ι → ℕ → ℕ → ℂ) (i j : ℕ) :
    (ifftDefault ⟨h, w, fun k l => ∑ m ∈ s, c m * X m k l⟩).px i j = ∑ m ∈ s, c m * (ifftDefault ⟨h, w, X m⟩).px i j := by
  change (∑ k ∈ range h, ∑ l ∈ range w, (∑ m ∈ s, c m * X m k l) *
      (tw h (-((k : ℝ) * i)) * tw w (-((l : ℝ) * j)))) / ((h * w : ℕ) : ℂ) =
    ∑ m ∈ s, c m * ((∑ k ∈ range h, ∑ l ∈ range w, X m k l *
      (tw h (-((k : ℝ) * i)) * tw w (-((l : ℝ) * j)))) / ((h * w : ℕ) : ℂ))
  simp only [← mul_div_assoc, Finset.mul_sum]
  rw [← Finset.sum_div]
  refine congrArg (· / _) ?_
  symm
  rw [Finset.sum_comm]
  refine Finset.sum_congr rfl fun k _ => ?_
  rw [Finset.sum_comm]
  refine Finset.sum_congr rfl fun l _ => ?_
  rw [Finset.sum_mul]
  refine Finset.sum_congr rfl fun m _ => ?_
  rw [mul_assoc]

/-- The same observing conditions, other pixels. -/
def SinglePsf.showing (d : SinglePsf) (f : ℕ → ℕ → ℂ) : SinglePsf := { d with interped := ⟨d.interped.h, d.interped.w, f⟩ }

/-- `coadd` of exposures taken under the same conditions: the sum of what each gives alone, weighted with the zero points. -/
theorem coadd_series (lt : List CoImg → List CoImg → Option Bool) (d : SinglePsf) (psfShape : ℕ) {p : ℕ} (hp : 0 < p)
    (z : Fin p → ℝ) (f : Fin p → ℕ → ℕ → ℂ) (hv : 0 < d.var) (procs : ℤ) (hpr : procs ≤ p) (hpr' : procs ≤ 2 ^ 25)
    (hb : procs * p ≤ 2 ^ 50) (hm : d.mask.HasShape d.interped.h d.interped.w) (one : Fin p → CoaddOut)
    (h1 : ∀ m, coaddCore lt [((d.showing (f m)).withZp 1).toCoImg] psfShape 1 = .ok (one m)) :
    ∃ out, coaddCore lt (List.ofFn fun m => ((d.showing (f m)).withZp (z m)).toCoImg) psfShape procs = .ok out ∧
      ∀ i j, out.R.px i j = ∑ m, ((z m / Real.sqrt (∑ n, z n ^ 2) : ℝ) : ℂ) * (one m).R.px i j := by
  have hmap : (List.ofFn fun m => ((d.showing (f m)).withZp (z m)).toCoImg) =
      (List.ofFn fun m => (d.showing (f m)).withZp (z m)).map SinglePsf.toCoImg := by
    rw [List.map_ofFn]
    rfl
  obtain ⟨out, e, eR, _⟩ := coadd_single_spec lt hp (fun m => (d.showing (f m)).withZp (z m)) d.interped.h d.interped.w
    psfShape procs (fun j => ⟨rfl, rfl, hm⟩) hpr hpr' hb
  refine ⟨out, by rw [hmap]; exact e, fun i j => ?_⟩
  have hR1 : ∀ m, (one m).R = ifftDefault ⟨d.interped.h, d.interped.w,
      coaddRhat ((List.ofFn ![(d.showing (f m)).withZp 1]).map SinglePsf.toCoImg)⟩ := by
    intro m
    obtain ⟨o, e1, eR1, _⟩ := coadd_single_spec lt (n := 1) (by norm_num) ![(d.showing (f m)).withZp 1] d.interped.h d.interped.w
      psfShape 1 (by intro j; fin_cases j; exact ⟨rfl, rfl, hm⟩) (by norm_num) (by norm_num) (by norm_num)
    have e2 : coaddCore lt [((d.showing (f m)).withZp 1).toCoImg] psfShape 1 = .ok o := by simpa [List.ofFn_succ] using e1
    rw [h1 m] at e2
    rw [← eR1, Except.ok.inj e2]
  have hv0 : d.var ≠ 0 := hv.ne'
  have key : ∀ k l, coaddRhat ((List.ofFn fun m => (d.showing (f m)).withZp (z m)).map SinglePsf.toCoImg) k l =
      ∑ m, ((z m / Real.sqrt (∑ n, z n ^ 2) : ℝ) : ℂ) *
        coaddRhat ((List.ofFn ![(d.showing (f m)).withZp 1]).map SinglePsf.toCoImg) k l := by
    intro k l
    let A : Fin p → ℂ := fun m => (fftOrtho (d.showing (f m)).interped).px k l * (starRingEnd ℂ) (d.psfHat.px k l) *
      shiftPhase d.interped.h d.interped.w d.com k l
    set N := normSq (d.psfHat.px k l) with hN
    have hN0 : 0 ≤ N := normSq_nonneg _
    have s2 : specS ((List.ofFn fun m => (d.showing (f m)).withZp (z m)).map SinglePsf.toCoImg) k l =
        ∑ m, ((z m / d.var ^ 2 : ℝ) : ℂ) * A m := by
      rw [specS_ofFn]
      rfl
    have s1 : ∀ m, specS ((List.ofFn ![(d.showing (f m)).withZp 1]).map SinglePsf.toCoImg) k l =
        ((1 / d.var ^ 2 : ℝ) : ℂ) * A m := by
      intro m
      rw [specS_ofFn, Fin.sum_univ_one]
      rfl
    have p2 : specP ((List.ofFn fun m => (d.showing (f m)).withZp (z m)).map SinglePsf.toCoImg) k l =
        (((∑ j, z j ^ 2) * (N / d.var ^ 2) : ℝ) : ℂ) := by
      rw [specP_ofFn]
      change ∑ j, (((z j / d.var) ^ 2 : ℝ) : ℂ) * (d.psfHat.px k l * (starRingEnd ℂ) (d.psfHat.px k l)) = _
      rw [← Finset.sum_mul, ← ofReal_sum, mul_conj, ← hN, ← ofReal_mul]
      congr 1
      simp only [div_pow]
      rw [← Finset.sum_div]
      ring
    have p1 : ∀ m, specP ((List.ofFn ![(d.showing (f m)).withZp 1]).map SinglePsf.toCoImg) k l =
        ((N / d.var ^ 2 : ℝ) : ℂ) := by
      intro m
      rw [specP_ofFn, Fin.sum_univ_one]
      change (((1 / d.var) ^ 2 : ℝ) : ℂ) * (d.psfHat.px k l * (starRingEnd ℂ) (d.psfHat.px k l)) = _
      rw [mul_conj, ← hN, ← ofReal_mul]
      congr 1
      field_simp
    have hQ : 0 ≤ ∑ j, z j ^ 2 := sum_nonneg fun j _ => sq_nonneg _
    unfold coaddRhat
    rw [s2, p2, csqrt_ofReal_nonneg _ (by positivity), Real.sqrt_mul hQ, Finset.sum_div]
    refine Finset.sum_congr rfl fun m _ => ?_
    rw [s1, p1, csqrt_ofReal_nonneg _ (by positivity)]
    push_cast
    ring
  have hRhat : coaddRhat ((List.ofFn fun m => (d.showing (f m)).withZp (z m)).map SinglePsf.toCoImg) = fun k l =>
      ∑ m, ((z m / Real.sqrt (∑ n, z n ^ 2) : ℝ) : ℂ) *
        coaddRhat ((List.ofFn ![(d.showing (f m)).withZp 1]).map SinglePsf.toCoImg) k l := by
    funext k l
    exact key k l
  rw [eR, hRhat, ifftDefault_sum]
  refine Finset.sum_congr rfl fun m _ => ?_
  rw [hR1]

/-- C135: three exposures with the same stars, taken under the same conditions; exchanging the first two changes the
coadd by the difference of the first two zero points times the difference of what the two exposures give alone. -/
theorem coadd_three_order (q : Query) (hq : KdContract q) (lsqr : ℕ → ℕ → List ℝ → ℕ → ℝ) (hl : MinLsqSolver lsqr)
    (st : Store) (m k l : ℕ) (hd : [m, k, l].Nodup) (hm : (st m).Fresh) (hk : (st k).Fresh)
    (hrk : (st k).rows = (st m).rows) (hrl : (st l).rows = (st m).rows) (hne : (st m).rows ≠ []) (hnd : (st m).xy.Nodup)
    (lt : List CoImg → List CoImg → Option Bool) (d : SinglePsf) (psfShape : ℕ) (hv : 0 < d.var)
    (hmask : d.mask.HasShape d.interped.h d.interped.w) (f : Fin 3 → ℕ → ℕ → ℂ) (procs : ℤ) (hpr : procs ≤ 3)
    (z : ℕ → ℝ) (hz : z = copyZp 3 (st m).rows.length (rowMag (st m))) :
    ∃ out out' a b,
      coaddCore lt [((d.showing (f 0)).withZp (zpAt (transparency q lsqr st [m, k, l] none) 0)).toCoImg,
        ((d.showing (f 1)).withZp (zpAt (transparency q lsqr st [m, k, l] none) 1)).toCoImg,
        ((d.showing (f 2)).withZp (zpAt (transparency q lsqr st [m, k, l] none) 2)).toCoImg] psfShape procs = .ok out ∧
      coaddCore lt [((d.showing (f 1)).withZp (zpAt (transparency q lsqr st [k, m, l] none) 0)).toCoImg,
        ((d.showing (f 0)).withZp (zpAt (transparency q lsqr st [k, m, l] none) 1)).toCoImg,
        ((d.showing (f 2)).withZp (zpAt (transparency q lsqr st [k, m, l] none) 2)).toCoImg] psfShape procs = .ok out' ∧
      coaddCore lt [((d.showing (f 0)).withZp 1).toCoImg] psfShape 1 = .ok a ∧
      coaddCore lt [((d.showing (f 1)).withZp 1).toCoImg] psfShape 1 = .ok b ∧
      ∀ i j, out.R.px i j - out'.R.px i j =
        (((z 0 - z 1) / Real.sqrt (z 0 ^ 2 + z 1 ^ 2 + z 2 ^ 2) : ℝ) : ℂ) * (a.R.px i j - b.R.px i j) := by
  have hone : ∀ g : ℕ → ℕ → ℂ, ∃ o, coaddCore lt [((d.showing g).withZp 1).toCoImg] psfShape 1 = .ok o := by
    intro g
    obtain ⟨o, e1, _⟩ := coadd_single_spec lt (n := 1) (by norm_num) ![(d.showing g).withZp 1] d.interped.h d.interped.w
      psfShape 1 (by intro j; fin_cases j; exact ⟨rfl, rfl, hmask⟩) (by norm_num) (by norm_num) (by norm_num)
    exact ⟨o, by simpa [List.ofFn_succ] using e1⟩
  choose one h1 using hone
  have hrm : (st k).xy = (st m).xy := by simp [Cat.xy, hrk]
  have hmag : rowMag (st k) = rowMag (st m) := by funext i; simp [rowMag, hrk]
  simp only [List.nodup_cons, List.mem_cons, List.not_mem_nil, or_false, not_or] at hd
  obtain ⟨⟨hmk, hml⟩, hkl, _⟩ := hd
  obtain ⟨mm, s1, t1⟩ := transparency_copies q hq lsqr hl st m [k, l] (by simp [hkl]) hm (by
    intro x hx
    simp only [List.mem_cons, List.not_mem_nil, or_false] at hx
    rcases hx with rfl | rfl
    · exact hrk
    · exact hrl) hne hnd
  obtain ⟨mm', s2, t2⟩ := transparency_copies q hq lsqr hl st k [m, l] (by simp [hml]) hk (by
    intro x hx
    simp only [List.mem_cons, List.not_mem_nil, or_false] at hx
    rcases hx with rfl | rfl
    · exact hrk.symm
    · exact hrl.trans hrk.symm) (by rw [hrk]; exact hne) (by rw [hrm]; exact hnd)
  rw [hrk, hmag] at t2
  have e1 : ∀ j < 3, zpAt (transparency q lsqr st [m, k, l] none) j = z j := by
    intro j hj
    rw [t1, hz]
    simp [zpAt, hj]
  have e2 : ∀ j < 3, zpAt (transparency q lsqr st [k, m, l] none) j = z j := by
    intro j hj
    rw [t2, hz]
    simp [zpAt, hj]
  rw [e1 0 (by norm_num), e1 1 (by norm_num), e1 2 (by norm_num), e2 0 (by norm_num), e2 1 (by norm_num), e2 2 (by norm_num)]
  obtain ⟨out, c1, r1⟩ := coadd_series lt d psfShape (p := 3) (by norm_num) (fun j => z j) f hv procs hpr (by omega) (by omega)
    hmask (fun m => one (f m)) fun m => h1 _
  obtain ⟨out', c2, r2⟩ := coadd_series lt d psfShape (p := 3) (by norm_num) (fun j => z j) ![f 1, f 0, f 2] hv procs hpr
    (by omega) (by omega) hmask (fun m => one (![f 1, f 0, f 2] m)) fun m => h1 _
  refine ⟨out, out', one (f 0), one (f 1), by simpa [List.ofFn_succ] using c1, by simpa [List.ofFn_succ] using c2, h1 _, h1 _,
    fun i j => ?_⟩
  rw [r1, r2, Fin.sum_univ_three, Fin.sum_univ_three, Fin.sum_univ_three]
  simp only [Matrix.cons_val_zero, Matrix.cons_val_one, Matrix.cons_val_two, Matrix.head_cons, Matrix.tail_cons,
    Fin.val_zero, Fin.val_one, Fin.val_two]
  push_cast
  ring

/-- Three exposures with the two stars of `twoStars`, something else in the first: it comes out half as bright again if the
exposure comes second. -/
theorem twoStars_order : copyZp 3 2 (rowMag (twoStars 0)) 0 = 5 ∧ copyZp 3 2 (rowMag (twoStars 0)) 1 = 15 / 2 ∧
    copyZp 3 2 (rowMag (twoStars 0)) 2 = 5 / 2 := by
  have m0 : rowMag (twoStars 0) 0 = 15 := by
    have := magOf_pow10 2
    simp only [rowMag, twoStars, List.getElem?_cons_zero, Option.map_some, Option.getD_some]
    rw [this]
    norm_num
  have m1 : rowMag (twoStars 0) 1 = 10 := by
    have := magOf_pow10 4
    simp only [rowMag, twoStars, List.getElem?_cons_succ, List.getElem?_cons_zero, Option.map_some, Option.getD_some]
    rw [this]
    norm_num
  obtain ⟨z0, z1, z2⟩ := copyZp_three_two (rowMag (twoStars 0))
  rw [m0, m1] at z0 z1 z2
  rw [z0, z1, z2]
  norm_num

/-- Something that is in one of three exposures only, put first and put second. -/
theorem twoStars_coadd_order (lt : List CoImg → List CoImg → Option Bool) (f : Fin 3 → ℕ → ℕ → ℂ)
    (lsqr : ℕ → ℕ → List ℝ → ℕ → ℝ) (hl : MinLsqSolver lsqr) :
    ∃ out out' a b,
      coaddCore lt [(((twoExposures 0).showing (f 0)).withZp (zpAt (transparency bruteQuery lsqr twoStars [0, 1, 2] none) 0)).toCoImg,
        (((twoExposures 0).showing (f 1)).withZp (zpAt (transparency bruteQuery lsqr twoStars [0, 1, 2] none) 1)).toCoImg,
        (((twoExposures 0).showing (f 2)).withZp (zpAt (transparency bruteQuery lsqr twoStars [0, 1, 2] none) 2)).toCoImg] 0 2 = .ok out ∧
      coaddCore lt [(((twoExposures 0).showing (f 1)).withZp (zpAt (transparency bruteQuery lsqr twoStars [1, 0, 2] none) 0)).toCoImg,
        (((twoExposures 0).showing (f 0)).withZp (zpAt (transparency bruteQuery lsqr twoStars [1, 0, 2] none) 1)).toCoImg,
        (((twoExposures 0).showing (f 2)).withZp (zpAt (transparency bruteQuery lsqr twoStars [1, 0, 2] none) 2)).toCoImg] 0 2 = .ok out' ∧
      coaddCore lt [(((twoExposures 0).showing (f 0)).withZp 1).toCoImg] 0 1 = .ok a ∧
      coaddCore lt [(((twoExposures 0).showing (f 1)).withZp 1).toCoImg] 0 1 = .ok b ∧
      ∀ i j, out.R.px i j - out'.R.px i j = ((-(5 / 2) / Real.sqrt (175 / 2) : ℝ) : ℂ) * (a.R.px i j - b.R.px i j) := by
  obtain ⟨z0, z1, z2⟩ := twoStars_order
  obtain ⟨out, out', a, b, h1, h2, h3, h4, h⟩ := coadd_three_order bruteQuery bruteQuery_contract lsqr hl twoStars 0 1 2
    (by decide) rfl rfl rfl rfl (by simp [twoStars]) (by simp [twoStars, Cat.xy]) lt (twoExposures 0) 0
    (by norm_num [twoExposures]) (twoExposures_shape 0).2.2 f 2 (by norm_num) _ rfl
  refine ⟨out, out', a, b, h1, h2, h3, h4, fun i j => ?_⟩
  rw [h]
  change (((copyZp 3 2 (rowMag (twoStars 0)) 0 - copyZp 3 2 (rowMag (twoStars 0)) 1) / Real.sqrt
    (copyZp 3 2 (rowMag (twoStars 0)) 0 ^ 2 + copyZp 3 2 (rowMag (twoStars 0)) 1 ^ 2 +
      copyZp 3 2 (rowMag (twoStars 0)) 2 ^ 2) : ℝ) : ℂ) * _ = _
  rw [z0, z1, z2]
  norm_num

/-- Two images with one star in common, in both orders. -/
theorem twoStore_swap (lsqr : ℕ → ℕ → List ℝ → ℕ → ℝ) (hl : MinLsqSolver lsqr) :
    ∃ mm mm' st' st'', transparency bruteQuery lsqr twoStore [0, 1] none = .ok ([5 / 3, -10 / 3], mm, st') ∧
      transparency bruteQuery lsqr twoStore [1, 0] none = .ok ([-10 / 3, 5 / 3], mm', st'') := by
  obtain ⟨z0, z1, mm, mm', s', s'', e, e'⟩ := transparency_swap bruteQuery bruteQuery_contract lsqr hl twoStore 0 1 rfl rfl
  obtain ⟨y0, y1, _, _, e2, h0, h1, _⟩ := transparency_ratio_not_flux_ratio lsqr hl
  have := congrArg (fun x : List ℝ × Option (List ℝ) × Store => x.1) (Except.ok.inj (e2.symm.trans e))
  simp only [List.cons.injEq, and_true] at this
  rw [← this.1, ← this.2, h0, h1] at e e'
  exact ⟨mm, mm', s', s'', e, e'⟩

end PI
