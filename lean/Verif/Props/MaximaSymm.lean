import Verif.Props.Utils
import Verif.Lemmas.Transpose
import Mathlib.Data.List.Perm.Basic
import Mathlib.Data.List.Nodup
import Mathlib.Tactic.FieldSimp
import Mathlib.Tactic.LinearCombination

/-!
# Property C133: what happens to the local maxima when the score image is rescaled, transposed, placed in a larger image,
mirrored, or gets a constant added
-/

namespace PI

/-! ## Unit -/

theorem signif_scaled (a : ℚ) (ha : 0 < a) (mean std v : ℚ) : signif (a * mean) (a * std) (a * v) = signif mean std v := by
  unfold signif
  simp only [mul_eq_zero, ha.ne', false_or, mul_right_inj' ha.ne', mul_lt_mul_iff_right₀ ha, ← mul_sub,
    mul_div_mul_left _ _ ha.ne']

theorem divF_scaled (a : ℚ) (ha : 0 < a) (u v : ℚ) : divF (a * u) (a * v) = divF u v := by
  unfold divF
  simp only [mul_eq_zero, ha.ne', false_or, mul_pos_iff_of_pos_left ha, mul_div_mul_left _ _ ha.ne']

theorem labSum_mul (S : Img ℚ) (L : Labels) (k : ℕ) (a : ℚ) (f : ℕ → ℕ → ℚ) :
    labSum S L k (fun i j => a * f i j) = a * labSum S L k f := by
  unfold labSum
  simp only [Finset.mul_sum, mul_ite, mul_zero]

theorem labSum_add (S : Img ℚ) (L : Labels) (k : ℕ) (f g : ℕ → ℕ → ℚ) :
    labSum S L k (fun i j => f i j + g i j) = labSum S L k f + labSum S L k g := by
  unfold labSum
  simp only [← Finset.sum_add_distrib]
  refine Finset.sum_congr rfl fun i _ => Finset.sum_congr rfl fun j _ => ?_
  split <;> simp

/-- **C133 (unit).** A score image in another unit, with its clipped statistics in that unit, has the same list. -/
theorem maxima_scaled (label : Img Bool → Labels) (S : Img ℚ) (mean std thr nb a : ℚ) (ha : 0 < a) :
    findMaxima label (S.map fun v => a * v) (a * mean) (a * std) thr nb = findMaxima label S mean std thr nb := by
  have hd : detected (S.map fun v => a * v) (a * mean) (a * std) thr = detected S mean std thr := by
    unfold detected Img.map
    simp only [signif_scaled a ha]
  have hc : ∀ L k, centreOfMass (S.map fun v => a * v) L k = centreOfMass S L k := by
    intro L k
    have e : ∀ f : ℕ → ℕ → ℚ, labSum (S.map fun v => a * v) L k (fun i j => a * f i j) = a * labSum S L k f :=
      fun f => labSum_mul S L k a f
    unfold centreOfMass
    rw [← divF_scaled a ha (labSum S L k fun i j => S.px i j * i), ← divF_scaled a ha (labSum S L k fun i j => S.px i j * j),
      ← e, ← e, ← e]
    simp only [Img.map, mul_assoc]
  rw [findMaxima_eq, findMaxima_eq, hd]
  refine congrArg (fun f => List.mapM f _) (funext fun k => ?_)
  rw [hc]
  unfold maxEntry
  simp only [Img.map, signif_scaled a ha]

/-! ## A constant -/

theorem signif_offset (c mean std v : ℚ) : signif (mean + c) std (v + c) = signif mean std v := by
  unfold signif
  simp only [add_left_inj, add_lt_add_iff_right, add_sub_add_right_eq_sub]

theorem detected_offset (S : Img ℚ) (mean std thr c : ℚ) :
    detected (S.map fun v => v + c) (mean + c) std thr = detected S mean std thr := by
  unfold detected Img.map
  simp only [signif_offset]

/-- The sum of the values, the number of pixels and the sums of the coordinates of a region. -/
def regFlux (S : Img ℚ) (L : Labels) (k : ℕ) : ℚ := labSum S L k S.px
def regArea (S : Img ℚ) (L : Labels) (k : ℕ) : ℚ := labSum S L k fun _ _ => 1
def regRows (S : Img ℚ) (L : Labels) (k : ℕ) : ℚ := labSum S L k fun i _ => i
def regCols (S : Img ℚ) (L : Labels) (k : ℕ) : ℚ := labSum S L k fun _ j => j

theorem com_offset (S : Img ℚ) (L : Labels) (k : ℕ) (c : ℚ) : centreOfMass (S.map fun v => v + c) L k =
    (divF (labSum S L k (fun i j => S.px i j * i) + c * regRows S L k) (regFlux S L k + c * regArea S L k),
     divF (labSum S L k (fun i j => S.px i j * j) + c * regCols S L k) (regFlux S L k + c * regArea S L k)) := by
  have e1 : labSum (S.map fun v => v + c) L k (fun i j => (S.px i j + c) * i) =
      labSum S L k (fun i j => S.px i j * i) + c * regRows S L k := by
    unfold regRows
    rw [← labSum_mul, ← labSum_add]
    unfold labSum Img.map
    simp only [add_mul]
  have e2 : labSum (S.map fun v => v + c) L k (fun i j => (S.px i j + c) * j) =
      labSum S L k (fun i j => S.px i j * j) + c * regCols S L k := by
    unfold regCols
    rw [← labSum_mul, ← labSum_add]
    unfold labSum Img.map
    simp only [add_mul]
  have e3 : labSum (S.map fun v => v + c) L k (fun i j => S.px i j + c) = regFlux S L k + c * regArea S L k := by
    unfold regArea regFlux
    rw [← labSum_mul, ← labSum_add]
    unfold labSum Img.map
    simp only [mul_one]
  rw [← e1, ← e2, ← e3]
  rfl

theorem regArea_pos (S : Img ℚ) (m : Img Bool) (hs : m.shape = S.shape) (L : Labels) (hl : IsLabelling m L) (k : ℕ) (h1 : 1 ≤ k)
    (h2 : k ≤ L.num) : 0 < regArea S L k := by
  have s1 : m.h = S.h := congrArg Prod.fst hs
  have s2 : m.w = S.w := congrArg Prod.snd hs
  obtain ⟨p, hp, e⟩ := hl.used k h1 h2
  have nn : ∀ i ∈ Finset.range S.h, ∀ j ∈ Finset.range S.w, (0 : ℚ) ≤ if L.lab i j = k then 1 else 0 := by
    intro i _ j _
    split <;> norm_num
  unfold regArea labSum
  refine Finset.sum_pos' (fun i hi => Finset.sum_nonneg (nn i hi)) ⟨p.1, Finset.mem_range.2 (s1 ▸ hp.1), ?_⟩
  refine Finset.sum_pos' (nn p.1 (Finset.mem_range.2 (s1 ▸ hp.1))) ⟨p.2, Finset.mem_range.2 (s2 ▸ hp.2.1), ?_⟩
  rw [if_pos e]
  norm_num

/-- **C133 (constant).** Adding a constant to the score image, and so to its clipped mean, leaves the regions as they are and
draws every reported position to (`c > 0`) or pushes it from (`c < 0`) the mean pixel of its region, by the factor
`n / (n + c N)` with the sum `n` and the number `N` of the pixels of the region. -/
theorem maxima_offset (label : Img Bool → Labels) (S : Img ℚ) (mean std thr nb c : ℚ) (hL : ∀ m, IsLabelling m (label m))
    (r r' : List (FVal × FVal × FVal)) (h : findMaxima label S mean std thr nb = .ok r)
    (h' : findMaxima label (S.map fun v => v + c) (mean + c) std thr nb = .ok r') :
    let L := label (detected S mean std thr)
    r'.length = r.length ∧ r.length = L.num ∧ ∀ k e e', r[k]? = some e → r'[k]? = some e' →
      ∃ x y x' y' p q, e.1 = .fin y ∧ e.2.1 = .fin x ∧ e' = (.fin y', .fin x', signif mean std (S.px p q)) ∧
        pyIdx S.h (pyInt x') = some p ∧ pyIdx S.w (pyInt y') = some q ∧
        0 < regArea S L (k + 1) ∧ regFlux S L (k + 1) + c * regArea S L (k + 1) ≠ 0 ∧
        x' - regRows S L (k + 1) / regArea S L (k + 1) =
          regFlux S L (k + 1) / (regFlux S L (k + 1) + c * regArea S L (k + 1)) * (x - regRows S L (k + 1) / regArea S L (k + 1)) ∧
        y' - regCols S L (k + 1) / regArea S L (k + 1) =
          regFlux S L (k + 1) / (regFlux S L (k + 1) + c * regArea S L (k + 1)) * (y - regCols S L (k + 1) / regArea S L (k + 1)) := by
  intro L
  have hl : IsLabelling _ L := hL (detected S mean std thr)
  rw [findMaxima_eq] at h h'
  rw [detected_offset] at h'
  have g := (mapM_ok_iff _ _ _).mp h
  have g' := (mapM_ok_iff _ _ _).mp h'
  have hlen : r.length = L.num := by rw [← g.length_eq, List.length_range]
  have hlen' : r'.length = L.num := by rw [← g'.length_eq, List.length_range]
  refine ⟨hlen'.trans hlen.symm, hlen, fun k e e' he he' => ?_⟩
  have hk : k < r.length := (List.getElem?_eq_some_iff.mp he).1
  have a1 := (List.forall₂_iff_get.mp g).2 k (by rw [List.length_range]; exact hlen ▸ hk) hk
  have a2 := (List.forall₂_iff_get.mp g').2 k (by rw [List.length_range]; exact hlen ▸ hk) (by omega)
  rw [List.get_eq_getElem, List.get_eq_getElem, List.getElem_range, (List.getElem?_eq_some_iff.mp he).2] at a1
  rw [List.get_eq_getElem, List.get_eq_getElem, List.getElem_range, (List.getElem?_eq_some_iff.mp he').2] at a2
  obtain ⟨x, y, p, q, hx, hy, hp, hq, rfl⟩ := (maxEntry_ok _ _ _ _ _ _).mp a1
  obtain ⟨x', y', p', q', hx', hy', hp', hq', rfl⟩ := (maxEntry_ok _ _ _ _ _ _).mp a2
  change (centreOfMass (S.map fun v => v + c) L (k + 1)).1 = _ at hx'
  change (centreOfMass (S.map fun v => v + c) L (k + 1)).2 = _ at hy'
  rw [com_offset] at hx' hy'
  obtain ⟨n1, u1⟩ := (divF_fin _ _ _).mp hx
  obtain ⟨-, u2⟩ := (divF_fin _ _ _).mp hy
  obtain ⟨n3, u3⟩ := (divF_fin _ _ _).mp hx'
  obtain ⟨-, u4⟩ := (divF_fin _ _ _).mp hy'
  have hN := regArea_pos S _ rfl L hl (k + 1) (by omega) (by omega)
  change x * regFlux S L (k + 1) = labSum S L (k + 1) _ at u1
  change y * regFlux S L (k + 1) = labSum S L (k + 1) _ at u2
  change _ = labSum S L (k + 1) _ + _ at u3
  change _ = labSum S L (k + 1) _ + _ at u4
  rw [← u1] at u3
  rw [← u2] at u4
  refine ⟨x, y, x', y', p', q', rfl, rfl, ?_, hp', hq', hN, n3, ?_, ?_⟩
  · rw [show (S.map fun v => v + c).px p' q' = S.px p' q' + c from rfl, signif_offset]
  · have N0 := hN.ne'
    rw [eq_comm, div_mul_eq_mul_div, div_eq_iff n3]
    field_simp
    linear_combination -(regArea S L (k + 1)) * u3
  · have N0 := hN.ne'
    rw [eq_comm, div_mul_eq_mul_div, div_eq_iff n3]
    field_simp
    linear_combination -(regArea S L (k + 1)) * u4

theorem mapM_error_of {α β : Type} (f : α → Py β) (l : List α) (a : α) (ha : a ∈ l) (hf : ∀ b, f a ≠ .ok b) :
    ∃ er, l.mapM f = .error er := by
  cases h : l.mapM f with
  | error er => exact ⟨er, rfl⟩
  | ok r =>
    have g := (mapM_ok_iff _ _ _).mp h
    obtain ⟨k, hk, e⟩ := List.getElem_of_mem ha
    have := (List.forall₂_iff_get.mp g).2 k hk (by rw [← g.length_eq]; exact hk)
    rw [List.get_eq_getElem, e] at this
    exact absurd this (hf _)

/-- **C133 (constant).** Whenever something is detected there is a constant that makes the call raise. -/
theorem maxima_offset_raises (label : Img Bool → Labels) (S : Img ℚ) (mean std thr nb : ℚ) (hL : ∀ m, IsLabelling m (label m))
    (p : ℕ × ℕ) (hp : On (detected S mean std thr) p) :
    ∃ c er, findMaxima label (S.map fun v => v + c) (mean + c) std thr nb = .error er := by
  have hl := hL (detected S mean std thr)
  refine ⟨-(regFlux S (label (detected S mean std thr)) 1 / regArea S (label (detected S mean std thr)) 1), ?_⟩
  rw [findMaxima_eq, detected_offset]
  generalize label (detected S mean std thr) = L at *
  have h1 : 1 ≤ L.num := by
    have h0 : L.lab p.1 p.2 ≠ 0 := fun e => by
      have := (hl.zero p.1 hp.1 p.2 hp.2.1).mp e
      rw [hp.2.2] at this
      cases this
    have := hl.le p.1 hp.1 p.2 hp.2.1
    omega
  have hN := regArea_pos S _ rfl L hl 1 le_rfl h1
  refine mapM_error_of _ _ 0 (List.mem_range.2 h1) fun b e => ?_
  obtain ⟨x, y, p', q', hx, -⟩ := (maxEntry_ok _ _ _ _ _ _).mp e
  rw [com_offset] at hx
  obtain ⟨n, -⟩ := (divF_fin _ _ _).mp hx
  apply n
  rw [neg_mul, div_mul_cancel₀ _ hN.ne', add_neg_cancel]

/-! ## The same regions elsewhere -/

/-- `φ` carries the true pixels of one mask to those of another and keeps neighbours. -/
structure SamePattern (m m' : Img Bool) (φ : ℕ × ℕ → ℕ × ℕ) : Prop where
  on : ∀ p, On m p → On m' (φ p)
  onto : ∀ q, On m' q → ∃ p, On m p ∧ φ p = q
  inj : ∀ p p', On m p → On m p' → φ p = φ p' → p = p'
  adj : ∀ p p', On m p → On m p' → (Adj4 p p' ↔ Adj4 (φ p) (φ p'))

theorem pattern_conn {m m' : Img Bool} {φ : ℕ × ℕ → ℕ × ℕ} (H : SamePattern m m' φ) (p p' : ℕ × ℕ) (hp : On m p) (hp' : On m p') :
    Conn m p p' ↔ Conn m' (φ p) (φ p') := by
  constructor
  · intro h
    induction h with
    | refl => exact .refl
    | tail _ h2 ih =>
      exact (ih h2.1).tail ⟨H.on _ h2.1, H.on _ h2.2.1, (H.adj _ _ h2.1 h2.2.1).1 h2.2.2⟩
  · intro h
    have key : ∀ q, Conn m' (φ p) q → ∃ p'', On m p'' ∧ φ p'' = q ∧ Conn m p p'' := by
      intro q h
      induction h with
      | refl => exact ⟨p, hp, rfl, .refl⟩
      | tail _ h2 ih =>
        obtain ⟨a, ha, e, c⟩ := ih
        obtain ⟨b, hb, e'⟩ := H.onto _ h2.2.1
        refine ⟨b, hb, e', c.tail ⟨ha, hb, (H.adj a b ha hb).2 ?_⟩⟩
        rw [e, e']
        exact h2.2.2
    obtain ⟨a, ha, e, c⟩ := key _ h
    rwa [← H.inj _ _ ha hp' e]

theorem labSum_set (S : Img ℚ) (L : Labels) (k : ℕ) (f : ℕ → ℕ → ℚ) :
    labSum S L k f = ∑ p ∈ (Finset.range S.h ×ˢ Finset.range S.w).filter (fun p => L.lab p.1 p.2 = k), f p.1 p.2 := by
  unfold labSum
  rw [Finset.sum_filter, Finset.sum_product]

theorem label_on {m : Img Bool} {L : Labels} (hl : IsLabelling m L) (p : ℕ × ℕ) (h1 : p.1 < m.h) (h2 : p.2 < m.w) :
    On m p ↔ L.lab p.1 p.2 ≠ 0 := by
  rw [Ne, hl.zero p.1 h1 p.2 h2]
  unfold On
  cases m.px p.1 p.2 <;> simp [h1, h2]

/-- The numbers of the regions are permuted, and the sums over a region go along. -/
theorem pattern_labels {S S' : Img ℚ} {m m' : Img Bool} {φ : ℕ × ℕ → ℕ × ℕ} (H : SamePattern m m' φ) (hs : m.shape = S.shape)
    (hs' : m'.shape = S'.shape) {L L' : Labels} (hl : IsLabelling m L) (hl' : IsLabelling m' L') :
    ∃ σ : ℕ → ℕ, (List.range L'.num).Perm ((List.range L.num).map σ) ∧ ∀ k < L.num, ∀ f : ℕ → ℕ → ℚ,
      labSum S' L' (σ k + 1) f = labSum S L (k + 1) fun i j => f (φ (i, j)).1 (φ (i, j)).2 := by
  have s1 : m.h = S.h := congrArg Prod.fst hs
  have s2 : m.w = S.w := congrArg Prod.snd hs
  have s1' : m'.h = S'.h := congrArg Prod.fst hs'
  have s2' : m'.w = S'.w := congrArg Prod.snd hs'
  have hex : ∀ k : ℕ, ∃ k' : ℕ, k < L.num → ∃ p, On m p ∧ L.lab p.1 p.2 = k + 1 ∧ L'.lab (φ p).1 (φ p).2 = k' + 1 := by
    intro k
    by_cases hk : k < L.num
    · obtain ⟨p, hp, e⟩ := hl.used (k + 1) (by omega) (by omega)
      have hq := H.on p hp
      have := (label_on hl' (φ p) hq.1 hq.2.1).1 hq
      exact ⟨L'.lab (φ p).1 (φ p).2 - 1, fun _ => ⟨p, hp, e, by omega⟩⟩
    · exact ⟨0, fun h => absurd h hk⟩
  choose σ hσ using hex
  have key : ∀ k < L.num, ∀ p, On m p → (L.lab p.1 p.2 = k + 1 ↔ L'.lab (φ p).1 (φ p).2 = σ k + 1) := by
    intro k hk p hp
    obtain ⟨p0, hp0, e0, e1⟩ := hσ k hk
    rw [← e0, ← e1, hl.same p p0 hp hp0, hl'.same _ _ (H.on p hp) (H.on p0 hp0), pattern_conn H p p0 hp hp0]
  refine ⟨σ, ?_, fun k hk f => ?_⟩
  · refine (List.perm_ext_iff_of_nodup List.nodup_range ?_).2 fun k' => ?_
    · refine List.Nodup.map_on (fun a ha b hb e => ?_) List.nodup_range
      obtain ⟨p, hp, e1, e2⟩ := hσ a (List.mem_range.1 ha)
      have := (key b (List.mem_range.1 hb) p hp).2 (by rw [e2, e])
      omega
    · rw [List.mem_range, List.mem_map]
      constructor
      · intro h
        obtain ⟨q, hq, e⟩ := hl'.used (k' + 1) (by omega) (by omega)
        obtain ⟨p, hp, rfl⟩ := H.onto q hq
        have n0 := (label_on hl p hp.1 hp.2.1).1 hp
        have le := hl.le p.1 hp.1 p.2 hp.2.1
        refine ⟨L.lab p.1 p.2 - 1, List.mem_range.2 (by omega), ?_⟩
        have := (key (L.lab p.1 p.2 - 1) (by omega) p hp).1 (by omega)
        omega
      · rintro ⟨k, hk, rfl⟩
        obtain ⟨p, hp, -, e⟩ := hσ k (List.mem_range.1 hk)
        have hq := H.on p hp
        have := hl'.le _ hq.1 _ hq.2.1
        omega
  · rw [labSum_set, labSum_set]
    symm
    refine Finset.sum_nbij φ (fun p hp => ?_) (fun p hp p' hp' e => ?_) (fun q hq => ?_) fun p hp => rfl
    · rw [Finset.mem_filter, Finset.mem_product, Finset.mem_range, Finset.mem_range] at hp ⊢
      have on := (label_on hl p (by omega) (by omega)).2 (by omega)
      have hq := H.on p on
      exact ⟨⟨s1' ▸ hq.1, s2' ▸ hq.2.1⟩, (key k hk p on).1 hp.2⟩
    · rw [Finset.mem_coe, Finset.mem_filter, Finset.mem_product, Finset.mem_range, Finset.mem_range] at hp hp'
      exact H.inj p p' ((label_on hl p (by omega) (by omega)).2 (by omega)) ((label_on hl p' (by omega) (by omega)).2 (by omega)) e
    · rw [Finset.mem_coe, Finset.mem_filter, Finset.mem_product, Finset.mem_range, Finset.mem_range] at hq
      obtain ⟨p, hp, rfl⟩ := H.onto q ((label_on hl' q (by omega) (by omega)).2 (by omega))
      refine ⟨p, ?_, rfl⟩
      rw [Finset.mem_coe, Finset.mem_filter, Finset.mem_product, Finset.mem_range, Finset.mem_range]
      exact ⟨⟨s1 ▸ hp.1, s2 ▸ hp.2.1⟩, (key k hk p hp).2 hq.2⟩

theorem mapM_map_ok {α β : Type} (F : α → Py β) (l : List α) (E : α → β) (h : ∀ a ∈ l, F a = .ok (E a)) :
    l.mapM F = .ok (l.map E) := by
  rw [mapM_ok_iff, List.forall₂_map_right_iff, List.forall₂_same]
  exact h

/-- Two lists with the same regions: if every entry of the first has an `R`-partner for the sums carried along, the second call
returns the partners, in some order. -/
theorem maxima_pattern (label : Img Bool → Labels) (S S' : Img ℚ) (mean std thr nb : ℚ) (hL : ∀ m, IsLabelling m (label m))
    (φ : ℕ × ℕ → ℕ × ℕ) (H : SamePattern (detected S mean std thr) (detected S' mean std thr) φ)
    (R : FVal × FVal × FVal → FVal × FVal × FVal → Prop)
    (hR : ∀ k k' x y p q, k < (label (detected S mean std thr)).num →
      (∀ f : ℕ → ℕ → ℚ, labSum S' (label (detected S' mean std thr)) (k' + 1) f =
        labSum S (label (detected S mean std thr)) (k + 1) fun i j => f (φ (i, j)).1 (φ (i, j)).2) →
      centreOfMass S (label (detected S mean std thr)) (k + 1) = (.fin x, .fin y) →
      pyIdx S.h (pyInt x) = some p → pyIdx S.w (pyInt y) = some q →
      ∃ e', maxEntry S' mean std (centreOfMass S' (label (detected S' mean std thr)) (k' + 1)).1
        (centreOfMass S' (label (detected S' mean std thr)) (k' + 1)).2 = .ok e' ∧ R (.fin y, .fin x, signif mean std (S.px p q)) e')
    (r : List (FVal × FVal × FVal)) (h : findMaxima label S mean std thr nb = .ok r) :
    ∃ r' r'', findMaxima label S' mean std thr nb = .ok r' ∧ r'.Perm r'' ∧ List.Forall₂ R r r'' := by
  obtain ⟨σ, hσ, hsum⟩ := pattern_labels (S := S) (S' := S') H rfl rfl (hL _) (hL _)
  rw [findMaxima_eq] at h ⊢
  have g := (mapM_ok_iff _ _ _).mp h
  generalize label (detected S mean std thr) = L at *
  generalize label (detected S' mean std thr) = L' at *
  have hlen : r.length = L.num := by rw [← g.length_eq, List.length_range]
  have each : ∀ k (hk : k < r.length), ∃ e', maxEntry S' mean std (centreOfMass S' L' (σ k + 1)).1 (centreOfMass S' L' (σ k + 1)).2 =
      .ok e' ∧ R r[k] e' := by
    intro k hk
    have a := (List.forall₂_iff_get.mp g).2 k (by rw [List.length_range]; omega) hk
    rw [List.get_eq_getElem, List.get_eq_getElem, List.getElem_range] at a
    obtain ⟨x, y, p, q, hx, hy, hp, hq, e⟩ := (maxEntry_ok _ _ _ _ _ _).mp a
    rw [e]
    exact hR k (σ k) x y p q (by omega) (hsum k (by omega)) (Prod.ext hx hy) hp hq
  have hex : ∀ k', ∃ e', k' < L'.num → maxEntry S' mean std (centreOfMass S' L' (k' + 1)).1 (centreOfMass S' L' (k' + 1)).2 = .ok e' ∧
      ∀ k (hk : k < r.length), σ k = k' → R r[k] e' := by
    intro k'
    by_cases hk' : k' < L'.num
    · obtain ⟨k, hk, rfl⟩ := List.mem_map.1 (hσ.mem_iff.1 (List.mem_range.2 hk'))
      obtain ⟨e', h1, h2⟩ := each k (hlen ▸ List.mem_range.1 hk)
      refine ⟨e', fun _ => ⟨h1, fun k2 hk2 e => ?_⟩⟩
      obtain ⟨e2, h3, h4⟩ := each k2 hk2
      rw [e, h1] at h3
      cases h3
      exact h4
    · exact ⟨(.nan, .nan, .nan), fun h => absurd h hk'⟩
  choose E hE using hex
  have mem : ∀ k < L.num, σ k < L'.num := fun k hk =>
    List.mem_range.1 (hσ.mem_iff.2 (List.mem_map.2 ⟨k, List.mem_range.2 hk, rfl⟩))
  refine ⟨(List.range L'.num).map E, ((List.range L.num).map σ).map E,
    mapM_map_ok _ _ _ fun k' hk' => (hE k' (List.mem_range.1 hk')).1, hσ.map E, ?_⟩
  rw [List.forall₂_iff_get]
  refine ⟨by simp [hlen], fun k h1 h2 => ?_⟩
  simp only [List.get_eq_getElem, List.getElem_map, List.getElem_range]
  exact (hE (σ k) (mem k (hlen ▸ h1))).2 k h1 rfl

/-! ## Transposition -/

theorem detected_px (S : Img ℚ) (mean std thr : ℚ) (i j : ℕ) :
    (detected S mean std thr).px i j = (signif mean std (S.px i j)).gt thr := rfl

theorem on_iff (S : Img ℚ) (mean std thr : ℚ) (p : ℕ × ℕ) :
    On (detected S mean std thr) p ↔ p.1 < S.h ∧ p.2 < S.w ∧ (signif mean std (S.px p.1 p.2)).gt thr = true := Iff.rfl

theorem pattern_tr (S : Img ℚ) (mean std thr : ℚ) : SamePattern (detected S mean std thr) (detected S.tr mean std thr) Prod.swap := by
  refine ⟨fun p hp => ⟨hp.2.1, hp.1, hp.2.2⟩, fun q hq => ⟨q.swap, ⟨hq.2.1, hq.1, hq.2.2⟩, Prod.swap_swap q⟩,
    fun p p' _ _ e => Prod.swap_injective e, fun p p' _ _ => ?_⟩
  unfold Adj4
  rw [Prod.fst_swap, Prod.snd_swap, Prod.fst_swap, Prod.snd_swap]
  exact Or.comm

/-- The sum of the pixels of a region that has been carried along. -/
theorem labSum_carried {S S' : Img ℚ} {L L' : Labels} {m : Img Bool} {φ : ℕ × ℕ → ℕ × ℕ} {k k' : ℕ} (hm : m.shape = S.shape)
    (hl : IsLabelling m L) (hv : ∀ p, On m p → S'.px (φ p).1 (φ p).2 = S.px p.1 p.2)
    (hs : ∀ f : ℕ → ℕ → ℚ, labSum S' L' (k' + 1) f = labSum S L (k + 1) fun i j => f (φ (i, j)).1 (φ (i, j)).2)
    (f : ℕ → ℕ → ℚ) :
    labSum S' L' (k' + 1) (fun i j => S'.px i j * f i j) =
      labSum S L (k + 1) fun i j => S.px i j * f (φ (i, j)).1 (φ (i, j)).2 := by
  have s1 : m.h = S.h := congrArg Prod.fst hm
  have s2 : m.w = S.w := congrArg Prod.snd hm
  rw [hs, labSum_set, labSum_set]
  refine Finset.sum_congr rfl fun p hp => ?_
  rw [Finset.mem_filter, Finset.mem_product, Finset.mem_range, Finset.mem_range] at hp
  have on := (label_on hl p (by omega) (by omega)).2 (by omega)
  change S'.px (φ p).1 (φ p).2 * _ = _
  rw [hv p on]

theorem labSum_carried_flux {S S' : Img ℚ} {L L' : Labels} {m : Img Bool} {φ : ℕ × ℕ → ℕ × ℕ} {k k' : ℕ} (hm : m.shape = S.shape)
    (hl : IsLabelling m L) (hv : ∀ p, On m p → S'.px (φ p).1 (φ p).2 = S.px p.1 p.2)
    (hs : ∀ f : ℕ → ℕ → ℚ, labSum S' L' (k' + 1) f = labSum S L (k + 1) fun i j => f (φ (i, j)).1 (φ (i, j)).2) :
    labSum S' L' (k' + 1) S'.px = labSum S L (k + 1) S.px := by
  have := labSum_carried hm hl hv hs (fun _ _ => 1)
  simpa only [mul_one] using this

/-- **C133 (transposition).** The list of the transposed score image is the list with the two coordinates exchanged, in some
order. -/
theorem maxima_transposed (label : Img Bool → Labels) (S : Img ℚ) (mean std thr nb : ℚ) (hL : ∀ m, IsLabelling m (label m))
    (r : List (FVal × FVal × FVal)) (h : findMaxima label S mean std thr nb = .ok r) :
    ∃ r', findMaxima label S.tr mean std thr nb = .ok r' ∧ r'.Perm (r.map fun e => (e.2.1, e.1, e.2.2)) := by
  obtain ⟨r', r'', h1, h2, h3⟩ := maxima_pattern label S S.tr mean std thr nb hL Prod.swap (pattern_tr S mean std thr)
    (fun e e' => e' = (e.2.1, e.1, e.2.2)) (fun k k' x y p q hk hs hc hp hq => by
      have hf := labSum_carried_flux (S' := S.tr) (φ := Prod.swap) (S := S) rfl (hL (detected S mean std thr)) (fun _ _ => rfl) hs
      have e : centreOfMass S.tr (label (detected S.tr mean std thr)) (k' + 1) = (.fin y, .fin x) := by
        rw [← show (FVal.fin y, FVal.fin x) = _ from rfl]
        have c1 : (centreOfMass S (label (detected S mean std thr)) (k + 1)).1 = .fin x := by rw [hc]
        have c2 : (centreOfMass S (label (detected S mean std thr)) (k + 1)).2 = .fin y := by rw [hc]
        unfold centreOfMass at c1 c2 ⊢
        rw [hf, labSum_carried (S' := S.tr) (φ := Prod.swap) (S := S) rfl (hL (detected S mean std thr)) (fun _ _ => rfl) hs (fun i _ => i),
          labSum_carried (S' := S.tr) (φ := Prod.swap) (S := S) rfl (hL (detected S mean std thr)) (fun _ _ => rfl) hs (fun _ j => j), ← c1, ← c2]
        rfl
      refine ⟨_, (maxEntry_ok _ _ _ _ _ _).2 ⟨y, x, q, p, by rw [e], by rw [e], hq, hp, rfl⟩, rfl⟩) r h
  refine ⟨r', h1, ?_⟩
  have : r'' = r.map fun e => (e.2.1, e.1, e.2.2) := by
    rw [← List.forall₂_eq_eq_eq, List.forall₂_map_right_iff]
    exact h3.flip.imp fun a b hab => hab
  rwa [this] at h2

/-- The transposed call returns exactly if the call does. -/
theorem maxima_transposed_iff (label : Img Bool → Labels) (S : Img ℚ) (mean std thr nb : ℚ) (hL : ∀ m, IsLabelling m (label m)) :
    (∃ r, findMaxima label S.tr mean std thr nb = .ok r) ↔ ∃ r, findMaxima label S mean std thr nb = .ok r := by
  constructor
  · rintro ⟨r, h⟩
    obtain ⟨r', h', -⟩ := maxima_transposed label S.tr mean std thr nb hL r h
    exact ⟨r', h'⟩
  · rintro ⟨r, h⟩
    obtain ⟨r', h', -⟩ := maxima_transposed label S mean std thr nb hL r h
    exact ⟨r', h'⟩

/-! ## A larger image -/

/-- With positive pixels in the regions the centroids lie in the image. -/
theorem centroid_inside (label : Img Bool → Labels) (S : Img ℚ) (mean std thr : ℚ) (hL : ∀ m, IsLabelling m (label m))
    (hs : 0 ≤ std) (hcut : 0 ≤ cutLevel mean std thr) (k : ℕ) (x y : ℚ)
    (hc : centreOfMass S (label (detected S mean std thr)) (k + 1) = (.fin x, .fin y)) :
    0 ≤ x ∧ x ≤ (S.h : ℚ) - 1 ∧ 0 ≤ y ∧ y ≤ (S.w : ℚ) - 1 := by
  have hl := hL (detected S mean std thr)
  have c1 := congrArg Prod.fst hc
  have c2 := congrArg Prod.snd hc
  obtain ⟨n1, u1⟩ := (divF_fin _ _ _).mp c1
  obtain ⟨-, u2⟩ := (divF_fin _ _ _).mp c2
  have hv : ∀ i < S.h, ∀ j < S.w, (label (detected S mean std thr)).lab i j = k + 1 → 0 < S.px i j := by
    intro i hi j hj e
    have on := (label_on hl (i, j) hi hj).2 (by change (label (detected S mean std thr)).lab i j ≠ 0; omega)
    exact lt_of_le_of_lt hcut ((detected_iff S mean std thr hs i j).mp on.2.2)
  have a := centroid_between S (fun i j => (label (detected S mean std thr)).lab i j = k + 1) (fun i _ => (i : ℚ)) x 0 ((S.h : ℚ) - 1)
    hv (fun i hi j hj _ => ⟨by positivity, by
      rw [le_sub_iff_add_le]
      exact_mod_cast hi⟩) n1 u1
  have b := centroid_between S (fun i j => (label (detected S mean std thr)).lab i j = k + 1) (fun _ j => (j : ℚ)) y 0 ((S.w : ℚ) - 1)
    hv (fun i hi j hj _ => ⟨by positivity, by
      rw [le_sub_iff_add_le]
      exact_mod_cast hj⟩) n1 u2
  exact ⟨a.1, a.2, b.1, b.2⟩

theorem pyIdx_floor (n : ℕ) (x : ℚ) (p : ℕ) (h0 : 0 ≤ x) : pyIdx n (pyInt x) = some p ↔ (p : ℤ) = ⌊x⌋ ∧ p < n := by
  have e : pyInt x = ⌊x⌋ := by unfold pyInt; rw [if_pos h0]
  have hz : 0 ≤ ⌊x⌋ := Int.floor_nonneg.mpr h0
  rw [e]
  unfold pyIdx
  by_cases h : 0 ≤ ⌊x⌋ ∧ ⌊x⌋ < n
  · rw [if_pos h, Option.some.injEq]
    omega
  · rw [if_neg h, if_neg (by omega)]
    constructor
    · intro h; cases h
    · omega

/-- **C133 (larger image).** The score image placed with its corner at row `a`, column `b` of a larger one, where nothing else is
detected: the positions move by `(a, b)` and the significances stay. -/
theorem maxima_placed (label : Img Bool → Labels) (S S' : Img ℚ) (mean std thr nb : ℚ) (a b : ℕ) (hL : ∀ m, IsLabelling m (label m))
    (hs : 0 ≤ std) (hcut : 0 ≤ cutLevel mean std thr) (hh : S.h + a ≤ S'.h) (hw : S.w + b ≤ S'.w)
    (hin : ∀ i < S.h, ∀ j < S.w, S'.px (i + a) (j + b) = S.px i j)
    (hout : ∀ i < S'.h, ∀ j < S'.w, cutLevel mean std thr < S'.px i j → a ≤ i ∧ i < S.h + a ∧ b ≤ j ∧ j < S.w + b)
    (r : List (FVal × FVal × FVal)) (h : findMaxima label S mean std thr nb = .ok r) :
    ∃ r', findMaxima label S' mean std thr nb = .ok r' ∧
      r'.Perm (r.map fun e => (e.1.add (.fin b), e.2.1.add (.fin a), e.2.2)) := by
  have H : SamePattern (detected S mean std thr) (detected S' mean std thr) fun p => (p.1 + a, p.2 + b) := by
    refine ⟨fun p hp => ?_, fun q hq => ?_, fun p p' _ _ e => ?_, fun p p' _ _ => ?_⟩
    · rw [on_iff] at hp ⊢
      refine ⟨by change p.1 + a < _; omega, by change p.2 + b < _; omega, ?_⟩
      change (signif mean std (S'.px (p.1 + a) (p.2 + b))).gt thr = true
      rw [hin _ hp.1 _ hp.2.1]
      exact hp.2.2
    · have hd := (detected_iff S' mean std thr hs q.1 q.2).1 hq.2.2
      obtain ⟨o1, o2, o3, o4⟩ := hout q.1 hq.1 q.2 hq.2.1 hd
      refine ⟨(q.1 - a, q.2 - b), ?_, Prod.ext (by change q.1 - a + a = _; omega) (by change q.2 - b + b = _; omega)⟩
      rw [on_iff] at hq ⊢
      refine ⟨by change q.1 - a < _; omega, by change q.2 - b < _; omega, ?_⟩
      change (signif mean std (S.px (q.1 - a) (q.2 - b))).gt thr = true
      rw [← hin _ (by omega) _ (by omega), Nat.sub_add_cancel o1, Nat.sub_add_cancel o3]
      exact hq.2.2
    · have e1 := congrArg Prod.fst e
      have e2 := congrArg Prod.snd e
      exact Prod.ext (by change p.1 + a = p'.1 + a at e1; omega) (by change p.2 + b = p'.2 + b at e2; omega)
    · unfold Adj4
      omega
  have hv : ∀ p, On (detected S mean std thr) p → S'.px (p.1 + a) (p.2 + b) = S.px p.1 p.2 := fun p hp => hin _ hp.1 _ hp.2.1
  obtain ⟨r', r'', h1, h2, h3⟩ := maxima_pattern label S S' mean std thr nb hL _ H
    (fun e e' => e' = (e.1.add (.fin b), e.2.1.add (.fin a), e.2.2)) (fun k k' x y p q hk hs' hc hp hq => by
      obtain ⟨x0, x1, y0, y1⟩ := centroid_inside label S mean std thr hL hs hcut k x y hc
      have hf := labSum_carried_flux (S' := S') (φ := fun p => (p.1 + a, p.2 + b)) rfl (hL (detected S mean std thr)) hv hs'
      obtain ⟨n1, u1⟩ := (divF_fin _ _ _).mp (congrArg Prod.fst hc)
      obtain ⟨-, u2⟩ := (divF_fin _ _ _).mp (congrArg Prod.snd hc)
      have e1 : (centreOfMass S' (label (detected S' mean std thr)) (k' + 1)).1 = .fin (x + a) := by
        unfold centreOfMass
        rw [divF_fin, hf, labSum_carried (S' := S') (φ := fun p => (p.1 + a, p.2 + b)) rfl (hL (detected S mean std thr)) hv hs' (fun i _ => i)]
        refine ⟨n1, ?_⟩
        simp only [Nat.cast_add, mul_add]
        rw [labSum_add, ← u1, add_mul]
        rw [add_right_inj]
        rw [← labSum_mul]
        simp only [mul_comm]
      have e2 : (centreOfMass S' (label (detected S' mean std thr)) (k' + 1)).2 = .fin (y + b) := by
        unfold centreOfMass
        rw [divF_fin, hf, labSum_carried (S' := S') (φ := fun p => (p.1 + a, p.2 + b)) rfl (hL (detected S mean std thr)) hv hs' (fun _ j => j)]
        refine ⟨n1, ?_⟩
        simp only [Nat.cast_add, mul_add]
        rw [labSum_add, ← u2, add_mul]
        rw [add_right_inj]
        rw [← labSum_mul]
        simp only [mul_comm]
      obtain ⟨f1, g1⟩ := (pyIdx_floor _ x p x0).1 hp
      obtain ⟨f2, g2⟩ := (pyIdx_floor _ y q y0).1 hq
      refine ⟨_, (maxEntry_ok _ _ _ _ _ _).2 ⟨x + a, y + b, p + a, q + b, e1, e2, (pyIdx_floor _ _ _ (by positivity)).2 ⟨?_, by omega⟩,
        (pyIdx_floor _ _ _ (by positivity)).2 ⟨?_, by omega⟩, rfl⟩, ?_⟩
      · rw [Int.floor_add_natCast, ← f1]
        rfl
      · rw [Int.floor_add_natCast, ← f2]
        rfl
      · rw [hin p g1 q g2]
        rfl) r h
  refine ⟨r', h1, ?_⟩
  have : r'' = r.map fun e => (e.1.add (.fin b), e.2.1.add (.fin a), e.2.2) := by
    rw [← List.forall₂_eq_eq_eq, List.forall₂_map_right_iff]
    exact h3.flip.imp fun a b hab => hab
  rwa [this] at h2

/-! ## Mirror image -/

/-- The image upside down. -/
def Img.upDown {α : Type} (S : Img α) : Img α := ⟨S.h, S.w, fun i j => S.px (S.h - 1 - i) j⟩

/-- **C133 (mirror).** The list of the score image upside down has the mirrored positions, but the significance of an entry is that
of the pixel whose row is the position rounded up; in the original it is that of the position rounded down. -/
theorem maxima_mirrored (label : Img Bool → Labels) (S : Img ℚ) (mean std thr nb : ℚ) (hL : ∀ m, IsLabelling m (label m))
    (hs : 0 ≤ std) (hcut : 0 ≤ cutLevel mean std thr) (r : List (FVal × FVal × FVal))
    (h : findMaxima label S mean std thr nb = .ok r) :
    ∃ r' r'', findMaxima label S.upDown mean std thr nb = .ok r' ∧ r'.Perm r'' ∧
      List.Forall₂ (fun e e' => ∃ x y, ∃ p p' q : ℕ, e = (.fin y, .fin x, signif mean std (S.px p q)) ∧
        e' = (.fin y, .fin ((S.h : ℚ) - 1 - x), signif mean std (S.px p' q)) ∧ (p : ℤ) = ⌊x⌋ ∧ (p' : ℤ) = ⌈x⌉ ∧ (q : ℤ) = ⌊y⌋ ∧
        p < S.h ∧ p' < S.h ∧ q < S.w) r r'' := by
  have H : SamePattern (detected S mean std thr) (detected S.upDown mean std thr) fun p => (S.h - 1 - p.1, p.2) := by
    have back : ∀ n i : ℕ, i < n → n - 1 - (n - 1 - i) = i := fun n i hi => by omega
    refine ⟨fun p hp => ?_, fun q hq => ?_, fun p p' hp hp' e => ?_, fun p p' hp hp' => ?_⟩
    · rw [on_iff] at hp ⊢
      refine ⟨by change S.h - 1 - p.1 < S.h; omega, hp.2.1, ?_⟩
      change (signif mean std (S.px (S.h - 1 - (S.h - 1 - p.1)) p.2)).gt thr = true
      rw [back _ _ hp.1]
      exact hp.2.2
    · rw [on_iff] at hq
      obtain ⟨q1, q2, q3⟩ := hq
      change q.1 < S.h at q1
      exact ⟨(S.h - 1 - q.1, q.2), ⟨by change S.h - 1 - q.1 < S.h; omega, q2, q3⟩, Prod.ext (back _ _ q1) rfl⟩
    · have h1 : p.1 < S.h := hp.1
      have h2 : p'.1 < S.h := hp'.1
      obtain ⟨e1, e2⟩ := Prod.mk.inj e
      exact Prod.ext (by omega) e2
    · have h1 : p.1 < S.h := hp.1
      have h2 : p'.1 < S.h := hp'.1
      unfold Adj4
      omega
  have hv : ∀ p, On (detected S mean std thr) p → S.upDown.px (S.h - 1 - p.1) p.2 = S.px p.1 p.2 := fun p hp => by
    have h1 : p.1 < S.h := hp.1
    change S.px (S.h - 1 - (S.h - 1 - p.1)) p.2 = _
    rw [show S.h - 1 - (S.h - 1 - p.1) = p.1 by omega]
  refine maxima_pattern label S S.upDown mean std thr nb hL _ H _ (fun k k' x y p q hk hs' hc hp hq => ?_) r h
  have hl := hL (detected S mean std thr)
  obtain ⟨x0, x1, y0, y1⟩ := centroid_inside label S mean std thr hL hs hcut k x y hc
  have hf := labSum_carried_flux (S' := S.upDown) (φ := fun p => (S.h - 1 - p.1, p.2)) rfl hl hv hs'
  obtain ⟨n1, u1⟩ := (divF_fin _ _ _).mp (congrArg Prod.fst hc)
  obtain ⟨-, u2⟩ := (divF_fin _ _ _).mp (congrArg Prod.snd hc)
  have e1 : (centreOfMass S.upDown (label (detected S.upDown mean std thr)) (k' + 1)).1 = .fin ((S.h : ℚ) - 1 - x) := by
    unfold centreOfMass
    rw [divF_fin, hf, labSum_carried (S' := S.upDown) (φ := fun p => (S.h - 1 - p.1, p.2)) rfl hl hv hs' (fun i _ => i)]
    refine ⟨n1, ?_⟩
    rw [sub_mul, u1, sub_eq_iff_eq_add, ← labSum_add, ← labSum_mul, labSum_set, labSum_set]
    refine Finset.sum_congr rfl fun t ht => ?_
    rw [Finset.mem_filter, Finset.mem_product, Finset.mem_range, Finset.mem_range] at ht
    have c : ((S.h - 1 - t.1 : ℕ) : ℚ) = (S.h : ℚ) - 1 - t.1 := by
      rw [Nat.cast_sub (by omega), Nat.cast_sub (by omega), Nat.cast_one]
    change _ = S.px t.1 t.2 * ((S.h - 1 - t.1 : ℕ) : ℚ) + S.px t.1 t.2 * t.1
    rw [c]
    ring
  have e2 : (centreOfMass S.upDown (label (detected S.upDown mean std thr)) (k' + 1)).2 = .fin y := by
    unfold centreOfMass
    rw [divF_fin, hf, labSum_carried (S' := S.upDown) (φ := fun p => (S.h - 1 - p.1, p.2)) rfl hl hv hs' (fun _ j => j)]
    exact ⟨n1, u2⟩
  obtain ⟨f1, g1⟩ := (pyIdx_floor _ x p x0).1 hp
  obtain ⟨f2, g2⟩ := (pyIdx_floor _ y q y0).1 hq
  have c0 : 0 ≤ ⌈x⌉ := Int.ceil_nonneg x0
  have c1 : ⌈x⌉ ≤ (S.h : ℤ) - 1 := Int.ceil_le.2 (by push_cast; exact x1)
  have cp : ((⌈x⌉.toNat : ℕ) : ℤ) = ⌈x⌉ := Int.toNat_of_nonneg c0
  refine ⟨_, (maxEntry_ok _ _ _ _ _ _).2 ⟨(S.h : ℚ) - 1 - x, y, S.h - 1 - ⌈x⌉.toNat, q, e1, e2,
    (pyIdx_floor _ _ _ (by linarith)).2 ⟨?_, ?_⟩, hq, rfl⟩, x, y, p, ⌈x⌉.toNat, q, rfl, ?_, f1, cp, f2, g1, by omega, g2⟩
  · have : (S.h : ℚ) - 1 - x = -(x - ((S.h - 1 : ℤ) : ℚ)) := by push_cast; ring
    rw [this, Int.floor_neg, Int.ceil_sub_intCast]
    omega
  · change _ < S.h
    omega
  · change (_, _, signif mean std (S.px (S.h - 1 - (S.h - 1 - ⌈x⌉.toNat)) q)) = _
    rw [show S.h - 1 - (S.h - 1 - ⌈x⌉.toNat) = ⌈x⌉.toNat by omega]

/-! ## Worked instances -/

/-- A column of two pixels. -/
def twoImg (a b : ℚ) : Img ℚ := ⟨2, 1, fun i _ => if i = 0 then a else b⟩

theorem two_com (label : Img Bool → Labels) (hL : ∀ m, IsLabelling m (label m)) (a b mean thr : ℚ) (ha : thr < a - mean)
    (hb : thr < b - mean) : (label (detected (twoImg a b) mean 1 thr)).num = 1 ∧
    centreOfMass (twoImg a b) (label (detected (twoImg a b) mean 1 thr)) 1 = (divF b (a + b), divF 0 (a + b)) := by
  have hl := hL (detected (twoImg a b) mean 1 thr)
  have on : ∀ i j, On (detected (twoImg a b) mean 1 thr) (i, j) ↔ i < 2 ∧ j = 0 := by
    intro i j
    unfold On
    rw [detected_iff _ _ _ _ (by norm_num)]
    change i < 2 ∧ j < 1 ∧ cutLevel mean 1 thr < (if i = 0 then a else b) ↔ _
    have : cutLevel mean 1 thr = mean + thr := by unfold cutLevel; rw [if_neg one_ne_zero, mul_one]
    rw [this]
    constructor
    · intro h; omega
    · rintro ⟨h1, rfl⟩
      refine ⟨h1, by omega, ?_⟩
      split <;> linarith
  generalize label (detected (twoImg a b) mean 1 thr) = L at *
  obtain ⟨hn, h1⟩ := labelling_one _ L hl (0, 0) ((on 0 0).2 (by omega)) (by
    rintro ⟨i, j⟩ hp
    obtain ⟨hi, rfl⟩ := (on i j).1 hp
    interval_cases i
    · exact .refl
    · exact conn_step _ _ _ hp ((on 0 0).2 (by omega)) (by unfold Adj4; omega))
  have l0 : L.lab 0 0 = 1 := h1 (0, 0) ((on 0 0).2 (by omega))
  have l1 : L.lab 1 0 = 1 := h1 (1, 0) ((on 1 0).2 (by omega))
  refine ⟨hn, ?_⟩
  unfold centreOfMass labSum twoImg
  simp only [Finset.sum_range_succ, Finset.sum_range_zero, l0, l1]
  norm_num

/-- A star on two pixels with the values 3 and 5: reported with significance 3, and with significance 5 in the image upside down.
With 92 added it is reported at 97/192 instead of 5/8, and with 4 subtracted the call raises OverflowError. -/
theorem maxima_two (label : Img Bool → Labels) (nb : ℚ) (hL : ∀ m, IsLabelling m (label m)) :
    findMaxima label (twoImg 3 5) 0 1 (5 / 2) nb = .ok [(.fin 0, .fin (5 / 8), .fin 3)] ∧
    findMaxima label (twoImg 5 3) 0 1 (5 / 2) nb = .ok [(.fin 0, .fin (3 / 8), .fin 5)] ∧
    findMaxima label (twoImg 95 97) 92 1 (5 / 2) nb = .ok [(.fin 0, .fin (97 / 192), .fin 3)] ∧
    findMaxima label (twoImg (-1) 1) (-4) 1 (5 / 2) nb = .error .OverflowError := by
  have one : ∀ a b mean : ℚ, 5 / 2 < a - mean → 5 / 2 < b - mean → findMaxima label (twoImg a b) mean 1 (5 / 2) nb =
      [0].mapM fun _ => maxEntry (twoImg a b) mean 1 (divF b (a + b)) (divF 0 (a + b)) := by
    intro a b mean ha hb
    obtain ⟨h1, h2⟩ := two_com label hL a b mean (5 / 2) ha hb
    rw [findMaxima_eq, h1, show List.range 1 = [0] from rfl, List.mapM_cons, List.mapM_cons, List.mapM_nil, List.mapM_nil,
      show 0 + 1 = 1 from rfl, h2]
  have ent : ∀ a b mean : ℚ, 0 < a → 0 < b → maxEntry (twoImg a b) mean 1 (divF b (a + b)) (divF 0 (a + b)) =
      .ok (.fin 0, .fin (b / (a + b)), .fin (a - mean)) := by
    intro a b mean ha hb
    have hab : a + b ≠ 0 := by positivity
    have hx : 0 ≤ b / (a + b) := by positivity
    have hx1 : b / (a + b) < 1 := by rw [div_lt_one (by positivity)]; linarith
    rw [maxEntry_ok]
    refine ⟨b / (a + b), 0, 0, 0, ?_, ?_, (pyIdx_floor _ _ _ hx).2 ⟨?_, by change 0 < 2; norm_num⟩,
      (pyIdx_floor _ _ _ le_rfl).2 ⟨by simp, by change 0 < 1; norm_num⟩, ?_⟩
    · unfold divF; rw [if_neg hab]
    · unfold divF; rw [if_neg hab, zero_div]
    · symm
      rw [Nat.cast_zero, Int.floor_eq_zero_iff]
      exact ⟨hx, hx1⟩
    · unfold signif
      rw [if_neg one_ne_zero, div_one]
      rfl
  refine ⟨?_, ?_, ?_, ?_⟩
  · rw [one 3 5 0 (by norm_num) (by norm_num), List.mapM_cons, List.mapM_nil, ent 3 5 0 (by norm_num) (by norm_num)]
    norm_num [pure, Except.pure, bind, Except.bind]
  · rw [one 5 3 0 (by norm_num) (by norm_num), List.mapM_cons, List.mapM_nil, ent 5 3 0 (by norm_num) (by norm_num)]
    norm_num [pure, Except.pure, bind, Except.bind]
  · rw [one 95 97 92 (by norm_num) (by norm_num), List.mapM_cons, List.mapM_nil, ent 95 97 92 (by norm_num) (by norm_num)]
    norm_num [pure, Except.pure, bind, Except.bind]
  · rw [one (-1) 1 (-4) (by norm_num) (by norm_num), List.mapM_cons, List.mapM_nil]
    have : divF 1 (-1 + 1) = .pinf := by unfold divF; norm_num
    rw [this]
    rfl

end PI
