import Verif.Props.SimPsf
import Mathlib.Data.List.GetD
import Mathlib.Algebra.BigOperators.Group.List.Basic

/-!
# cartesian_product (C71) and astropy_Psf (C67)
-/

namespace PI

/-- Specification: all tuples in lexicographic order. -/
def prodList {α : Type} : List (List α) → List (List α)
  | [] => [[]]
  | l :: ls => l.flatMap fun x => (prodList ls).map (x :: ·)

theorem range_mul (a P : ℕ) :
    List.range (a * P) = (List.range a).flatMap fun i => (List.range P).map fun j => i * P + j := by
  induction a with
  | zero => simp
  | succ a ih =>
    rw [Nat.succ_mul, List.range_add, List.range_succ, List.flatMap_append, ih]
    simp

theorem flatIdx_zero (a : ℕ) (ls : List ℕ) (i j : ℕ) (hi : i < a) (hj : j < ls.prod) :
    flatIdx (a :: ls) 0 (i * ls.prod + j) = i := by
  unfold flatIdx
  simp only [zero_add, List.drop_succ_cons, List.drop_zero, List.getD_cons_zero]
  rw [Nat.add_comm, Nat.add_mul_div_right _ _ (by omega), Nat.div_eq_of_lt hj, zero_add, Nat.mod_eq_of_lt hi]

theorem flatIdx_succ (a : ℕ) (ls : List ℕ) (i j k : ℕ) (hk : k < ls.length) (hj : j < ls.prod) :
    flatIdx (a :: ls) (k + 1) (i * ls.prod + j) = flatIdx ls k j := by
  unfold flatIdx
  simp only [List.drop_succ_cons, List.getD_cons_succ]
  have h1 : ls.prod = (ls.take k).prod * (ls.getD k 0 * (ls.drop (k + 1)).prod) := by
    conv_lhs => rw [← List.take_append_drop k ls, List.prod_append]
    rw [List.drop_eq_getElem_cons hk, List.prod_cons, List.getD_eq_getElem _ _ hk]
  have hD : 0 < (ls.drop (k + 1)).prod := by
    rcases Nat.eq_zero_or_pos (ls.drop (k + 1)).prod with h | h
    · rw [h1, h] at hj; simp at hj
    · exact h
  generalize (ls.drop (k + 1)).prod = D at *
  rw [h1, show i * ((ls.take k).prod * (ls.getD k 0 * D)) + j = j + i * (ls.take k).prod * ls.getD k 0 * D by ring,
    Nat.add_mul_div_right _ _ hD, Nat.add_mul_mod_self_right]

theorem flatMap_getD {α β : Type} (d : α) (l : List α) (g : α → List β) :
    ((List.range l.length).flatMap fun i => g (l.getD i d)) = l.flatMap g := by
  have : l = (List.range l.length).map fun i => l.getD i d := by
    apply List.ext_getElem
    · simp
    · intro i h1 h2
      simp [List.getElem?_eq_getElem h1]
  conv_rhs => rw [this]
  rw [List.flatMap_map]

theorem cart_aux {α : Type} [Inhabited α] (arrays : List (List α)) :
    ((List.range (arrays.map List.length).prod).map fun r =>
      (List.range arrays.length).map fun k =>
        (arrays.getD k []).getD (flatIdx (arrays.map List.length) k r) default) = prodList arrays := by
  induction arrays with
  | nil => rfl
  | cons l ls ih =>
    simp only [List.map_cons, List.prod_cons, prodList]
    rw [range_mul, List.map_flatMap, ← flatMap_getD default l, ← ih]
    refine List.flatMap_congr fun i hi => ?_
    rw [List.map_map, List.map_map]
    refine List.map_congr_left fun j hj => ?_
    rw [List.mem_range] at hi hj
    simp only [Function.comp]
    rw [List.length_cons, List.range_succ_eq_map, List.map_cons, List.map_map, flatIdx_zero _ _ _ _ hi hj]
    refine congrArg₂ List.cons rfl (List.map_congr_left fun k hk => ?_)
    rw [List.mem_range] at hk
    simp only [Function.comp, Nat.succ_eq_add_one]
    rw [flatIdx_succ _ _ _ _ _ (by simpa using hk) hj]
    rfl

/-- C71: the rows of `cartesian_product` are all tuples, in lexicographic order with the last index
fastest, with every value converted to the type of the first array. -/
theorem cartesian_product_rows {α : Type} [Inhabited α] (cast : α → α) (arrays : List (List α))
    (h : arrays ≠ []) :
    cartesianProduct cast arrays = .ok ((prodList arrays).map fun t => t.map cast) := by
  cases arrays with
  | nil => exact absurd rfl h
  | cons l ls =>
    rw [← cart_aux, List.map_map]
    unfold cartesianProduct
    simp only []
    refine congrArg Except.ok (List.map_congr_left fun r _ => ?_)
    simp [Function.comp]

/-- C71: no array at all fails. -/
theorem cartesian_product_nil {α : Type} [Inhabited α] (cast : α → α) :
    cartesianProduct cast ([] : List (List α)) = .error .IndexError := rfl

/-- Membership in the specification: one value from every array, in order. -/
theorem mem_prodList {α : Type} (arrays : List (List α)) (t : List α) :
    t ∈ prodList arrays ↔ List.Forall₂ (fun x l => x ∈ l) t arrays := by
  induction arrays generalizing t with
  | nil => simp [prodList]
  | cons l ls ih =>
    simp only [prodList, List.mem_flatMap, List.mem_map, ih]
    constructor
    · rintro ⟨x, hx, t', ht', rfl⟩
      exact .cons hx ht'
    · intro h
      cases h with
      | cons hx ht => exact ⟨_, hx, _, ht, rfl⟩

theorem length_prodList {α : Type} (arrays : List (List α)) :
    (prodList arrays).length = (arrays.map List.length).prod := by
  induction arrays with
  | nil => rfl
  | cons l ls ih => simp [prodList, List.length_flatMap, ih]

/-- C71: there are as many rows as the product of the lengths. -/
theorem cartesian_product_length {α : Type} [Inhabited α] (cast : α → α) (arrays : List (List α))
    (h : arrays ≠ []) :
    ∃ rows, cartesianProduct cast arrays = .ok rows ∧ rows.length = (arrays.map List.length).prod ∧
      ∀ t, t ∈ rows ↔ ∃ u, List.Forall₂ (fun x l => x ∈ l) u arrays ∧ t = u.map cast := by
  refine ⟨_, cartesian_product_rows cast arrays h, ?_, fun t => ?_⟩
  · rw [List.length_map, length_prodList]
  · simp only [List.mem_map, mem_prodList]
    exact ⟨fun ⟨u, hu, e⟩ => ⟨u, hu, e.symm⟩, fun ⟨u, hu, e⟩ => ⟨u, hu, e.symm⟩⟩

/-- C71: each tuple is listed once when no array repeats a value. -/
theorem nodup_prodList {α : Type} (arrays : List (List α)) (h : ∀ l ∈ arrays, l.Nodup) :
    (prodList arrays).Nodup := by
  induction arrays with
  | nil => simp [prodList]
  | cons l ls ih =>
    have ih' := ih fun m hm => h m (List.mem_cons_of_mem _ hm)
    simp only [prodList]
    rw [List.nodup_flatMap]
    refine ⟨fun x _ => ih'.map fun a b e => by simpa using e, ?_⟩
    refine (h l List.mem_cons_self).imp ?_
    intro a b hab
    simp only [Function.onFun, List.disjoint_left, List.mem_map]
    rintro t ⟨u, -, rfl⟩ ⟨v, -, e⟩
    simp at e
    exact hab e.1.symm

/-- Two arrays, and truncation of a fractional second array by an integer first array. -/
example : cartesianProduct (fun q : ℚ => ((pyInt q : ℤ) : ℚ)) [[1, 2], [(1 : ℚ) / 2, 3]] =
    .ok [[1, 0], [1, 3], [2, 0], [2, 3]] := by
  rw [cartesian_product_rows _ _ (by simp)]
  refine congrArg Except.ok ?_
  simp [prodList, pyInt]
  norm_num

theorem astropy_assignments (i : List ℤ) (mu sigma : ℝ) :
    ((prodList [i, i]).map fun t => t.map (id : ℤ → ℤ)).map (fun row =>
        (row.getD 0 0, row.getD 1 0, gauss2d mu sigma (row.getD 0 0 : ℤ) (row.getD 1 0 : ℤ))) =
      i.flatMap fun a : ℤ => i.map fun b : ℤ => (a, b, gauss2d mu sigma a b) := by
  simp only [prodList, List.map_flatMap, List.map_cons, List.map_nil]
  refine List.flatMap_congr fun a ha => ?_
  clear ha
  induction i with
  | nil => rfl
  | cons x xs ih => simp_all

/-- The number of pixels on either side that `astropy_Psf` fills. -/
def tailLen (fwhm : ℚ) : ℤ := ⌊7 * sigmaOf fwhm⌋

theorem astropyPsf_eq (N : ℕ) (fwhm : ℚ) (hN : 1 ≤ N) (hf : 0 < fwhm) :
    astropyPsf N fwhm = (setItems ⟨N, N, fun _ _ => (0 : ℝ)⟩
      ((pyRange (((N - 1) / 2 : ℕ) - tailLen fwhm) (((N - 1) / 2 : ℕ) + tailLen fwhm)).flatMap fun i =>
        (pyRange (((N - 1) / 2 : ℕ) - tailLen fwhm) (((N - 1) / 2 : ℕ) + tailLen fwhm)).map fun j =>
          (i, j, gauss2d ((((N : ℚ) - 1) / 2 : ℚ) : ℝ) (sigmaOf fwhm : ℚ) i j))).map divSum := by
  have hs := sigmaOf_pos hf
  have h1 : (1 : ℚ) ≤ N := by exact_mod_cast hN
  have hmu : pyInt (((N : ℚ) - 1) / 2) = ((N - 1) / 2 : ℕ) := by
    rw [pyInt_nonneg_eq (by linarith)]
    rw [show ((N : ℚ) - 1) / 2 = ((N - 1 : ℕ) : ℚ) / ((2 : ℕ) : ℚ) by push_cast [hN]; ring]
    rw [Rat.floor_natCast_div_natCast]
    push_cast; rfl
  have ht : pyInt (7 * sigmaOf fwhm) = tailLen fwhm := pyInt_nonneg_eq (by positivity)
  unfold astropyPsf
  simp only [hmu, ht, cartesian_product_rows id [_, _] (by simp)]
  show (setItems _ _ >>= fun a => pure (divSum a)) = _
  rw [astropy_assignments]
  cases setItems _ _ <;> rfl

theorem gauss2d_pos (mu s x y : ℝ) : 0 < gauss2d mu s x y := Real.exp_pos _

/-- C67: `astropy_Psf` raises IndexError exactly when its tail leaves the array on the upper side. -/
theorem astropy_psf_error (N : ℕ) (fwhm : ℚ) (hN : 1 ≤ N) (hf : 0 < fwhm) :
    (astropyPsf N fwhm = .error .IndexError ↔ 1 ≤ tailLen fwhm ∧ (N : ℤ) < ((N - 1) / 2 : ℕ) + tailLen fwhm) ∧
    ((∀ o, astropyPsf N fwhm ≠ .ok o) ↔ 1 ≤ tailLen fwhm ∧ (N : ℤ) < ((N - 1) / 2 : ℕ) + tailLen fwhm) := by
  have ht0 : 0 ≤ tailLen fwhm := Int.floor_nonneg.mpr (by have := sigmaOf_pos hf; positivity)
  rw [astropyPsf_eq N fwhm hN hf]
  by_cases h : (N : ℤ) < ((N - 1) / 2 : ℕ) + tailLen fwhm
  · have hne : 1 ≤ tailLen fwhm := by omega
    have hmem : (((N - 1) / 2 : ℕ) : ℤ) + tailLen fwhm - 1 ∈
        pyRange (((N - 1) / 2 : ℕ) - tailLen fwhm) (((N - 1) / 2 : ℕ) + tailLen fwhm) := by
      rw [mem_pyRange]; omega
    rw [setItems_err _ _ ⟨_, List.mem_flatMap.mpr ⟨_, hmem, List.mem_map.mpr ⟨_, hmem, rfl⟩⟩, by
      rintro ⟨⟨-, h2⟩, -⟩
      simp only [] at h2
      omega⟩]
    refine ⟨⟨fun _ => ⟨hne, h⟩, fun _ => rfl⟩, ⟨fun _ => ⟨hne, h⟩, fun _ o ho => by cases ho⟩⟩
  · obtain ⟨o, ho, -, -⟩ := fill_divSum N (((N - 1) / 2 : ℕ) - tailLen fwhm) (((N - 1) / 2 : ℕ) + tailLen fwhm)
      (fun i j => gauss2d ((((N : ℚ) - 1) / 2 : ℚ) : ℝ) (sigmaOf fwhm : ℚ) i j)
      (fun i j => gauss2d_pos _ _ _ _) (by omega) (by omega) (by omega)
    rw [ho]
    exact ⟨⟨fun e => (by cases e), fun e => absurd e.2 h⟩, ⟨fun e => absurd rfl (e o), fun e => absurd e.2 h⟩⟩

/-- C67: otherwise it returns; NaN for a tail below one pixel, else a unit-sum array. -/
theorem astropy_psf_ok (N : ℕ) (fwhm : ℚ) (hN : 1 ≤ N) (hf : 0 < fwhm)
    (h : ((N - 1) / 2 : ℕ) + tailLen fwhm ≤ N) :
    ∃ o, astropyPsf N fwhm = .ok o ∧ (o = none ↔ 7 * sigmaOf fwhm < 1) ∧
      ∀ p, o = some p → p.h = N ∧ p.w = N ∧
        (∑ r ∈ Finset.range N, ∑ c ∈ Finset.range N, p.px r c) = 1 ∧
        (∀ r < N, ∀ c < N, 0 ≤ p.px r c) ∧
        ∃ T > 0, ∀ r < N, ∀ c < N, p.px r c =
          gridVal N (((N - 1) / 2 : ℕ) - tailLen fwhm) (((N - 1) / 2 : ℕ) + tailLen fwhm)
            (fun i j => gauss2d ((((N : ℚ) - 1) / 2 : ℚ) : ℝ) (sigmaOf fwhm : ℚ) i j) r c / T := by
  have ht0 : 0 ≤ tailLen fwhm := Int.floor_nonneg.mpr (by have := sigmaOf_pos hf; positivity)
  obtain ⟨o, ho, hn, hsm⟩ := fill_divSum N (((N - 1) / 2 : ℕ) - tailLen fwhm) (((N - 1) / 2 : ℕ) + tailLen fwhm)
      (fun i j => gauss2d ((((N : ℚ) - 1) / 2 : ℚ) : ℝ) (sigmaOf fwhm : ℚ) i j)
      (fun i j => gauss2d_pos _ _ _ _) (by omega) (by omega) (by omega)
  refine ⟨o, by rw [astropyPsf_eq N fwhm hN hf, ho], ?_, fun p hp => ?_⟩
  · rw [hn]
    have : 7 * sigmaOf fwhm < 1 ↔ tailLen fwhm < 1 := by
      unfold tailLen; rw [Int.floor_lt]; push_cast; exact Iff.rfl
    rw [this]; omega
  · obtain ⟨h1, h2, h3, T, hT, h4⟩ := hsm p hp
    refine ⟨h1, h2, h3, fun r hr c hc => ?_, T, hT, h4⟩
    rw [h4 r hr c hc]
    exact div_nonneg (gridVal_nonneg _ _ _ _ (fun i j => gauss2d_pos _ _ _ _) _ _) hT.le

/-- Both cases occur: width 2.335 has a tail of 7 pixels, which fits an array of 13 pixels a side
but not one of 11. -/
example : astropyPsf 11 (2335 / 1000) = .error .IndexError ∧
    ∃ p, astropyPsf 13 (2335 / 1000) = .ok (some p) := by
  have ht : tailLen (2335 / 1000) = 7 := by
    unfold tailLen sigmaOf; rw [Int.floor_eq_iff]; norm_num
  refine ⟨(astropy_psf_error 11 _ (by norm_num) (by norm_num)).1.mpr (by rw [ht]; norm_num), ?_⟩
  obtain ⟨o, ho, hn, -⟩ := astropy_psf_ok 13 (2335 / 1000) (by norm_num) (by norm_num) (by rw [ht]; norm_num)
  cases o with
  | none => have := hn.mp rfl; unfold sigmaOf at this; norm_num at this
  | some p => exact ⟨p, ho⟩

end PI
