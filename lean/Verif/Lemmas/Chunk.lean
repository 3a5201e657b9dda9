import Verif.Model.Chunk
import Verif.Lemmas.Float64
import Mathlib.Tactic.GCongr
import Mathlib.Data.Nat.Cast.Order.Field

/-! Helper lemmas for `chunk_it`. -/

namespace PI

theorem sliceBound_nonneg (n : ℕ) (i : ℤ) (h : 0 ≤ i) : sliceBound n i = min i.toNat n := by
  simp [sliceBound, not_lt.2 h]

theorem pySlice_nonneg {α : Type _} (l : List α) (a b : ℤ) (ha : 0 ≤ a) (hb : 0 ≤ b) :
    pySlice l a b = (l.take b.toNat).drop a.toNat := by
  unfold pySlice
  rw [sliceBound_nonneg _ _ ha, sliceBound_nonneg _ _ hb]
  rw [← List.take_eq_take_min]
  rcases le_total a.toNat l.length with h | h
  · rw [min_eq_left h]
  · rw [min_eq_right h]
    rw [List.drop_eq_nil_of_le (by simp), List.drop_eq_nil_of_le (by simp; omega)]

theorem pySlice_append_drop {α : Type _} (l : List α) (a b : ℤ) (ha : 0 ≤ a) (hab : a ≤ b) :
    pySlice l a b ++ l.drop b.toNat = l.drop a.toNat := by
  rw [pySlice_nonneg _ _ _ ha (ha.trans hab)]
  have h : a.toNat ≤ b.toNat := by omega
  conv_rhs => rw [← List.take_append_drop b.toNat l]
  rw [List.drop_append]
  have : a.toNat - (List.take b.toNat l).length = 0 ∨ l.drop b.toNat = [] := by
    rcases le_total b.toNat l.length with h' | h'
    · left; rw [List.length_take]; omega
    · right; exact List.drop_eq_nil_of_le h'
  rcases this with h | h
  · rw [h]; simp
  · rw [h]; simp

/-- The slices collected by the loop concatenate to the rest of the sequence, for any arithmetic
in which adding never makes the integer part smaller. -/
theorem chunkLoop_flatten {F α : Type} (A : ChunkArith F) (R : F → Prop) (seq : List α) (avg : F)
    (hstep : ∀ x, R x → R (A.add x avg) ∧ A.toInt x ≤ A.toInt (A.add x avg))
    (hnn : ∀ x, R x → 0 ≤ A.toInt x)
    (hstop : ∀ x, R x → A.lt x seq.length = false → (seq.length : ℤ) ≤ A.toInt x) :
    ∀ fuel last out, R last → chunkLoop A seq avg fuel last = some out →
      out.flatten = seq.drop (A.toInt last).toNat := by
  intro fuel
  induction fuel with
  | zero => intro last out _ h; simp [chunkLoop] at h
  | succ fuel ih =>
    intro last out hR h
    rw [chunkLoop] at h
    by_cases hlt : A.lt last seq.length = true
    · rw [if_pos hlt] at h
      obtain ⟨rest, hrest, rfl⟩ := Option.map_eq_some_iff.1 h
      obtain ⟨hR', hle⟩ := hstep last hR
      have := ih _ rest hR' hrest
      rw [List.flatten_cons, this]
      exact pySlice_append_drop _ _ _ (hnn _ hR) hle
    · rw [if_neg hlt] at h
      have hout : out = [] := by simpa using h.symm
      subst hout
      have := hstop last hR (by simpa using hlt)
      rw [List.drop_eq_nil_of_le (by omega)]
      rfl

/-- The loop run along a known trajectory. -/
theorem chunkLoop_iter {F α : Type} (A : ChunkArith F) (seq : List α) (avg : F) (l : ℕ → F)
    (hl : ∀ k, l (k + 1) = A.add (l k) avg) :
    ∀ m j fuel, (∀ i < m, A.lt (l (j + i)) seq.length = true) →
      A.lt (l (j + m)) seq.length = false → m < fuel →
      chunkLoop A seq avg fuel (l j) =
        some ((List.range m).map fun i =>
          pySlice seq (A.toInt (l (j + i))) (A.toInt (l (j + i + 1)))) := by
  intro m
  induction m with
  | zero =>
    intro j fuel _ hstop hf
    obtain ⟨f, rfl⟩ : ∃ f, fuel = f + 1 := ⟨fuel - 1, by omega⟩
    rw [chunkLoop, if_neg (by simpa using hstop)]
    rfl
  | succ m ih =>
    intro j fuel hlt hstop hf
    obtain ⟨f, rfl⟩ : ∃ f, fuel = f + 1 := ⟨fuel - 1, by omega⟩
    rw [chunkLoop, if_pos (by simpa using hlt 0 (by omega)), ← hl]
    rw [ih (j + 1) f (fun i hi => by
        have := hlt (i + 1) (by omega); rwa [show j + (i + 1) = j + 1 + i by omega] at this)
      (by rwa [show j + 1 + m = j + (m + 1) by omega]) (by omega)]
    rw [List.range_succ_eq_map]
    simp only [Option.map_some, List.map_cons, List.map_map, Option.some.injEq]
    congr 1
    apply List.map_congr_left
    intro i _
    simp only [Function.comp, Nat.succ_eq_add_one]
    rw [show j + 1 + i = j + (i + 1) by omega]

theorem insertDesc_perm {β : Type} (lt : β → β → Option Bool) (x : β) :
    ∀ (l r : List β), insertDesc lt x l = some r → r.Perm (x :: l) := by
  intro l
  induction l with
  | nil => intro r h; simp [insertDesc] at h; subst h; exact List.Perm.refl _
  | cons y ys ih =>
    intro r h
    rw [insertDesc] at h
    cases hlt : lt x y with
    | none => simp [hlt] at h
    | some b =>
      cases b with
      | true =>
        simp only [hlt] at h
        obtain ⟨s, hs, rfl⟩ := Option.map_eq_some_iff.1 h
        exact ((ih s hs).cons y).trans (List.Perm.swap x y ys)
      | false =>
        simp only [hlt] at h
        have : r = x :: y :: ys := by simpa using h.symm
        subst this; exact List.Perm.refl _

theorem sortedDesc_perm {β : Type} (lt : β → β → Option Bool) :
    ∀ (l r : List β), sortedDesc lt l = some r → r.Perm l := by
  intro l
  induction l with
  | nil => intro r h; simp [sortedDesc] at h; subst h; exact List.Perm.refl _
  | cons x xs ih =>
    intro r h
    rw [sortedDesc] at h
    obtain ⟨s, hs, hr⟩ := Option.bind_eq_some_iff.1 h
    exact (insertDesc_perm lt x s r hr).trans ((ih s hs).cons x)

/-! ### Binary64 trajectory -/

/-- The successive values of `last`. -/
def lastSeq (a : ℚ) : ℕ → ℚ
  | 0 => 0
  | k + 1 => fl64 (lastSeq a k + a)

theorem lastSeq_nonneg (a : ℚ) (ha : 0 ≤ a) : ∀ k, 0 ≤ lastSeq a k
  | 0 => le_refl _
  | k + 1 => fl64_nonneg _ (add_nonneg (lastSeq_nonneg a ha k) ha)

theorem fl64_le_twice (q : ℚ) (hq : 0 ≤ q) : fl64 q ≤ 2 * q := by
  have h := (abs_le.1 (fl64_err q hq)).2
  have : q / 2 ^ 53 ≤ q := div_le_self hq (by norm_num)
  linarith

/-- Accumulated rounding error of `last` while the loop runs. -/
theorem lastSeq_err (L n : ℕ) (hn : 1 ≤ n) :
    ∀ k, (∀ j < k, lastSeq (fl64 ((L : ℚ) / n)) j < L) →
      |lastSeq (fl64 ((L : ℚ) / n)) k - k * ((L : ℚ) / n)| ≤ 4 * k * L / 2 ^ 53 := by
  have hn0 : (0 : ℚ) < n := by exact_mod_cast hn
  have hL0 : (0 : ℚ) ≤ L := by positivity
  set r : ℚ := (L : ℚ) / n with hr
  have hr0 : 0 ≤ r := by positivity
  have hrL : r ≤ L := by
    apply div_le_self hL0; exact_mod_cast hn
  set a := fl64 r with ha
  have ha0 : 0 ≤ a := fl64_nonneg r hr0
  have ha2 : a ≤ 2 * L := (fl64_le_twice r hr0).trans (by linarith)
  have haerr := abs_le.1 (fl64_err r hr0)
  intro k
  induction k with
  | zero => intro _; simp [lastSeq]
  | succ k ih =>
    intro hlt
    have hk := ih (fun j hj => hlt j (by omega))
    have hlk := hlt k (by omega)
    have hnn := lastSeq_nonneg a ha0 k
    have hstep := abs_le.1 (fl64_err (lastSeq a k + a) (add_nonneg hnn ha0))
    have hb : (lastSeq a k + a) / 2 ^ 53 ≤ (3 * L) / 2 ^ 53 := by gcongr; linarith
    have hrb : r / 2 ^ 53 ≤ L / 2 ^ 53 := by gcongr
    have hk' := abs_le.1 hk
    have hsplit : (4 : ℚ) * ((k + 1 : ℕ) : ℚ) * L / 2 ^ 53
        = 4 * k * L / 2 ^ 53 + 3 * L / 2 ^ 53 + L / 2 ^ 53 := by push_cast; ring
    rw [hsplit, abs_le, lastSeq]
    push_cast
    constructor <;> linarith [hstep.1, hstep.2, haerr.1, haerr.2, hk'.1, hk'.2]

end PI
