import Verif.Base.Py
import Mathlib.Data.List.Range

/-!
# Images and numpy masks

numpy 2-D arrays as a shape and a pixel function. Only in-range pixels (`i < h`, `j < w`) mean
anything. These definitions model numpy, not a file of `/repo`.
-/

namespace PI

/-- A 2-D numpy array. -/
structure Img (α : Type _) where
  h : ℕ
  w : ℕ
  px : ℕ → ℕ → α

namespace Img

variable {α β γ : Type _}

/-- `arr.shape` -/
def shape (a : Img α) : ℕ × ℕ := (a.h, a.w)

/-- Equality of arrays: same shape and same in-range pixels. -/
def Same (a b : Img α) : Prop :=
  a.h = b.h ∧ a.w = b.w ∧ ∀ i < a.h, ∀ j < a.w, a.px i j = b.px i j

/-- `np.full(shape, v)` -/
def const (h w : ℕ) (v : α) : Img α := ⟨h, w, fun _ _ => v⟩

/-- Elementwise function. -/
def map (f : α → β) (a : Img α) : Img β := ⟨a.h, a.w, fun i j => f (a.px i j)⟩

/-- Elementwise binary operation on arrays of the same shape (shape of the first). -/
def zip (f : α → β → γ) (a : Img α) (b : Img β) : Img γ :=
  ⟨a.h, a.w, fun i j => f (a.px i j) (b.px i j)⟩

/-- All in-range index pairs in C order. -/
def indices (h w : ℕ) : List (ℕ × ℕ) :=
  (List.range h).flatMap fun i => (List.range w).map fun j => (i, j)

/-- `arr.flatten()` -/
def flat (a : Img α) : List α := (indices a.h a.w).map fun p => a.px p.1 p.2

theorem mem_indices {h w : ℕ} {p : ℕ × ℕ} : p ∈ indices h w ↔ p.1 < h ∧ p.2 < w := by
  obtain ⟨i, j⟩ := p
  simp [indices]

/-- `arr.any()` -/
def any (a : Img Bool) : Bool := (indices a.h a.w).any fun p => a.px p.1 p.2

theorem any_iff (a : Img Bool) : a.any = true ↔ ∃ i < a.h, ∃ j < a.w, a.px i j = true := by
  simp only [any, List.any_eq_true, mem_indices, Prod.exists]
  constructor
  · rintro ⟨i, j, ⟨hi, hj⟩, h⟩; exact ⟨i, hi, j, hj, h⟩
  · rintro ⟨i, hi, j, hj, h⟩; exact ⟨i, j, ⟨hi, hj⟩, h⟩

/-- `arr.all()` -/
def all (a : Img Bool) : Bool := (indices a.h a.w).all fun p => a.px p.1 p.2

theorem all_iff (a : Img Bool) : a.all = true ↔ ∀ i < a.h, ∀ j < a.w, a.px i j = true := by
  simp only [all, List.all_eq_true, mem_indices, Prod.forall]
  constructor
  · intro h i hi j hj; exact h i j ⟨hi, hj⟩
  · rintro h i j ⟨hi, hj⟩; exact h i hi j hj

/-- `np.count_nonzero(arr)` -/
def count (a : Img Bool) : ℕ := a.flat.count true

end Img

/-- A numpy masked array's `mask`: `none` is numpy's scalar `nomask`. -/
abbrev NMask := Option (Img Bool)

namespace NMask

/-- Whether the mask marks pixel `(i, j)` (`nomask` marks nothing). -/
def marks (m : NMask) (i j : ℕ) : Bool :=
  match m with
  | none => false
  | some a => a.px i j

/-- `numpy.ma._shrink_mask`: an array without any True becomes `nomask`. -/
def shrink (a : Img Bool) : NMask := if a.any then some a else none

/-- `numpy.ma.mask_or(m1, m2)` with its default `shrink=True`: `nomask` is the neutral element,
and a result without any True is returned as the scalar `nomask`.
Simplification: arrays of different shapes raise ValueError also when they could be broadcast
(the modelled callers only reach this with equal shapes). -/
def maskOr (m1 m2 : NMask) : Py NMask :=
  match m1, m2 with
  | none, none => .ok none
  | none, some b => .ok (shrink b)
  | some a, none => .ok (shrink a)
  | some a, some b =>
    if a.shape = b.shape then .ok (shrink (a.zip (fun x y => x || y) b))
    else .error .ValueError

/-- The mask, if an array, has the given shape. -/
def HasShape (m : NMask) (h w : ℕ) : Prop := ∀ a, m = some a → a.h = h ∧ a.w = w

theorem maskOr_spec (m1 m2 : NMask) (h w : ℕ) (h1 : m1.HasShape h w) (h2 : m2.HasShape h w) :
    ∃ m, m1.maskOr m2 = .ok m ∧ m.HasShape h w ∧
      (∀ i < h, ∀ j < w, m.marks i j = (m1.marks i j || m2.marks i j)) ∧
      ((m = none) ↔ ∀ i < h, ∀ j < w, (m1.marks i j || m2.marks i j) = false) := by
  have key : ∀ a : Img Bool, a.h = h → a.w = w →
      (shrink a).HasShape h w ∧ (∀ i < h, ∀ j < w, NMask.marks (shrink a) i j = a.px i j) ∧
      (shrink a = none ↔ ∀ i < h, ∀ j < w, a.px i j = false) := by
    intro a ha hw
    by_cases hany : a.any = true
    · have e : shrink a = some a := by simp [shrink, hany]
      rw [e]
      refine ⟨?_, fun i _ j _ => rfl, ?_⟩
      · intro b hb; cases hb; exact ⟨ha, hw⟩
      · refine iff_of_false (by simp) ?_
        intro hf
        obtain ⟨i, hi, j, hj, ht⟩ := (Img.any_iff a).1 hany
        rw [hf i (ha ▸ hi) j (hw ▸ hj)] at ht
        exact absurd ht (by simp)
    · have e : shrink a = none := by simp [shrink, hany]
      have hf : ∀ i < h, ∀ j < w, a.px i j = false := by
        intro i hi j hj
        by_contra hne
        exact hany ((Img.any_iff a).2 ⟨i, ha ▸ hi, j, hw ▸ hj, by simpa using hne⟩)
      rw [e]
      exact ⟨by intro b hb; simp at hb, fun i hi j hj => (hf i hi j hj).symm,
        iff_of_true rfl hf⟩
  match m1, m2 with
  | none, none =>
    exact ⟨none, rfl, by intro b hb; simp at hb, fun i _ j _ => rfl, by simp [NMask.marks]⟩
  | none, some b =>
    obtain ⟨hb1, hb2⟩ := h2 b rfl
    obtain ⟨k1, k2, k3⟩ := key b hb1 hb2
    exact ⟨_, rfl, k1, fun i hi j hj => by rw [k2 i hi j hj]; simp [NMask.marks],
      by rw [k3]; simp [NMask.marks]⟩
  | some a, none =>
    obtain ⟨hb1, hb2⟩ := h1 a rfl
    obtain ⟨k1, k2, k3⟩ := key a hb1 hb2
    exact ⟨_, rfl, k1, fun i hi j hj => by rw [k2 i hi j hj]; simp [NMask.marks],
      by rw [k3]; simp [NMask.marks]⟩
  | some a, some b =>
    obtain ⟨ha1, ha2⟩ := h1 a rfl
    obtain ⟨hb1, hb2⟩ := h2 b rfl
    obtain ⟨k1, k2, k3⟩ := key (a.zip (fun x y => x || y) b) ha1 ha2
    refine ⟨shrink (a.zip (fun x y => x || y) b), ?_, k1, ?_, ?_⟩
    · simp [NMask.maskOr, Img.shape, ha1, ha2, hb1, hb2]
    · intro i hi j hj; rw [k2 i hi j hj]; rfl
    · rw [k3]; rfl

end NMask

end PI
