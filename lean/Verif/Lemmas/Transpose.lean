import Verif.Lemmas.DFT
import Verif.Model.Subtract

/-! Transposing images: `a.T` in numpy, and how the operations used by the code commute with it. -/

namespace PI

open Complex Finset

/-- `a.T` -/
def Img.tr {α : Type*} (a : Img α) : Img α := ⟨a.w, a.h, fun i j => a.px j i⟩

theorem Img.tr_tr {α : Type*} (a : Img α) : a.tr.tr = a := rfl

theorem tr_map {α β : Type*} (f : α → β) (a : Img α) : a.tr.map f = (a.map f).tr := rfl

theorem tr_any (a : Img Bool) : a.tr.any = a.any := by
  rw [Bool.eq_iff_iff, Img.any_iff, Img.any_iff]
  constructor
  · rintro ⟨i, hi, j, hj, h⟩
    exact ⟨j, hj, i, hi, h⟩
  · rintro ⟨i, hi, j, hj, h⟩
    exact ⟨j, hj, i, hi, h⟩

/-- The transposed mask. -/
def NMask.tr (m : NMask) : NMask := Option.map Img.tr m

theorem tr_shrink (a : Img Bool) : NMask.shrink a.tr = (NMask.shrink a).tr := by
  unfold NMask.shrink
  rw [tr_any]
  split_ifs <;> rfl

theorem tr_maskOr (m1 m2 : NMask) : m1.tr.maskOr m2.tr = (m1.maskOr m2).map NMask.tr := by
  rcases m1 with _ | a <;> rcases m2 with _ | b
  · rfl
  · exact congrArg Except.ok (tr_shrink b)
  · exact congrArg Except.ok (tr_shrink a)
  · change (if a.tr.shape = b.tr.shape then Except.ok (NMask.shrink (a.zip (fun x y => x || y) b).tr) else Except.error PyErr.ValueError)
      = Except.map NMask.tr (if a.shape = b.shape then Except.ok (NMask.shrink (a.zip (fun x y => x || y) b))
        else Except.error PyErr.ValueError)
    have e : a.tr.shape = b.tr.shape ↔ a.shape = b.shape := by
      unfold Img.tr Img.shape
      rw [Prod.mk.injEq, Prod.mk.injEq]
      exact and_comm
    by_cases h : a.shape = b.shape
    · rw [if_pos h, if_pos (e.2 h), tr_shrink]
      rfl
    · rw [if_neg h, if_neg (fun q => h (e.1 q))]
      rfl

theorem tr_marks (m : NMask) (i j : ℕ) : m.tr.marks i j = m.marks j i := by
  rcases m with _ | a <;> rfl

theorem tr_dft (x : Img ℂ) : dft x.tr = (dft x).tr := by
  unfold dft Img.tr
  congr 1
  funext k l
  rw [Finset.sum_comm]
  refine Finset.sum_congr rfl fun i _ => Finset.sum_congr rfl fun j _ => ?_
  simp only []
  ring

theorem tr_idftSum (x : Img ℂ) : idftSum x.tr = (idftSum x).tr := by
  unfold idftSum Img.tr
  congr 1
  funext k l
  rw [Finset.sum_comm]
  refine Finset.sum_congr rfl fun i _ => Finset.sum_congr rfl fun j _ => ?_
  simp only []
  ring

theorem tr_fftOrtho (x : Img ℂ) : fftOrtho x.tr = (fftOrtho x).tr := by
  unfold fftOrtho
  rw [tr_dft, tr_map]
  have : x.tr.h * x.tr.w = x.h * x.w := Nat.mul_comm _ _
  rw [this]

theorem tr_ifftOrtho (x : Img ℂ) : ifftOrtho x.tr = (ifftOrtho x).tr := by
  unfold ifftOrtho
  rw [tr_idftSum, tr_map]
  have : x.tr.h * x.tr.w = x.h * x.w := Nat.mul_comm _ _
  rw [this]

theorem tr_ifftDefault (x : Img ℂ) : ifftDefault x.tr = (ifftDefault x).tr := by
  unfold ifftDefault
  rw [tr_idftSum, tr_map]
  have : x.tr.h * x.tr.w = x.h * x.w := Nat.mul_comm _ _
  rw [this]

theorem tr_padTo (h w : ℕ) (x : Img ℂ) : padTo w h x.tr = (padTo h w x).tr := by
  unfold padTo Img.tr
  congr 1
  funext i j
  simp only [and_comm]

theorem tr_shiftPhase (h w : ℕ) (d : ℝ × ℝ) (k l : ℕ) : shiftPhase w h d.swap l k = shiftPhase h w d k l := by
  unfold shiftPhase
  rw [mul_comm]
  rfl

theorem tr_fourierShift (x : Img ℂ) (d : ℝ × ℝ) : fourierShift x.tr d.swap = (fourierShift x d).tr := by
  unfold fourierShift Img.tr
  congr 1
  funext k l
  simp only []
  rw [tr_shiftPhase]

theorem tr_imSum (x : Img ℂ) : imSum x.tr = imSum x := Finset.sum_comm

theorem tr_rsum (x : Img ℝ) : rsum x.tr = rsum x := Finset.sum_comm

theorem tr_centerOfMass (x : Img ℝ) : centerOfMass x.tr = (centerOfMass x).swap := by
  have e1 : rsum ⟨x.tr.h, x.tr.w, fun i j => i * x.tr.px i j⟩ = rsum ⟨x.h, x.w, fun i j => j * x.px i j⟩ :=
    tr_rsum ⟨x.h, x.w, fun i j => j * x.px i j⟩
  have e2 : rsum ⟨x.tr.h, x.tr.w, fun i j => j * x.tr.px i j⟩ = rsum ⟨x.h, x.w, fun i j => i * x.px i j⟩ :=
    tr_rsum ⟨x.h, x.w, fun i j => i * x.px i j⟩
  unfold centerOfMass
  rw [e1, e2, tr_rsum]
  rfl

end PI
