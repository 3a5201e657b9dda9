import Verif.Model.Clean

/-!
# Temporary files (C61)
-/

namespace PI
open PyS

theorem dat_ne_map (d : String) : d ++ ".dat" ≠ d ++ ".map" := by
  intro h
  have := congrArg String.toList h
  rw [String.toList_append, String.toList_append] at this
  exact absurd (List.append_cancel_left this) (by decide)

theorem osRemove_file (p : String) (fs : FS) (h : fs p = .file) :
    osRemove p fs = (.ok (), fun q => if q = p then .absent else fs q) := by
  unfold osRemove; rw [h]

theorem osRemove_fail (p : String) (fs : FS) (h : fs p ≠ .file) :
    osRemove p fs = (.error .OSError, fs) := by
  unfold osRemove
  split
  · contradiction
  · rfl

/-- What `_clean` leaves: the .map file is only touched if the .dat file could be removed. -/
def cleaned (d : String) (fs : FS) : FS := fun q =>
  if q = d ++ ".dat" then (if fs q = .file then .absent else fs q)
  else if q = d ++ ".map" then (if fs (d ++ ".dat") = .file ∧ fs q = .file then .absent else fs q)
  else fs q

theorem cleanFiles_eq (d : String) (fs : FS) : cleanFiles d fs = (.ok (), cleaned d fs) := by
  have hne := dat_ne_map d
  unfold cleanFiles
  cases h1 : fs (d ++ ".dat") with
  | absent =>
    rw [bind_err _ _ _ fs .OSError (by simp [osRemove, h1])]
    refine Prod.ext rfl (funext fun q => ?_)
    unfold cleaned
    by_cases hq : q = d ++ ".dat"
    · subst hq; simp [h1]
    · by_cases hq2 : q = d ++ ".map"
      · subst hq2; simp [h1, hne.symm]
      · simp [hq, hq2]
  | stuck =>
    rw [bind_err _ _ _ fs .OSError (by simp [osRemove, h1])]
    refine Prod.ext rfl (funext fun q => ?_)
    unfold cleaned
    by_cases hq : q = d ++ ".dat"
    · subst hq; simp [h1]
    · by_cases hq2 : q = d ++ ".map"
      · subst hq2; simp [h1, hne.symm]
      · simp [hq, hq2]
  | file =>
    rw [bind_ok _ _ _ (fun q => if q = d ++ ".dat" then .absent else fs q) () (by simp [osRemove, h1])]
    cases h2 : fs (d ++ ".map") with
    | file =>
      rw [osRemove_file _ _ (by simp [hne.symm, h2])]
      refine Prod.ext rfl (funext fun q => ?_)
      unfold cleaned
      by_cases hq : q = d ++ ".dat"
      · subst hq; simp [h1, hne]
      · by_cases hq2 : q = d ++ ".map"
        · subst hq2; simp [h1, h2, hne.symm]
        · simp [hq, hq2]
    | absent =>
      rw [osRemove_fail _ _ (by simp [hne.symm, h2])]
      refine Prod.ext rfl (funext fun q => ?_)
      unfold cleaned
      by_cases hq : q = d ++ ".dat"
      · subst hq; simp [h1]
      · by_cases hq2 : q = d ++ ".map"
        · subst hq2; simp [h2, hne.symm]
        · simp [hq, hq2]
    | stuck =>
      rw [osRemove_fail _ _ (by simp [hne.symm, h2])]
      refine Prod.ext rfl (funext fun q => ?_)
      unfold cleaned
      by_cases hq : q = d ++ ".dat"
      · subst hq; simp [h1]
      · by_cases hq2 : q = d ++ ".map"
        · subst hq2; simp [h2, hne.symm]
        · simp [hq, hq2]

/-- C61: cleaning never raises. -/
theorem clean_never_raises (d : String) (fs : FS) : (cleanFiles d fs).1 = .ok () := by
  rw [cleanFiles_eq]

/-- C61: afterwards the .dat file is gone unless it cannot be removed. -/
theorem clean_dat (d : String) (fs : FS) :
    (cleanFiles d fs).2 (d ++ ".dat") = .absent ↔ fs (d ++ ".dat") ≠ .stuck := by
  rw [cleanFiles_eq]
  unfold cleaned
  cases h : fs (d ++ ".dat") <;> simp [h]

/-- C61: afterwards the .map file is gone exactly if it did not exist or both files could be removed. -/
theorem clean_map (d : String) (fs : FS) :
    (cleanFiles d fs).2 (d ++ ".map") = .absent ↔
      fs (d ++ ".map") = .absent ∨ (fs (d ++ ".dat") = .file ∧ fs (d ++ ".map") = .file) := by
  rw [cleanFiles_eq]
  unfold cleaned
  simp only [if_neg (dat_ne_map d).symm, if_pos]
  cases h : fs (d ++ ".dat") <;> cases h2 : fs (d ++ ".map") <;> simp

/-- C61: no other file is touched, in particular none of another image object. -/
theorem clean_others (d q : String) (fs : FS) (h1 : q ≠ d ++ ".dat") (h2 : q ≠ d ++ ".map") :
    (cleanFiles d fs).2 q = fs q := by
  rw [cleanFiles_eq]
  simp [cleaned, h1, h2]

/-- C61: both files are gone if both existed or neither did. -/
theorem clean_both (d : String) (fs : FS)
    (h : (fs (d ++ ".dat") = .file ∧ fs (d ++ ".map") = .file) ∨
      (fs (d ++ ".dat") = .absent ∧ fs (d ++ ".map") = .absent)) :
    (cleanFiles d fs).2 (d ++ ".dat") = .absent ∧ (cleanFiles d fs).2 (d ++ ".map") = .absent := by
  rw [clean_dat, clean_map]
  rcases h with ⟨h1, h2⟩ | ⟨h1, h2⟩
  · exact ⟨by rw [h1]; decide, Or.inr ⟨h1, h2⟩⟩
  · exact ⟨by rw [h1]; decide, Or.inl h2⟩

/-- The file system after `n` more cleanings. -/
def cleanN (d : String) : ℕ → FS → FS
  | 0, fs => fs
  | n + 1, fs => (cleanFiles d (cleanN d n fs)).2

/-- C61: a .map file without its .dat file is left behind, however often one cleans. -/
theorem map_leaks (d : String) (fs : FS) (h1 : fs (d ++ ".dat") ≠ .file) (n : ℕ) :
    cleanN d n fs (d ++ ".map") = fs (d ++ ".map") := by
  have key : ∀ n, cleanN d n fs (d ++ ".map") = fs (d ++ ".map") ∧ cleanN d n fs (d ++ ".dat") ≠ .file := by
    intro n
    induction n with
    | zero => exact ⟨rfl, h1⟩
    | succ n ih =>
      show (cleanFiles d (cleanN d n fs)).2 _ = _ ∧ (cleanFiles d (cleanN d n fs)).2 _ ≠ _
      rw [cleanFiles_eq]
      unfold cleaned
      simp [(dat_ne_map d).symm, ih.2, ih.1]
  exact (key n).1

/-- C61: cleaning again changes nothing. -/
theorem clean_twice (d : String) (fs : FS) :
    (cleanFiles d (cleanFiles d fs).2).2 = (cleanFiles d fs).2 := by
  rw [cleanFiles_eq d fs, cleanFiles_eq]
  funext q
  unfold cleaned
  by_cases hq : q = d ++ ".dat"
  · subst hq
    cases h : fs (d ++ ".dat") <;> simp [h]
  · by_cases hq2 : q = d ++ ".map"
    · subst hq2
      cases h : fs (d ++ ".dat") <;> cases h2 : fs (d ++ ".map") <;> simp [(dat_ne_map d).symm, h, h2]
    · simp [hq, hq2]

/-- C61: a `with` block returns or raises what its body does, and its files are cleaned in both cases. -/
theorem with_image {α : Type} (d : String) (body : PyS FS α) (fs : FS) :
    (withImage d body fs).1 = (body fs).1 ∧
      (withImage d body fs).2 = (cleanFiles d (body fs).2).2 := by
  unfold withImage
  simp only [cleanFiles_eq]
  exact ⟨trivial, trivial⟩

/-- C61: if the body, even when it raises, leaves both database files or neither, none remains. -/
theorem with_image_removes {α : Type} (d : String) (body : PyS FS α) (fs : FS)
    (h : ((body fs).2 (d ++ ".dat") = .file ∧ (body fs).2 (d ++ ".map") = .file) ∨
      ((body fs).2 (d ++ ".dat") = .absent ∧ (body fs).2 (d ++ ".map") = .absent)) :
    (withImage d body fs).2 (d ++ ".dat") = .absent ∧ (withImage d body fs).2 (d ++ ".map") = .absent := by
  rw [(with_image d body fs).2]
  exact clean_both d _ h

/-- A body that makes both files and raises. -/
example : (withImage (α := Unit) "x"
    (fun fs => (.error .ValueError, fun q => if q = "x.dat" ∨ q = "x.map" then .file else fs q))
    (fun _ => .absent)).2 "x.map" = .absent :=
  (with_image_removes "x" _ _ (Or.inl ⟨rfl, rfl⟩)).2

/-- Only the .map file is there: it stays. -/
example : (cleanFiles "x" (fun q => if q = "x.map" then .file else .absent)).2 "x.map" = .file := by
  rw [cleanFiles_eq]
  simp [cleaned]

end PI
