import Verif.Model.StoreFits
import Verif.Props.ConstructMore
import Mathlib.Tactic.NormNum

/-!
# C114: images stored by `store_fits` and how they are read back
-/

namespace PI

theorem append_left_inj_text (a b c : String) (h : a ++ b = a ++ c) : b = c := by
  have h1 := congrArg String.toList h
  rw [String.toList_append, String.toList_append] at h1
  exact String.toList_inj.1 (List.append_cancel_left h1)

theorem append_right_inj_text (a b c : String) (h : b ++ a = c ++ a) : b = c := by
  have h1 := congrArg String.toList h
  rw [String.toList_append, String.toList_append] at h1
  exact String.toList_inj.1 (List.append_cancel_right h1)

/-- **C114 (names).** In one directory different image numbers give different files. -/
theorem store_names_differ (path i j : String) :
    dirJoin path (imageName i) = dirJoin path (imageName j) ↔ i = j := by
  refine ⟨fun h => ?_, fun h => by rw [h]⟩
  have hn : imageName i = imageName j := by
    unfold dirJoin at h
    split at h
    · exact h
    · split at h
      · exact append_left_inj_text _ _ _ h
      · exact append_left_inj_text _ _ _ h
  exact append_left_inj_text "image00" _ _ (append_right_inj_text ".fits" _ _ hn)

/-- **C114 (the files).** `store_fits` returns the path of the file for its number, whose content it
replaces, and touches no other file. A later call with another number leaves the file, with the same
number replaces it. -/
theorem store_then_open {τ : Type} (lib : TimeLib τ) (gal gal' : Img FVal) (t t' : TimeArg τ)
    (texp texp' zero zero' : ℚ) (i j path : String) (fs : Files) :
    let s := storeFits lib gal t texp i zero path fs
    let s' := storeFits lib gal' t' texp' j zero' path s.2
    s.1 = dirJoin path (imageName i) ∧
      s.2 s.1 = some (storedFits lib gal t texp zero) ∧
      (∀ q, q ≠ s.1 → s.2 q = fs q) ∧
      s'.2 s.1 = some (if i = j then storedFits lib gal' t' texp' zero' else storedFits lib gal t texp zero) := by
  refine ⟨rfl, if_pos rfl, fun q hq => if_neg hq, ?_⟩
  change (if dirJoin path (imageName i) = dirJoin path (imageName j) then _ else
    (storeFits lib gal t texp i zero path fs).2 (dirJoin path (imageName i))) = _
  by_cases hij : i = j
  · rw [if_pos ((store_names_differ path i j).2 hij), if_pos hij]
  · rw [if_neg fun h => hij ((store_names_differ path i j).1 h), if_neg hij]
    exact if_pos rfl

/-- **C114 (names do not sort).** The file of image 10 comes before that of image 2. -/
theorem store_names_unsorted : imageName "10" < imageName "2" := by decide

/-- **C114 (date and time).** From an ISO text made of a date of ten characters, a separator and a time of
at most thirteen characters, the header gets the date and the time; a number is taken for a Julian date. -/
theorem store_cards {τ : Type} (lib : TimeLib τ) (gal : Img FVal) (t : τ) (texp zero : ℚ) (date time : String)
    (sep : Char) (hiso : (lib.iso t).toList = date.toList ++ sep :: time.toList) (hd : date.toList.length = 10)
    (ht : time.toList.length ≤ 13) :
    (storedFits lib gal (.time t) texp zero).cards
        = { timeObs := time, dateObs := date, exptime := texp, jd := lib.jd t, zeroP := zero } ∧
      ∀ q, storedFits lib gal (.number q) texp zero = storedFits lib gal (.time (lib.ofJd q)) texp zero := by
  refine ⟨?_, fun q => rfl⟩
  have hdate : textSlice (lib.iso t) 0 10 = date := by
    apply String.toList_inj.1
    unfold textSlice
    rw [String.toList_ofList, hiso, List.drop_zero, ← hd, List.take_left' rfl]
  have htime : textSlice (lib.iso t) 11 24 = time := by
    apply String.toList_inj.1
    unfold textSlice
    rw [String.toList_ofList, hiso, List.take_of_length_le (by simp; omega),
      show 11 = (date.toList ++ [sep]).length by simp [hd],
      show date.toList ++ sep :: time.toList = (date.toList ++ [sep]) ++ time.toList by simp, List.drop_left' rfl]
  change ObsCards.mk (textSlice (lib.iso t) 11 24) (textSlice (lib.iso t) 0 10) texp (lib.jd t) zero = _
  rw [hdate, htime]

theorem mulQ_unit (v : FVal) : v.mulQ 1 = v := by
  cases v <;> simp [FVal.mulQ]

/-- **C114 (reading back).** `SingleImage` of the returned path has the pixels that were stored; every
pixel that is not finite, below -50 or above 65000 is masked, and if there is none, nothing is masked.
The HDU list of the same file is refused with `IndexError`. -/
theorem store_read_back {τ : Type} (lib : TimeLib τ) (gal : Img FVal) (t : TimeArg τ) (texp zero : ℚ) :
    let f := (storedFits lib gal t texp zero).fits
    construct {} (.hduList f) .absent = .error .IndexError ∧
    ∃ out, construct {} (.path f) .absent = .ok out ∧ out.data = gal ∧
      (∀ y < gal.h, ∀ x < gal.w, ((gal.px y x).isFinite = false ∨ Extreme (gal.px y x)) →
        out.mask.marks y x = true) ∧
      ((∀ y < gal.h, ∀ x < gal.w, (gal.px y x).isFinite = true ∧ ¬ Extreme (gal.px y x)) →
        ∀ y < gal.h, ∀ x < gal.w, out.mask.marks y x = false) := by
  intro f
  have hsingle := construct_single_extend f rfl rfl
  obtain ⟨out, hout⟩ := hsingle.2
  refine ⟨hsingle.1, out, hout, ?_⟩
  have hset : ∃ d, setData {} (.path f) = .ok d ∧ d.data = gal ∧ d.mask = none := by
    rw [setData_noborders {} (.path f) rfl]
    refine ⟨_, rfl, ?_, rfl⟩
    change Img.mk gal.h gal.w (fun i j => if false = true then gal.px i j else (gal.px i j).mulQ 1) = gal
    simp [mulQ_unit]
  obtain ⟨d, hd, hdd, hdm⟩ := hset
  have hdata : out.data = gal := by
    rw [← hdd]
    refine stored_pixels {} (.path f) .absent trivial ?_ d out hd hout
    rintro ⟨_, _, ⟨a, h⟩ | ⟨a, g, h⟩ | ⟨g, h, _⟩⟩ <;> cases h
  refine ⟨hdata, ?_, ?_⟩
  · intro y hy x hx hbad
    rcases hbad with hbad | hbad
    · exact invalid_pixels_masked {} (.path f) trivial rfl ⟨rfl, rfl⟩ out hout y x (by rw [hdata]; exact hy)
        (by rw [hdata]; exact hx) (by rw [hdata]; exact hbad)
    · exact construct_extreme_masked {} (.path f) .absent trivial out hout y x (by rw [hdata]; exact hy)
        (by rw [hdata]; exact hx) (by rw [hdata]; exact hbad)
  · intro hok
    have hpre : preMask {} (.path f) .absent = .ok (MA.maskedInvalid ⟨d.data, none⟩) := by
      unfold preMask; rw [hd]; rfl
    have hshape : (MA.maskedInvalid ⟨d.data, none⟩).data.shape = (gal.h, gal.w) := by
      rw [MA.maskedInvalid_data, hdd]; rfl
    obtain ⟨out', ho', _, hun⟩ := construct_unmasked_of_empty' {} (.path f) .absent trivial _ hpre hshape (by
      intro y hy x hx
      obtain ⟨hfin, hex⟩ := hok y hy x hx
      have hex' : ((gal.px y x).lt (-50) || (gal.px y x).gt 65000) = false := by
        rw [← Bool.not_eq_true, ← extreme_iff]; exact hex
      change ((MA.maskedInvalid ⟨d.data, none⟩).mask.marks y x ||
        (((MA.maskedInvalid ⟨d.data, none⟩).data.px y x).lt (-50) ||
          ((MA.maskedInvalid ⟨d.data, none⟩).data.px y x).gt 65000)) = false
      rw [MA.maskedInvalid_data, hdd, hex', Bool.or_false, MA.maskedInvalid_marks _ (MA.plain_wf _) y x hy hx]
      change ((!(gal.px y x).isFinite) || false) = false
      rw [hfin]; rfl)
    rw [hout] at ho'
    cases ho'
    exact hun

/-! ## Worked instances -/

/-- Times that are their own text. -/
def textTime : TimeLib String := ⟨fun t => t, fun _ => 0, fun _ => "2000-01-01 12:00:00.000"⟩

/-- A time of the usual form. -/
example : (storedFits textTime fives (.time "2026-11-17 08:18:00.000") 60 25).cards.timeObs = "08:18:00.000" ∧
    (storedFits textTime fives (.time "2026-11-17 08:18:00.000") 60 25).cards.dateObs = "2026-11-17" := by
  have := (store_cards textTime fives "2026-11-17 08:18:00.000" 60 25 "2026-11-17" "08:18:00.000" ' '
    (by decide) (by decide) (by decide)).1
  rw [this]
  exact ⟨rfl, rfl⟩

/-- The image of fives is read back unmasked. -/
example : ∃ out, construct {} (.path (storedFits textTime fives (.number 0) 60 25).fits) .absent = .ok out ∧
    out.data = fives ∧ out.mask.marks 0 0 = false := by
  obtain ⟨_, out, h, hd, _, hu⟩ := store_read_back textTime fives (.number 0) 60 25
  refine ⟨out, h, hd, hu (fun y _ x _ => ⟨rfl, ?_⟩) 0 (by decide) 0 (by decide)⟩
  change ¬ ((65000 : ℚ) < 5 ∨ (5 : ℚ) < -50)
  norm_num

/-- **C114 (the place).** The file lies in the given directory: a slash is put between the two exactly when the path is not
empty and does not end with one. -/
theorem store_place {τ : Type} (lib : TimeLib τ) (gal : Img FVal) (t : TimeArg τ) (texp zero : ℚ) (i path : String) (fs : Files) :
    (storeFits lib gal t texp i zero "" fs).1 = "image00" ++ i ++ ".fits" ∧
      (storeFits lib gal t texp i zero (path ++ "/") fs).1 = path ++ "/" ++ ("image00" ++ i ++ ".fits") ∧
      (∀ c : Char, c ≠ '/' → (storeFits lib gal t texp i zero (path.push c) fs).1 =
        path.push c ++ "/" ++ ("image00" ++ i ++ ".fits")) := by
  refine ⟨rfl, ?_, fun c hc => ?_⟩
  · change dirJoin (path ++ "/") (imageName i) = _
    unfold dirJoin
    have h1 : path ++ "/" ≠ "" := by
      intro q
      have := congrArg (fun s : String => s.toList.length) q
      simp at this
    have h2 : (path ++ "/").toList.getLast? = some '/' := by simp
    rw [if_neg h1, if_pos h2]
    rfl
  · change dirJoin (path.push c) (imageName i) = _
    unfold dirJoin
    have h1 : path.push c ≠ "" := by
      intro q
      have := congrArg (fun s : String => s.toList.length) q
      simp at this
    have h2 : (path.push c).toList.getLast? ≠ some '/' := by simpa using hc
    rw [if_neg h1, if_neg h2]
    rfl

end PI
