import Verif.Model.Named
import Verif.Props.ConstructMore

/-!
# Property C152: the branch of the mask is chosen by name

Specification vocabulary: `Reserved`, the three names that the code compares with; `Plain`, an object whose name causes
no confusion.
-/

namespace PI

/-- The names of the classes that are treated specially. -/
def Reserved (s : String) : Prop := s = "PrimaryHDU" ∨ s = "ndarray" ∨ s = "HDUList"

/-- A path is not called like one of the classes, and there is no file called like the class of the array. -/
def Plain (fs : String → Option FitsFile) : PyObj → Prop
  | .str s => ¬ Reserved s
  | .subarray c _ => ¬ Reserved c ∧ fs c = none
  | _ => True

/-- C152: `attached_to` is the path of an image given by its path, and the name of the class of any other. -/
theorem attached_to :
    (∀ s, (PyObj.str s).attachedTo = s) ∧ (∀ a, (PyObj.ndarray a).attachedTo = "ndarray") ∧
      (∀ c d, (PyObj.subarray c d).attachedTo = c) ∧ (∀ f, (PyObj.hduList f).attachedTo = "HDUList") ∧
      ∀ a g, (PyObj.primary a g).attachedTo = "PrimaryHDU" :=
  ⟨fun _ => rfl, fun _ => rfl, fun _ _ => rfl, fun _ => rfl, fun _ _ => rfl⟩

theorem guess_primary (fs : String → Option FitsFile) (o : CtorOpts) (x : PyObj) (d : MA) :
    guessByName fs o x d "PrimaryHDU" = invalidOfData x := if_pos rfl

theorem guess_ndarray (fs : String → Option FitsFile) (o : CtorOpts) (x : PyObj) (d : MA) :
    guessByName fs o x d "ndarray" = invalidOfImg x := by
  unfold guessByName
  rw [if_neg (by decide), if_pos rfl]

theorem guess_list (fs : String → Option FitsFile) (o : CtorOpts) (x : PyObj) (d : MA) :
    guessByName fs o x d "HDUList" = maskOfList fs o x d := by
  unfold guessByName
  rw [if_neg (by decide), if_neg (by decide), if_pos rfl]

theorem guess_other (fs : String → Option FitsFile) (o : CtorOpts) (x : PyObj) (d : MA) (s : String)
    (h : ¬ Reserved s) : guessByName fs o x d s = maskOfFile fs o s d := by
  unfold Reserved at h
  unfold guessByName
  rw [if_neg (fun e => h (Or.inl e)), if_neg (fun e => h (Or.inr (Or.inl e))), if_neg (fun e => h (Or.inr (Or.inr e)))]

theorem setData_other (o : CtorOpts) : ∃ e, setData o .other = .error e := by
  unfold setData gainOf
  cases o.gain with
  | none => exact ⟨_, rfl⟩
  | some g => exact ⟨_, rfl⟩

/-- C152: without a confusion of names, the result depends on the kind of the object and on what is in the file, not on
names: the construction that the other properties are about. -/
theorem by_name_plain (fs : String → Option FitsFile) (o : CtorOpts) (x : PyObj) (mask : MaskArg) (hx : Plain fs x) :
    constructByName fs o x mask = construct o (x.source fs) mask := by
  unfold constructByName construct
  cases hd : setData o (x.source fs) with
  | error e => rfl
  | ok d =>
    simp only [bind, Except.bind]
    have key : chooseByName fs o x mask d = chooseMask o (x.source fs) mask d := by
      cases mask with
      | file m => rfl
      | array m => rfl
      | other => rfl
      | absent =>
        unfold chooseByName chooseMask
        simp only
        by_cases hg : o.guess = true
        · rw [if_pos hg, if_pos hg]
          cases x with
          | ndarray a => exact guess_ndarray fs o _ d
          | hduList f => exact guess_list fs o _ d
          | primary a g => exact guess_primary fs o _ d
          | other c =>
            obtain ⟨e, he⟩ := setData_other o
            have hd' : setData o .other = .ok d := hd
            rw [he] at hd'
            cases hd'
          | str s =>
            refine (guess_other fs o (.str s) d s hx).trans ?_
            unfold maskOfFile PyObj.source
            simp only
            cases hf : fs s with
            | none =>
              have hd' : setData o (match fs s with | some f => Source.path f | none => Source.missing) = .ok d := hd
              rw [hf] at hd'
            | some f => rfl
          | subarray c m =>
            obtain ⟨h3, h4⟩ := (hx : ¬ Reserved c ∧ fs c = none)
            refine (guess_other fs o (.subarray c m) d c h3).trans ?_
            unfold maskOfFile
            rw [h4]
            rfl
        · rw [if_neg hg, if_neg hg]
    rw [key]

/-- C152: names only matter when no mask is given and masks are guessed. -/
theorem by_name_masked (fs : String → Option FitsFile) (o : CtorOpts) (x : PyObj) (mask : MaskArg)
    (h : mask ≠ .absent ∨ o.guess = false) : constructByName fs o x mask = construct o (x.source fs) mask := by
  unfold constructByName construct
  have key : ∀ d, chooseByName fs o x mask d = chooseMask o (x.source fs) mask d := by
    intro d
    cases mask with
    | file m => rfl
    | array m => rfl
    | other => rfl
    | absent =>
      rcases h with h | h
      · exact absurd rfl h
      · unfold chooseByName chooseMask
        simp only [h]
        rfl
  simp only [key]

/-- C152: a FITS file whose name is that of a class cannot be used without a mask: it is taken for an object of that
class, and the exception is that of a string being treated so. -/
theorem reserved_path (fs : String → Option FitsFile) (o : CtorOpts) (hg : o.guess = true) (s : String) (f : FitsFile)
    (hf : fs s = some f) (d : MA) (hd : setData o (.path f) = .ok d) (hr : Reserved s) :
    ∃ e, constructByName fs o (.str s) .absent = .error e ∧
      (s = "ndarray" → e = .TypeError) ∧ (s = "PrimaryHDU" → e = .AttributeError) ∧
      (s = "HDUList" → e = if f.extend.isSome then .AttributeError else .KeyError) := by
  have hs : (PyObj.str s).source fs = .path f := by
    unfold PyObj.source
    simp only
    rw [hf]
  unfold constructByName
  rw [hs, hd]
  simp only [bind, Except.bind]
  unfold chooseByName
  simp only
  rw [if_pos hg, show (PyObj.str s).attachedTo = s from rfl]
  rcases hr with rfl | rfl | rfl
  · rw [guess_primary]
    exact ⟨_, rfl, fun h => absurd h (by decide), fun _ => rfl, fun h => absurd h (by decide)⟩
  · rw [guess_ndarray]
    exact ⟨_, rfl, fun _ => rfl, fun h => absurd h (by decide), fun h => absurd h (by decide)⟩
  · rw [guess_list]
    unfold maskOfList
    simp only [hf, Option.bind_some]
    cases he : f.extend with
    | none => exact ⟨_, rfl, fun h => absurd h (by decide), fun h => absurd h (by decide), fun _ => rfl⟩
    | some b => exact ⟨_, rfl, fun h => absurd h (by decide), fun h => absurd h (by decide), fun _ => rfl⟩

/-- C152: a masked array (or any other subclass of ndarray) without a mask looks for a file with the name of its class;
if there is one with an extension, that extension replaces the mask of the array, and no invalid pixel is masked. -/
theorem file_named_like_class (fs : String → Option FitsFile) (o : CtorOpts) (hg : o.guess = true) (hb : o.borders = false)
    (c : String) (hc : ¬ Reserved c) (m : MA) (f : FitsFile) (hf : fs c = some f) (he : f.extend = some true)
    (k : Img ℚ) (hk : f.ext1 = some k) :
    constructByName fs o (.subarray c m) .absent =
      finishMask (((cropMA o.crop ⟨m.data, some m.maskArray⟩).scale (o.gain.getD 1)).setMask
        (some (thresholdMask (threshOf o) k))) := by
  have hd : setData o ((PyObj.subarray c m).source fs) =
      .ok ((cropMA o.crop ⟨m.data, some m.maskArray⟩).scale (o.gain.getD 1)) := by
    unfold setData
    simp only [PyObj.source, gainOf, loadData, hb, bind, Except.bind, pure, Except.pure]
    rfl
  unfold constructByName
  rw [hd]
  simp only [bind, Except.bind]
  unfold chooseByName
  simp only
  rw [if_pos hg, show (PyObj.subarray c m).attachedTo = c from rfl, guess_other _ _ _ _ _ hc]
  unfold maskOfFile
  rw [hf]
  simp only [he, hk]

/-- The hypotheses hold: a directory with one FITS file, called "ndarray" or "MaskedArray". -/
theorem named_example :
    let f : FitsFile := ⟨⟨2, 2, fun _ _ => .fin 1⟩, none, some true, some ⟨2, 2, fun i j => if i = 0 ∧ j = 0 then 20 else 0⟩⟩
    (∃ e, constructByName (fun s => if s = "ndarray" then some f else none) {} (.str "ndarray") .absent = .error e ∧
        e = .TypeError) ∧
      Plain (fun s => if s = "image.fits" then some f else none) (.str "image.fits") ∧
      (∀ m, Plain (fun s => if s = "image.fits" then some f else none) (.subarray "MaskedArray" m)) ∧
      ∃ d, setData {} (.path f) = .ok d := by
  intro f
  refine ⟨?_, ?_, fun m => ⟨?_, rfl⟩, ⟨_, rfl⟩⟩
  · obtain ⟨e, h1, h2, -⟩ := reserved_path (fun s => if s = "ndarray" then some f else none) {} rfl "ndarray" f rfl _ rfl
      (Or.inr (Or.inl rfl))
    exact ⟨e, h1, h2 rfl⟩
  · show ¬ Reserved _
    unfold Reserved
    decide
  · unfold Reserved
    decide

end PI
