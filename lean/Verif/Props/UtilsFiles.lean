import Verif.Model.Utils
import Mathlib.Data.List.DropRight
import Mathlib.Tactic.NormNum

/-!
# Storing images and aligned file names (C76, C77)
-/

namespace PI

/-! ## store_img -/

/-- The element types that a FITS image can have. -/
def DType.real (d : DType) : Prop := d = .int ∨ d = .float32 ∨ d = .float64

/-- The array is stored: it has pixels; its type is real, or complex128 with a first pixel that is not masked; and
the mask of a masked array is an array. -/
def Storable (a : StoreArr) : Prop :=
  a.px.h ≠ 0 ∧ a.px.w ≠ 0 ∧ (a.dtype.real ∨ a.dtype = .complex128 ∧ ∀ m, a.mask = some m → m.marks 0 0 = false) ∧
    a.mask ≠ some none

theorem firstIsComplex_iff (a : StoreArr) :
    firstIsComplex a = true ↔ a.dtype = .complex128 ∧ ∀ m, a.mask = some m → m.marks 0 0 = false := by
  unfold firstIsComplex
  cases h : a.mask with
  | none => simp
  | some m => simp

theorem storeHDU_ok (f32 : ℚ → ℚ) (a : StoreArr) (h : Storable a) :
    ∃ r, storeHDU f32 a = .ok r ∧ r.data.px.h = a.px.h ∧ r.data.px.w = a.px.w ∧
      ((a.mask = none ∧ r.mask = none ∧ (∀ i j, r.data.px.px i j = (a.px.px i j).1) ∧
          r.data.dtype = (if a.dtype = .complex128 then .float64 else a.dtype)) ∨
        ∃ m, a.mask = some (some m) ∧ r.data.dtype = .float32 ∧ (∀ i j, r.data.px.px i j = f32 (a.px.px i j).1) ∧
          ∃ mm, r.mask = some mm ∧ mm.h = m.h ∧ mm.w = m.w ∧ ∀ i j, mm.px i j = if m.px i j then 1 else 0) := by
  obtain ⟨h1, h2, h3, h4⟩ := h
  unfold storeHDU
  rw [if_neg (by omega)]
  simp only []
  by_cases hc : firstIsComplex a = true
  · rw [if_pos hc]
    have hd := ((firstIsComplex_iff a).mp hc).1
    cases hm : a.mask with
    | none =>
      refine ⟨⟨⟨.float64, _⟩, none⟩, rfl, rfl, rfl, .inl ⟨rfl, rfl, fun i j => rfl, by rw [if_pos hd]⟩⟩
    | some m =>
      cases m with
      | none => exact absurd hm h4
      | some mm =>
        refine ⟨_, rfl, rfl, rfl, .inr ⟨mm, rfl, rfl, fun i j => rfl, _, rfl, rfl, rfl, fun i j => rfl⟩⟩
  · rw [if_neg hc]
    have hr : a.dtype.real := by
      rcases h3 with h | h
      · exact h
      · exact absurd ((firstIsComplex_iff a).mpr h) hc
    have hp : primaryHDU a = .ok ⟨a.dtype, a.px.map Prod.fst⟩ := by
      unfold primaryHDU
      rcases hr with e | e | e <;> rw [e]
    have hne : a.dtype ≠ .complex128 := by rcases hr with e | e | e <;> rw [e] <;> decide
    cases hm : a.mask with
    | none =>
      refine ⟨⟨⟨a.dtype, a.px.map Prod.fst⟩, none⟩, by simp only [hp]; rfl, rfl, rfl,
        .inl ⟨rfl, rfl, fun i j => rfl, by rw [if_neg hne]⟩⟩
    | some m =>
      cases m with
      | none => exact absurd hm h4
      | some mm =>
        refine ⟨⟨⟨.float32, (a.px.map Prod.fst).map f32⟩, some (mm.map fun x => if x then 1 else 0)⟩,
          by simp only [hp]; rfl, rfl, rfl, .inr ⟨mm, rfl, rfl, fun i j => rfl, _, rfl, rfl, rfl, fun i j => rfl⟩⟩

theorem storeHDU_err (f32 : ℚ → ℚ) (a : StoreArr) (h : ¬ Storable a) :
    ((a.px.h = 0 ∨ a.px.w = 0) ∧ storeHDU f32 a = .error .IndexError) ∨
    ((a.px.h ≠ 0 ∧ a.px.w ≠ 0) ∧
      (a.dtype.real ∨ a.dtype = .complex128 ∧ ∀ m, a.mask = some m → m.marks 0 0 = false) ∧
      storeHDU f32 a = .error .TypeError) ∨
    ((a.px.h ≠ 0 ∧ a.px.w ≠ 0) ∧
      ¬ (a.dtype.real ∨ a.dtype = .complex128 ∧ ∀ m, a.mask = some m → m.marks 0 0 = false) ∧
      storeHDU f32 a = .error .KeyError) := by
  unfold storeHDU
  by_cases h0 : a.px.h = 0 ∨ a.px.w = 0
  · rw [if_pos h0]; exact .inl ⟨h0, rfl⟩
  · rw [if_neg h0]
    have h0' : a.px.h ≠ 0 ∧ a.px.w ≠ 0 := by omega
    simp only []
    by_cases h3 : a.dtype.real ∨ a.dtype = .complex128 ∧ ∀ m, a.mask = some m → m.marks 0 0 = false
    · refine .inr (.inl ⟨h0', h3, ?_⟩)
      have hm : a.mask = some none := by
        by_contra hc
        exact h ⟨by omega, by omega, h3, hc⟩
      by_cases hc : firstIsComplex a = true
      · rw [if_pos hc]; simp only [hm]; rfl
      · rw [if_neg hc]
        have hr : a.dtype.real := by
          rcases h3 with h | h
          · exact h
          · exact absurd ((firstIsComplex_iff a).mpr h) hc
        have hp : primaryHDU a = .ok ⟨a.dtype, a.px.map Prod.fst⟩ := by
          unfold primaryHDU
          rcases hr with e | e | e <;> rw [e]
        simp only [hm, hp]; rfl
    · refine .inr (.inr ⟨h0', h3, ?_⟩)
      have hc : ¬ firstIsComplex a = true := fun e => h3 (.inr ((firstIsComplex_iff a).mp e))
      rw [if_neg hc]
      have hp : primaryHDU a = .error .KeyError := by
        unfold primaryHDU
        cases hd : a.dtype with
        | int => exact absurd (.inl (.inl hd)) h3
        | float32 => exact absurd (.inl (.inr (.inl hd))) h3
        | float64 => exact absurd (.inl (.inr (.inr hd))) h3
        | bool => rfl
        | complex64 => rfl
        | complex128 => rfl
      cases a.mask <;> simp only [hp] <;> rfl

/-- C76: `store_img` succeeds exactly on storable arrays. It returns the HDU if no path is given, and otherwise returns
nothing and writes the one file. -/
theorem store_img_spec (f32 : ℚ → ℚ) (a : StoreArr) (path : Option String) :
    (Storable a → ∃ r, storeHDU f32 a = .ok r ∧ storeImg f32 a path =
      .ok (if path.isNone then some r else none, match path with | some p => [(p, r)] | none => [])) ∧
    (¬ Storable a → ∃ e, storeHDU f32 a = .error e ∧ storeImg f32 a path = .error e) := by
  constructor
  · intro h
    obtain ⟨r, hr, -⟩ := storeHDU_ok f32 a h
    refine ⟨r, hr, ?_⟩
    unfold storeImg
    rw [hr]
    cases path <;> rfl
  · intro h
    have key : ∀ e, storeHDU f32 a = .error e → ∃ e, storeHDU f32 a = .error e ∧ storeImg f32 a path = .error e := by
      intro e he
      refine ⟨e, he, ?_⟩
      unfold storeImg
      rw [he]
      rfl
    rcases storeHDU_err f32 a h with ⟨-, h⟩ | ⟨-, -, h⟩ | ⟨-, -, h⟩ <;> exact key _ h

/-- C76: consequences. A complex64 array and a boolean array are refused, a complex128 masked array is refused when just
its first pixel is masked, and a masked array without mask array is refused. -/
theorem store_img_refused (f32 : ℚ → ℚ) (a : StoreArr) (path : Option String) (h1 : a.px.h ≠ 0) (h2 : a.px.w ≠ 0) :
    (a.dtype = .complex64 ∨ a.dtype = .bool → storeImg f32 a path = .error .KeyError) ∧
    (∀ m, a.dtype = .complex128 → a.mask = some m → m.marks 0 0 = true → storeImg f32 a path = .error .KeyError) ∧
    (a.dtype.real → a.mask = some none → storeImg f32 a path = .error .TypeError) := by
  have key : ∀ e, storeHDU f32 a = .error e → storeImg f32 a path = .error e := by
    intro e he; unfold storeImg; rw [he]; rfl
  refine ⟨fun h => key _ ?_, fun m h3 h4 h5 => key _ ?_, fun h3 h4 => key _ ?_⟩
  · have hno : ¬ (a.dtype.real ∨ a.dtype = .complex128 ∧ ∀ m, a.mask = some m → m.marks 0 0 = false) := by
      rcases h with h | h <;> rw [h] <;> simp [DType.real]
    rcases storeHDU_err f32 a (fun hs => hno hs.2.2.1) with ⟨h, -⟩ | ⟨-, h, -⟩ | ⟨-, -, h⟩
    · omega
    · exact absurd h hno
    · exact h
  · have hno : ¬ (a.dtype.real ∨ a.dtype = .complex128 ∧ ∀ m, a.mask = some m → m.marks 0 0 = false) := by
      rintro (h | h)
      · rw [h3] at h; simp [DType.real] at h
      · have := h.2 m h4; rw [h5] at this; cases this
    rcases storeHDU_err f32 a (fun hs => hno hs.2.2.1) with ⟨h, -⟩ | ⟨-, h, -⟩ | ⟨-, -, h⟩
    · omega
    · exact absurd h hno
    · exact h
  · rcases storeHDU_err f32 a (fun hs => hs.2.2.2 h4) with ⟨h, -⟩ | ⟨-, -, h⟩ | ⟨-, h, -⟩
    · omega
    · exact h
    · exact absurd (.inl h3) h

/-- A complex masked array: stored with its first pixel valid, refused with its first pixel masked. -/
example (f32 : ℚ → ℚ) :
    Storable ⟨.complex128, ⟨1, 2, fun _ _ => (1, 1)⟩, some (some ⟨1, 2, fun _ j => decide (j = 1)⟩)⟩ ∧
    storeImg f32 ⟨.complex128, ⟨1, 2, fun _ _ => (1, 1)⟩, some (some ⟨1, 2, fun _ j => decide (j = 0)⟩)⟩ none =
      .error .KeyError := by
  refine ⟨⟨by decide, by decide, .inr ⟨rfl, ?_⟩, by simp⟩, ?_⟩
  · intro m hm; cases hm; rfl
  · exact (store_img_refused f32 _ none (by decide) (by decide)).2.1 _ rfl rfl rfl

/-! ## _align_for_diff -/

theorem head_base (p : List Char) : headPart p ++ baseName p = p := by
  unfold headPart baseName
  rw [← List.reverse_append, List.takeWhile_append_dropWhile, List.reverse_reverse]

theorem base_no_slash (p : List Char) : '/' ∉ baseName p := by
  unfold baseName
  rw [List.mem_reverse]
  intro h
  have := List.mem_takeWhile_imp h
  simp at this

/-- After a text that is empty or ends in a slash comes the base name. -/
theorem base_append (a b : List Char) (ha : a = [] ∨ a.getLast? = some '/') (hb : '/' ∉ b) :
    baseName (a ++ b) = b ∧ headPart (a ++ b) = a := by
  have hall : ∀ x ∈ b.reverse, decide (x ≠ '/') = true := by
    intro x hx
    rw [decide_eq_true_eq]
    rintro rfl
    exact hb (List.mem_reverse.mp hx)
  have hstop : a.reverse = [] ∨ ∃ l, a.reverse = '/' :: l := by
    rcases ha with rfl | h
    · exact .inl rfl
    · right
      rw [← List.head?_reverse] at h
      cases hr : a.reverse with
      | nil => rw [hr] at h; cases h
      | cons c l => rw [hr] at h; cases h; exact ⟨l, rfl⟩
  have t : (a.reverse).takeWhile (fun c => decide (c ≠ '/')) = [] ∧
      (a.reverse).dropWhile (fun c => decide (c ≠ '/')) = a.reverse := by
    rcases hstop with h | ⟨l, h⟩ <;> rw [h] <;> simp
  unfold baseName headPart
  rw [List.reverse_append]
  constructor
  · rw [List.takeWhile_append_of_pos hall, t.1, List.append_nil, List.reverse_reverse]
  · rw [List.dropWhile_append_of_pos hall, t.2, List.reverse_reverse]

/-- A directory name: slashes only (or nothing), or it does not end in a slash. -/
theorem dir_cases (p : List Char) :
    (dirName p).all (· = '/') = true ∨ (dirName p ≠ [] ∧ (dirName p).getLast? ≠ some '/') := by
  unfold dirName
  simp only []
  by_cases h : (headPart p).all (· = '/') = true
  · rw [if_pos h]; exact .inl h
  · rw [if_neg h]
    right
    have hex : ∃ c ∈ (headPart p).reverse, ¬ (decide (c = '/') = true) := by
      rw [List.all_eq_true] at h
      push Not at h
      obtain ⟨c, hc, h'⟩ := h
      exact ⟨c, List.mem_reverse.mpr hc, h'⟩
    have hne : (headPart p).reverse.dropWhile (· = '/') ≠ [] := by
      intro e
      rw [List.dropWhile_eq_nil_iff] at e
      obtain ⟨c, hc, h'⟩ := hex
      exact h' (e c hc)
    refine ⟨by simpa using hne, ?_⟩
    rw [List.getLast?_reverse]
    cases hd : (headPart p).reverse.dropWhile (· = '/') with
    | nil => exact absurd hd hne
    | cons c l =>
      have := List.head_dropWhile_not (fun c : Char => decide (c = '/')) hne
      simp only [hd, List.head_cons, decide_eq_false_iff_not] at this
      simpa using this

theorem aligned_no_slash (p : List Char) : '/' ∉ "aligned_".toList ++ baseName p := by
  rw [List.mem_append, not_or]
  exact ⟨by decide, base_no_slash p⟩

theorem dest_eq (p : List Char) : ∃ d, destFile p = d ++ ("aligned_".toList ++ baseName p) ∧
    (d = [] ∨ d.getLast? = some '/') ∧ ((dirName p).all (· = '/') = true ∧ d = dirName p ∨
      (dirName p ≠ [] ∧ (dirName p).getLast? ≠ some '/') ∧ d = dirName p ++ ['/']) := by
  unfold destFile joinPath
  have h1 : ("aligned_".toList ++ baseName p).head? ≠ some '/' := by
    show some 'a' ≠ some '/'
    decide
  rw [if_neg h1]
  rcases dir_cases p with h | ⟨h2, h3⟩
  · have hd : dirName p = [] ∨ (dirName p).getLast? = some '/' := by
      cases hl : (dirName p).getLast? with
      | none => exact .inl (List.getLast?_eq_none_iff.mp hl)
      | some c =>
        right
        have := List.all_eq_true.mp h c (List.mem_of_getLast? hl)
        rw [decide_eq_true_eq] at this
        rw [this]
    rw [if_pos hd]
    exact ⟨_, rfl, hd, .inl ⟨h, rfl⟩⟩
  · rw [if_neg (by rintro (h | h) <;> [exact h2 h; exact h3 h])]
    refine ⟨dirName p ++ ['/'], by simp, .inr (by simp), .inr ⟨⟨h2, h3⟩, rfl⟩⟩

/-- C77: the destination has the name `aligned_` + the base name of the new image, in the same directory. -/
theorem dest_name (p : List Char) :
    baseName (destFile p) = "aligned_".toList ++ baseName p ∧ dirName (destFile p) = dirName p := by
  obtain ⟨d, hd, hend, hcase⟩ := dest_eq p
  obtain ⟨h1, h2⟩ := base_append d _ hend (aligned_no_slash p)
  rw [hd]
  refine ⟨h1, ?_⟩
  conv_lhs => unfold dirName
  simp only []
  rw [h2]
  rcases hcase with ⟨ha, rfl⟩ | ⟨⟨hn, hl⟩, rfl⟩
  · rw [if_pos ha]
  · have : ¬ (dirName p ++ ['/']).all (· = '/') = true := by
      intro hall
      rw [List.all_eq_true] at hall
      cases hg : (dirName p).getLast? with
      | none => exact hn (List.getLast?_eq_none_iff.mp hg)
      | some c =>
        have := hall c (List.mem_append_left _ (List.mem_of_getLast? hg))
        rw [decide_eq_true_eq] at this
        rw [this] at hg
        exact hl hg
    rw [if_neg this, List.reverse_append]
    have hr : (dirName p).reverse.dropWhile (fun c => decide (c = '/')) = (dirName p).reverse := by
      cases hg : (dirName p).reverse with
      | nil => rfl
      | cons c l =>
        have hc : c ≠ '/' := by
          rintro rfl
          apply hl
          rw [← List.head?_reverse, hg]; rfl
        simp [hc]
    simp [hr]

/-- C77: it is never the new image itself. -/
theorem dest_ne (p : List Char) : destFile p ≠ p := by
  intro h
  have h1 := (dest_name p).1
  rw [h] at h1
  have := congrArg List.length h1
  simp at this
  omega

/-- C77: new images with different names, or with different directories, have different destinations. -/
theorem dest_inj (p q : List Char) (h : destFile p = destFile q) : baseName p = baseName q ∧ dirName p = dirName q := by
  have hp := dest_name p
  have hq := dest_name q
  rw [h] at hp
  exact ⟨List.append_cancel_left (hp.1.symm.trans hq.1), hp.2.symm.trans hq.2⟩

/-- A path with doubled slashes. -/
example : destFile "/data//night/img.fits".toList = "/data//night/aligned_img.fits".toList ∧
    destFile "img.fits".toList = "aligned_img.fits".toList ∧ destFile "//img".toList = "//aligned_img".toList ∧
    destFile "a//b".toList = "a/aligned_b".toList := by decide

end PI
