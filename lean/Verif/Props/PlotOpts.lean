import Verif.Model.PlotOpts

/-!
# Options of the plots, and the plots of Gaussian PSFs (C147)
-/

namespace PI

/-! ## Dictionaries -/

theorem Opts.get_append (d : Opts) (k j : String) (v : OptVal) :
    Opts.get (d ++ [(k, v)]) j = (d.get j).or (if k = j then some v else none) := by
  unfold Opts.get
  rw [List.find?_append]
  by_cases h : k = j
  · subst h
    cases d.find? (fun e => e.1 == k) <;> simp
  · cases d.find? (fun e => e.1 == j) <;> simp [h]

/-- The value given stays, a missing one becomes the default, and no other key is touched. -/
theorem Opts.get_setDefault (d : Opts) (k j : String) (v : OptVal) :
    (d.setDefault k v).get j = if j = k then some ((d.get k).getD v) else d.get j := by
  unfold Opts.setDefault
  by_cases hs : (d.get k).isSome
  · rw [if_pos hs]
    by_cases hj : j = k
    · subst hj
      rw [if_pos rfl]
      obtain ⟨x, hx⟩ := Option.isSome_iff_exists.1 hs
      simp [hx]
    · rw [if_neg hj]
  · rw [if_neg hs, Opts.get_append]
    have hn : d.get k = none := by simpa using hs
    by_cases hj : j = k
    · subst hj
      simp [hn]
    · rw [if_neg hj, if_neg (fun e => hj e.symm)]
      simp

theorem kwAfter_ne (f : Opts → Opts) (d : Opts) (h : d ≠ []) : kwAfter f (some d) = some (f d) := by
  cases d with
  | nil => exact absurd rfl h
  | cons a l => rfl

/-! ## The image -/

/-- C147: `imshow` draws every pixel that is not masked, leaves the masked ones blank, has row 0 at the bottom unless the
caller says otherwise, leaves all other options alone, and changes the size of the figure exactly if no axes are given. -/
theorem plot_imshow (data : Img ℝ) (mask : NMask) (axGiven : Bool) (kwargs : Opts) :
    let out := plotImshow data mask axGiven kwargs
    out.1.drawing.h = data.h ∧ out.1.drawing.w = data.w ∧
    (∀ y x, out.1.drawing.px y x = none ↔ mask.marks y x = true) ∧
    (∀ y x v, out.1.drawing.px y x = some v → v = data.px y x) ∧
    out.1.opts.get "origin" = some ((kwargs.get "origin").getD (.str "lower")) ∧
    (∀ k, k ≠ "origin" → out.1.opts.get k = kwargs.get k) ∧
    out.1.title = "SingleImage (" ++ toString data.h ++ ", " ++ toString data.w ++ ")" ∧
    (axGiven = true → out.2 = none) ∧ (axGiven = false → out.2 = some (4, 4)) := by
  refine ⟨rfl, rfl, fun y x => ?_, fun y x v h => ?_, ?_, fun k hk => ?_, rfl, ?_, ?_⟩
  · simp only [plotImshow]
    by_cases h : mask.marks y x = true <;> simp [h]
  · simp only [plotImshow] at h
    by_cases hm : mask.marks y x = true
    · simp [hm] at h
    · simp only [hm] at h
      exact (Option.some.inj h).symm
  · simp only [plotImshow, Opts.get_setDefault, if_true]
  · simp only [plotImshow, Opts.get_setDefault, if_neg hk]
  · intro h
    simp [plotImshow, h]
  · intro h
    simp [plotImshow, h]

/-! ## Colour scales and bars -/

/-- C147: each coefficient field has its own colour scale, two clipped standard deviations about its clipped median, and each
end of it can be replaced by the caller; no other option is added. -/
theorem coef_colour_scale (kwargs : Opts) (values : List ℝ) :
    (coefShowOpts kwargs values).get "vmax" =
      some ((kwargs.get "vmax").getD (.num (clippedMedian values + 2 * clippedStd values))) ∧
    (coefShowOpts kwargs values).get "vmin" =
      some ((kwargs.get "vmin").getD (.num (clippedMedian values - 2 * clippedStd values))) ∧
    (∀ k, k ≠ "vmax" → k ≠ "vmin" → (coefShowOpts kwargs values).get k = kwargs.get k) := by
  have h1 : ("vmax" : String) ≠ "vmin" := by decide
  refine ⟨?_, ?_, fun k h2 h3 => ?_⟩
  · simp only [coefShowOpts, Opts.get_setDefault, if_neg h1, if_true]
  · simp only [coefShowOpts, Opts.get_setDefault, if_neg h1.symm, if_true]
  · simp only [coefShowOpts, Opts.get_setDefault, if_neg h2, if_neg h3]

/-- C147: the basis is drawn without interpolation unless the caller says otherwise. -/
theorem psf_interpolation (kwargs : Opts) (k : String) :
    (psfShowOpts kwargs).get k =
      if k = "interpolation" then some ((kwargs.get "interpolation").getD (.str "none")) else kwargs.get k := by
  unfold psfShowOpts
  rw [Opts.get_setDefault]

/-- C147: a dictionary that is not empty is changed by the call: it has the defaults afterwards. An empty one, or none, is
left as it is, although the bars are drawn with the same defaults. -/
theorem options_leak (d : Opts) (hd : d ≠ []) :
    kwAfter psfBarOpts (some d) = some (psfBarOpts d) ∧
    kwAfter psfBarOpts (some []) = some [] ∧ kwAfter psfBarOpts none = none ∧
    kwAfter coefBarOpts (some d) = some (coefBarOpts d) ∧
    kwAfter coefBarOpts (some []) = some [] ∧ kwAfter coefBarOpts none = none ∧
    psfBarOpts (kwOr (some [])) = psfBarOpts (kwOr none) :=
  ⟨kwAfter_ne _ d hd, rfl, rfl, kwAfter_ne _ d hd, rfl, rfl, rfl⟩

/-- C147: hence the length of the bars depends on which of the two plots was made first with a dictionary that is not empty
and has no `shrink`: the second plot has the length of the first. -/
theorem bars_depend_on_order (d : Opts) (hd : d ≠ []) (hs : d.get "shrink" = none) :
    (coefBarOpts d).get "shrink" = some (.num (75 / 100)) ∧
    (∀ d', kwAfter psfBarOpts (some d) = some d' → (coefBarOpts d').get "shrink" = some (.num (85 / 100))) ∧
    (psfBarOpts d).get "shrink" = some (.num (85 / 100)) ∧
    (∀ d', kwAfter coefBarOpts (some d) = some d' → (psfBarOpts d').get "shrink" = some (.num (75 / 100)) ∧
      (psfBarOpts d').get "aspect" = some ((d.get "aspect").getD (.num 30))) := by
  have h1 : ("shrink" : String) ≠ "aspect" := by decide
  have a : ∀ v, ((d.setDefault "shrink" v)).get "shrink" = some v := by
    intro v
    rw [Opts.get_setDefault, if_pos rfl, hs]
    rfl
  refine ⟨?_, fun d' h => ?_, a _, fun d' h => ⟨?_, ?_⟩⟩
  · simp only [coefBarOpts, Opts.get_setDefault, if_neg h1, if_true, hs, Option.getD_none]
  · rw [kwAfter_ne _ d hd] at h
    cases h
    simp only [coefBarOpts, psfBarOpts, Opts.get_setDefault, if_neg h1, if_true, hs, Option.getD_none, Option.getD_some]
  · rw [kwAfter_ne _ d hd] at h
    cases h
    simp only [coefBarOpts, psfBarOpts, Opts.get_setDefault, if_neg h1, if_true, hs, Option.getD_none, Option.getD_some]
  · rw [kwAfter_ne _ d hd] at h
    cases h
    simp only [coefBarOpts, psfBarOpts, Opts.get_setDefault, if_neg h1.symm, if_true]

/-! ## What is drawn -/

/-- C147: for a basis of arrays of one shape, the loop draws one panel per array and succeeds exactly if the plot without
partial results does (`autopsf`, C63). -/
theorem autopsfDrawn_arrays {K : Type} (basis : List (Img K)) (axs : AxsArg) (iso : Bool) (isoKw : Option String)
    (hs : ∀ a ∈ basis, ∀ b ∈ basis, a.h = b.h ∧ a.w = b.w) :
    (autopsf basis axs iso isoKw).map (fun _ => ()) = (autopsfDrawn (basis.map .image) axs iso).2 ∧
    (∀ l, autopsf basis axs iso isoKw = .ok l → (autopsfDrawn (basis.map .image) axs iso).1 = l) := by
  have key : ∀ (l : List (Img K)) (k : ℕ) (sh : ℕ × ℕ), (∀ a ∈ l, iso = true → a.w = sh.1 ∧ a.h = sh.2) →
      drawPsfs iso sh k (l.map .image) =
        ((l.zip (List.range' k l.length)).map fun p => ⟨p.2, p.1, if iso then some fixedIso else none⟩, .ok ()) := by
    intro l
    induction l with
    | nil => intro k sh _; rfl
    | cons a l ih =>
      intro k sh h
      have ih' := ih (k + 1) sh fun b hb => h b (List.mem_cons_of_mem _ hb)
      cases hi : iso with
      | false =>
        rw [hi] at ih'
        simp only [List.map_cons, drawPsfs, ih', List.length_cons, List.range'_succ, List.zip_cons_cons]
        rfl
      | true =>
        rw [hi] at ih'
        simp only [List.map_cons, drawPsfs, if_pos (h a (List.mem_cons_self ..) hi), ih', List.length_cons,
          List.range'_succ, List.zip_cons_cons]
        rfl
  unfold autopsf autopsfDrawn
  simp only [List.length_map]
  cases axesOf (autopsfGrid basis.length) axs with
  | error e => exact ⟨rfl, fun l h => by cases h⟩
  | ok size =>
    simp only [bind, Except.bind]
    by_cases hc : size < basis.length
    · simp only [checkAxes, if_pos hc]
      exact ⟨rfl, fun l h => by cases h⟩
    · simp only [checkAxes, if_neg hc]
      cases basis with
      | nil => exact ⟨rfl, fun l h => by cases h⟩
      | cons b l =>
        simp only [List.map_cons]
        by_cases hq : b.h = b.w ∨ iso = false
        · have h1 : ¬ ((iso && b.h != b.w) = true) := by
            rcases hq with h | h
            · simp [h]
            · simp [h]
          have hk := key (b :: l) 0 (b.h, b.w) (by
            intro a ha hi
            have hb : b.h = b.w := by
              rcases hq with h | h
              · exact h
              · rw [hi] at h; cases h
            have := hs a ha b (List.mem_cons_self ..)
            exact ⟨this.2.trans hb.symm, this.1.trans hb⟩)
          rw [List.map_cons] at hk
          have hz : (b :: l).zip (List.range size) = (b :: l).zip (List.range' 0 (b :: l).length) := by
            rw [List.range_eq_range']
            have : ∀ (l : List (Img K)) (k n m : ℕ), l.length ≤ n → l.length ≤ m →
                l.zip (List.range' k n) = l.zip (List.range' k m) := by
              intro l
              induction l with
              | nil => intros; simp
              | cons a l ih =>
                intro k n m hn hm
                obtain ⟨n, rfl⟩ : ∃ q, n = q + 1 := ⟨n - 1, by simp at hn; omega⟩
                obtain ⟨m, rfl⟩ : ∃ q, m = q + 1 := ⟨m - 1, by simp at hm; omega⟩
                simp only [List.range'_succ, List.zip_cons_cons]
                rw [ih (k + 1) n m (by simpa using hn) (by simpa using hm)]
            exact this _ _ _ _ (not_lt.1 hc) le_rfl
          simp only [if_neg h1, hk, hz]
          exact ⟨rfl, fun l' h => by cases h; rfl⟩
        · obtain ⟨hq1, hq2⟩ := not_or.1 hq
          have hi : iso = true := by simpa using hq2
          subst hi
          have h1 : ((true && b.h != b.w) = true) := by simpa using hq1
          simp only [if_pos h1, drawPsfs, if_true]
          rw [if_neg (fun h => hq1 h.2)]
          exact ⟨rfl, fun l' h => by cases h⟩

/-- C147: the PSF of an image with a Gaussian PSF cannot be plotted. The list has two elements, and the second, the astropy
model, is refused after the first has been drawn; nothing is drawn if there are not two axes. -/
theorem gauss_autopsf_fails {K : Type} (render : Img K) (axs : AxsArg) (iso : Bool) :
    (∃ e, (autopsfDrawn [.image render, .model] axs iso).2 = .error e) ∧
    (∀ n, axs = .array n → 2 ≤ n → iso = false →
      autopsfDrawn [.image render, .model] axs iso = ([⟨0, render, none⟩], .error .TypeError)) ∧
    (∀ n, axs = .array n → n < 2 →
      autopsfDrawn [.image render, .model] axs iso = ([], .error .ValueError)) := by
  refine ⟨?_, ?_, ?_⟩
  · unfold autopsfDrawn
    cases axesOf (autopsfGrid [PsfElem.image render, .model].length) axs with
    | error e => exact ⟨e, rfl⟩
    | ok size =>
      simp only []
      cases checkAxes [PsfElem.image render, .model].length axs size with
      | error e => exact ⟨e, rfl⟩
      | ok _ =>
        simp only [drawPsfs]
        split
        · split
          · exact ⟨_, rfl⟩
          · exact ⟨_, rfl⟩
        · exact ⟨_, rfl⟩
  · rintro n rfl hn rfl
    simp only [autopsfDrawn, axesOf, checkAxes, List.length_cons, List.length_nil]
    rw [if_neg (by omega)]
    rfl
  · rintro n rfl hn
    simp only [autopsfDrawn, axesOf, checkAxes, List.length_cons, List.length_nil]
    rw [if_pos (by omega)]
    rfl

/-- C147: contours of a PSF that is not square: with enough axes the PSF is drawn, without contours, and TypeError is
raised; nothing else is drawn. -/
theorem contours_square_only {K : Type} (a : Img K) (rest : List (PsfElem K)) (n : ℕ) (hn : rest.length + 1 ≤ n)
    (ha : a.h ≠ a.w) :
    autopsfDrawn (.image a :: rest) (.array n) true = ([⟨0, a, none⟩], .error .TypeError) := by
  simp only [autopsfDrawn, axesOf, checkAxes, List.length_cons]
  rw [if_neg (by omega)]
  simp only [drawPsfs, if_true]
  rw [if_neg (by omega)]

/-- One dictionary for two plots: bars of length 0.85 and, for the coefficients, 0.85 instead of 0.75. -/
example : kwAfter psfBarOpts (some [("label", .str "counts")]) =
      some [("label", .str "counts"), ("shrink", .num (85 / 100))] ∧
    coefBarOpts [("label", .str "counts"), ("shrink", .num (85 / 100))] =
      [("label", .str "counts"), ("shrink", .num (85 / 100)), ("aspect", .num 30)] := by
  refine ⟨rfl, rfl⟩

/-- An image of two pixels, one of them masked, drawn with an option of the caller. -/
example :
    let out := plotImshow ⟨1, 2, fun _ x => x⟩ (some ⟨1, 2, fun _ x => x == 1⟩) false [("cmap", .str "gray")]
    out.1.drawing.px 0 0 = some ((0 : ℕ) : ℝ) ∧ out.1.drawing.px 0 1 = none ∧
    out.1.opts = [("cmap", .str "gray"), ("origin", .str "lower")] ∧ out.2 = some (4, 4) :=
  ⟨rfl, rfl, rfl, rfl⟩

end PI
