import Verif.Props.UtilsFiles
import Verif.Model.AlignDiff

/-!
# What `_align_for_diff` writes (C77, C146)
-/

namespace PI

variable {H : Type} (reg : MA → MA → Py RegRes) (median : MA → FVal) (note : H → List Char → List Char → H)
  (refpath newpath : List Char) (newmask : Option (List Char)) (fs : List Char → Option (HduFile H))

theorem alignForDiff_error {e : PyErr} (h : alignedFile reg median note refpath newpath newmask fs = .error e) :
    alignForDiff reg median note refpath newpath newmask fs = (.error e, fs) := by
  unfold alignForDiff; rw [h]

theorem alignForDiff_ok {c : HduFile H} (h : alignedFile reg median note refpath newpath newmask fs = .ok c) :
    alignForDiff reg median note refpath newpath newmask fs =
      (.ok (destFile newpath), fun f => if f = destFile newpath then some c else fs f) := by
  unfold alignForDiff; rw [h]

/-- C77: a call changes no file except the destination, and in particular not the new image; if it raises it
changes none. -/
theorem align_for_diff_frame :
    let out := alignForDiff reg median note refpath newpath newmask fs
    (∀ f, f ≠ destFile newpath → out.2 f = fs f) ∧ out.2 newpath = fs newpath ∧
    ((∃ e, out.1 = .error e) → out.2 = fs) ∧ (∀ d, out.1 = .ok d → d = destFile newpath ∧ (out.2 d).isSome) := by
  cases h : alignedFile reg median note refpath newpath newmask fs with
  | error e =>
    rw [alignForDiff_error reg median note refpath newpath newmask fs h]
    exact ⟨fun _ _ => rfl, rfl, fun _ => rfl, fun d h => by cases h⟩
  | ok c =>
    rw [alignForDiff_ok reg median note refpath newpath newmask fs h]
    refine ⟨fun f hf => if_neg hf, if_neg (dest_ne newpath).symm, fun ⟨e, h⟩ => (by cases h), fun d h => ?_⟩
    cases h
    exact ⟨rfl, by simp⟩

/-- What a file needs to be read, and what the registration sees. -/
theorem alignedFile_of {r n : HduFile H} {new : MA} (hr : fs refpath = some r) (hn : fs newpath = some n)
    (hnew : readNew fs newmask n = .ok new) :
    alignedFile reg median note refpath newpath newmask fs =
      (registerTwice reg median (maskedInvalid r.data) new).bind (fileOf (note n.hdr newpath refpath)) := by
  unfold alignedFile
  rw [hr, hn]
  simp only [Option.elim, bind, Except.bind, hnew]

theorem alignedFile_cases :
    alignedFile reg median note refpath newpath newmask fs = .error .OSError ∨
    (∃ e n, fs newpath = some n ∧ readNew fs newmask n = .error e ∧
      alignedFile reg median note refpath newpath newmask fs = .error e) ∨
    ∃ r n new, fs refpath = some r ∧ fs newpath = some n ∧ readNew fs newmask n = .ok new := by
  cases hr : fs refpath with
  | none => left; unfold alignedFile; rw [hr]; rfl
  | some r =>
    cases hn : fs newpath with
    | none => left; unfold alignedFile; rw [hr, hn]; rfl
    | some n =>
      cases hnew : readNew fs newmask n with
      | error e =>
        refine .inr (.inl ⟨e, n, rfl, hnew, ?_⟩)
        unfold alignedFile
        rw [hr, hn]
        simp only [Option.elim, bind, Except.bind, hnew]
      | ok new => exact .inr (.inr ⟨r, n, new, rfl, rfl, hnew⟩)

theorem registerTwice_prop (P : RegRes → Prop) (ref new : MA) (h : ∀ t x, reg ref t = .ok x → P x) {x : RegRes}
    (hx : registerTwice reg median ref new = .ok x) : P x := by
  unfold registerTwice at hx
  split at hx
  · exact h _ x hx
  · exact h _ x hx

/-- C77: with a `register` that returns a pair, as the one `_align_for_coadd` needs, every call fails. -/
theorem align_for_diff_pair (h : ∀ s t x, reg s t = .ok x → ∃ a m, x = .pair a m) :
    ∃ e, alignForDiff reg median note refpath newpath newmask fs = (.error e, fs) := by
  suffices h' : ∃ e, alignedFile reg median note refpath newpath newmask fs = .error e by
    obtain ⟨e, he⟩ := h'
    exact ⟨e, alignForDiff_error reg median note refpath newpath newmask fs he⟩
  rcases alignedFile_cases reg median note refpath newpath newmask fs with h1 | ⟨e, n, -, -, h1⟩ | ⟨r, n, new, hr, hn, hnew⟩
  · exact ⟨_, h1⟩
  · exact ⟨_, h1⟩
  · rw [alignedFile_of reg median note refpath newpath newmask fs hr hn hnew]
    cases hx : registerTwice reg median (maskedInvalid r.data) new with
    | error e => exact ⟨e, rfl⟩
    | ok x =>
      obtain ⟨a, m, rfl⟩ := registerTwice_prop reg median _ _ new (h (maskedInvalid r.data)) hx
      exact ⟨.KeyError, rfl⟩

/-- C77: the reference can be overwritten: aligning `d/x` to the reference `d/aligned_x` replaces the reference. -/
theorem align_for_diff_overwrites_ref (a b : HduFile H) (c : Img FVal) :
    let fs : List Char → Option (HduFile H) := fun f =>
      if f = "d/aligned_x".toList then some a else if f = "d/x".toList then some b else none
    alignForDiff (fun _ _ => .ok (.array c)) median note "d/aligned_x".toList "d/x".toList none fs =
      (.ok "d/aligned_x".toList, fun f => if f = "d/aligned_x".toList then
        some ⟨c, note b.hdr "d/x".toList "d/aligned_x".toList, none⟩ else fs f) := by
  have hd : destFile "d/x".toList = "d/aligned_x".toList := by decide
  intro fs
  have h1 : fs "d/aligned_x".toList = some a := rfl
  have h2 : fs "d/x".toList = some b := rfl
  have := alignForDiff_ok (fun _ _ => .ok (.array c)) median note "d/aligned_x".toList "d/x".toList none fs
    (alignedFile_of (fun _ _ => .ok (.array c)) median note "d/aligned_x".toList "d/x".toList none fs h1 h2 rfl)
  rw [hd] at this
  exact this

/-! ## Which image is written -/

/-- A `register` that works as astroalign does: it looks for a transformation between the two images and resamples the
*source* with it to the frame of the target. `find` may fail; `warp` has the source's pixels and the frame's size only. -/
def resampling {G : Type} (find : MA → MA → Py G) (warp : G → Img FVal → ℕ × ℕ → Img FVal) (s t : MA) : Py RegRes :=
  (find s t).map fun g => .array (warp g s.data t.data.shape)

theorem filledArr_shape (x : MA) (v : FVal) : (x.filledArr v).data.shape = x.data.shape := rfl

theorem readNew_shape {n : HduFile H} {new : MA} (h : readNew fs newmask n = .ok new) : new.data = n.data := by
  unfold readNew at h
  split at h
  · cases h; rfl
  · split at h
    · cases h
    · unfold maskedArray at h
      split at h
      · cases h; rfl
      · split at h
        · cases h; rfl
        · split at h
          · cases h; rfl
          · cases h

/-- C146: whatever was found between the images, the file written holds the *reference*, resampled to the size of the new
image; its header is the one of the new image with a comment that says the opposite. The pixels of the new image are in no
file. -/
theorem align_for_diff_writes_reference {G : Type} (find : MA → MA → Py G) (warp : G → Img FVal → ℕ × ℕ → Img FVal)
    {d : List Char} (h : (alignForDiff (resampling find warp) median note refpath newpath newmask fs).1 = .ok d) :
    ∃ r n g, fs refpath = some r ∧ fs newpath = some n ∧
      (alignForDiff (resampling find warp) median note refpath newpath newmask fs).2 d =
        some ⟨warp g r.data n.data.shape, note n.hdr newpath refpath, none⟩ := by
  rcases alignedFile_cases (resampling find warp) median note refpath newpath newmask fs with
    h1 | ⟨e, n, -, -, h1⟩ | ⟨r, n, new, hr, hn, hnew⟩
  · rw [alignForDiff_error _ median note refpath newpath newmask fs h1] at h; cases h
  · rw [alignForDiff_error _ median note refpath newpath newmask fs h1] at h; cases h
  · have h1 := alignedFile_of (resampling find warp) median note refpath newpath newmask fs hr hn hnew
    cases hx : registerTwice (resampling find warp) median (maskedInvalid r.data) new with
    | error e =>
      rw [hx] at h1
      rw [alignForDiff_error _ median note refpath newpath newmask fs h1] at h; cases h
    | ok x =>
      have : ∃ g, x = .array (warp g r.data n.data.shape) := by
        have hs := readNew_shape newmask fs hnew
        have key : ∀ t : MA, t.data.shape = n.data.shape → resampling find warp (maskedInvalid r.data) t = .ok x →
            ∃ g, x = .array (warp g r.data n.data.shape) := by
          intro t ht hx
          unfold resampling at hx
          cases hf : find (maskedInvalid r.data) t with
          | error e => rw [hf] at hx; cases hx
          | ok g =>
            rw [hf] at hx
            refine ⟨g, ?_⟩
            have := Except.ok.inj hx
            rw [← this, ht]
            rfl
        unfold registerTwice at hx
        split at hx
        · exact key new (by rw [hs]) hx
        · exact key _ (by rw [filledArr_shape, hs]) hx
      obtain ⟨g, rfl⟩ := this
      rw [hx] at h1
      have h2 := alignForDiff_ok _ median note refpath newpath newmask fs h1
      rw [h2] at h ⊢
      cases h
      exact ⟨r, n, g, hr, hn, if_pos rfl⟩

/-- C146: so two new images of one size that need the same transformation give files with the same pixels, however much
they differ in what they show. -/
theorem align_for_diff_forgets_new {G : Type} (g : G) (warp : G → Img FVal → ℕ × ℕ → Img FVal) (r n n' : HduFile H)
    (hr : fs refpath = some r) (hn : fs newpath = some n) (hs : n'.data.shape = n.data.shape)
    (href : refpath ≠ newpath) :
    let fs' : List Char → Option (HduFile H) := fun f => if f = newpath then some n' else fs f
    let out := alignForDiff (resampling (fun _ _ => .ok g) warp) median note refpath newpath none fs
    let out' := alignForDiff (resampling (fun _ _ => .ok g) warp) median note refpath newpath none fs'
    out.1 = .ok (destFile newpath) ∧ out'.1 = .ok (destFile newpath) ∧
    (out.2 (destFile newpath)).map (·.data) = some (warp g r.data n.data.shape) ∧
    (out'.2 (destFile newpath)).map (·.data) = some (warp g r.data n.data.shape) := by
  intro fs' out out'
  have h1 := alignForDiff_ok _ median note refpath newpath none fs
    (alignedFile_of (resampling (fun _ _ => .ok g) warp) median note refpath newpath none fs hr hn rfl)
  have hr' : fs' refpath = some r := (if_neg href).trans hr
  have hn' : fs' newpath = some n' := if_pos rfl
  have h2 := alignForDiff_ok _ median note refpath newpath none fs'
    (alignedFile_of (resampling (fun _ _ => .ok g) warp) median note refpath newpath none fs' hr' hn' rfl)
  refine ⟨congrArg Prod.fst h1, congrArg Prod.fst h2, ?_, ?_⟩
  · rw [show out = _ from h1]
    simp only [if_true, Option.map_some]
    rfl
  · rw [show out' = _ from h2]
    simp only [if_true, Option.map_some]
    rw [← hs]
    rfl

/-- C146: with images that are aligned already (`register` returns the source), the file is a copy of the reference. -/
theorem align_for_diff_aligned (r n : HduFile H) (hr : fs refpath = some r) (hn : fs newpath = some n) :
    (alignForDiff (fun s _ => .ok (.array s.data)) median note refpath newpath none fs).2 (destFile newpath) =
      some ⟨r.data, note n.hdr newpath refpath, none⟩ := by
  have h1 := alignForDiff_ok _ median note refpath newpath none fs
    (alignedFile_of (fun s _ => .ok (.array s.data)) median note refpath newpath none fs hr hn rfl)
  rw [h1]
  exact if_pos rfl

/-- C146: a mask file is refused (MaskError) exactly if it has neither one pixel nor as many as the image; a mask of another
shape with as many pixels is reshaped silently. -/
theorem align_for_diff_mask_error {r n m : HduFile H} {p : List Char} (hr : fs refpath = some r)
    (hn : fs newpath = some n) (hm : fs p = some m) :
    (readNew fs (some p) n = .error .MaskError ↔
      m.data.h * m.data.w ≠ 1 ∧ m.data.h * m.data.w ≠ n.data.h * n.data.w) ∧
    (m.data.h * m.data.w ≠ 1 ∧ m.data.h * m.data.w ≠ n.data.h * n.data.w →
      alignForDiff reg median note refpath newpath (some p) fs = (.error .MaskError, fs)) := by
  have key : readNew fs (some p) n = .error .MaskError ↔
      m.data.h * m.data.w ≠ 1 ∧ m.data.h * m.data.w ≠ n.data.h * n.data.w := by
    have : readNew fs (some p) n = maskedArray n.data m.data := by unfold readNew; simp only [hm]
    rw [this]
    unfold maskedArray
    by_cases h1 : m.data.shape = n.data.shape
    · have h2 : m.data.h * m.data.w = n.data.h * n.data.w := by
        have := Prod.mk.inj h1
        rw [this.1, this.2]
      simp [h1, h2]
    · by_cases h2 : m.data.h * m.data.w = 1
      · simp [h1, h2]
      · by_cases h3 : m.data.h * m.data.w = n.data.h * n.data.w
        · simp only [if_neg h1, if_neg h2, if_pos h3]
          simp [h3]
        · simp only [if_neg h1, if_neg h2, if_neg h3]
          simp [h2, h3]
  refine ⟨key, fun h => ?_⟩
  have h1 := key.2 h
  refine alignForDiff_error reg median note refpath newpath (some p) fs ?_
  unfold alignedFile
  rw [hr, hn]
  simp only [Option.elim, bind, Except.bind, h1]

/-- C146: the registration is tried again only after a ValueError, then with the mask instead of the filled array. -/
theorem register_twice (ref new : MA) :
    (reg ref (new.filledArr (median new)) = .error .ValueError →
      registerTwice reg median ref new = reg ref new) ∧
    (reg ref (new.filledArr (median new)) ≠ .error .ValueError →
      registerTwice reg median ref new = reg ref (new.filledArr (median new))) := by
  unfold registerTwice
  refine ⟨fun h => by rw [h], fun h => ?_⟩
  split
  · exact absurd (by assumption) h
  · rfl

theorem mul_eq_one_nat {a b : ℕ} (h : a * b = 1) : a = 1 ∧ b = 1 :=
  ⟨Nat.dvd_one.1 ⟨b, h.symm⟩, Nat.dvd_one.1 ⟨a, by rw [Nat.mul_comm]; exact h.symm⟩⟩

/-- C146: the new image can be read exactly if no mask file is named, or if the mask file exists and has one pixel or as many
as the image. -/
theorem new_image_read (n : HduFile H) :
    (∃ x, readNew fs newmask n = .ok x) ↔
      newmask = none ∨ ∃ p m, newmask = some p ∧ fs p = some m ∧
        (m.data.h * m.data.w = 1 ∨ m.data.h * m.data.w = n.data.h * n.data.w) := by
  unfold readNew
  cases newmask with
  | none => exact ⟨fun _ => .inl rfl, fun _ => ⟨_, rfl⟩⟩
  | some p =>
    cases hm : fs p with
    | none =>
      simp only [hm]
      exact ⟨fun ⟨_, h⟩ => (by cases h), fun h => by
        rcases h with h | ⟨q, m, h1, h2, -⟩
        · cases h
        · cases h1
          rw [hm] at h2
          cases h2⟩
    | some m =>
      simp only [hm]
      unfold maskedArray
      by_cases h1 : m.data.shape = n.data.shape
      · rw [if_pos h1]
        have h2 : m.data.h * m.data.w = n.data.h * n.data.w := by
          have := Prod.mk.inj h1
          rw [this.1, this.2]
        exact ⟨fun _ => .inr ⟨p, m, rfl, hm, .inr h2⟩, fun _ => ⟨_, rfl⟩⟩
      · rw [if_neg h1]
        by_cases h2 : m.data.h * m.data.w = 1
        · rw [if_pos h2]
          exact ⟨fun _ => .inr ⟨p, m, rfl, hm, .inl h2⟩, fun _ => ⟨_, rfl⟩⟩
        · rw [if_neg h2]
          by_cases h3 : m.data.h * m.data.w = n.data.h * n.data.w
          · rw [if_pos h3]
            exact ⟨fun _ => .inr ⟨p, m, rfl, hm, .inr h3⟩, fun _ => ⟨_, rfl⟩⟩
          · rw [if_neg h3]
            exact ⟨fun ⟨_, h⟩ => (by cases h), fun h => by
              rcases h with h | ⟨q, m', e1, e2, e3⟩
              · cases h
              · cases e1
                rw [hm] at e2
                cases e2
                exact absurd e3 (not_or.2 ⟨h2, h3⟩)⟩

/-- C146: the mask of the new image has the shape of its pixels, whatever the shape of the mask file. -/
theorem new_image_mask_shape {n : HduFile H} {x : MA} (h : readNew fs newmask n = .ok x) :
    ∃ m, x.mask = some m ∧ m.h = n.data.h ∧ m.w = n.data.w := by
  unfold readNew at h
  cases newmask with
  | none => cases h; exact ⟨_, rfl, rfl, rfl⟩
  | some p =>
    simp only at h
    cases hm : fs p with
    | none => rw [hm] at h; cases h
    | some m =>
      rw [hm] at h
      simp only at h
      unfold maskedArray at h
      split at h
      next e => cases h; exact ⟨_, rfl, congrArg Prod.fst e, congrArg Prod.snd e⟩
      next =>
        split at h
        · cases h; exact ⟨_, rfl, rfl, rfl⟩
        · split at h
          · cases h; exact ⟨_, rfl, rfl, rfl⟩
          · cases h

/-- C146: which pixels of the new image are masked. Without a mask file those that are no numbers; with one, those whose
counterpart in the mask file is not zero (NaN included), counted row by row, so that a mask of another shape is taken over
in reading order; a mask of one pixel stands for all. -/
theorem new_image_mask {n : HduFile H} {x : MA} (h : readNew fs newmask n = .ok x) :
    x.data = n.data ∧
    (newmask = none → ∀ i j, x.mask.marks i j = true ↔ ∀ q, n.data.px i j ≠ .fin q) ∧
    (∀ p m, newmask = some p → fs p = some m →
      (m.data.h * m.data.w = 1 → ∀ i < n.data.h, ∀ j < n.data.w,
        (x.mask.marks i j = true ↔ m.data.px 0 0 ≠ .fin 0)) ∧
      (m.data.h * m.data.w = n.data.h * n.data.w → ∀ i < n.data.h, ∀ j < n.data.w, ∀ i' < m.data.h, ∀ j' < m.data.w,
        i * n.data.w + j = i' * m.data.w + j' → (x.mask.marks i j = true ↔ m.data.px i' j' ≠ .fin 0))) := by
  have hz : ∀ v : FVal, nonZero v = true ↔ v ≠ .fin 0 := by
    intro v
    cases v <;> simp [nonZero]
  unfold readNew at h
  cases newmask with
  | none =>
    cases h
    refine ⟨rfl, fun _ i j => ?_, fun p m hp => (by cases hp)⟩
    change (!(n.data.px i j).isFinite) = true ↔ _
    cases n.data.px i j <;> simp [FVal.isFinite]
  | some p =>
    simp only at h
    cases hm : fs p with
    | none => rw [hm] at h; cases h
    | some m =>
      rw [hm] at h
      simp only at h
      unfold maskedArray at h
      have hd : x.data = n.data := by
        split at h
        · cases h; rfl
        · split at h
          · cases h; rfl
          · split at h
            · cases h; rfl
            · cases h
      refine ⟨hd, fun hc => (by cases hc), fun p' m' hp' hm' => ?_⟩
      cases hp'
      rw [hm] at hm'
      cases hm'
      by_cases h1 : m.data.shape = n.data.shape
      · rw [if_pos h1] at h
        cases h
        have e1 : m.data.h = n.data.h := congrArg Prod.fst h1
        have e2 : m.data.w = n.data.w := congrArg Prod.snd h1
        refine ⟨fun hone i hi j hj => ?_, fun _ i hi j hj i' hi' j' hj' hij => ?_⟩
        · obtain ⟨a1, a2⟩ := mul_eq_one_nat hone
          have hi0 : i = 0 := by omega
          have hj0 : j = 0 := by omega
          subst hi0 hj0
          exact hz _
        · rw [e2] at hij hj'
          have hii : i = i' := by
            have := congrArg (· / n.data.w) hij
            rwa [Nat.add_comm, Nat.add_mul_div_right _ _ (by omega), Nat.add_comm (i' * _),
              Nat.add_mul_div_right _ _ (by omega), Nat.div_eq_of_lt hj, Nat.div_eq_of_lt hj', Nat.zero_add,
              Nat.zero_add] at this
          subst hii
          have hjj : j = j' := by omega
          subst hjj
          exact hz _
      · rw [if_neg h1] at h
        by_cases h2 : m.data.h * m.data.w = 1
        · rw [if_pos h2] at h
          cases h
          obtain ⟨a1, a2⟩ := mul_eq_one_nat h2
          refine ⟨fun _ i _ j _ => hz _, fun _ i hi j hj i' hi' j' hj' _ => ?_⟩
          have hi0 : i' = 0 := by omega
          have hj0 : j' = 0 := by omega
          subst hi0 hj0
          exact hz _
        · rw [if_neg h2] at h
          by_cases h3 : m.data.h * m.data.w = n.data.h * n.data.w
          · rw [if_pos h3] at h
            cases h
            refine ⟨fun hone => absurd hone h2, fun _ i hi j hj i' hi' j' hj' hij => ?_⟩
            change nonZero (m.data.px ((i * n.data.w + j) / m.data.w) ((i * n.data.w + j) % m.data.w)) = true ↔ _
            rw [hij, Nat.add_comm, Nat.add_mul_div_right _ _ (by omega), Nat.div_eq_of_lt hj', Nat.zero_add,
              Nat.add_mul_mod_self_right, Nat.mod_eq_of_lt hj']
            exact hz _
          · rw [if_neg h3] at h
            cases h

/-- C146: what the registration is given: the reference with the pixels masked that are no numbers, and first the new image
with its masked pixels replaced by the median, then, after a ValueError only, the masked new image. -/
theorem register_arguments {r n : HduFile H} {new : MA} (hr : fs refpath = some r) (hn : fs newpath = some n)
    (hnew : readNew fs newmask n = .ok new) :
    ∃ R A : MA, R.data = r.data ∧ (∀ i j, R.mask.marks i j = true ↔ ∀ q, r.data.px i j ≠ .fin q) ∧
      A.data.shape = n.data.shape ∧ A.mask = none ∧
      (∀ i j, new.mask.marks i j = true → A.data.px i j = median new) ∧
      (∀ i j, new.mask.marks i j = false → A.data.px i j = n.data.px i j) ∧
      (reg R A = .error .ValueError → alignedFile reg median note refpath newpath newmask fs =
        (reg R new).bind (fileOf (note n.hdr newpath refpath))) ∧
      (reg R A ≠ .error .ValueError → alignedFile reg median note refpath newpath newmask fs =
        (reg R A).bind (fileOf (note n.hdr newpath refpath))) := by
  have hd := (new_image_mask newmask fs hnew).1
  obtain ⟨t1, t2⟩ := register_twice reg median (maskedInvalid r.data) new
  have ha := alignedFile_of reg median note refpath newpath newmask fs hr hn hnew
  refine ⟨maskedInvalid r.data, new.filledArr (median new), rfl, fun i j => ?_, ?_, rfl, fun i j h => if_pos h,
    fun i j h => ?_, fun h => by rw [ha, t1 h], fun h => by rw [ha, t2 h]⟩
  · change (!(r.data.px i j).isFinite) = true ↔ _
    cases r.data.px i j <;> simp [FVal.isFinite]
  · rw [← hd]; rfl
  · rw [← hd]
    exact if_neg (by rw [h]; exact Bool.false_ne_true)

/-- C146: what is written for each result that a registration can have: an array alone, a masked array with its mask as a
second plane; a masked array without a mask raises TypeError and a pair KeyError, and nothing is written. -/
theorem aligned_written {r n : HduFile H} {new : MA} (x : RegRes) (hr : fs refpath = some r) (hn : fs newpath = some n)
    (hnew : readNew fs newmask n = .ok new) :
    let out := alignForDiff (fun _ _ => .ok x) median note refpath newpath newmask fs
    let hdr := note n.hdr newpath refpath
    (∀ a, x = .array a → out.1 = .ok (destFile newpath) ∧ out.2 (destFile newpath) = some ⟨a, hdr, none⟩) ∧
    (∀ a m, x = .masked ⟨a, some m⟩ → out.1 = .ok (destFile newpath) ∧
      out.2 (destFile newpath) = some ⟨a, hdr, some m⟩) ∧
    (∀ a, x = .masked ⟨a, none⟩ → out = (.error .TypeError, fs)) ∧
    (∀ a f, x = .pair a f → out = (.error .KeyError, fs)) := by
  have ha := alignedFile_of (fun _ _ => .ok x) median note refpath newpath newmask fs hr hn hnew
  have hreg : registerTwice (fun _ _ => .ok x) median (maskedInvalid r.data) new = .ok x := rfl
  rw [hreg] at ha
  refine ⟨?_, ?_, ?_, ?_⟩
  · rintro a rfl
    rw [alignForDiff_ok _ median note refpath newpath newmask fs ha]
    exact ⟨rfl, if_pos rfl⟩
  · rintro a m rfl
    rw [alignForDiff_ok _ median note refpath newpath newmask fs ha]
    exact ⟨rfl, if_pos rfl⟩
  · rintro a rfl
    exact alignForDiff_error _ median note refpath newpath newmask fs ha
  · rintro a f rfl
    exact alignForDiff_error _ median note refpath newpath newmask fs ha

/-- Two exposures of one pixel row: the file called aligned new image shows the reference. -/
example :
    let img : List ℚ → Img FVal := fun l => ⟨1, l.length, fun _ j => .fin (l.getD j 0)⟩
    let fs : List Char → Option (HduFile String) := fun f =>
      if f = "ref".toList then some ⟨img [1, 2, 3], "R", none⟩
      else if f = "new".toList then some ⟨img [7, 8, 9], "N", none⟩ else none
    let out := alignForDiff (fun s _ => .ok (.array s.data)) (fun _ => .fin 8)
      (fun h a b => h ++ ": " ++ String.ofList a ++ " to " ++ String.ofList b) "ref".toList "new".toList none fs
    out.1 = .ok "aligned_new".toList ∧
    (out.2 "aligned_new".toList).map (fun f => (f.hdr, f.data.px 0 0, f.data.px 0 2)) =
      some ("N: new to ref", .fin 1, .fin 3) := by
  decide +kernel

/-- A mask file of three pixels in a column is accepted for a row of three, one of two pixels is not. -/
example :
    let n : HduFile Unit := ⟨⟨1, 3, fun _ j => .fin j⟩, (), none⟩
    let fs : ℕ → List Char → Option (HduFile Unit) := fun k f =>
      if f = "m".toList then some ⟨⟨k, 1, fun i _ => .fin i⟩, (), none⟩ else none
    (readNew (fs 3) (some "m".toList) n).map (fun x => (x.mask.marks 0 0, x.mask.marks 0 1, x.mask.marks 0 2)) =
      .ok (false, true, true) ∧
    (readNew (fs 2) (some "m".toList) n).map (fun x => x.data.w) = .error .MaskError := by
  decide +kernel

end PI
