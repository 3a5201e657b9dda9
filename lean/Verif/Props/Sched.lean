import Verif.Model.Sched
import Verif.Props.Coadd
import Verif.Props.Chunk

/-! # Property C05: the thread schedule, and objects shared by two threads -/

namespace PI

variable {V L A : Type} [DecidableEq L]

/-- No evaluation is under way: an object has both attributes or neither. -/
def Whole (attrs : ℕ → Attrs V L) : Prop := ∀ id, (attrs id).comp.isSome = (attrs id).loss.isSome

/-- What an object alone gives for `s_hat_comp`: the stored value if it was stored for the present loss. -/
def filterOf (compute : ℕ → V) (cur : ℕ → L) (attrs : ℕ → Attrs V L) (id : ℕ) : V :=
  match (attrs id).comp, (attrs id).loss with
  | some v, some l => if l = cur id then v else compute id
  | _, _ => compute id

section
variable (compute : ℕ → V) (cur : ℕ → L) (add : A → ℕ → V → A)

/-- Invariant of the attributes, relative to those at the beginning. -/
def StoreOk (a0 a : ℕ → Attrs V L) : Prop :=
  ∀ id, ((a0 id).loss = some (cur id) → a id = a0 id) ∧
    ((a0 id).loss ≠ some (cur id) → (a id).loss = some (cur id) → (a id).comp = some (compute id))

/-- Invariant of one worker relative to the result it should end with. -/
def WorkerOk (a0 a : ℕ → Attrs V L) (goal : A) (t : Worker V A) : Prop :=
  t.todo.foldl (fun x id => add x id (filterOf compute cur a0 id)) t.acc = goal ∧
  ∀ id rest, t.todo = id :: rest →
    (t.pc = .compute → (a0 id).loss ≠ some (cur id)) ∧
    (∀ v, t.pc = .computed v → v = compute id ∧ (a0 id).loss ≠ some (cur id)) ∧
    (t.pc = .stored → (a id).comp = some (compute id) ∧ (a0 id).loss ≠ some (cur id)) ∧
    (t.pc = .ready → (a id).loss = some (cur id))

/-- What a step of any worker keeps of the attributes. -/
def Grows (a0 a a' : ℕ → Attrs V L) : Prop :=
  ∀ id, ((a0 id).loss ≠ some (cur id) → (a id).comp = some (compute id) → (a' id).comp = some (compute id)) ∧
    ((a id).loss = some (cur id) → (a' id).loss = some (cur id))

theorem filterOf_current (a0 : ℕ → Attrs V L) (id : ℕ) (v : V) (hl : (a0 id).loss = some (cur id))
    (hc : (a0 id).comp = some v) : filterOf compute cur a0 id = v := by
  unfold filterOf
  rw [hc, hl]
  simp

theorem filterOf_other (a0 : ℕ → Attrs V L) (id : ℕ) (hl : (a0 id).loss ≠ some (cur id)) :
    filterOf compute cur a0 id = compute id := by
  unfold filterOf
  cases h : (a0 id).comp <;> cases h' : (a0 id).loss <;> simp only
  rename_i l
  rw [if_neg]
  rintro rfl
  exact hl h'

omit [DecidableEq L] in
theorem Grows.refl (a0 a : ℕ → Attrs V L) : Grows compute cur a0 a a := fun _ => ⟨fun _ h => h, fun h => h⟩

theorem stepWorker_ok (a0 a : ℕ → Attrs V L) (goal : A) (t : Worker V A) (hw : Whole a0)
    (hc : StoreOk compute cur a0 a) (ht : WorkerOk compute cur add a0 a goal t) :
    StoreOk compute cur a0 (stepWorker compute cur add a t).1 ∧
    WorkerOk compute cur add a0 (stepWorker compute cur add a t).1 goal (stepWorker compute cur add a t).2 ∧
    Grows compute cur a0 a (stepWorker compute cur add a t).1 := by
  obtain ⟨todo, pc, acc, failed⟩ := t
  obtain ⟨hfold, hpc⟩ := ht
  cases failed with
  | true => exact ⟨hc, ⟨hfold, hpc⟩, Grows.refl compute cur a0 a⟩
  | false =>
    cases todo with
    | nil => exact ⟨hc, ⟨hfold, hpc⟩, Grows.refl compute cur a0 a⟩
    | cons id rest =>
      obtain ⟨h1, h2, h3, h4⟩ := hpc id rest rfl
      cases pc with
      | test =>
        cases hid : (a id).comp with
        | none =>
          simp only [stepWorker, hid, Bool.false_eq_true, if_false]
          refine ⟨hc, ⟨hfold, ?_⟩, Grows.refl compute cur a0 a⟩
          intro id' rest' h
          cases h
          refine ⟨fun _ hl => ?_, by simp, by simp, by simp⟩
          have e := (hc id).1 hl
          have := hw id
          rw [e] at hid
          rw [hid, hl] at this
          cases this
        | some v =>
          simp only [stepWorker, hid, Bool.false_eq_true, if_false]
          refine ⟨hc, ⟨hfold, ?_⟩, Grows.refl compute cur a0 a⟩
          intro id' rest' h
          exact ⟨by simp, by simp, by simp, by simp⟩
      | lossTest =>
        cases hid : (a id).loss with
        | none =>
          simp only [stepWorker, hid, Bool.false_eq_true, if_false]
          refine ⟨hc, ⟨hfold, ?_⟩, Grows.refl compute cur a0 a⟩
          intro id' rest' h
          exact ⟨by simp, by simp, by simp, by simp⟩
        | some l =>
          by_cases hl : l = cur id
          · simp only [stepWorker, hid, Bool.false_eq_true, if_false, if_pos hl]
            refine ⟨hc, ⟨hfold, ?_⟩, Grows.refl compute cur a0 a⟩
            intro id' rest' h
            cases h
            exact ⟨by simp, by simp, by simp, fun _ => by rw [hid, hl]⟩
          · simp only [stepWorker, hid, Bool.false_eq_true, if_false, if_neg hl]
            refine ⟨hc, ⟨hfold, ?_⟩, Grows.refl compute cur a0 a⟩
            intro id' rest' h
            cases h
            refine ⟨fun _ h0 => hl ?_, by simp, by simp, by simp⟩
            rw [(hc id).1 h0, h0] at hid
            exact (Option.some.inj hid).symm
      | compute =>
        simp only [stepWorker, Bool.false_eq_true, if_false]
        refine ⟨hc, ⟨hfold, ?_⟩, Grows.refl compute cur a0 a⟩
        intro id' rest' h
        cases h
        exact ⟨by simp, fun v hv => by cases hv; exact ⟨rfl, h1 rfl⟩, by simp, by simp⟩
      | computed v =>
        obtain ⟨hv, hn⟩ := h2 v rfl
        simp only [stepWorker, Bool.false_eq_true, if_false]
        refine ⟨fun x => ?_, ⟨hfold, ?_⟩, fun x => ?_⟩
        · by_cases hx : x = id
          · subst hx
            rw [Function.update_self]
            exact ⟨fun h => absurd h hn, fun _ _ => by rw [hv]⟩
          · rw [Function.update_of_ne hx]
            exact hc x
        · intro id' rest' h
          cases h
          refine ⟨by simp, by simp, fun _ => ?_, by simp⟩
          rw [Function.update_self, hv]
          exact ⟨rfl, hn⟩
        · by_cases hx : x = id
          · subst hx
            rw [Function.update_self, hv]
            exact ⟨fun _ _ => rfl, fun h => h⟩
          · rw [Function.update_of_ne hx]
            exact ⟨fun _ h => h, fun h => h⟩
      | stored =>
        obtain ⟨hv, hn⟩ := h3 rfl
        simp only [stepWorker, Bool.false_eq_true, if_false]
        refine ⟨fun x => ?_, ⟨hfold, ?_⟩, fun x => ?_⟩
        · by_cases hx : x = id
          · subst hx
            rw [Function.update_self]
            exact ⟨fun h => absurd h hn, fun _ _ => hv⟩
          · rw [Function.update_of_ne hx]
            exact hc x
        · intro id' rest' h
          cases h
          refine ⟨by simp, by simp, by simp, fun _ => ?_⟩
          rw [Function.update_self]
        · by_cases hx : x = id
          · subst hx
            rw [Function.update_self]
            exact ⟨fun _ h => h, fun _ => rfl⟩
          · rw [Function.update_of_ne hx]
            exact ⟨fun _ h => h, fun h => h⟩
      | ready =>
        have hl := h4 rfl
        have hval : (a id).comp = some (filterOf compute cur a0 id) := by
          by_cases h0 : (a0 id).loss = some (cur id)
          · have := hw id
            rw [h0] at this
            obtain ⟨v, hv⟩ := Option.isSome_iff_exists.1 this
            rw [(hc id).1 h0, filterOf_current compute cur a0 id v h0 hv, hv]
          · rw [filterOf_other compute cur a0 id h0]
            exact (hc id).2 h0 hl
        simp only [stepWorker, hval, Bool.false_eq_true, if_false]
        refine ⟨hc, ⟨by simpa using hfold, ?_⟩, Grows.refl compute cur a0 a⟩
        intro id' rest' _
        exact ⟨by simp, by simp, by simp, by simp⟩

theorem WorkerOk.mono (a0 a a' : ℕ → Attrs V L) (goal : A) (t : Worker V A)
    (ht : WorkerOk compute cur add a0 a goal t) (hg : Grows compute cur a0 a a') :
    WorkerOk compute cur add a0 a' goal t := by
  refine ⟨ht.1, fun id rest h => ?_⟩
  obtain ⟨h1, h2, h3, h4⟩ := ht.2 id rest h
  exact ⟨h1, h2, fun hp => ⟨(hg id).1 (h3 hp).2 (h3 hp).1, (h3 hp).2⟩, fun hp => (hg id).2 (h4 hp)⟩

theorem runSched_inv (a0 : ℕ → Attrs V L) (hw : Whole a0) (goals : ℕ → A) :
    ∀ (sched : List ℕ) (s : SchedState V L A), StoreOk compute cur a0 s.attrs →
      (∀ k, WorkerOk compute cur add a0 s.attrs (goals k) (s.workers k)) →
      StoreOk compute cur a0 (runSched compute cur add s sched).attrs ∧
      (∀ k, WorkerOk compute cur add a0 (runSched compute cur add s sched).attrs (goals k)
        ((runSched compute cur add s sched).workers k)) := by
  intro sched
  induction sched with
  | nil => intro s hc hk; exact ⟨hc, hk⟩
  | cons j rest ih =>
    intro s hc hk
    have hstep := stepWorker_ok compute cur add a0 s.attrs (goals j) (s.workers j) hw hc (hk j)
    have : runSched compute cur add s (j :: rest) = runSched compute cur add (stepSched compute cur add s j) rest := rfl
    rw [this]
    apply ih
    · exact hstep.1
    · intro k
      by_cases hkj : k = j
      · subst hkj
        simp only [stepSched, Function.update_self]
        exact hstep.2.1
      · simp only [stepSched, Function.update_of_ne hkj]
        exact (hk k).mono compute cur add _ _ _ _ _ hstep.2.2

/-- C05: from workers at the start of their chunks, with any values stored before, after *any* schedule every worker that
has ended without an exception holds the result of its own chunk alone. -/
theorem schedule_independent (init : ℕ → A) (chunks : ℕ → List ℕ) (attrs : ℕ → Attrs V L) (hw : Whole attrs)
    (sched : List ℕ) (k : ℕ)
    (hdone : ((runSched compute cur add (schedStart chunks init attrs) sched).workers k).todo = []) :
    ((runSched compute cur add (schedStart chunks init attrs) sched).workers k).acc
      = (chunks k).foldl (fun x id => add x id (filterOf compute cur attrs id)) (init k) := by
  have h := (runSched_inv compute cur add attrs hw
    (fun k => (chunks k).foldl (fun x id => add x id (filterOf compute cur attrs id)) (init k)) sched
    (schedStart chunks init attrs) (fun id => ⟨fun _ => rfl, fun h h' => absurd h' h⟩)
    (fun k => ⟨rfl, fun id rest _ => ⟨by simp [schedStart], by simp [schedStart], by simp [schedStart],
      by simp [schedStart]⟩⟩)).2 k
  have h1 := h.1
  rw [hdone] at h1
  exact h1

/-! ## When a worker fails -/

/-- Half of a pair of attributes is there only while a worker is between its two stores. -/
structure Halves (chunks : ℕ → List ℕ) (a0 : ℕ → Attrs V L) (s : SchedState V L A) : Prop where
  half : ∀ id, (s.attrs id).comp.isSome → (s.attrs id).loss = none →
    ∃ k rest, (s.workers k).todo = id :: rest ∧ (s.workers k).pc = .stored
  kept : ∀ id, (a0 id).loss.isSome → (s.attrs id).loss.isSome
  mine : ∀ k, ∀ id ∈ (s.workers k).todo, id ∈ chunks k
  seen : ∀ k id rest, (s.workers k).todo = id :: rest →
    ((s.workers k).pc = .lossTest ∨ (s.workers k).pc = .stored ∨ (s.workers k).pc = .ready) → (s.attrs id).comp.isSome
  fine : ∀ k, (s.workers k).failed = false

omit [DecidableEq L] in
/-- A step that only changes the program counter of worker `j`, from one where nothing is stored. -/
theorem Halves.move (chunks : ℕ → List ℕ) (a0 : ℕ → Attrs V L) (s : SchedState V L A) (h : Halves chunks a0 s) (j : ℕ)
    (t : Worker V A) (hp : (s.workers j).pc ≠ .stored) (hm : ∀ id ∈ t.todo, id ∈ chunks j) (hf : t.failed = false)
    (hs : ∀ id rest, t.todo = id :: rest → (t.pc = .lossTest ∨ t.pc = .stored ∨ t.pc = .ready) →
      (s.attrs id).comp.isSome) :
    Halves chunks a0 ⟨s.attrs, Function.update s.workers j t⟩ := by
  refine ⟨fun id hc hl => ?_, h.kept, fun k => ?_, fun k => ?_, fun k => ?_⟩
  · obtain ⟨k, rest, h1, h2⟩ := h.half id hc hl
    have hk : k ≠ j := fun e => hp (e ▸ h2)
    exact ⟨k, rest, by simp only [Function.update_of_ne hk]; exact ⟨h1, h2⟩⟩
  · by_cases hk : k = j
    · subst hk; simpa only [Function.update_self] using hm
    · simpa only [Function.update_of_ne hk] using h.mine k
  · by_cases hk : k = j
    · subst hk; simpa only [Function.update_self] using hs
    · simpa only [Function.update_of_ne hk] using h.seen k
  · by_cases hk : k = j
    · subst hk; simpa only [Function.update_self] using hf
    · simpa only [Function.update_of_ne hk] using h.fine k

theorem Halves.step (chunks : ℕ → List ℕ) (a0 : ℕ → Attrs V L) (hw : Whole a0)
    (hd : ∀ id, (a0 id).comp = none → ∀ k k', id ∈ chunks k → id ∈ chunks k' → k = k')
    (s : SchedState V L A) (h : Halves chunks a0 s) (j : ℕ) :
    Halves chunks a0 (stepSched compute cur add s j) := by
  have hfj := h.fine j
  unfold stepSched
  rcases hwj : s.workers j with ⟨todo, pc, acc, failed⟩
  rw [hwj] at hfj
  obtain rfl : failed = false := hfj
  have hmj := h.mine j
  rw [hwj] at hmj
  have hsj := h.seen j
  rw [hwj] at hsj
  cases todo with
  | nil =>
    have : stepWorker compute cur add s.attrs ⟨[], pc, acc, false⟩ = (s.attrs, ⟨[], pc, acc, false⟩) := rfl
    rw [this, ← hwj]
    change Halves chunks a0 ⟨s.attrs, Function.update s.workers j (s.workers j)⟩
    rw [Function.update_eq_self]
    exact h
  | cons id rest =>
    have hpj : pc ≠ .stored → (s.workers j).pc ≠ .stored := fun hp => by rw [hwj]; exact hp
    cases pc with
    | test =>
      cases hid : (s.attrs id).comp with
      | none =>
        simp only [stepWorker, hid, Bool.false_eq_true, if_false]
        exact h.move chunks a0 s j _ (hpj (by simp)) hmj rfl (fun _ _ _ hp => by simp at hp)
      | some v =>
        simp only [stepWorker, hid, Bool.false_eq_true, if_false]
        refine h.move chunks a0 s j _ (hpj (by simp)) hmj rfl (fun id' rest' he _ => ?_)
        cases he
        rw [hid]; rfl
    | lossTest =>
      have hc : (s.attrs id).comp.isSome := hsj id rest rfl (Or.inl rfl)
      cases hid : (s.attrs id).loss with
      | none =>
        exfalso
        obtain ⟨k, rest', h1, h2⟩ := h.half id hc hid
        have ha : (a0 id).comp = none := by
          have := hw id
          cases hl : (a0 id).loss with
          | none => rw [hl] at this; simpa using this
          | some l =>
            have := h.kept id (by rw [hl]; rfl)
            rw [hid] at this; cases this
        have hkj : k = j := hd id ha k j (h.mine k id (by rw [h1]; simp)) (hmj id (by simp))
        subst hkj
        rw [hwj] at h2
        cases h2
      | some l =>
        by_cases hl : l = cur id
        · simp only [stepWorker, hid, Bool.false_eq_true, if_false, if_pos hl]
          refine h.move chunks a0 s j _ (hpj (by simp)) hmj rfl (fun id' rest' he _ => ?_)
          cases he
          exact hc
        · simp only [stepWorker, hid, Bool.false_eq_true, if_false, if_neg hl]
          exact h.move chunks a0 s j _ (hpj (by simp)) hmj rfl (fun _ _ _ hp => by simp at hp)
    | compute =>
      simp only [stepWorker, Bool.false_eq_true, if_false]
      exact h.move chunks a0 s j _ (hpj (by simp)) hmj rfl (fun _ _ _ hp => by simp at hp)
    | computed v =>
      simp only [stepWorker, Bool.false_eq_true, if_false]
      refine ⟨fun x hc hl => ?_, fun x hx => ?_, fun k => ?_, fun k x rest' hx hp => ?_, fun k => ?_⟩
      · by_cases hx : x = id
        · subst hx
          exact ⟨j, rest, by simp⟩
        · simp only [Function.update_of_ne hx] at hc hl
          obtain ⟨k, rest', h1, h2⟩ := h.half x hc hl
          have hk : k ≠ j := fun e => by subst e; rw [hwj] at h2; cases h2
          exact ⟨k, rest', by simp only [Function.update_of_ne hk]; exact ⟨h1, h2⟩⟩
      · by_cases hxi : x = id
        · subst hxi
          simpa only [Function.update_self] using h.kept x hx
        · simpa only [Function.update_of_ne hxi] using h.kept x hx
      · by_cases hk : k = j
        · subst hk; simpa only [Function.update_self] using hmj
        · simpa only [Function.update_of_ne hk] using h.mine k
      · by_cases hxi : x = id
        · subst hxi
          simp
        · simp only [Function.update_of_ne hxi]
          by_cases hk : k = j
          · subst hk
            simp only [Function.update_self] at hx
            exact absurd (List.cons.inj hx).1.symm hxi
          · simp only [Function.update_of_ne hk] at hx hp
            exact h.seen k x rest' hx hp
      · by_cases hk : k = j
        · subst hk; simp
        · simpa only [Function.update_of_ne hk] using h.fine k
    | stored =>
      have hc : (s.attrs id).comp.isSome := hsj id rest rfl (Or.inr (Or.inl rfl))
      simp only [stepWorker, Bool.false_eq_true, if_false]
      refine ⟨fun x hc' hl => ?_, fun x hx => ?_, fun k => ?_, fun k x rest' hx hp => ?_, fun k => ?_⟩
      · by_cases hx : x = id
        · subst hx
          simp at hl
        · simp only [Function.update_of_ne hx] at hc' hl
          obtain ⟨k, rest', h1, h2⟩ := h.half x hc' hl
          have hk : k ≠ j := fun e => by subst e; rw [hwj] at h1; exact hx (List.cons.inj h1).1.symm
          exact ⟨k, rest', by simp only [Function.update_of_ne hk]; exact ⟨h1, h2⟩⟩
      · by_cases hxi : x = id
        · subst hxi
          simp
        · simpa only [Function.update_of_ne hxi] using h.kept x hx
      · by_cases hk : k = j
        · subst hk; simpa only [Function.update_self] using hmj
        · simpa only [Function.update_of_ne hk] using h.mine k
      · by_cases hxi : x = id
        · subst hxi
          simpa only [Function.update_self] using hc
        · simp only [Function.update_of_ne hxi]
          by_cases hk : k = j
          · subst hk
            simp only [Function.update_self] at hx
            exact absurd (List.cons.inj hx).1.symm hxi
          · simp only [Function.update_of_ne hk] at hx hp
            exact h.seen k x rest' hx hp
      · by_cases hk : k = j
        · subst hk; simp
        · simpa only [Function.update_of_ne hk] using h.fine k
    | ready =>
      have hc : (s.attrs id).comp.isSome := hsj id rest rfl (Or.inr (Or.inr rfl))
      obtain ⟨v, hv⟩ := Option.isSome_iff_exists.1 hc
      simp only [stepWorker, hv, Bool.false_eq_true, if_false]
      exact h.move chunks a0 s j _ (hpj (by simp)) (fun x hx => hmj x (by simp [hx])) rfl
        (fun _ _ _ hp => by simp at hp)

/-- C05: if no object without a stored value stands in two chunks, no worker ever fails. -/
theorem never_fails (init : ℕ → A) (chunks : ℕ → List ℕ) (attrs : ℕ → Attrs V L) (hw : Whole attrs)
    (hd : ∀ id, (attrs id).comp = none → ∀ k k', id ∈ chunks k → id ∈ chunks k' → k = k') (sched : List ℕ) (k : ℕ) :
    ((runSched compute cur add (schedStart chunks init attrs) sched).workers k).failed = false := by
  have key : ∀ (sched : List ℕ) (s : SchedState V L A), Halves chunks attrs s →
      Halves chunks attrs (runSched compute cur add s sched) := by
    intro sched
    induction sched with
    | nil => exact fun s h => h
    | cons j rest ih => exact fun s h => ih _ (h.step compute cur add chunks attrs hw hd s j)
  refine (key sched (schedStart chunks init attrs) ⟨fun id hc hl => ?_, fun _ h => h, fun _ _ h => h,
    fun k id rest _ hp => ?_, fun _ => rfl⟩).fine k
  · have := hw id
    have e1 : (attrs id).comp.isSome = true := hc
    have e2 : (attrs id).loss = none := hl
    rw [e1, e2] at this
    cases this
  · rcases hp with h | h | h <;> cases h

/-- Steps of one worker alone. -/
def solo (n : ℕ) (p : (ℕ → Attrs V L) × Worker V A) : (ℕ → Attrs V L) × Worker V A :=
  (fun p => stepWorker compute cur add p.1 p.2)^[n] p

theorem solo_succ (n : ℕ) (p : (ℕ → Attrs V L) × Worker V A) :
    solo compute cur add (n + 1) p = solo compute cur add n (stepWorker compute cur add p.1 p.2) := rfl

theorem solo_add (m n : ℕ) (p : (ℕ → Attrs V L) × Worker V A) :
    solo compute cur add (m + n) p = solo compute cur add n (solo compute cur add m p) := by
  unfold solo
  rw [Nat.add_comm, Function.iterate_add_apply]

theorem run_solo (k : ℕ) : ∀ (n : ℕ) (s : SchedState V L A),
    runSched compute cur add s (List.replicate n k) =
      ⟨(solo compute cur add n (s.attrs, s.workers k)).1,
        Function.update s.workers k (solo compute cur add n (s.attrs, s.workers k)).2⟩ := by
  intro n
  induction n with
  | zero => intro s; simp [runSched, solo]
  | succ n ih =>
    intro s
    have : runSched compute cur add s (List.replicate (n + 1) k) =
      runSched compute cur add (stepSched compute cur add s k) (List.replicate n k) := rfl
    rw [this, ih, solo_succ]
    simp [stepSched]

/-- One worker alone gets through an image. -/
theorem image_alone (a : ℕ → Attrs V L) (hw : Whole a) (id : ℕ) (rest : List ℕ) (acc : A) :
    ∃ n a' acc', solo compute cur add n (a, ⟨id :: rest, .test, acc, false⟩) = (a', ⟨rest, .test, acc', false⟩) ∧
      Whole a' ∧ ∀ x, x ≠ id → a' x = a x := by
  have hid := hw id
  cases hc : (a id).comp with
  | none =>
    have hl : (a id).loss = none := by rw [hc] at hid; simpa using hid.symm
    refine ⟨5, Function.update a id ⟨some (compute id), some (cur id)⟩, add acc id (compute id), ?_, ?_, ?_⟩
    · simp [solo, Function.iterate_succ, stepWorker, hc]
    · intro x
      by_cases hx : x = id
      · subst hx; simp
      · simpa only [Function.update_of_ne hx] using hw x
    · intro x hx
      rw [Function.update_of_ne hx]
  | some v =>
    obtain ⟨l, hl⟩ : ∃ l, (a id).loss = some l := by
      rw [hc] at hid
      exact Option.isSome_iff_exists.1 hid.symm
    by_cases hcur : l = cur id
    · refine ⟨3, a, add acc id v, ?_, hw, fun _ _ => rfl⟩
      simp [solo, Function.iterate_succ, stepWorker, hc, hl, hcur]
    · refine ⟨6, Function.update a id ⟨some (compute id), some (cur id)⟩, add acc id (compute id), ?_, ?_, ?_⟩
      · simp [solo, Function.iterate_succ, stepWorker, hc, hl, hcur]
      · intro x
        by_cases hx : x = id
        · subst hx; simp
        · simpa only [Function.update_of_ne hx] using hw x
      · intro x hx
        rw [Function.update_of_ne hx]

theorem prefix_alone (rest : List ℕ) : ∀ (pre : List ℕ) (a : ℕ → Attrs V L) (_ : Whole a) (acc : A),
    ∃ n a' acc', solo compute cur add n (a, ⟨pre ++ rest, .test, acc, false⟩) = (a', ⟨rest, .test, acc', false⟩) ∧
      Whole a' ∧ ∀ x, x ∉ pre → a' x = a x := by
  intro pre
  induction pre with
  | nil => exact fun a hw acc => ⟨0, a, acc, rfl, hw, fun _ _ => rfl⟩
  | cons i pre ih =>
    intro a hw acc
    obtain ⟨n, a1, acc1, h1, hw1, hx1⟩ := image_alone compute cur add a hw i (pre ++ rest) acc
    obtain ⟨m, a2, acc2, h2, hw2, hx2⟩ := ih a1 hw1 acc1
    refine ⟨n + m, a2, acc2, ?_, hw2, fun x hx => ?_⟩
    · rw [List.cons_append, solo_add, h1, h2]
    · rw [hx2 x (fun h => hx (by simp [h])), hx1 x (fun h => hx (by simp [h]))]

/-- C05: if an object without a stored value stands in two chunks, there is a schedule in which one of the two workers
raises AttributeError: it looks between the two stores of the other. -/
theorem can_fail (init : ℕ → A) (chunks : ℕ → List ℕ) (attrs : ℕ → Attrs V L) (hw : Whole attrs) (id k k' : ℕ)
    (hid : (attrs id).comp = none) (hkk : k ≠ k') (hk : id ∈ chunks k) (hk' : id ∈ chunks k') :
    ∃ sched, ((runSched compute cur add (schedStart chunks init attrs) sched).workers k').failed = true := by
  obtain ⟨p, r, hp, hpn⟩ := List.eq_append_cons_of_mem hk
  obtain ⟨p', r', hp', hpn'⟩ := List.eq_append_cons_of_mem hk'
  obtain ⟨n', a1, acc1, h1, hw1, hx1⟩ := prefix_alone compute cur add (id :: r') p' attrs hw (init k')
  obtain ⟨n, a2, acc2, h2, hw2, hx2⟩ := prefix_alone compute cur add (id :: r) p a1 hw1 (init k)
  have hc : (a2 id).comp = none := by rw [hx2 id hpn, hx1 id hpn', hid]
  have hl : (a2 id).loss = none := by
    have := hw2 id
    rw [hc] at this
    simpa using this.symm
  have happ : ∀ (s : SchedState V L A) (u v : List ℕ),
      runSched compute cur add s (u ++ v) = runSched compute cur add (runSched compute cur add s u) v :=
    fun s u v => List.foldl_append
  refine ⟨List.replicate n' k' ++ (List.replicate (n + 3) k ++ List.replicate 2 k'), ?_⟩
  rw [happ, happ, run_solo, run_solo, run_solo]
  simp only [schedStart, Function.update_self, Function.update_of_ne hkk, Function.update_of_ne hkk.symm]
  rw [hp', h1, solo_add, hp, h2]
  simp [solo, Function.iterate_succ, stepWorker, hc, hl]

/-- C05: some schedule makes a worker raise AttributeError exactly if an object without a stored value stands in two
chunks. -/
theorem fails_iff (init : ℕ → A) (chunks : ℕ → List ℕ) (attrs : ℕ → Attrs V L) (hw : Whole attrs) :
    (∃ sched k, ((runSched compute cur add (schedStart chunks init attrs) sched).workers k).failed = true) ↔
      ∃ id k k', k ≠ k' ∧ id ∈ chunks k ∧ id ∈ chunks k' ∧ (attrs id).comp = none := by
  constructor
  · rintro ⟨sched, k, h⟩
    by_contra hn
    have := never_fails compute cur add init chunks attrs hw (fun id h0 k k' h1 h2 => by
      by_contra hne
      exact hn ⟨id, k, k', hne, h1, h2, h0⟩) sched k
    rw [this] at h
    cases h
  · rintro ⟨id, k, k', hne, h1, h2, h0⟩
    obtain ⟨sched, h⟩ := can_fail compute cur add init chunks attrs hw id k k' h0 hne h1 h2
    exact ⟨sched, k', h⟩

/-! ## Progress -/

/-- Remaining steps of a worker, at most. -/
def workerMeasure (t : Worker V A) : ℕ :=
  if t.failed then 0 else
    7 * t.todo.length - (match t.pc with
      | .test => 0 | .lossTest => 1 | .compute => 2 | .computed _ => 3 | .stored => 4 | .ready => 5)

/-- C05: no deadlock — a step of a worker that has not ended always makes progress. -/
theorem stepWorker_progress (a : ℕ → Attrs V L) (t : Worker V A) (hf : t.failed = false) (hne : t.todo ≠ []) :
    workerMeasure (stepWorker compute cur add a t).2 < workerMeasure t := by
  obtain ⟨todo, pc, acc, failed⟩ := t
  obtain rfl : failed = false := hf
  cases todo with
  | nil => simp at hne
  | cons id rest =>
    cases pc with
    | test =>
      cases hid : (a id).comp with
      | none => simp [stepWorker, hid, workerMeasure]
      | some v => simp [stepWorker, hid, workerMeasure]
    | lossTest =>
      cases hid : (a id).loss with
      | none => simp [stepWorker, hid, workerMeasure]; omega
      | some l => by_cases hl : l = cur id <;> simp [stepWorker, hid, hl, workerMeasure] <;> omega
    | compute => simp [stepWorker, workerMeasure]; omega
    | computed v => simp [stepWorker, workerMeasure]; omega
    | stored => simp [stepWorker, workerMeasure]; omega
    | ready =>
      cases hid : (a id).comp with
      | none => simp [stepWorker, hid, workerMeasure]; omega
      | some v => simp [stepWorker, hid, workerMeasure]; omega

end

/-! ## `coadd` -/

/-- The chunks of a list of chunks by number. -/
def chunkNo (cs : List (List ℕ)) (k : ℕ) : List ℕ := cs.getD k []

theorem worker_fold (img : ℕ → CoImg) (val : ℕ → ℕ → ℕ → ℂ) : ∀ (l : List ℕ) (a : Py Acc),
    l.foldl (fun x id => workerAdd img x id (val id)) a =
      a.bind fun acc => (l.map fun id => { img id with sHat := val id }).foldlM accStep acc := by
  intro l
  induction l with
  | nil => intro a; cases a <;> rfl
  | cons x xs ih =>
    intro a
    rw [List.foldl_cons, ih]
    cases a with
    | error e => rfl
    | ok acc => simp [workerAdd, Except.bind, List.foldlM_cons, bind]

theorem mapM_same {α β : Type} (f g : α → Py β) : ∀ (l : List α), (∀ x ∈ l, f x = g x) → l.mapM f = l.mapM g := by
  intro l
  induction l with
  | nil => exact fun _ => rfl
  | cons x xs ih =>
    intro h
    rw [List.mapM_cons, List.mapM_cons, h x (by simp), ih fun y hy => h y (by simp [hy])]

theorem mapM_each {α β : Type} (f : α → Py β) : ∀ (l : List α) (r : List β), l.mapM f = .ok r →
    ∀ x ∈ l, ∃ y, f x = .ok y := by
  intro l
  induction l with
  | nil => exact fun _ _ x hx => absurd hx (by simp)
  | cons a as ih =>
    intro r h x hx
    rw [List.mapM_cons] at h
    cases ha : f a with
    | error e => rw [ha] at h; cases h
    | ok y =>
      rw [ha] at h
      cases hs : as.mapM f with
      | error e => rw [hs] at h; cases h
      | ok ys =>
        rcases List.mem_cons.1 hx with rfl | hx
        · exact ⟨y, ha⟩
        · exact ih ys hs x hx

/-- C05 for `coadd`: if no object without a stored value stands in two chunks, then whatever the schedule, when all
workers have ended `Parallel` returns what `process_chunk_joblib` gives for each chunk alone. -/
theorem coadd_schedule_independent (compute : ℕ → ℕ → ℕ → ℂ) (cur : ℕ → L) (img : ℕ → CoImg) (gs : ℕ × ℕ)
    (cs : List (List ℕ)) (hne : ∀ c ∈ cs, c ≠ []) (attrs : ℕ → Attrs (ℕ → ℕ → ℂ) L) (hw : Whole attrs)
    (hd : ∀ id, (attrs id).comp = none → ∀ k k', id ∈ chunkNo cs k → id ∈ chunkNo cs k' → k = k') (sched : List ℕ)
    (hdone : ∀ k < cs.length, let t := (runSched compute cur (workerAdd img)
      (schedStart (chunkNo cs) (workerInit img gs (chunkNo cs)) attrs) sched).workers k
      t.todo = [] ∨ t.failed = true) :
    gather (runSched compute cur (workerAdd img) (schedStart (chunkNo cs) (workerInit img gs (chunkNo cs)) attrs) sched)
        cs.length =
      cs.mapM fun c => processChunk gs (c.map fun id => { img id with sHat := filterOf compute cur attrs id }) := by
  unfold gather
  have hcs : cs = (List.range cs.length).map (chunkNo cs) := by
    apply List.ext_getElem
    · simp
    · intro i h1 h2
      simp [chunkNo, h1]
  conv_rhs => rw [hcs]
  rw [List.mapM_map]
  have key : ∀ k ∈ List.range cs.length,
      (if ((runSched compute cur (workerAdd img) (schedStart (chunkNo cs) (workerInit img gs (chunkNo cs)) attrs)
          sched).workers k).failed then (.error .AttributeError : Py Acc)
        else ((runSched compute cur (workerAdd img) (schedStart (chunkNo cs) (workerInit img gs (chunkNo cs)) attrs)
          sched).workers k).acc) =
      processChunk gs ((chunkNo cs k).map fun id => { img id with sHat := filterOf compute cur attrs id }) := by
    intro k hk
    have hk := List.mem_range.1 hk
    have hf := never_fails compute cur (workerAdd img) (workerInit img gs (chunkNo cs)) (chunkNo cs) attrs hw hd sched k
    have ht := (hdone k hk).resolve_right (by rw [hf]; simp)
    rw [if_neg (by rw [hf]; simp), schedule_independent compute cur (workerAdd img) _ _ attrs hw sched k ht, worker_fold]
    have hc : chunkNo cs k ≠ [] := by
      have : chunkNo cs k = cs[k] := by simp [chunkNo, hk]
      rw [this]
      exact hne _ (List.getElem_mem hk)
    unfold workerInit
    cases hck : chunkNo cs k with
    | nil => exact absurd hck hc
    | cons i rest => simp [processChunk, Except.bind]
  exact mapM_same _ _ _ key

/-- C05 for `coadd`: an object without a stored value that stands in two chunks lets `coadd` raise where one process
returns. Nothing the workers do afterwards changes that. -/
theorem coadd_can_fail (compute : ℕ → ℕ → ℕ → ℂ) (cur : ℕ → L) (img : ℕ → CoImg) (gs : ℕ × ℕ) (cs : List (List ℕ))
    (attrs : ℕ → Attrs (ℕ → ℕ → ℂ) L) (hw : Whole attrs) (id k k' : ℕ) (hid : (attrs id).comp = none) (hkk : k ≠ k')
    (hk : id ∈ chunkNo cs k) (hk' : id ∈ chunkNo cs k') :
    ∃ sched, ∀ later r, gather (runSched compute cur (workerAdd img)
      (schedStart (chunkNo cs) (workerInit img gs (chunkNo cs)) attrs) (sched ++ later)) cs.length ≠ .ok r := by
  obtain ⟨sched, hf⟩ := can_fail compute cur (workerAdd img) (workerInit img gs (chunkNo cs)) (chunkNo cs) attrs hw
    id k k' hid hkk hk hk'
  refine ⟨sched, fun later r hr => ?_⟩
  have hlen : k' < cs.length := by
    by_contra h
    have : chunkNo cs k' = [] := by simp [chunkNo, Nat.le_of_not_lt h]
    rw [this] at hk'
    cases hk'
  have hstay : ∀ (later : List ℕ) (s : SchedState (ℕ → ℕ → ℂ) L (Py Acc)), (s.workers k').failed = true →
      ((runSched compute cur (workerAdd img) s later).workers k').failed = true := by
    intro later
    induction later with
    | nil => exact fun s h => h
    | cons j rest ih =>
      refine fun s h => ih _ ?_
      unfold stepSched
      by_cases hj : k' = j
      · subst hj
        simp [stepWorker, h]
      · simpa only [Function.update_of_ne hj] using h
  have h1 := hstay later _ hf
  have happ : runSched compute cur (workerAdd img) (schedStart (chunkNo cs) (workerInit img gs (chunkNo cs)) attrs)
      (sched ++ later) = runSched compute cur (workerAdd img) (runSched compute cur (workerAdd img)
        (schedStart (chunkNo cs) (workerInit img gs (chunkNo cs)) attrs) sched) later := List.foldl_append
  rw [← happ] at h1
  obtain ⟨x, hx⟩ := mapM_each _ _ _ hr k' (List.mem_range.2 hlen)
  rw [h1, if_pos rfl] at hx
  cases hx

/-- C05: the chunks `chunk_it` makes of a list of distinct objects have none in common, so that `coadd` of distinct
objects never depends on the schedule. -/
theorem distinct_objects (lt : List ℕ → List ℕ → Option Bool) (ids : List ℕ) (hn : ids.Nodup) (num fuel : ℕ)
    (cs : List (List ℕ)) (h : chunkIt floatArith lt ids num fuel = .ok cs) (id k k' : ℕ) (hk : id ∈ chunkNo cs k)
    (hk' : id ∈ chunkNo cs k') : k = k' := by
  have hfl : cs.flatten.Nodup := (chunk_it_elements_once lt ids num fuel cs h).nodup_iff.2 hn
  have hpw := (List.nodup_flatten.1 hfl).2
  have hmem : ∀ k, id ∈ chunkNo cs k → ∃ h : k < cs.length, id ∈ cs[k] := by
    intro k hk
    by_cases hlt : k < cs.length
    · have : chunkNo cs k = cs[k] := by simp [chunkNo, hlt]
      exact ⟨hlt, this ▸ hk⟩
    · have : chunkNo cs k = [] := by simp [chunkNo, Nat.le_of_not_lt hlt]
      rw [this] at hk
      cases hk
  obtain ⟨h1, m1⟩ := hmem k hk
  obtain ⟨h2, m2⟩ := hmem k' hk'
  rw [List.pairwise_iff_getElem] at hpw
  rcases Nat.lt_trichotomy k k' with hlt | heq | hgt
  · exact absurd m2 (hpw k k' h1 h2 hlt m1)
  · exact heq
  · exact absurd m1 (hpw k' k h2 h1 hgt m2)

/-- C05: an object given twice to `coadd` with the default two workers is in both chunks. -/
theorem object_twice (lt : List ℕ → List ℕ → Option Bool) (id : ℕ) (cs : List (List ℕ))
    (h : chunkIt floatArith lt [id, id] 2 4 = .ok cs) : cs = [[id], [id]] := by
  obtain ⟨raw, h1, h2⟩ := chunk_it_perm_raw _ _ _ _ _ _ h
  have hraw : chunkRaw floatArith [id, id] 2 4 = .ok [[id], [id]] := by
    have e1 : floatArith.ratio 2 2 = (1 : ℚ) := by decide +kernel
    have e2 : floatArith.add floatArith.zero 1 = (1 : ℚ) := by decide +kernel
    have e3 : floatArith.add (1 : ℚ) 1 = (2 : ℚ) := by decide +kernel
    have l0 : floatArith.lt floatArith.zero 2 = true := by decide +kernel
    have l1 : floatArith.lt (1 : ℚ) 2 = true := by decide +kernel
    have l2 : floatArith.lt (2 : ℚ) 2 = false := by decide +kernel
    have t0 : floatArith.toInt floatArith.zero = 0 := by decide +kernel
    have t1 : floatArith.toInt (1 : ℚ) = 1 := by decide +kernel
    have t2 : floatArith.toInt (2 : ℚ) = 2 := by decide +kernel
    simp [chunkRaw, chunkLoop, e1, e2, e3, l0, l1, l2, t0, t1, t2, pySlice, sliceBound]
  rw [hraw] at h1
  cases h1
  exact (List.perm_replicate (n := 2) (a := [id])).1 h2

/-- A run in which two workers share an image whose value is stored already, and one in which they share a new one and
the second looks between the two stores of the first. -/
example :
    ((fun s => ((s.workers 0).acc + (s.workers 1).acc, (s.workers 1).failed))
      (runSched (V := ℕ) (L := ℕ) (A := ℕ) (fun i => i * 10) (fun _ => 0) (fun a _ v => a + v)
        (schedStart (fun k => if k = 0 then [1, 2] else [2]) (fun _ => 0)
          (fun i => if i = 2 then ⟨some 7, some 0⟩ else ⟨none, none⟩))
        [0, 1, 0, 0, 1, 0, 1, 0, 0, 0, 0, 0]) = (24, false)) ∧
    ((fun s => ((s.workers 0).acc, (s.workers 1).failed))
      (runSched (V := ℕ) (L := ℕ) (A := ℕ) (fun i => i * 10) (fun _ => 0) (fun a _ v => a + v)
        (schedStart (fun k => if k = 0 then [2] else [2]) (fun _ => 0) (fun _ => ⟨none, none⟩))
        [0, 0, 0, 1, 1, 0, 0]) = (20, true)) := by decide

end PI
