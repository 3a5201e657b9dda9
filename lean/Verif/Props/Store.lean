import Verif.Model.Store

/-!
# The images of a process keep their stars apart; copies do not (C188)
-/

namespace PI

variable {A : Type}

/-- Python's promise about addresses, along a history that begins with the objects `l` alive (an address
for each): a new object gets an address that no living object has. No image is copied. -/
def Addresses : List (ℕ × DbStep A) → (ℕ → Option ℕ) → Prop
  | [], _ => True
  | (i, .make a) :: rest, l => l i = none ∧ (∀ j, l j ≠ some a) ∧ Addresses rest (setAt l i (some a))
  | (_, .copyOf _) :: _, _ => False
  | (i, .discard) :: rest, l => Addresses rest (setAt l i none)
  | (_, .start) :: rest, l => Addresses rest l
  | (_, .dump _ _) :: rest, l => Addresses rest l
  | (_, .load _) :: rest, l => Addresses rest l
  | (_, .clean) :: rest, l => Addresses rest l

/-- Different addresses make different names. -/
theorem dbName_inj (dir : String) {a b : ℕ} (h : dbName dir a = dbName dir b) : a = b := by
  have h' := congrArg String.toList h
  simp only [dbName, String.toList_append, List.append_assoc, List.append_cancel_left_eq,
    List.append_cancel_right_eq] at h'
  have e : ∀ n : ℕ, (toString n).toList = Nat.toDigits 10 n := fun n => Nat.toList_repr
  rw [e, e] at h'
  rw [← Nat.ofDigitChars_ten_toDigits (n := a), ← Nat.ofDigitChars_ten_toDigits (n := b), h']

/-- The world of all the images beside the world of the image `h` alone. -/
structure Apart (dir : String) (h : ℕ) (l : ℕ → Option ℕ) (w v : DbWorld A) : Prop where
  names : ∀ i, (w.objs i).map DbObj.name = (l i).map (dbName dir)
  inj : ∀ i j a, l i = some a → l j = some a → i = j
  same : w.objs h = v.objs h
  files : ∀ x, w.objs h = some x → x.db = true → w.files x.name = v.files x.name

theorem setAt_self {α β : Type} [DecidableEq α] (f : α → β) (a : α) (b : β) : setAt f a b a = b := by
  simp [setAt]

theorem setAt_ne {α β : Type} [DecidableEq α] (f : α → β) {a x : α} (b : β) (e : x ≠ a) :
    setAt f a b x = f x := by
  simp [setAt, e]

theorem Apart.name_ne {dir : String} {h : ℕ} {l : ℕ → Option ℕ} {w v : DbWorld A}
    (p : Apart dir h l w v) {i j : ℕ} (hij : i ≠ j) {x y : DbObj} (hx : w.objs i = some x)
    (hy : w.objs j = some y) : x.name ≠ y.name := by
  intro e
  have hi := p.names i
  have hj := p.names j
  rw [hx] at hi
  rw [hy] at hj
  cases hl : l i with
  | none => rw [hl] at hi; cases hi
  | some a =>
    cases hm : l j with
    | none => rw [hm] at hj; cases hj
    | some b =>
      rw [hl] at hi
      rw [hm] at hj
      have hi' : x.name = dbName dir a := Option.some.inj hi
      have hj' : y.name = dbName dir b := Option.some.inj hj
      rw [hi', hj'] at e
      have := dbName_inj dir e
      subst this
      exact hij (p.inj i j a hl hm)

/-- The addresses after an operation. -/
def addrAfter (i : ℕ) (s : DbStep A) (l : ℕ → Option ℕ) : ℕ → Option ℕ :=
  match s with
  | .make a => setAt l i (some a)
  | .discard => setAt l i none
  | _ => l

/-- An operation that Python's promise allows. -/
def Allowed (i : ℕ) (s : DbStep A) (l : ℕ → Option ℕ) : Prop :=
  match s with
  | .make a => l i = none ∧ ∀ j, l j ≠ some a
  | .copyOf _ => False
  | _ => True

theorem addresses_cons {i : ℕ} {s : DbStep A} {rest : List (ℕ × DbStep A)} {l : ℕ → Option ℕ} :
    Addresses ((i, s) :: rest) l ↔ Allowed i s l ∧ Addresses rest (addrAfter i s l) := by
  cases s <;> simp [Addresses, Allowed, addrAfter, and_assoc]

theorem names_step (dir : String) (i : ℕ) (s : DbStep A) {l : ℕ → Option ℕ} {w : DbWorld A}
    (ok : Allowed i s l) (hn : ∀ i, (w.objs i).map DbObj.name = (l i).map (dbName dir)) (j : ℕ) :
    ((dbStep dir i s w).2.objs j).map DbObj.name = (addrAfter i s l j).map (dbName dir) := by
  have hj := hn j
  have hi := hn i
  cases s with
  | make a =>
    by_cases e : j = i
    · subst e; simp [dbStep, addrAfter, setAt]
    · simpa [dbStep, addrAfter, setAt, e] using hj
  | copyOf o => exact ok.elim
  | discard =>
    cases ho : w.objs i with
    | none =>
      rw [ho] at hi
      have hl : l i = none := by cases h : l i <;> simp_all
      by_cases e : j = i
      · subst e; simp [dbStep, addrAfter, setAt, ho]
      · simpa [dbStep, addrAfter, setAt, e, ho] using hj
    | some x =>
      by_cases e : j = i
      · subst e; simp [dbStep, addrAfter, setAt, ho]
      · simpa [dbStep, addrAfter, setAt, e, ho] using hj
  | start =>
    cases ho : w.objs i with
    | none => simpa [dbStep, addrAfter, ho] using hj
    | some x =>
      rw [ho] at hi
      by_cases e : j = i
      · subst e; simpa [dbStep, addrAfter, setAt, ho] using hi
      · simpa [dbStep, addrAfter, setAt, e, ho] using hj
  | dump v k =>
    cases ho : w.objs i with
    | none => simpa [dbStep, addrAfter, ho] using hj
    | some x => cases hd : x.db <;> simpa [dbStep, addrAfter, ho, hd] using hj
  | load k =>
    cases ho : w.objs i with
    | none => simpa [dbStep, addrAfter, ho] using hj
    | some x =>
      cases hd : x.db
      · simpa [dbStep, addrAfter, ho, hd] using hj
      · cases hf : w.files x.name <;> simpa [dbStep, addrAfter, ho, hd, hf] using hj
  | clean =>
    cases ho : w.objs i with
    | none => simpa [dbStep, addrAfter, ho] using hj
    | some x => simpa [dbStep, addrAfter, ho] using hj

theorem inj_step (i : ℕ) (s : DbStep A) {l : ℕ → Option ℕ} (ok : Allowed i s l)
    (hl : ∀ i j a, l i = some a → l j = some a → i = j) (p q a : ℕ)
    (hp : addrAfter i s l p = some a) (hq : addrAfter i s l q = some a) : p = q := by
  cases s with
  | make b =>
    obtain ⟨-, hb⟩ := ok
    by_cases e1 : p = i <;> by_cases e2 : q = i
    · rw [e1, e2]
    · simp [addrAfter, setAt, e1, e2] at hp hq
      subst hp
      exact absurd hq (hb q)
    · simp [addrAfter, setAt, e1, e2] at hp hq
      subst hq
      exact absurd hp (hb p)
    · simp [addrAfter, setAt, e1, e2] at hp hq
      exact hl p q a hp hq
  | copyOf o => exact ok.elim
  | discard =>
    by_cases e1 : p = i
    · simp [addrAfter, setAt, e1] at hp
    · by_cases e2 : q = i
      · simp [addrAfter, setAt, e2] at hq
      · simp [addrAfter, setAt, e1, e2] at hp hq
        exact hl p q a hp hq
  | start => exact hl p q a hp hq
  | dump v k => exact hl p q a hp hq
  | load k => exact hl p q a hp hq
  | clean => exact hl p q a hp hq

/-- An operation of another image does not reach `h`. -/
theorem apart_other (dir : String) {h i : ℕ} (hi : i ≠ h) (s : DbStep A) {l : ℕ → Option ℕ}
    {w v : DbWorld A} (ok : Allowed i s l) (p : Apart dir h l w v) :
    Apart dir h (addrAfter i s l) (dbStep dir i s w).2 v := by
  have hh : h ≠ i := fun e => hi e.symm
  have hobj : (dbStep dir i s w).2.objs h = w.objs h := by
    cases s with
    | make a => simp [dbStep, setAt, hh]
    | copyOf o => exact ok.elim
    | discard => cases ho : w.objs i <;> simp [dbStep, setAt, hh, ho]
    | start => cases ho : w.objs i <;> simp [dbStep, setAt, hh, ho]
    | dump v k =>
      cases ho : w.objs i with
      | none => simp [dbStep, ho]
      | some x => cases hd : x.db <;> simp [dbStep, ho, hd]
    | load k =>
      cases ho : w.objs i with
      | none => simp [dbStep, ho]
      | some x =>
        cases hd : x.db
        · simp [dbStep, ho, hd]
        · cases hf : w.files x.name <;> simp [dbStep, ho, hd, hf]
    | clean => cases ho : w.objs i <;> simp [dbStep, ho]
  refine ⟨names_step dir i s ok p.names, inj_step i s ok p.inj, hobj.trans p.same, ?_⟩
  intro x hx hd
  rw [hobj] at hx
  have hne : ∀ y, w.objs i = some y → x.name ≠ y.name := fun y hy => p.name_ne hh hx hy
  rw [← p.files x hx hd]
  cases s with
  | make a => simp [dbStep]
  | copyOf o => exact ok.elim
  | discard => cases ho : w.objs i <;> simp [dbStep, ho]
  | start =>
    cases ho : w.objs i with
    | none => simp [dbStep, ho]
    | some y => simp [dbStep, ho, setAt, hne y ho]
  | dump v k =>
    cases ho : w.objs i with
    | none => simp [dbStep, ho]
    | some y => cases hd : y.db <;> simp [dbStep, ho, hd, setAt, hne y ho]
  | load k =>
    cases ho : w.objs i with
    | none => simp [dbStep, ho]
    | some y =>
      cases hd : y.db
      · simp [dbStep, ho, hd]
      · cases hf : w.files y.name <;> simp [dbStep, ho, hd, hf]
  | clean =>
    cases ho : w.objs i with
    | none => simp [dbStep, ho]
    | some y => simp [dbStep, ho, setAt, hne y ho]

/-- An operation of `h` itself gives the same in both worlds. -/
theorem apart_self (dir : String) {h : ℕ} (s : DbStep A) {l : ℕ → Option ℕ}
    {w v : DbWorld A} (ok : Allowed h s l) (p : Apart dir h l w v) :
    (dbStep dir h s w).1 = (dbStep dir h s v).1
      ∧ Apart dir h (addrAfter h s l) (dbStep dir h s w).2 (dbStep dir h s v).2 := by
  have hn := names_step dir h s ok p.names
  have hi := inj_step h s ok p.inj
  have hs := p.same
  have hf := p.files
  suffices H : (dbStep dir h s w).1 = (dbStep dir h s v).1
      ∧ (dbStep dir h s w).2.objs h = (dbStep dir h s v).2.objs h
      ∧ ∀ x, (dbStep dir h s w).2.objs h = some x → x.db = true →
        (dbStep dir h s w).2.files x.name = (dbStep dir h s v).2.files x.name from
    ⟨H.1, ⟨hn, hi, H.2.1, H.2.2⟩⟩
  clear hn hi
  cases s with
  | make a =>
    refine ⟨rfl, by simp [dbStep, setAt], ?_⟩
    intro x hx hd
    simp [dbStep, setAt] at hx
    subst hx
    simp at hd
  | copyOf o => exact ok.elim
  | discard =>
    cases ho : v.objs h with
    | none => rw [ho] at hs; simp [dbStep, hs, ho]
    | some x => rw [ho] at hs; simp [dbStep, hs, ho, setAt]
  | start =>
    cases ho : v.objs h with
    | none => rw [ho] at hs; simp [dbStep, hs, ho]
    | some x => rw [ho] at hs; simp [dbStep, hs, ho, setAt]
  | dump b k =>
    cases ho : v.objs h with
    | none => rw [ho] at hs; simp [dbStep, hs, ho]
    | some x =>
      rw [ho] at hs
      cases hd : x.db
      · simp [dbStep, hs, ho, hd]
      · simp [dbStep, hs, ho, hd, setAt, hf x hs hd]
  | load k =>
    cases ho : v.objs h with
    | none => rw [ho] at hs; simp [dbStep, hs, ho]
    | some x =>
      rw [ho] at hs
      cases hd : x.db
      · simp [dbStep, hs, ho, hd]
      · have e := hf x hs hd
        cases hg : v.files x.name with
        | none => rw [hg] at e; simp [dbStep, hs, ho, hd, e, hg]
        | some t => rw [hg] at e; simp [dbStep, hs, ho, hd, e, hg]
  | clean =>
    cases ho : v.objs h with
    | none => rw [ho] at hs; simp [dbStep, hs, ho]
    | some x => rw [ho] at hs; simp [dbStep, hs, ho, setAt]

theorem apart_history (dir : String) (h : ℕ) (hist : List (ℕ × DbStep A)) :
    ∀ (l : ℕ → Option ℕ) (w v : DbWorld A), Addresses hist l → Apart dir h l w v →
      dbSays dir h hist w = dbSays dir h (hist.filter fun e => e.1 = h) v := by
  induction hist with
  | nil => intro l w v _ _; rfl
  | cons e rest ih =>
    obtain ⟨i, s⟩ := e
    intro l w v ha p
    obtain ⟨ok, hr⟩ := addresses_cons.1 ha
    by_cases hi : i = h
    · subst hi
      obtain ⟨h1, h2⟩ := apart_self dir s ok p
      simp [dbSays, h1, ih _ _ _ hr h2]
    · simp [dbSays, hi, ih _ _ _ hr (apart_other dir hi s ok p)]

/-- C188: what an image gets from its database in a process with any number of other images, made, used,
cleaned and discarded in any order, is what it would get if it were the only image ever made: whatever
files were left behind in the directory, and whichever addresses were used before. -/
theorem stars_apart (dir : String) (h : ℕ) (hist : List (ℕ × DbStep A))
    (files : String → Option (List (ℕ × A))) (ha : Addresses hist fun _ => none) :
    dbSays dir h hist ⟨fun _ => none, files⟩
      = dbSays dir h (hist.filter fun e => e.1 = h) ⟨fun _ => none, fun _ => none⟩ :=
  apart_history dir h hist _ _ _ ha
    ⟨fun _ => rfl, fun _ _ _ h => by simp at h, rfl, fun _ h => by simp at h⟩

/-! ### What an image reads -/

theorem dbSays_append (dir : String) (h : ℕ) (a b : List (ℕ × DbStep A)) (w : DbWorld A) :
    dbSays dir h (a ++ b) w = dbSays dir h a w ++ dbSays dir h b (dbAfter dir a w) := by
  induction a generalizing w with
  | nil => rfl
  | cons e rest ih =>
    obtain ⟨i, s⟩ := e
    by_cases hi : i = h <;> simp [dbSays, dbAfter, hi, ih]

theorem dbAfter_append (dir : String) (a b : List (ℕ × DbStep A)) (w : DbWorld A) :
    dbAfter dir (a ++ b) w = dbAfter dir b (dbAfter dir a w) := by
  induction a generalizing w with
  | nil => rfl
  | cons e rest ih => obtain ⟨i, s⟩ := e; simp [dbAfter, ih]

/-- The numbered stamps of an extraction. -/
def numbered (stamps : List A) : List (ℕ × A) := stamps.zipIdx.map fun p => (p.2, p.1)

theorem lookup_zipIdx (stamps : List A) (n k : ℕ) :
    ((stamps.zipIdx n).map fun p => (p.2, p.1)).lookup (n + k) = stamps[k]? := by
  induction stamps generalizing n k with
  | nil => simp
  | cons a t ih =>
    cases k with
    | zero => simp
    | succ k =>
      have hb : (n + (k + 1) == n) = false := by simp
      simp only [List.zipIdx_cons, List.map_cons, List.lookup, hb, List.getElem?_cons_succ]
      rw [← ih (n + 1) k]
      congr 1
      omega

theorem lookup_numbered (stamps : List A) (k : ℕ) : (numbered stamps).lookup k = stamps[k]? := by
  have := lookup_zipIdx stamps 0 k
  rwa [Nat.zero_add] at this

theorem dumps_after (dir : String) (h : ℕ) (l : List (A × ℕ)) (w : DbWorld A) (n : String)
    (ho : w.objs h = some ⟨n, true⟩) (t : List (ℕ × A)) (hf : w.files n = some t) :
    (dbAfter dir (l.map fun p => (h, DbStep.dump p.1 p.2)) w).objs = w.objs
      ∧ (dbAfter dir (l.map fun p => (h, DbStep.dump p.1 p.2)) w).files n
        = some (t ++ l.map fun p => (p.2, p.1)) := by
  induction l generalizing w t with
  | nil => simp [dbAfter, hf]
  | cons p l ih =>
    have := ih (dbStep dir h (.dump p.1 p.2) w).2 (by simp [dbStep, ho]) (t ++ [(p.2, p.1)])
      (by simp [dbStep, ho, hf, setAt])
    refine ⟨?_, ?_⟩
    · simp only [List.map_cons, dbAfter]
      rw [this.1]
      simp [dbStep, ho]
    · simp only [List.map_cons, dbAfter]
      rw [this.2]
      simp

/-- After an extraction of `i` its database holds its stamps, whatever was there before. -/
theorem extraction_after (dir : String) (i : ℕ) (stamps : List A) (w : DbWorld A) (x : DbObj)
    (ho : w.objs i = some x) :
    (dbAfter dir ((extraction stamps).map fun s => (i, s)) w).objs
        = setAt w.objs i (some ⟨x.name, true⟩)
      ∧ (dbAfter dir ((extraction stamps).map fun s => (i, s)) w).files x.name
        = some (numbered stamps) := by
  have e : (extraction stamps).map (fun s => (i, s))
      = (i, .start) :: stamps.zipIdx.map fun p => (i, DbStep.dump p.1 p.2) := by
    simp [extraction, Function.comp_def]
  rw [e]
  have := dumps_after dir i stamps.zipIdx (dbStep dir i .start w).2 x.name
    (by simp [dbStep, ho, setAt]) [] (by simp [dbStep, ho, setAt])
  refine ⟨?_, ?_⟩
  · simp only [dbAfter]
    rw [this.1]
    simp [dbStep, ho]
  · simp only [dbAfter]
    rw [this.2]
    simp [numbered]

theorem loads_say (dir : String) (h : ℕ) (ks : List ℕ) (w : DbWorld A) (n : String)
    (ho : w.objs h = some ⟨n, true⟩) :
    dbSays dir h (ks.map fun k => (h, DbStep.load k)) w
      = ks.map fun k => match w.files n with
        | none => .error .OSError
        | some t => .ok (t.lookup k) := by
  induction ks with
  | nil => rfl
  | cons k ks ih =>
    have h2 : (dbStep dir h (.load k) w).2 = w := by
      cases hf : w.files n <;> simp [dbStep, ho, hf]
    have h1 : (dbStep dir h (.load k) w).1 = match w.files n with
        | none => .error .OSError
        | some t => .ok (t.lookup k) := by
      cases hf : w.files n <;> simp [dbStep, ho, hf]
    simp only [List.map_cons, dbSays, if_true, h2, ih, h1]

theorem extraction_says (dir : String) (h : ℕ) (l : List (A × ℕ)) (w : DbWorld A) (n : String)
    (ho : w.objs h = some ⟨n, true⟩) :
    dbSays dir h (l.map fun p => (h, DbStep.dump p.1 p.2)) w = l.map fun _ => .ok none := by
  induction l generalizing w with
  | nil => rfl
  | cons p l ih =>
    simp only [List.map_cons, dbSays, if_true]
    rw [ih _ (by simp [dbStep, ho])]
    simp [dbStep, ho]

/-- C188: an image that cuts out its stars and then reads them reads exactly the stamps it cut out, in their
order, whatever the other images of the process do in between. -/
theorem reads_own_stars (dir : String) (h a : ℕ) (stamps : List A) (ks : List ℕ)
    (hist : List (ℕ × DbStep A)) (files : String → Option (List (ℕ × A)))
    (ha : Addresses hist fun _ => none)
    (own : (hist.filter fun e => e.1 = h)
      = (h, .make a) :: ((extraction stamps).map fun s => (h, s)) ++ ks.map fun k => (h, .load k)) :
    dbSays dir h hist ⟨fun _ => none, files⟩
      = List.replicate (stamps.length + 2) (.ok none) ++ ks.map fun k => .ok stamps[k]? := by
  rw [stars_apart dir h hist files ha, own]
  have e : (extraction stamps).map (fun s => (h, s))
      = (h, .start) :: stamps.zipIdx.map fun p => (h, DbStep.dump p.1 p.2) := by
    simp [extraction, Function.comp_def]
  set w1 : DbWorld A := (dbStep dir h (.make a) ⟨fun _ => none, fun _ => none⟩).2 with hw1
  have ho : w1.objs h = some ⟨dbName dir a, false⟩ := by simp [hw1, dbStep, setAt]
  obtain ⟨h1, h2⟩ := extraction_after dir h stamps w1 _ ho
  simp only [List.cons_append, dbSays, if_true]
  rw [← hw1, dbSays_append, loads_say dir h ks _ (dbName dir a) (by rw [h1]; simp [setAt])]
  simp only at h2
  rw [h2]
  simp only [lookup_numbered]
  rw [e]
  simp only [dbSays, if_true]
  rw [extraction_says dir h _ _ (dbName dir a) (by simp [dbStep, ho, setAt])]
  have : (dbStep dir h (DbStep.start) w1).1 = .ok none := by simp [dbStep, ho]
  rw [this]
  have e1 : (dbStep dir h (DbStep.make (A := A) a) ⟨fun _ => none, fun _ => none⟩).1 = .ok none := rfl
  rw [e1]
  have e2 : (stamps.zipIdx.map fun _ => (Except.ok none : Py (Option A)))
      = List.replicate stamps.length (.ok none) := by
    simp
  rw [e2]
  simp [List.replicate_succ]

/-! ### Copies, and objects of other processes at the same address -/

/-- C188: two images whose databases have the same name. When one cuts out its stars, the other reads the
stamps of the first for its own; when one is cleaned, the other can no longer read its stars. -/
theorem shared_overwritten (dir : String) {h i : ℕ} (hi : i ≠ h) (w : DbWorld A) (n : String) (b : Bool)
    (ho : w.objs h = some ⟨n, true⟩) (hb : w.objs i = some ⟨n, b⟩) (stamps : List A) (ks : List ℕ) :
    dbSays dir h (((extraction stamps).map fun s => (i, s)) ++ ks.map fun k => (h, .load k)) w
        = ks.map (fun k => .ok stamps[k]?)
      ∧ dbSays dir h ((i, .clean) :: ks.map fun k => (h, .load k)) w
        = ks.map fun _ => .error .OSError := by
  have hh : h ≠ i := fun e => hi e.symm
  constructor
  · obtain ⟨h1, h2⟩ := extraction_after dir i stamps w _ hb
    rw [dbSays_append, loads_say dir h ks _ n (by rw [h1]; simpa [setAt, hh] using ho)]
    simp only at h2
    rw [h2]
    simp only [lookup_numbered]
    have : ∀ (l : List (DbStep A)) (w : DbWorld A), dbSays dir h (l.map fun s => (i, s)) w = [] := by
      intro l
      induction l with
      | nil => intro w; rfl
      | cons s l ih => intro w; simp [dbSays, hi, ih]
    rw [this]
    rfl
  · simp only [dbSays, hi, if_false]
    rw [loads_say dir h ks _ n (by simpa [dbStep, hb] using ho)]
    simp [dbStep, hb, setAt]

/-- C188: a copy made with `copy.copy` shares the database of its original for good. -/
theorem copy_shares (dir : String) {h i : ℕ} (hi : i ≠ h) (w : DbWorld A) (x : DbObj)
    (ho : w.objs h = some x) :
    (dbStep dir i (.copyOf h) w).2.objs i = some x ∧ (dbStep dir i (.copyOf h) w).2.objs h = some x := by
  have hh : h ≠ i := fun e => hi e.symm
  simp [dbStep, ho, setAt, hh]

/-- C188: two processes that share the directory (the module was imported before they were forked) may
have images at the same address. Whatever the address and the stamps, the first then reads the star of
the second. -/
theorem fork_collides (dir : String) (a : ℕ) (u v : A) (files : String → Option (List (ℕ × A))) :
    dbSays dir 0 [(0, .make a), (1, .make a), (0, .start), (0, .dump u 0), (1, .start), (1, .dump v 0),
        (0, .load 0)] ⟨fun _ => none, files⟩
      = [.ok none, .ok none, .ok none, .ok (some v)] := by
  simp [dbSays, dbStep, setAt, List.lookup]

/-- An instance: three images, the third at the address of the first, which was discarded without being
cleaned; the second cuts out its star between two readings of the third. -/
def threeImages : List (ℕ × DbStep String) :=
  [(0, .make 7), (0, .start), (0, .dump "a" 0), (1, .make 8), (0, .discard), (2, .make 7), (2, .start),
    (1, .start), (2, .dump "c" 0), (1, .dump "b" 0), (2, .load 0), (1, .clean), (2, .load 0), (1, .load 0)]

theorem threeImages_addresses : Addresses threeImages fun _ => none := by
  simp only [threeImages, Addresses, setAt]
  refine ⟨trivial, by simp, by simp, ?_, ?_, ?_, trivial⟩
  · intro j; by_cases h : j = 0 <;> simp [h]
  · simp
  · intro j; by_cases h : j = 0 <;> by_cases h' : j = 1 <;> simp [h, h']

example (files : String → Option (List (ℕ × String))) :
    dbSays "/tmp/x" 2 threeImages ⟨fun _ => none, files⟩
        = [.ok none, .ok none, .ok none, .ok (some "c"), .ok (some "c")]
      ∧ dbSays "/tmp/x" 1 threeImages ⟨fun _ => none, files⟩
        = [.ok none, .ok none, .ok none, .ok none, .error .OSError] := by
  rw [stars_apart _ _ _ _ threeImages_addresses, stars_apart _ _ _ _ threeImages_addresses]
  simp [threeImages, dbSays, dbStep, setAt, List.lookup]

example : dbSays "/tmp/x" 2 threeImages ⟨fun _ => none, fun _ => none⟩
    = List.replicate 3 (.ok none) ++ [0, 0].map fun k => .ok ["c"][k]? :=
  reads_own_stars "/tmp/x" 2 7 ["c"] [0, 0] threeImages _ threeImages_addresses
    (by simp [threeImages, extraction])

/-- An instance of the sharing: an image, its star, a copy of it, and the star of the copy. -/
example (files : String → Option (List (ℕ × String))) :
    dbSays "/tmp/x" 0 [(0, .make 7), (0, .start), (0, .dump "a" 0), (0, .load 0), (1, .copyOf 0),
        (1, .start), (1, .dump "b" 0), (0, .load 0), (1, .clean), (0, .load 0)] ⟨fun _ => none, files⟩
      = [.ok none, .ok none, .ok none, .ok (some "a"), .ok (some "b"), .error .OSError] := by
  simp [dbSays, dbStep, setAt, List.lookup]

end PI
