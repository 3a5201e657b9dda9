import Verif.Base.Py

/-!
# Methods that change an object

A Python method on an object with attributes `σ`: it returns or raises, and in both cases leaves the
object in a new state. Models the Python language, not a file of `/repo`.
-/

namespace PI

/-- A method: new state together with a result or an exception. -/
def PyS (σ α : Type _) := σ → Py α × σ

namespace PyS
variable {σ α β : Type _}

instance : Monad (PyS σ) where
  pure a := fun s => (.ok a, s)
  bind f g := fun s =>
    match f s with
    | (.ok a, s') => g a s'
    | (.error e, s') => (.error e, s')

/-- The attributes. -/
def get : PyS σ σ := fun s => (.ok s, s)
/-- Setting attributes. -/
def modify (f : σ → σ) : PyS σ Unit := fun s => (.ok (), f s)
/-- `raise` -/
def raise (e : PyErr) : PyS σ α := fun s => (.error e, s)
/-- A computation that does not touch the object. -/
def lift (r : Py α) : PyS σ α := fun s => (r, s)
/-- `try: f except Exception: g` -/
def orElse (f g : PyS σ α) : PyS σ α := fun s =>
  match f s with
  | (.ok a, s') => (.ok a, s')
  | (.error _, s') => g s'

@[simp] theorem pure_app (a : α) (s : σ) : (pure a : PyS σ α) s = (.ok a, s) := rfl
@[simp] theorem get_app (s : σ) : (get : PyS σ σ) s = (.ok s, s) := rfl
@[simp] theorem modify_app (f : σ → σ) (s : σ) : modify f s = (.ok (), f s) := rfl
@[simp] theorem raise_app (e : PyErr) (s : σ) : (raise e : PyS σ α) s = (.error e, s) := rfl
@[simp] theorem lift_app (r : Py α) (s : σ) : (lift r : PyS σ α) s = (r, s) := rfl

theorem bind_app (f : PyS σ α) (g : α → PyS σ β) (s : σ) :
    (f >>= g) s = match f s with
      | (.ok a, s') => g a s'
      | (.error e, s') => (.error e, s') := rfl

theorem bind_ok (f : PyS σ α) (g : α → PyS σ β) (s s' : σ) (a : α) (h : f s = (.ok a, s')) :
    (f >>= g) s = g a s' := by rw [bind_app, h]

theorem bind_err (f : PyS σ α) (g : α → PyS σ β) (s s' : σ) (e : PyErr) (h : f s = (.error e, s')) :
    (f >>= g) s = (.error e, s') := by rw [bind_app, h]

@[simp] theorem get_bind (g : σ → PyS σ β) (s : σ) : (get >>= g) s = g s s := rfl
@[simp] theorem modify_bind (f : σ → σ) (g : Unit → PyS σ β) (s : σ) :
    (modify f >>= g) s = g () (f s) := rfl
@[simp] theorem pure_bind' (a : α) (g : α → PyS σ β) (s : σ) : ((pure a : PyS σ α) >>= g) s = g a s := rfl

theorem bind_eq_ok (f : PyS σ α) (g : α → PyS σ β) (s t : σ) (b : β) :
    (f >>= g) s = (.ok b, t) ↔ ∃ a s', f s = (.ok a, s') ∧ g a s' = (.ok b, t) := by
  rw [bind_app]
  rcases hf : f s with ⟨r | r, s'⟩
  · simp
  · constructor
    · intro h; exact ⟨r, s', rfl, h⟩
    · rintro ⟨a, s'', h1, h2⟩; cases h1; exact h2

end PyS
end PI
