import Verif.Model.Coadd

/-!
# Model of `coadd`'s worker threads (operations.py:440-454, 513-518)

`joblib.Parallel(backend="threading")` runs one `process_chunk_joblib` per chunk in threads that share the SingleImage
objects. What they read and write of these is `s_hat_comp` (single_image.py:1258-1296), which keeps its value in one
attribute and the loss it was computed for in another. The model interleaves the two tests, the computation, the two
stores and the read. Simplifications: computing the value is deterministic and one step (in an object shared by two
threads the attributes read on the way could interleave too); every worker may run at any time, where joblib runs at
most `n_procs` of them at a time.
-/

namespace PI

/-- The attributes `_s_hat_comp` and `_s_hat_inf_loss` of an object; `none` is a missing attribute. -/
structure Attrs (V L : Type) where
  comp : Option V
  loss : Option L

/-- Where a worker is inside `s_hat_comp` of its current image. -/
inductive PC (V : Type)
  /-- before `not hasattr(self, "_s_hat_comp")` (line 1262) -/
  | test
  /-- before `self._s_hat_inf_loss != self.inf_loss` (line 1263) -/
  | lossTest
  /-- before the computation (lines 1266-1293) -/
  | compute
  /-- the value has been computed, but not stored yet (line 1293) -/
  | computed (v : V)
  /-- the value is stored, its loss not yet (line 1294) -/
  | stored
  /-- before `return self._s_hat_comp` (line 1296) and the accumulation -/
  | ready

/-- A worker: images still to do, program counter, accumulator, and whether it has raised AttributeError. -/
structure Worker (V A : Type) where
  todo : List ℕ
  pc : PC V
  acc : A
  failed : Bool

/-- The shared attributes and the workers. -/
structure SchedState (V L A : Type) where
  attrs : ℕ → Attrs V L
  workers : ℕ → Worker V A

variable {V L A : Type} [DecidableEq L]

/-- One atomic step of a worker; `cur` is the `inf_loss` of the objects. -/
def stepWorker (compute : ℕ → V) (cur : ℕ → L) (add : A → ℕ → V → A) (attrs : ℕ → Attrs V L) (t : Worker V A) :
    (ℕ → Attrs V L) × Worker V A :=
  if t.failed then (attrs, t) else
  match t.todo with
  | [] => (attrs, t)
  | id :: rest =>
    match t.pc with
    | .test =>
      match (attrs id).comp with
      | none => (attrs, { t with pc := .compute })
      | some _ => (attrs, { t with pc := .lossTest })
    | .lossTest =>
      match (attrs id).loss with
      | none => (attrs, { t with failed := true })
      | some l => if l = cur id then (attrs, { t with pc := .ready }) else (attrs, { t with pc := .compute })
    | .compute => (attrs, { t with pc := .computed (compute id) })
    | .computed v => (Function.update attrs id { attrs id with comp := some v }, { t with pc := .stored })
    | .stored => (Function.update attrs id { attrs id with loss := some (cur id) }, { t with pc := .ready })
    | .ready =>
      match (attrs id).comp with
      | none => (attrs, { t with failed := true })
      | some v => (attrs, ⟨rest, .test, add t.acc id v, false⟩)

/-- Worker `k` makes one step. -/
def stepSched (compute : ℕ → V) (cur : ℕ → L) (add : A → ℕ → V → A) (s : SchedState V L A) (k : ℕ) :
    SchedState V L A :=
  let r := stepWorker compute cur add s.attrs (s.workers k)
  ⟨r.1, Function.update s.workers k r.2⟩

/-- A schedule is the list of worker numbers in the order in which they are run. -/
def runSched (compute : ℕ → V) (cur : ℕ → L) (add : A → ℕ → V → A) (s : SchedState V L A) (sched : List ℕ) :
    SchedState V L A :=
  sched.foldl (stepSched compute cur add) s

/-- All workers at the beginning of their chunks. -/
def schedStart (chunks : ℕ → List ℕ) (init : ℕ → A) (attrs : ℕ → Attrs V L) : SchedState V L A :=
  ⟨attrs, fun k => ⟨chunks k, .test, init k, false⟩⟩

/-- The accumulation of operations.py:447-453 as a worker step: `v` is what `s_hat_comp` gave (another exception ends
the worker's useful work; the remaining steps keep it). -/
noncomputable def workerAdd (img : ℕ → CoImg) (a : Py Acc) (id : ℕ) (v : ℕ → ℕ → ℂ) : Py Acc :=
  a.bind fun acc => accStep acc { img id with sHat := v }

/-- The accumulators at the beginning of `process_chunk_joblib` (operations.py:441-443), worker `k` having the images
numbered `chunks k`. -/
noncomputable def workerInit (img : ℕ → CoImg) (gs : ℕ × ℕ) (chunks : ℕ → List ℕ) (k : ℕ) : Py Acc :=
  .ok ⟨Img.const gs.1 gs.2 0, Img.const gs.1 gs.2 0, ((chunks k).head?.bind fun i => (img i).mask)⟩

/-- What `Parallel` gives when the first `n` workers have ended (operations.py:515-518): the exception of one of them,
or their results in the order of the chunks. -/
noncomputable def gather (s : SchedState (ℕ → ℕ → ℂ) L (Py Acc)) (n : ℕ) : Py (List Acc) :=
  (List.range n).mapM fun k => if (s.workers k).failed then .error .AttributeError else (s.workers k).acc

end PI
