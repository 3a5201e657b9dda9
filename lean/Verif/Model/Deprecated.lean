import Verif.Model.Coadd

/-!
# Model of the deprecated names `diff` and `stack_R`, and of Python's `warnings.warn`

The wrapped function (`subtract` or `coadd`) is a parameter, so that everything proved about it elsewhere carries over.
The `warnings` module is modelled from CPython's `warnings.warn` and `warn_explicit`: the filters in force, the registry kept
in the globals of the module the warning is attributed to, the `once` registry and the warnings shown. Simplifications:
warnings of other categories and of other modules are not tracked (their registries are separate), and a filter's regular
expressions are arbitrary predicates.
-/

namespace PI

/-- The action of a warning filter. -/
inductive WAction
  | error | ignore | always | default | module | once
deriving DecidableEq, Repr

/-- One entry of `warnings.filters`. `cat` says whether the filter's category is `DeprecationWarning` or a base class of it;
`line` is `0` for any line. -/
structure WFilter where
  action : WAction
  msg : String → Bool
  cat : Bool
  mod : String → Bool
  line : ℕ

/-- A Python frame: the module whose globals it runs in and the line it is at. -/
structure PyFrame where
  mod : String
  line : ℕ
deriving DecidableEq, Repr

/-- The state of the `warnings` module as far as it concerns `DeprecationWarning`s attributed to one module.
`registry` holds the keys `(text, lineno)` and `once` the texts. -/
structure WState where
  filters : List WFilter
  defaultAction : WAction
  version : ℕ
  regVersion : ℕ
  registry : List (String × ℕ)
  once : List String
  shown : List (String × PyFrame)

/-- Does a filter apply to a `DeprecationWarning` with this text, attributed to this frame? -/
def WFilter.matches (f : WFilter) (text : String) (at_ : PyFrame) : Bool :=
  f.msg text && f.cat && f.mod at_.mod && (f.line == 0 || at_.line == f.line)

/-- The action of the first filter that applies. -/
def WState.actionFor (s : WState) (text : String) (at_ : PyFrame) : WAction :=
  match s.filters.find? (·.matches text at_) with
  | some f => f.action
  | none => s.defaultAction

/-- The registry after the test of its version. -/
def WState.fresh (s : WState) : WState :=
  if s.regVersion = s.version then s else { s with registry := [], regVersion := s.version }

/-- CPython `warn_explicit`. The first component tells whether the warning was raised as an exception. -/
def warnExplicit (text : String) (at_ : PyFrame) (s0 : WState) : Bool × WState :=
  let s := s0.fresh
  if (text, at_.line) ∈ s.registry then (false, s)
  else
    match s.actionFor text at_ with
    | .ignore => (false, s)
    | .error => (true, s)
    | .always => (false, { s with shown := s.shown ++ [(text, at_)] })
    | .default =>
      (false, { s with registry := (text, at_.line) :: s.registry, shown := s.shown ++ [(text, at_)] })
    | .module =>
      let s := { s with registry := (text, at_.line) :: s.registry }
      if (text, 0) ∈ s.registry then (false, s)
      else (false, { s with registry := (text, 0) :: s.registry, shown := s.shown ++ [(text, at_)] })
    | .once =>
      let s := { s with registry := (text, at_.line) :: s.registry }
      if text ∈ s.once then (false, s)
      else (false, { s with once := text :: s.once, shown := s.shown ++ [(text, at_)] })

/-- `warnings.warn(text, DeprecationWarning, stacklevel=level)`: the warning is attributed to the `level`-th innermost frame,
and to `sys` line 0 (1 before 3.12) when the stack is not that deep. -/
def warnCall (stack : List PyFrame) (level : ℕ) (text : String) (s : WState) : Bool × WState :=
  warnExplicit text ((stack[level - 1]?).getD ⟨"sys", 0⟩) s

/-- What a call may raise: the warning itself, or an exception of the wrapped function. -/
inductive AliasErr
  | DeprecationWarning
  | raised (e : PyErr)
deriving DecidableEq, Repr

/-- A deprecated wrapper: warn with the default `stacklevel=1`, then call the new function with the same arguments.
`stack` is the stack of the caller, `σ` whatever the wrapped function may change (lists of the caller, image objects, files). -/
def aliasCall {A R σ : Type} (here : PyFrame) (text : String) (f : A → σ → Py R × σ)
    (stack : List PyFrame) (args : A) (w : WState) (s : σ) : Except AliasErr R × WState × σ :=
  match warnCall (here :: stack) 1 text w with
  | (true, w) => (.error .DeprecationWarning, w, s)
  | (false, w) =>
    match f args s with
    | (.ok r, s) => (.ok r, w, s)
    | (.error e, s) => (.error (.raised e), w, s)

/-- `operations.diff` (operations.py:429-437) around `subtract`. -/
def diffAlias {A R σ : Type} (subtract : A → σ → Py R × σ) :=
  aliasCall ⟨"properimage.operations", 434⟩ "This is being deprecated in favour of `subtract`" subtract

/-- `operations.stack_R` (operations.py:580-588) around `coadd`. -/
def stackRAlias {A R σ : Type} (coadd : A → σ → Py R × σ) :=
  aliasCall ⟨"properimage.operations", 585⟩ "This is being deprecated in favour of `coadd`" coadd

/-- Any number of calls, one after the other, each from its own place; an exception does not end the sequence. -/
def aliasCalls {A R σ : Type} (call : List PyFrame → A → WState → σ → Except AliasErr R × WState × σ) :
    List (List PyFrame × A) → WState → σ → WState × σ
  | [], w, s => (w, s)
  | (stack, a) :: rest, w, s =>
    let r := call stack a w s
    aliasCalls call rest r.2.1 r.2.2

/-- The filters of a CPython interpreter started without options: `DeprecationWarning`s of `__main__` are shown once per
line, all others are ignored; the three remaining entries are for other categories. -/
def stockFilters : List WFilter :=
  [⟨.default, fun _ => true, true, fun m => m == "__main__", 0⟩,
   ⟨.ignore, fun _ => true, true, fun _ => true, 0⟩,
   ⟨.ignore, fun _ => true, false, fun _ => true, 0⟩,
   ⟨.ignore, fun _ => true, false, fun _ => true, 0⟩,
   ⟨.ignore, fun _ => true, false, fun _ => true, 0⟩]

/-! ## The printed form of an image and the domain of its coefficient fields -/

/-- `SingleImage.__repr__` (single_image.py:156-158). -/
def imageRepr {α : Type} (a : Img α) : String :=
  "SingleImage " ++ toString a.h ++ ", " ++ toString a.w

/-- `SingleImage.get_afield_domain` (single_image.py:1096-1099): `np.mgrid[:rows, :cols]`. -/
def afieldDomain {α : Type} (a : Img α) : Img ℕ × Img ℕ :=
  (⟨a.h, a.w, fun i _ => i⟩, ⟨a.h, a.w, fun _ j => j⟩)

end PI
