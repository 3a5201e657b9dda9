import Verif.Base.PyS

/-!
# Model of the files with the cut-out stars of several images (properimage/single_image.py:60, 76, 144)

Every image keeps the stamps of its stars in a database whose name is made of the address of the object,
`id(self)`, in a temporary directory that is made once, when the module is imported. Any number of images
live at the same time; their operations come in any order (the threads of `coadd` interleave them), images
are discarded and later images may get the address of a discarded one, while the files stay behind unless
`_clean` was called.

tinynpydb is trusted to do the following (its source is not in `/repo`): opening a database in "store" mode
makes both of its files empty; `dump` appends the array with its number to the files; `load` reads the files
at each call, and returns the array first dumped with the number, or None. One operation is not interrupted
by another. The two files of a database are taken as one; that their removal succeeds is assumed here
(`Model/Clean` says what happens if it does not).
-/

namespace PI

/-- The name of the database of the object at the address `a` (single_image.py:144), in the directory
`dir` (lines 60 and 76). -/
def dbName (dir : String) (a : ℕ) : String := dir ++ "/" ++ toString a ++ "_SingleImage"

/-- What an image does with its database. -/
inductive DbStep (A : Type)
  /-- `SingleImage(...)`, made at an address (line 144) -/
  | make (addr : ℕ)
  /-- `copy.copy(image)`: the attributes of another image, `dbname` and `db` among them -/
  | copyOf (other : ℕ)
  /-- the object is discarded by Python -/
  | discard
  /-- `self.db = npdb.NumPyDB(self.dbname, mode="store")` (line 765) -/
  | start
  /-- `self.db.dump(stamp, k)` (line 923) -/
  | dump (stamp : A) (k : ℕ)
  /-- `self.db.load(k)[0]` (lines 986, 992, 995, 1067, 1483) -/
  | load (k : ℕ)
  /-- `self._clean()` (lines 160-166) -/
  | clean

/-- The attributes of an image that are about its database. -/
structure DbObj where
  /-- `self.dbname` -/
  name : String
  /-- whether `self.db` exists -/
  db : Bool

/-- The images alive and the files. -/
structure DbWorld (A : Type) where
  objs : ℕ → Option DbObj
  files : String → Option (List (ℕ × A))

variable {A : Type}

/-- Replaces the value of a function at one point. -/
def setAt {α β : Type} [DecidableEq α] (f : α → β) (a : α) (b : β) : α → β :=
  fun x => if x = a then b else f x

/-- One operation of the image `h`: what it returns (None but for `load`) and the world after it. An
operation of an image that does not exist is an UnboundLocalError. -/
def dbStep (dir : String) (h : ℕ) (s : DbStep A) (w : DbWorld A) : Py (Option A) × DbWorld A :=
  match s, w.objs h with
  | .make a, _ => (.ok none, { w with objs := setAt w.objs h (some ⟨dbName dir a, false⟩) })
  | .copyOf o, _ =>
    match w.objs o with
    | none => (.error .UnboundLocalError, w)
    | some x => (.ok none, { w with objs := setAt w.objs h (some x) })
  | _, none => (.error .UnboundLocalError, w)
  | .discard, some _ => (.ok none, { w with objs := setAt w.objs h none })
  | .start, some x =>
    (.ok none, ⟨setAt w.objs h (some { x with db := true }), setAt w.files x.name (some [])⟩)
  | .dump v k, some x =>
    if x.db then
      (.ok none, { w with files := setAt w.files x.name (some ((w.files x.name).getD [] ++ [(k, v)])) })
    else (.error .AttributeError, w)
  | .load k, some x =>
    if x.db then
      match w.files x.name with
      | none => (.error .OSError, w)
      | some l => (.ok (l.lookup k), w)
    else (.error .AttributeError, w)
  | .clean, some x => (.ok none, { w with files := setAt w.files x.name none })

/-- What the image `h` gets from its operations in a history of operations of any images. -/
def dbSays (dir : String) (h : ℕ) : List (ℕ × DbStep A) → DbWorld A → List (Py (Option A))
  | [], _ => []
  | (i, s) :: rest, w =>
    if i = h then (dbStep dir i s w).1 :: dbSays dir h rest (dbStep dir i s w).2
    else dbSays dir h rest (dbStep dir i s w).2

/-- The world after a history. -/
def dbAfter (dir : String) : List (ℕ × DbStep A) → DbWorld A → DbWorld A
  | [], w => w
  | (i, s) :: rest, w => dbAfter dir rest (dbStep dir i s w).2

/-- The cutting out of the stars (single_image.py:765-923): the stamps that were accepted are numbered in
their order. -/
def extraction (stamps : List A) : List (DbStep A) :=
  .start :: stamps.zipIdx.map fun p => .dump p.1 p.2

end PI
