import Verif.Base.PyS

/-!
# Model of the temporary files (properimage/single_image.py:144, 148-166)

A path of the file system is absent, a file that can be removed, or something that cannot be removed
(`os.remove` raises an OSError: no permission, a directory).
-/

namespace PI
open PyS

/-- What is at a path. -/
inductive Entry
  | absent | file | stuck
deriving DecidableEq

/-- The file system. -/
abbrev FS := String → Entry

/-- `os.remove(p)` -/
def osRemove (p : String) : PyS FS Unit := fun fs =>
  match fs p with
  | .file => (.ok (), fun q => if q = p then .absent else fs q)
  | _ => (.error .OSError, fs)

/-- `_clean` (single_image.py:160-166) of the object whose database has the given name. -/
def cleanFiles (dbname : String) : PyS FS Unit := fun fs =>
  match (osRemove (dbname ++ ".dat") >>= fun _ => osRemove (dbname ++ ".map")) fs with
  | (.error .OSError, fs') => (.ok (), fs')
  | r => r

/-- `with image: body` (single_image.py:148-154): `__exit__` cleans and returns None, so that an
exception of the body goes on; an exception of the cleaning would replace it. -/
def withImage {α : Type} (dbname : String) (body : PyS FS α) : PyS FS α := fun fs =>
  let r := body fs
  match cleanFiles dbname r.2 with
  | (.ok _, fs') => (r.1, fs')
  | (.error e, fs') => (.error e, fs')

end PI
