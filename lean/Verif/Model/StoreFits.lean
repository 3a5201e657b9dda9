import Verif.Model.Construct

/-!
# Model of `store_fits` (properimage/simtools.py:274-305)

The file system is a map from paths to contents (a directory that does not exist or cannot be written is
not modelled). astropy's `Time` is a parameter. A primary HDU that is written without extensions carries
`EXTEND = T`, no `GAIN`.
-/

namespace PI

/-- astropy's `Time`: the ISO text, the Julian date, and the time of a Julian date (scale utc). -/
structure TimeLib (τ : Type) where
  iso : τ → String
  jd : τ → ℚ
  ofJd : ℚ → τ

/-- The argument `t`: a `Time` or a number. -/
inductive TimeArg (τ : Type)
  | time (t : τ)
  | number (q : ℚ)

/-- The cards written by `store_fits` (simtools.py:297-301). -/
structure ObsCards where
  timeObs : String
  dateObs : String
  exptime : ℚ
  jd : ℚ
  zeroP : ℚ

/-- A file: what the constructor of `SingleImage` reads, and the cards. -/
structure StoredFits where
  fits : FitsFile
  cards : ObsCards

/-- `s[a:b]` for a text. -/
def textSlice (s : String) (a b : ℕ) : String := String.ofList ((s.toList.take b).drop a)

/-- `os.path.join(path, name)` on posix for a name without a slash. -/
def dirJoin (path name : String) : String :=
  if path = "" then name
  else if path.toList.getLast? = some '/' then path ++ name
  else path ++ "/" ++ name

/-- The name of the file (simtools.py:302); `i` is `str(i)`. -/
def imageName (i : String) : String := "image00" ++ i ++ ".fits"

/-- The file `store_fits` writes (simtools.py:288-301). -/
def storedFits {τ : Type} (lib : TimeLib τ) (gal : Img FVal) (t : TimeArg τ) (texp zero : ℚ) : StoredFits :=
  let tt := match t with
    | .time t => t
    | .number q => lib.ofJd q
  { fits := { data := gal, gain := none, extend := some true, ext1 := none }
    cards :=
      { timeObs := textSlice (lib.iso tt) 11 24
        dateObs := textSlice (lib.iso tt) 0 10
        exptime := texp
        jd := lib.jd tt
        zeroP := zero } }

/-- The contents of the files. -/
abbrev Files := String → Option StoredFits

/-- `store_fits(gal, t, t_exp, i, zero, path)` (simtools.py:274-305): the path returned and the files. -/
def storeFits {τ : Type} (lib : TimeLib τ) (gal : Img FVal) (t : TimeArg τ) (texp : ℚ) (i : String) (zero : ℚ)
    (path : String) (fs : Files) : String × Files :=
  let p := dirJoin path (imageName i)
  (p, fun q => if q = p then some (storedFits lib gal t texp zero) else fs q)

end PI
