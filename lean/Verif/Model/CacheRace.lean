import Verif.Model.Config

/-
The cache of the projectors when several processes save and load it at the same time, or are killed: `save_beta_sbt`
and `load_beta_sbt` of /repo/jrystal/calc/opt_utils.py, operation by operation.  The file system of `Model/Config.lean`
executes a save as one action; here a save is the test for the directory, its creation, the opening of the file (which
empties it) and the writes of `np.savez`, one byte at a time.  Simplified: a load reads the bytes of the file in one
action; the directory and the file are never removed by others; the default file name is used (with an explicit name
both functions raise before they touch the file, `beta_cache_explicit_fails`).
-/
namespace Jrystal

/-- The cache directory and the bytes of the cache file (/repo/jrystal/calc/opt_utils.py:206-208). -/
structure CacheDisk where
  dir : Bool
  file : Option (List UInt8)

/-- One write of a byte at a position of the open file.  A position behind the end (another process has emptied the
file) leaves a gap of zeros (`np.savez`, /repo/jrystal/calc/opt_utils.py:210-213). -/
def writeByte (f : List UInt8) (w : ℕ × UInt8) : List UInt8 :=
  if w.1 < f.length then f.set w.1 w.2 else f ++ List.replicate (w.1 - f.length) 0 ++ [w.2]

/-- Where a call of `save_beta_sbt` is (/repo/jrystal/calc/opt_utils.py:204-213): at `os.path.exists`, at
`os.makedirs`, at the opening of the file, between two writes with the remaining ones, or out by an exception.  The
call has returned when no write remains. -/
inductive SavePoint where
  | check
  | mkdir
  | opening
  | writing (rest : List (ℕ × UInt8))
  | raised (e : PyErr)

/-- The next action of a call whose `np.savez` makes the writes `w`: `os.makedirs` raises `FileExistsError`, an
`OSError`, when the directory is there (/repo/jrystal/calc/opt_utils.py:208-213). -/
def saveAction (w : List (ℕ × UInt8)) (d : CacheDisk) : SavePoint → CacheDisk × SavePoint
  | .check => (d, if d.dir then .opening else .mkdir)
  | .mkdir => if d.dir then (d, .raised .osError) else ({ d with dir := true }, .opening)
  | .opening => if d.dir then ({ d with file := some [] }, .writing w) else (d, .raised .fileNotFound)
  | .writing [] => (d, .writing [])
  | .writing (b :: rest) => ({ d with file := some (writeByte (d.file.getD []) b) }, .writing rest)
  | .raised e => (d, .raised e)

/-- The disk and the calls of several processes (/repo/jrystal/calc/opt_utils.py:204-213). -/
structure CacheSystem (n : ℕ) where
  disk : CacheDisk
  at_ : Fin n → SavePoint

/-- The start of `n` calls (/repo/jrystal/calc/opt_utils.py:204). -/
def CacheSystem.start (n : ℕ) (d : CacheDisk) : CacheSystem n := ⟨d, fun _ => .check⟩

/-- One action of process `i` (/repo/jrystal/calc/opt_utils.py:204-213). -/
def CacheSystem.step {n : ℕ} (w : Fin n → List (ℕ × UInt8)) (s : CacheSystem n) (i : Fin n) : CacheSystem n :=
  ⟨(saveAction (w i) s.disk (s.at_ i)).1, Function.update s.at_ i (saveAction (w i) s.disk (s.at_ i)).2⟩

/-- The actions of the processes in the order of a schedule; a process that does not occur any more has been killed
or waits (/repo/jrystal/calc/opt_utils.py:204-213). -/
def CacheSystem.run {n : ℕ} (w : Fin n → List (ℕ × UInt8)) (s : CacheSystem n) (sched : List (Fin n)) : CacheSystem n :=
  sched.foldl (CacheSystem.step w) s

/-- How numpy writes a list of arrays and reads a file: the writes of `np.savez` in order, and what `np.load` and the
list of its members make of the bytes (/repo/jrystal/calc/opt_utils.py:210-213, 222-223). -/
structure NpzFormat (A : Type*) where
  writes : List A → List (ℕ × UInt8)
  decode : List UInt8 → Except PyErr (List A)

/-- `load_beta_sbt` with the default file name: the directory is made if it is missing, then the file is read
(/repo/jrystal/calc/opt_utils.py:216-223). -/
def loadCache {A : Type*} (F : NpzFormat A) (d : CacheDisk) : CacheDisk × Except PyErr (List A) :=
  ({ d with dir := true }, match d.file with
    | none => .error .fileNotFound
    | some f => F.decode f)

end Jrystal
