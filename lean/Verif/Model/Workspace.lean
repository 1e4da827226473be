import Verif.Model.BandRun
import Verif.Model.BandRunNC

/-
The working directory of the band-structure drivers: what a calculation that finishes, fails or is killed leaves in
it.  Modelled: the names of the files, the order of the file operations of `jnp.save` (which calls `np.save`: the file
is opened for writing, which empties it, then the array is written) and the effect of several calculations, one after
the other or at the same time.  Simplified: an array that has not been written completely is a state of its own, `torn`,
without the bytes that are there; the log is not modelled.
-/
namespace Jrystal

/-- An array in a file: of the all-electron driver (/repo/jrystal/calc/calc_band_structure_all_electrons.py:199-209) or of
the norm-conserving one (/repo/jrystal/calc/calc_band_structure_normcons.py:291-299). -/
inductive SavedArray where
  | channels (spins kpts bands : ℕ) (values : Fin spins → Fin kpts → Fin bands → ℝ)
  | rows (count bands : ℕ) (values : Fin count → Fin bands → ℝ)

/-- What a file holds: a complete array, or the remains of a write that did not end
(/repo/jrystal/calc/calc_band_structure_all_electrons.py:209). -/
inductive FileState where
  | array (x : SavedArray)
  | torn

/-- The working directory: the files by name (/repo/jrystal/calc/calc_band_structure_all_electrons.py:207-209). -/
abbrev WorkDir := String → Option FileState

/-- A call of `calc` of one of the two band drivers
(/repo/jrystal/calc/calc_band_structure_all_electrons.py:37, /repo/jrystal/calc/calc_band_structure_normcons.py:66). -/
inductive BandCall where
  | allElectron (L : RunLib) (T : BandTools) (cfg : RunConfig) (b : BandConfig)
  | normConserving (L : NcLib) (T : BandTools) (cfg : NcConfig) (b : BandConfig) (supplied : Bool)

/-- The name and the array that a call saves, or its exception
(/repo/jrystal/calc/calc_band_structure_all_electrons.py:207-209,
/repo/jrystal/calc/calc_band_structure_normcons.py:297-299). -/
noncomputable def BandCall.outcome : BandCall → Except PyErr (String × SavedArray)
  | .allElectron L T cfg b => (bandRun L T cfg b).map fun f => (f.name, .channels f.spins f.kpts f.bands f.values)
  | .normConserving L T cfg b supplied =>
    (bandRunNC L T cfg b supplied).map fun f => (f.name, .rows f.rows f.bands f.values)

/-- One operation on the working directory, of `jnp.save`
(/repo/jrystal/calc/calc_band_structure_all_electrons.py:209). -/
inductive DirStep where
  | create (name : String)
  | fill (name : String) (x : SavedArray)

/-- The file that an operation changes (/repo/jrystal/calc/calc_band_structure_all_electrons.py:209). -/
def DirStep.name : DirStep → String
  | .create name => name
  | .fill name _ => name

/-- Effect of an operation (/repo/jrystal/calc/calc_band_structure_all_electrons.py:209). -/
def DirStep.apply (d : WorkDir) (s : DirStep) : WorkDir := fun f =>
  if f = s.name then
    match s with
    | .create _ => some .torn
    | .fill _ x => some (.array x)
  else d f

/-- The operations of a call, in order; the file is touched after all energies are known
(/repo/jrystal/calc/calc_band_structure_all_electrons.py:207-209,
/repo/jrystal/calc/calc_band_structure_normcons.py:297-299). -/
noncomputable def BandCall.steps (c : BandCall) : List DirStep :=
  match c.outcome with
  | .error _ => []
  | .ok (name, x) => [.create name, .fill name x]

/-- A call that ran to its end or exception, or was killed after some of its operations on the directory
(/repo/jrystal/calc/calc_band_structure_all_electrons.py:37-209). -/
structure Attempt where
  call : BandCall
  killed : Option ℕ

/-- The operations that an attempt made (/repo/jrystal/calc/calc_band_structure_all_electrons.py:207-209). -/
noncomputable def Attempt.steps (a : Attempt) : List DirStep :=
  match a.killed with
  | none => a.call.steps
  | some k => a.call.steps.take k

/-- The directory after a sequence of operations (/repo/jrystal/calc/calc_band_structure_all_electrons.py:207-209). -/
def WorkDir.after (d : WorkDir) (s : List DirStep) : WorkDir := s.foldl DirStep.apply d

/-- The directory after several attempts, one after the other
(/repo/jrystal/calc/calc_band_structure_all_electrons.py:207-209). -/
noncomputable def WorkDir.history (d : WorkDir) (h : List Attempt) : WorkDir := d.after (h.flatMap Attempt.steps)

end Jrystal
