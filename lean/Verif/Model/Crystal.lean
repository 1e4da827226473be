import Verif.Model.Grid
import Verif.Model.Occupation
import Verif.Model.Const

/-
Model of /repo/jrystal/_src/crystal.py, of `create_crystal` and `create_grids` in
/repo/jrystal/calc/opt_utils.py and of /repo/jrystal/_src/band/k_path.py.  Real arithmetic.
-/
namespace Jrystal
open scoped BigOperators
open Matrix

/-- Attributes of `Crystal` (/repo/jrystal/_src/crystal.py:78-82) with `m` atoms; `A` is another name of the
cell vectors (/repo/jrystal/_src/crystal.py:109-111). -/
structure Crystal (m : ℕ) where
  charges : Fin m → ℤ
  positions : Matrix (Fin m) (Fin 3) ℝ
  cell : Matrix (Fin 3) (Fin 3) ℝ
  spin : ℤ

/-- `scaled_positions` (/repo/jrystal/_src/crystal.py:85-89): `positions @ inv(cell).T`. -/
noncomputable def Crystal.scaledPositions {m : ℕ} (c : Crystal m) : Matrix (Fin m) (Fin 3) ℝ :=
  c.positions * (c.cell⁻¹)ᵀ

/-- `num_atom` (/repo/jrystal/_src/crystal.py:99-101): number of rows of the positions. -/
def Crystal.numAtom {m : ℕ} (_ : Crystal m) : ℕ := m

/-- `vol` (/repo/jrystal/_src/crystal.py:92-96). -/
noncomputable def Crystal.vol {m : ℕ} (c : Crystal m) : ℝ := |c.cell.det|

/-- `num_electron` (/repo/jrystal/_src/crystal.py:104-106). -/
def Crystal.numElectron {m : ℕ} (c : Crystal m) : ℤ := ∑ a, c.charges a

/-- `reciprocal_vectors` and its other name `B` (/repo/jrystal/_src/crystal.py:114-116, 119-121). -/
noncomputable def Crystal.reciprocal {m : ℕ} (c : Crystal m) : Matrix (Fin 3) (Fin 3) ℝ :=
  reciprocalVectors c.cell

/-- What `ase` holds: atomic numbers, and positions and cell as stored (in Angstrom by convention)
(/repo/jrystal/_src/crystal.py:138-189). -/
structure AseAtoms (m : ℕ) where
  numbers : Fin m → ℤ
  positions : Matrix (Fin m) (Fin 3) ℝ
  cell : Matrix (Fin 3) (Fin 3) ℝ

/-- The common tail of the two constructors (/repo/jrystal/_src/crystal.py:138-153, 174-189): lengths
are multiplied by `ANGSTROM2BOHR`, a missing spin becomes the parity of the total charge. -/
noncomputable def Crystal.fromAse {m : ℕ} (a : AseAtoms m) (spin : Option ℤ) : Crystal m :=
  ⟨a.numbers, (angstrom2bohr : ℝ) • a.positions, (angstrom2bohr : ℝ) • a.cell,
    match spin with
    | some s => s
    | none => (∑ i, a.numbers i) % 2⟩

/-- `create_from_symbols` (/repo/jrystal/_src/crystal.py:156-189): `ase.Atoms` stores its arguments
unchanged. -/
noncomputable def Crystal.createFromSymbols {m : ℕ} (numbers : Fin m → ℤ)
    (positions : Matrix (Fin m) (Fin 3) ℝ) (cell : Matrix (Fin 3) (Fin 3) ℝ) (spin : Option ℤ) :
    Crystal m :=
  Crystal.fromAse ⟨numbers, positions, cell⟩ spin

/-- `create_crystal` (/repo/jrystal/calc/opt_utils.py:106-114); `a` is what `ase.io.read` returns. -/
noncomputable def createCrystal {m : ℕ} (a : AseAtoms m) (spin : Option ℤ) :
    Except PyErr (Crystal m) :=
  let c := Crystal.fromAse a spin
  match checkSpinNumber c.numElectron c.spin with
  | .error e => .error e
  | .ok _ => .ok c

/-- The k point sizes used by `create_grids` (/repo/jrystal/calc/opt_utils.py:143-150): both the FFT
sizes and the k mesh sizes go through `proper_grid_size`. -/
def createGridsSizes (grid kgrid : GridArg) : Except PyErr (List Nat × List Nat) :=
  match properGridSize grid with
  | .error e => .error e
  | .ok g => match properGridSize kgrid with
    | .error e => .error e
    | .ok k => .ok (g, k)

/-- ase's `BandPath.cartesian_kpts`: fractional points times the (2 pi free) reciprocal cell
`pinv(cell).T` (external; from its definition) (/repo/jrystal/_src/band/k_path.py:27-57). -/
noncomputable def aseCartesianKpts {q : ℕ} (frac : Matrix (Fin q) (Fin 3) ℝ)
    (cell : Matrix (Fin 3) (Fin 3) ℝ) : Matrix (Fin q) (Fin 3) ℝ :=
  frac * (cell⁻¹)ᵀ

/-- `get_k_path` (/repo/jrystal/_src/band/k_path.py:27-57).  `frac` are the fractional coordinates
that ase chooses for the path; they are computed from the cell in Angstrom. -/
noncomputable def getKPath {q : ℕ} (bandpath : Matrix (Fin 3) (Fin 3) ℝ → Matrix (Fin q) (Fin 3) ℝ)
    (cell : Matrix (Fin 3) (Fin 3) ℝ) (fractional : Bool) : Matrix (Fin q) (Fin 3) ℝ :=
  let b : ℝ := (bohr2angstrom : ℚ)
  let acell := b • cell
  let kpts := (b • aseCartesianKpts (bandpath acell) acell) * cellᵀ
  if fractional then kpts else kpts * (((cell⁻¹)ᵀ * (2 : Matrix _ _ ℝ)) * (Real.pi • 1))

end Jrystal
