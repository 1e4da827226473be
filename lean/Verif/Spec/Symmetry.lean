import Verif.Model.Crystal

/- Specification vocabulary for the symmetry properties (C76–C79): changes of the input geometry that do
not change the physical system. -/
namespace Jrystal
open Matrix

/-- The geometry seen from rotated (or reflected) axes: every position and every cell vector, as a row,
is multiplied by the matrix. -/
def Spec.rotated {m : ℕ} (R : Matrix (Fin 3) (Fin 3) ℝ) (a : AseAtoms m) : AseAtoms m :=
  ⟨a.numbers, a.positions * R, a.cell * R⟩

/-- The same atoms listed in another order. -/
def Spec.reordered {m : ℕ} (e : Equiv.Perm (Fin m)) (a : AseAtoms m) : AseAtoms m :=
  ⟨fun i => a.numbers (e i), Matrix.of fun i => a.positions (e i), a.cell⟩

/-- Every atom moved by its own vector. -/
def Spec.moved {m : ℕ} (v : Fin m → Fin 3 → ℝ) (a : AseAtoms m) : AseAtoms m :=
  ⟨a.numbers, Matrix.of fun i d => a.positions i d + v i d, a.cell⟩

/-- One more site without nuclear charge. -/
def Spec.withGhost {m : ℕ} (x : Fin 3 → ℝ) (a : AseAtoms m) : AseAtoms (m + 1) :=
  ⟨Fin.cons 0 a.numbers, Matrix.of (Fin.cons x fun i => a.positions i), a.cell⟩

end Jrystal
