import Verif.Model.Run

/-
Model of `nuclear_repulsion` in /repo/jrystal/_src/energy.py.
-/
namespace Jrystal
open scoped BigOperators

/-- `nuclear_repulsion` (/repo/jrystal/_src/energy.py:214-243): builds the translation vectors of
/repo/jrystal/_src/grid.py:213-236 from the cell and the cutoff and passes everything else on to
`ewald_coulomb_repulsion`.  The translation count is checked as in `runRepulsion`: `1 / 0` raises when it
is zero, `fftfreq` raises when it is negative. -/
noncomputable def nuclearRepulsion (erfc : ℝ → ℝ) {na : ℕ} {n : Fin 3 → ℕ} (pos : Fin na → Fin 3 → ℝ)
    (q : Fin na → ℝ) (cell : Matrix (Fin 3) (Fin 3) ℝ) (g : Idx n → Fin 3 → ℝ) (vol eta cutoff : ℝ) :
    Except PyErr ℝ :=
  if translationCount cell cutoff = 0 then .error .zeroDivision
  else if translationCount cell cutoff < 0 then .error .valueError
  else .ok (ewald erfc pos q g vol eta (flatRows (translationVectors cell cutoff)))

end Jrystal
