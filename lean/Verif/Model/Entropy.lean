import Mathlib.Analysis.SpecialFunctions.Log.Basic
import Mathlib.Algebra.BigOperators.Fin

/- Model of /repo/jrystal/_src/entropy.py. -/
namespace Jrystal
open scoped BigOperators

/-- `fermi_dirac` (/repo/jrystal/_src/entropy.py:19-54).  The array shape `(spin, kpt, band)` gives
`num_spin` and `num_k`.  Real arithmetic. -/
noncomputable def fermiDirac {ns nk nb : ℕ} (occ : Fin ns → Fin nk → Fin nb → ℝ) (eps : ℝ) : ℝ :=
  -∑ s, ∑ k, ∑ b,
    (occ s k b * Real.log (eps + occ s k b) +
      ((3 - (ns : ℝ)) / nk - occ s k b) * Real.log (eps + (3 - (ns : ℝ)) / nk - occ s k b))

end Jrystal
