import Verif.Model.Fft
import Verif.Spec.Grid

namespace Jrystal
open scoped BigOperators

/-- Trigonometric interpolant of grid values: `(1/N) Σ_G n(G) e^{iG·r}`. -/
noncomputable def Spec.interpolant {n : Fin 3 → ℕ} (A : Matrix (Fin 3) (Fin 3) ℝ) (rho : Idx n → ℝ)
    (r : Fin 3 → ℝ) : ℂ :=
  (∑ k, fftn (fun j => (rho j : ℂ)) k * Complex.exp (Complex.I * (Spec.dot (gVectors A n k) r : ℝ))) /
    ((∏ i, n i : ℕ) : ℂ)

end Jrystal
