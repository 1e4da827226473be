import Verif.Spec.Hamiltonian
import Mathlib.LinearAlgebra.UnitaryGroup
import Mathlib.Data.Complex.BigOperators
import Mathlib.Analysis.Complex.Exponential

/- Eigenvalues of Hermitian matrices and the plane-wave Hamiltonian (C71, C72). -/
namespace Jrystal
open Matrix
open scoped BigOperators

/-- `lam` lists the eigenvalues of `H` in ascending order, each as often as its multiplicity. -/
def Spec.IsSpectrum {N : ℕ} (H : Matrix (Fin N) (Fin N) ℂ) (lam : Fin N → ℝ) : Prop :=
  Monotone lam ∧ ∃ V ∈ Matrix.unitaryGroup (Fin N) ℂ, H = V * Matrix.diagonal (fun i => (lam i : ℂ)) * Vᴴ

/-- The Hamiltonian `½|G+k|² δ_{GG'} + V(G-G')` between the plane waves `G`, where `V(·)` are the Fourier
coefficients of a real potential given at the points `r` of the grid. -/
noncomputable def Spec.planeWaveHamiltonian {N : ℕ} {n : Fin 3 → ℕ} (G : Fin N → Fin 3 → ℝ)
    (r : ((i : Fin 3) → Fin (n i)) → Fin 3 → ℝ) (V : ((i : Fin 3) → Fin (n i)) → ℝ) (k : Fin 3 → ℝ) :
    Matrix (Fin N) (Fin N) ℂ :=
  fun a b => (if a = b then (Spec.kineticEnergy (fun e => G a e + k e) : ℂ) else 0) +
    (∑ x, (V x : ℂ) * Complex.exp (-(Complex.I * ((Spec.dot (fun e => G a e - G b e) (r x) : ℝ) : ℂ))))
      / ((∏ i, n i : ℕ) : ℂ)

/-- The separable operator `Σ_i |f_i⟩⟨f_i| / vol` between plane waves, where `f_i` is given by its values
`⟨f_i|G⟩`. -/
noncomputable def Spec.projectorMatrix {N : ℕ} {ι : Type*} [Fintype ι] (vol : ℝ) (f : ι → Fin N → ℂ) :
    Matrix (Fin N) (Fin N) ℂ :=
  fun a b => (∑ i, (starRingEnd ℂ) (f i a) * f i b) / (vol : ℂ)

end Jrystal
