import Verif.Spec.EnergyGradient
import Verif.Spec.Planewave

/- Specification vocabulary for the Kohn-Sham equations of any number of spin channels (C126). -/
namespace Jrystal
open scoped BigOperators

/-- `v s` is the functional derivative of `X` with respect to the density of spin channel `s`, at the densities `ρ` on
the grid of a cell of volume `vol`: along every differentiable curve of densities through `ρ` the derivative of `X` is
the sum over the channels of the integral of `v s` times the derivative of the density. -/
def Spec.IsDensityGradient {ns : ℕ} {n : Fin 3 → ℕ} (vol : ℝ) (X : (Fin ns → ((i : Fin 3) → Fin (n i)) → ℝ) → ℝ)
    (ρ v : Fin ns → ((i : Fin 3) → Fin (n i)) → ℝ) : Prop :=
  ∀ (r : ℝ → Fin ns → ((i : Fin 3) → Fin (n i)) → ℝ) (d : Fin ns → ((i : Fin 3) → Fin (n i)) → ℝ), r 0 = ρ →
    (∀ s j, HasDerivAt (fun t => r t s j) (d s j) 0) →
    HasDerivAt (fun t => X (r t)) (∑ s, Spec.cellIntegral vol fun j => v s j * d s j) 0

/-- The bands `C` solve the equations of the Hamiltonians `F`, one for each spin channel and k point: `F` turns every
occupied band into a combination of the bands that have the same occupation.  Within such a group the bands are
eigenvectors up to a rotation, which changes neither the density nor the energy. -/
def Spec.KohnShamBands {ns nk M nb : ℕ} (F : Fin ns → Fin nk → Matrix (Fin M) (Fin M) ℂ)
    (occ : Fin ns → Fin nk → Fin nb → ℝ) (C : Fin ns → Fin nk → Fin nb → Fin M → ℂ) : Prop :=
  ∀ s k b, occ s k b ≠ 0 → ∃ h : Fin nb → ℂ, (∀ a, occ s k a ≠ occ s k b → h a = 0) ∧
    ∀ x, ∑ y, F s k x y * C s k b y = ∑ a, h a * C s k a x

/-- The energy of a band: the expectation value of the Hamiltonian. -/
noncomputable def Spec.bandEnergy {M : ℕ} (F : Matrix (Fin M) (Fin M) ℂ) (C : Fin M → ℂ) : ℝ :=
  (∑ x, (starRingEnd ℂ) (C x) * ∑ y, F x y * C y).re

end Jrystal
