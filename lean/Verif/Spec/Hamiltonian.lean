import Verif.Spec.Planewave
import Verif.Spec.Grid

/- Matrix elements of a one-electron Hamiltonian between plane-wave orbitals (C31). -/
namespace Jrystal.Spec
open scoped BigOperators ComplexConjugate

/-- `⟨c|T_k|c'⟩ = Σ_G ½|G+k|² conj(c_G) c'_G`. -/
noncomputable def kineticElement {n : Fin 3 → ℕ} (g : ((i : Fin 3) → Fin (n i)) → Fin 3 → ℝ)
    (k : Fin 3 → ℝ) (c c' : ((i : Fin 3) → Fin (n i)) → ℂ) : ℂ :=
  ∑ x, (kineticEnergy (fun d => g x d + k d) : ℂ) * (conj (c x) * c' x)

/-- `⟨ψ|V|ψ'⟩` for a real potential and functions sampled on the grid. -/
noncomputable def potentialElement {n : Fin 3 → ℕ} (vol : ℝ) (V : ((i : Fin 3) → Fin (n i)) → ℝ)
    (psi psi' : ((i : Fin 3) → Fin (n i)) → ℂ) : ℂ :=
  cellInner vol psi fun j => (V j : ℂ) * psi' j

end Jrystal.Spec
