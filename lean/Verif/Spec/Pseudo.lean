import Verif.Spec.Grid
import Mathlib.Analysis.SpecialFunctions.Complex.Arg

/-
Specification of a separable nonlocal pseudopotential `V = Σ_ij D_ij |β_i⟩⟨β_j|` in a plane-wave basis,
independent of the model.
-/
namespace Jrystal.Spec
open scoped BigOperators ComplexConjugate

/-- Plane-wave coefficient, at wave vector `q`, of the projector `β(r) Y_lm(r)` centred at `τ`, without the
factor `1/√vol`: `4π (-i)^l β(q) Y e^{-i q·τ}`, where `β(q)` is the radial transform and `Y` the spherical
harmonic at the direction of `q`. -/
noncomputable def projector (l : ℕ) (beta Y : ℝ) (q τ : Fin 3 → ℝ) : ℂ :=
  4 * (Real.pi : ℂ) * (-Complex.I) ^ l * (beta : ℂ) * (Y : ℂ) * Complex.exp (-(Complex.I * (dot q τ : ℂ)))

/-- Inner product `⟨B|c⟩` of two plane-wave expansions. -/
noncomputable def overlap {X : Type*} [Fintype X] (B c : X → ℂ) : ℂ := ∑ x, conj (B x) * c x

/-- Matrix element `(1/vol) Σ_ij D_ij Σ_m conj⟨β_im|a⟩ ⟨β_jm|b⟩` of the separable operator between two
states with projections `pa i m = ⟨β_im|a⟩` and `pb`. -/
noncomputable def separable {nb M : ℕ} (vol : ℝ) (D : Matrix (Fin nb) (Fin nb) ℝ)
    (pa pb : Fin nb → Fin M → ℂ) : ℂ :=
  (∑ i, ∑ j, (D i j : ℂ) * ∑ m, conj (pa i m) * pb j m) / (vol : ℂ)

end Jrystal.Spec
