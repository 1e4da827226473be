import Verif.Props.OccStationary
import Verif.Spec.FermiLevel

/- Specification vocabulary for the gradient of the free energy in the occupation parameters (C125). -/
namespace Jrystal
open scoped BigOperators

/-- `G` is the gradient of `f` at the occupation parameters `P` of the two spin channels: along every differentiable
curve of parameters through `P` the derivative of `f` is the product of `G` with the derivative `d` of the curve. -/
def Spec.IsOccGradient {nk nb : ℕ} (f : (Fin nk → Fin nb → ℝ) × (Fin nk → Fin nb → ℝ) → ℝ)
    (P G : (Fin nk → Fin nb → ℝ) × (Fin nk → Fin nb → ℝ)) : Prop :=
  ∀ (c : ℝ → (Fin nk → Fin nb → ℝ) × (Fin nk → Fin nb → ℝ)) (d : (Fin nk → Fin nb → ℝ) × (Fin nk → Fin nb → ℝ)),
    c 0 = P → (∀ k b, HasDerivAt (fun t => (c t).1 k b) (d.1 k b) 0) →
    (∀ k b, HasDerivAt (fun t => (c t).2 k b) (d.2 k b) 0) →
    HasDerivAt (fun t => f (c t)) (∑ k, ∑ b, G.1 k b * d.1 k b + ∑ k, ∑ b, G.2 k b * d.2 k b) 0

/-- The bands that the parameters `P` fill partly have one Fermi level `μ sp` for each spin channel `sp`, with respect
to the band energies `e` at temperature `t`: adding an electron to such a band changes the free energy by `μ sp`.
`f` are the occupations of both channels together, of which a band holds at most `top`. -/
def Spec.PartlyFilledLevel {nk nb : ℕ} (ne spin : ℤ) (P : (Fin nk → Fin nb → ℝ) × (Fin nk → Fin nb → ℝ))
    (t eps top : ℝ) (e f : Fin nk → Fin nb → ℝ) (μ : Fin 2 → ℝ) : Prop :=
  ∀ sp k b, Spec.Fractional ne spin P sp k b → e k b - t * Spec.entropySlope eps top (f k b) = μ sp

end Jrystal
