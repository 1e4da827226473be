import Verif.Props.OccStationary
import Verif.Spec.FermiLevel

/- Specification vocabulary for the Fermi levels of two spin channels (C126). -/
namespace Jrystal
open scoped BigOperators

/-- The bands that the parameters `P` fill partly have one Fermi level `μ sp` for each spin channel `sp`, with respect
to the band energies `e` at temperature `t`.  `e` and `f`, the occupations, have a row for each spin channel or one
row for both together; a row holds at most `top` of a band. -/
def Spec.ChannelLevels {ns nk nb : ℕ} (ne spin : ℤ) (r : Bool) (P : (Fin nk → Fin nb → ℝ) × (Fin nk → Fin nb → ℝ))
    (t eps top : ℝ) (e f : Fin ns → Fin nk → Fin nb → ℝ) (μ : Fin 2 → ℝ) : Prop :=
  ∀ (sp : Fin 2) (s : Fin ns), (s : ℕ) = Spec.rowOf r sp → ∀ k b, Spec.Fractional ne spin P sp k b →
    e s k b - t * Spec.entropySlope eps top (f s k b) = μ sp

end Jrystal
