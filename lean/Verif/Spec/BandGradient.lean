import Verif.Model.Planewave
import Mathlib.Analysis.Calculus.Deriv.Basic

/- Specification vocabulary for the gradient of the band objective (C123). -/
namespace Jrystal
open Matrix
open scoped BigOperators

/-- The parameters `p + t d`. -/
noncomputable def Spec.along {ns nk g nb : ℕ} (p d : PwParams ns nk g nb) (t : ℝ) : PwParams ns nk g nb :=
  ⟨fun s k a b => p.re s k a b + t * d.re s k a b, fun s k a b => p.im s k a b + t * d.im s k a b⟩

/-- The sum of the products of the real numbers in two sets of parameters. -/
noncomputable def Spec.paramDot {ns nk g nb : ℕ} (p d : PwParams ns nk g nb) : ℝ :=
  ∑ s, ∑ k, ∑ a, ∑ b, (p.re s k a b * d.re s k a b + p.im s k a b * d.im s k a b)

/-- `G` is the gradient of `f` at `p`: the derivative of `f` in every direction is the product with `G`. -/
def Spec.IsParamGradient {ns nk g nb : ℕ} (f : PwParams ns nk g nb → ℝ) (p G : PwParams ns nk g nb) : Prop :=
  ∀ d, HasDerivAt (fun t => f (Spec.along p d t)) (Spec.paramDot G d) 0

/-- The complex matrix, plane waves by bands, that the parameters of a spin and k point stand for. -/
noncomputable def Spec.bandMatrix {ns nk g nb : ℕ} (p : PwParams ns nk g nb) (s : Fin ns) (k : Fin nk) :
    Matrix (Fin g) (Fin nb) ℂ :=
  fun a b => ⟨p.re s k a b, p.im s k a b⟩

/-- No band of the parameters is a combination of the others. -/
def Spec.Independent {ns nk g nb : ℕ} (p : PwParams ns nk g nb) : Prop :=
  ∀ s k, LinearIndependent ℂ fun (b : Fin nb) (a : Fin g) => Spec.bandMatrix p s k a b

/-- The length of the parameters of a spin and k point. -/
noncomputable def Spec.paramSize {ns nk g nb : ℕ} (p : PwParams ns nk g nb) (s : Fin ns) (k : Fin nk) : ℝ :=
  Real.sqrt (∑ a, ∑ b, (p.re s k a b ^ 2 + p.im s k a b ^ 2))

end Jrystal
