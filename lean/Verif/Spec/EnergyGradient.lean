import Verif.Spec.BandGradient

/- Specification vocabulary for the gradient of the energy in the plane-wave parameters (C124). -/
namespace Jrystal
open scoped BigOperators

/-- `G` is the gradient of `f` at `p`: along every differentiable curve of parameters through `p` the derivative of `f`
is the product of `G` with the derivative `d` of the curve. -/
def Spec.IsFullGradient {ns nk g nb : ℕ} (f : PwParams ns nk g nb → ℝ) (p G : PwParams ns nk g nb) : Prop :=
  ∀ (P : ℝ → PwParams ns nk g nb) (d : PwParams ns nk g nb), P 0 = p →
    (∀ s k a b, HasDerivAt (fun t => (P t).re s k a b) (d.re s k a b) 0) →
    (∀ s k a b, HasDerivAt (fun t => (P t).im s k a b) (d.im s k a b) 0) →
    HasDerivAt (fun t => f (P t)) (Spec.paramDot G d) 0

/-- Every number of the gradient is 0. -/
def Spec.Vanishes {ns nk g nb : ℕ} (G : PwParams ns nk g nb) : Prop :=
  ∀ s k a b, G.re s k a b = 0 ∧ G.im s k a b = 0

end Jrystal
