import Verif.Spec.EnergyGradient

/- C134: one step of gradient descent, written without reference to the model's helpers. -/
namespace Jrystal
open scoped BigOperators ComplexConjugate

/-- The parameters after one step of gradient descent with step size `η`. -/
noncomputable def Spec.descend {ns nk g nb : ℕ} (p G : PwParams ns nk g nb) (η : ℝ) : PwParams ns nk g nb :=
  ⟨fun s k a b => p.re s k a b - η * G.re s k a b, fun s k a b => p.im s k a b - η * G.im s k a b⟩

/-- The squared length of the parameters of a band. -/
noncomputable def Spec.bandSize {ns nk g nb : ℕ} (p : PwParams ns nk g nb) (s : Fin ns) (k : Fin nk) (b : Fin nb) : ℝ :=
  ∑ a, (p.re s k a b ^ 2 + p.im s k a b ^ 2)

/-- Band `j` of `G` is perpendicular to band `i` of `p`, as complex vectors. -/
def Spec.BandPerp {ns nk g nb : ℕ} (p G : PwParams ns nk g nb) (s : Fin ns) (k : Fin nk) (i j : Fin nb) : Prop :=
  ∑ a, conj (Spec.bandMatrix p s k a i) * Spec.bandMatrix G s k a j = 0

end Jrystal
