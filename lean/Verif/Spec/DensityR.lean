import Mathlib.Analysis.SpecialFunctions.Complex.Circle
import Mathlib.Analysis.Calculus.FDeriv.Basic

/- Specification vocabulary for the density at an arbitrary position (C55). -/
namespace Jrystal.Spec
open scoped BigOperators

/-- The function `ψ(r) = (1/√Ω) Σ_G c_G exp(i G·r)` with plane-wave coefficients `c`. -/
noncomputable def planeWaveAt {ι : Type*} [Fintype ι] (Ω : ℝ) (g : ι → Fin 3 → ℝ) (c : ι → ℂ)
    (r : Fin 3 → ℝ) : ℂ :=
  (∑ x, c x * Complex.exp (Complex.I * ((∑ d, g x d * r d : ℝ) : ℂ))) / ((Real.sqrt Ω : ℝ) : ℂ)

/-- The linear form `w ↦ v·w`. -/
noncomputable def dotForm (v : Fin 3 → ℝ) : (Fin 3 → ℝ) →L[ℝ] ℝ :=
  ∑ d, v d • ContinuousLinearMap.proj d

/-- `v` is the gradient of `f` at `r`: `f` is differentiable at `r` with derivative `w ↦ v·w`. -/
def IsGradient (f : (Fin 3 → ℝ) → ℝ) (r v : Fin 3 → ℝ) : Prop :=
  HasFDerivAt f (dotForm v) r

end Jrystal.Spec
