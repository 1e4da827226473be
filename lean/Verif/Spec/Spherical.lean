import Mathlib.Analysis.SpecialFunctions.Complex.Arg

/- Specification of spherical coordinates and Legendre polynomials, independent of the model. -/
namespace Spec
open scoped BigOperators

/-- The vector with spherical coordinates radius `r`, azimuth `theta`, polar angle `phi`. -/
noncomputable def fromSpherical (r theta phi : ℝ) : Fin 3 → ℝ
  | 0 => r * Real.sin phi * Real.cos theta
  | 1 => r * Real.sin phi * Real.sin theta
  | 2 => r * Real.cos phi

/-- Cosine of the angle between two vectors. -/
noncomputable def cosAngle (x y : Fin 3 → ℝ) : ℝ :=
  (∑ d, x d * y d) / (Real.sqrt (∑ d, x d * x d) * Real.sqrt (∑ d, y d * y d))

/-- The Legendre polynomials, by the three-term recursion. -/
noncomputable def legendre : ℕ → ℝ → ℝ
  | 0, _ => 1
  | 1, t => t
  | (l + 2), t => ((2 * l + 3) * t * legendre (l + 1) t - (l + 1) * legendre l t) / (l + 2)

end Spec
