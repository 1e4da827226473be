import Verif.Model.RunNC
import Verif.Spec.BandContinuity
import Mathlib.Topology.Algebra.Monoid
import Mathlib.Topology.Instances.Real.Lemmas

/- Specification vocabulary for C128: contracts of the external routines of a norm-conserving calculation. -/
namespace Jrystal

/-- The interpolated value is a continuous function of the knots, the values and the point, as long as the knots
increase. -/
def Spec.ContinuousSpline (cs : Spline) : Prop :=
  ∀ N, ContinuousOn (fun p : Samples × Samples × ℝ => cs N p.1 p.2.1 p.2.2) {p | ∀ i j, i < j → j < N → p.1 i < p.1 j}

/-- The special functions and the splines of a calculation are continuous: the Bessel functions, the splines, and the
real spherical harmonics as functions of a vector that is not zero. -/
structure Spec.ContinuousPseudo (L : NcLib) : Prop where
  bessel : ∀ l, Continuous (L.jn l)
  splineLoc : Spec.ContinuousSpline L.csLoc
  splineBeta : Spec.ContinuousSpline L.csBeta
  harmonics : ∀ l i, ContinuousOn (sphericalRow L.sph l i) {v | v ≠ 0}

/-- The radial tables of a calculation, which start at the radius `0.0001`, are not degenerate: the largest `|G|` and
the largest `|k + G|` lie above it. -/
def Spec.Tabulated {nk : ℕ} {n : Fin 3 → ℕ} (g : Idx n → Fin 3 → ℝ) (kpts : Fin nk → Fin 3 → ℝ) : Prop :=
  (∃ x, 0.0001 < Spec.length (g x)) ∧ ∃ k x, 0.0001 < Spec.length fun d => kpts k d + g x d

end Jrystal
