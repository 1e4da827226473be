import Verif.Spec.BandRun
import Mathlib.Topology.ContinuousOn

/- Specification vocabulary for C106: lengths of vectors and continuous exchange-correlation potentials. -/
namespace Jrystal
open scoped BigOperators

/-- The length of a vector. -/
noncomputable def Spec.length (v : Fin 3 → ℝ) : ℝ := Real.sqrt (∑ d, v d ^ 2)

/-- The exchange-correlation potential at every grid point is a continuous function of the density (one channel)
where the density is not negative. -/
def Spec.ContinuousVxc (lib : XcLib) (xt : String) : Prop :=
  ∀ {n : Fin 3 → ℕ} (g : Idx n → Fin 3 → ℝ) (x : Idx n),
    ContinuousOn (fun ρ : Fin 1 → Idx n → ℝ => vxcDensity lib xt g ρ 0 x) {ρ | ∀ s x, 0 ≤ ρ s x}

end Jrystal
