import Mathlib.Analysis.SpecialFunctions.Trigonometric.Basic
import Verif.Spec.Grid

namespace Jrystal
open scoped BigOperators

/-- Regularised distance between `r` and `T`: `√(|r-T|²+1e-20)`, or `1e20` (a pair that does not
interact) when `r` and `T` are closer than about one `1e-9`. -/
noncomputable def Spec.ewaldDistance (r T : Fin 3 → ℝ) : ℝ :=
  letI := Classical.propDecidable
  if Spec.dot (fun d => r d - T d) (fun d => r d - T d) ≤ 99e-20 then 1e20
  else Real.sqrt (Spec.dot (fun d => r d - T d) (fun d => r d - T d) + 1e-20)

/-- Real-space pair function: screened Coulomb interaction summed over a list of translations. -/
noncomputable def Spec.screenedSum (erfc : ℝ → ℝ) (eta : ℝ) {nt : ℕ} (T : Fin nt → Fin 3 → ℝ)
    (r : Fin 3 → ℝ) : ℝ :=
  ∑ t, erfc (eta * Spec.ewaldDistance r (T t)) / Spec.ewaldDistance r (T t)

/-- Ewald energy of point charges `q` at `pos`, with a real-space pair function `R` of the distance
vector and the reciprocal sum over a finite set `G` of non-zero vectors:
`½ Σ_ij q_i q_j [R(r_ij) + (4π/V) Σ_G e^{-G²/4η²}/G² cos(G·r_ij)] - (η/√π) Σ q² - π/(2Vη²) (Σ q)²`. -/
noncomputable def Spec.ewald {na : ℕ} {ι : Type} (R : (Fin 3 → ℝ) → ℝ) (G : Finset ι)
    (vec : ι → Fin 3 → ℝ) (pos : Fin na → Fin 3 → ℝ) (q : Fin na → ℝ) (V eta : ℝ) : ℝ :=
  (1 / 2) * ∑ i, ∑ j, q i * q j * (R (fun d => pos j d - pos i d)
    + 4 * Real.pi / V * ∑ k ∈ G, Real.exp (-(Spec.dot (vec k) (vec k)) / (4 * eta ^ 2)) /
        Spec.dot (vec k) (vec k) * Real.cos (Spec.dot (vec k) fun d => pos j d - pos i d))
  - eta / Real.sqrt Real.pi * ∑ i, q i ^ 2
  - Real.pi / (2 * V * eta ^ 2) * (∑ i, q i) ^ 2

end Jrystal
