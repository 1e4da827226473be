import Verif.Spec.EwaldLimit

/- Specification vocabulary for the forces between nuclei (C129); independent of the model. -/
namespace Jrystal
open scoped BigOperators

/-- The force on a unit charge at `x` that a unit charge at the origin and its images at the translations `T` exert,
as the Ewald sum has it: the screened Coulomb forces
`Σ_T (erfc(ηr)/r² + 2η/√π e^{-η²r²}/r) (x-T)/r` at the distances `r = √(|x-T|²+1e-20)`, and the force
`4π/V Σ_G e^{-G²/4η²}/G² G sin(G·x)` of the smooth charges. -/
noncomputable def Spec.pairForce {nt : ℕ} {ι : Type} (T : Fin nt → Fin 3 → ℝ) (G : Finset ι) (g : ι → Fin 3 → ℝ)
    (V eta : ℝ) (x : Fin 3 → ℝ) (d : Fin 3) : ℝ :=
  (∑ t, let r := Real.sqrt (Spec.dot (fun d => x d - T t d) (fun d => x d - T t d) + 1e-20)
    (Spec.erfc (eta * r) / r ^ 2 + 2 * eta / Real.sqrt Real.pi * Real.exp (-(eta * r) ^ 2) / r) * ((x d - T t d) / r))
  + 4 * Real.pi / V * ∑ k ∈ G,
      Real.exp (-(Spec.dot (g k) (g k)) / (4 * eta ^ 2)) / Spec.dot (g k) (g k) * (g k d * Real.sin (Spec.dot (g k) x))

/-- The force on the nucleus `a`: half of the forces of all others on it less half of its forces on all others. -/
noncomputable def Spec.ewaldForce {na nt : ℕ} {ι : Type} (T : Fin nt → Fin 3 → ℝ) (G : Finset ι)
    (g : ι → Fin 3 → ℝ) (V eta : ℝ) (pos : Fin na → Fin 3 → ℝ) (q : Fin na → ℝ) (a : Fin na) (d : Fin 3) : ℝ :=
  (1 / 2) * ∑ i, q i * q a * (Spec.pairForce T G g V eta (fun d => pos a d - pos i d) d
    - Spec.pairForce T G g V eta (fun d => pos i d - pos a d) d)

end Jrystal
