import Verif.Spec.Smearing
import Verif.Spec.BandContinuity

/- Specification vocabulary for C107: how strongly the energy can depend on the positions of the atoms. -/
namespace Jrystal
open scoped BigOperators

/-- The largest force that an electron can exert on a nucleus of unit charge in this basis:
`4π/vol Σ_{G≠0} |G| / (|G|² + 1e-10)`. -/
noncomputable def Spec.forceBound {n : Fin 3 → ℕ} (g : Idx n → Fin 3 → ℝ) (vol : ℝ) : ℝ :=
  4 * Real.pi / vol * ∑ k ∈ Finset.univ.filter (fun k : Idx n => ∃ i, (k i : ℕ) ≠ 0),
    Spec.length (g k) / (∑ d, g k d ^ 2 + 1e-10)

/-- The derivative of the energy of a density `rho` (Fourier coefficients, one array for each channel) in the field of
nuclei with charges `z` when they move with the velocities `v`: minus the power of the Hellmann-Feynman forces. -/
noncomputable def Spec.electrostaticSlope {ns na : ℕ} {n : Fin 3 → ℕ} (rho : Fin ns → Idx n → ℂ)
    (pos v : Fin na → Fin 3 → ℝ) (z : Fin na → ℝ) (g : Idx n → Fin 3 → ℝ) : ℝ :=
  4 * Real.pi / (∏ i, n i : ℕ) * ∑ k ∈ Finset.univ.filter (fun k : Idx n => ∃ i, (k i : ℕ) ≠ 0),
    (∑ a, z a * (∑ d, g k d * v a d) *
      (Complex.exp (Complex.I * ((∑ d, g k d * pos a d : ℝ) : ℂ)) * ∑ s, rho s k).im) / (∑ d, g k d ^ 2 + 1e-10)

/-- The free energies `e - t S` at temperature `t` that physical states have; with `uniform` and `gamma` those of the
states with the prescribed occupations. -/
def Spec.freeEnergies {ns nk nb : ℕ} {n : Fin 3 → ℕ} (t eps : ℝ) (mask : Idx n → Bool) (ne spin : ℤ)
    (restricted : Bool) (method : String) (energy : Coef ns nk nb n → Occ ns nk nb → ℝ → Prop) : Set ℝ :=
  {f | ∃ c occ e, Spec.PhysicalState mask ne spin restricted (Spec.kShare method nk) c occ ∧
    (method = "uniform" ∨ method = "gamma" → occ = Spec.givenOccupation method ne spin) ∧ energy c occ e ∧
    f = e - t * Spec.smearingEntropy eps ((3 - (ns : ℝ)) / nk) occ}

end Jrystal
