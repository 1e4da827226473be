import Verif.Spec.Smearing

/- Specification vocabulary for C100: reports that are near to those of exact ground states. -/
namespace Jrystal

/-- The report is, up to `δ`, that of exact ground states: the total energy without the repulsion of the nuclei is
near to the energy of one at temperature `t₀`; the sum of the energies in the log and the density at every grid
point are near to those of one at temperature `t`. -/
structure Spec.ReportNear {ns nk nb : ℕ} {n : Fin 3 → ℕ} (δ t₀ t eps vol : ℝ) (mask : Idx n → Bool) (ne spin : ℤ)
    (restricted : Bool) (method : String) (energy : Coef ns nk nb n → Occ ns nk nb → ℝ → Prop)
    (total parts : ℝ) (density : Σ S : ℕ, Fin S → Idx n → ℝ) : Prop where
  total : ∃ c occ e, Spec.GroundWithin 0 t₀ eps mask ne spin restricted method energy c occ e ∧ |total - e| ≤ δ
  parts : ∃ c occ e ρ, Spec.GroundWithin 0 t eps mask ne spin restricted method energy c occ e ∧ |parts - e| ≤ δ ∧
    density = ⟨ns, ρ⟩ ∧ ∀ s x, |ρ s x - densityGrid c vol occ s x| ≤ δ

end Jrystal
