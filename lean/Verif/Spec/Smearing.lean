import Verif.Spec.GroundState

/- Specification vocabulary for C98: what the report of a calculation with smearing should be. -/
namespace Jrystal

/-- The report (the total energy without the repulsion of the nuclei, the sum of the energies in the log and the
density) is that of states within `ε` of the ground state at temperature `t`. -/
structure Spec.ReportAt {ns nk nb : ℕ} {n : Fin 3 → ℕ} (ε t eps vol : ℝ) (mask : Idx n → Bool) (ne spin : ℤ)
    (restricted : Bool) (method : String) (energy : Coef ns nk nb n → Occ ns nk nb → ℝ → Prop)
    (total parts : ℝ) (density : Σ S : ℕ, Fin S → Idx n → ℝ) : Prop where
  total : ∃ c occ, Spec.GroundWithin ε t eps mask ne spin restricted method energy c occ total
  parts : ∃ c occ, Spec.GroundWithin ε t eps mask ne spin restricted method energy c occ parts ∧
    density = ⟨ns, densityGrid c vol occ⟩

/-- `e` is at most `δ` above the energy of every physical state (with prescribed occupations: of every state that
has them). -/
def Spec.EnergyWithin {ns nk nb : ℕ} {n : Fin 3 → ℕ} (δ : ℝ) (mask : Idx n → Bool) (ne spin : ℤ)
    (restricted : Bool) (method : String) (energy : Coef ns nk nb n → Occ ns nk nb → ℝ → Prop) (e : ℝ) : Prop :=
  ∀ c occ e', Spec.PhysicalState mask ne spin restricted (Spec.kShare method nk) c occ →
    (method = "uniform" ∨ method = "gamma" → occ = Spec.givenOccupation method ne spin) → energy c occ e' →
    e ≤ e' + δ

end Jrystal
