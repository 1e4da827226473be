import Verif.Spec.SpinGradient
import Verif.Spec.Limit
import Verif.Spec.FermiLevel

/- Specification vocabulary for C127: reports that are near to those of self-consistent states. -/
namespace Jrystal
open scoped BigOperators

/-- The density of the report is, up to `δ` at every grid point, that of a self-consistent state: bands and occupations
that obey the rules of a physical state, where the bands solve the Kohn-Sham equations of the Hamiltonian `ham` of
the potential of their own density, and where each channel has a Fermi level at temperature `t` unless the occupations
are fixed.  `V` is the potential of the nuclei, `W` the functional derivative of the exchange-correlation energy. -/
def Spec.SelfConsistentNear {ns nk nb : ℕ} {n : Fin 3 → ℕ} (δ t eps vol : ℝ) (mask : Idx n → Bool) (ne spin : ℤ)
    (restricted : Bool) (method : String) (g : Idx n → Fin 3 → ℝ)
    (ham : (Idx n → ℝ) → Fin nk → Matrix (Fin (maskCount mask)) (Fin (maskCount mask)) ℂ) (V : Idx n → ℝ)
    (W : (Fin ns → Idx n → ℝ) → Fin ns → Idx n → ℝ) (density : Σ S : ℕ, Fin S → Idx n → ℝ) : Prop :=
  ∃ (c : Coef ns nk nb n) (occ : Occ ns nk nb) (ρ ρ' : Fin ns → Idx n → ℝ)
    (F : Fin ns → Fin nk → Matrix (Fin (maskCount mask)) (Fin (maskCount mask)) ℂ),
    Spec.PhysicalState mask ne spin restricted (Spec.kShare method nk) c occ ∧
    density = ⟨ns, ρ'⟩ ∧ ρ = densityGrid c vol occ ∧ (∀ s j, |ρ' s j - ρ s j| ≤ δ) ∧
    (∀ s, F s = ham fun j => V j + (hartreeRealSpace ρ g true j).re + W ρ s j) ∧
    Spec.KohnShamBands F occ (fun s k b y => c s k b (maskPos mask y)) ∧
    (¬ (method = "uniform" ∨ method = "gamma") → ∀ s, ∃ μ, Spec.FermiLevel t eps ((3 - (ns : ℝ)) / nk)
      (fun k b => Spec.bandEnergy (F s k) fun y => c s k b (maskPos mask y)) (occ s) μ)

end Jrystal
