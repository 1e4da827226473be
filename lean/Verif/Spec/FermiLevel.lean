import Verif.Spec.Smearing

/- Specification vocabulary for C99: occupations in equilibrium with band energies. -/
namespace Jrystal

/-- The change of the entropy of one state per electron added to it, when `f` of at most `top` electrons are in
it: `log ((top - f) / f)` with the number `eps` that keeps the logarithm finite (`entropySlope_near` bounds
the difference). -/
noncomputable def Spec.entropySlope (eps top f : ℝ) : ℝ :=
  Real.log (eps + top - f) - Real.log (eps + f) + (top - f) / (eps + top - f) - f / (eps + f)

/-- `μ` is the Fermi level of occupations at temperature `t`, given the energies `e` of the states: moving an
electron into a state that is not full costs at least `μ`, and taking one out of a state that is not empty gains
at most `μ`.  At `t = 0` the states below `μ` are full and those above it empty. -/
def Spec.FermiLevel {nk nb : ℕ} (t eps top : ℝ) (e f : Fin nk → Fin nb → ℝ) (μ : ℝ) : Prop :=
  ∀ k b, (f k b < top → μ ≤ e k b - t * Spec.entropySlope eps top (f k b)) ∧
    (0 < f k b → e k b - t * Spec.entropySlope eps top (f k b) ≤ μ)

end Jrystal
