import Verif.Spec.SpinGradient
import Verif.Model.Fft
import Mathlib.Analysis.Calculus.FDeriv.Basic

/- Specification vocabulary for the exchange-correlation potential (C126). -/
namespace Jrystal
open scoped BigOperators

/-- The partial derivative of `f` with respect to argument `i`. -/
noncomputable def Spec.partialAt {m : ℕ} (f : (Fin m → ℝ) → ℝ) (x : Fin m → ℝ) (i : Fin m) : ℝ :=
  fderiv ℝ f x (Pi.single i 1)

/-- The divergence of a vector field on the grid, by the Fourier transform. -/
noncomputable def Spec.divergence {n : Fin 3 → ℕ} (g : Idx n → Fin 3 → ℝ) (w : Fin 3 → Idx n → ℂ) (j : Idx n) : ℝ :=
  (∑ d, ifftn (fun k => fftn (w d) k * Complex.I * (g k d : ℂ)) j).re

end Jrystal
