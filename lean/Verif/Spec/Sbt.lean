import Mathlib.Analysis.SpecialFunctions.Gamma.Beta
import Mathlib.Algebra.BigOperators.Intervals

/-
Specification of the fast spherical Bessel transform, written from the class documentation
`g(k) = ∫ j_l(kr) f(r) r² dr` and Talman's paper (Comput. Phys. Commun. 180 (2009) 332): on a logarithmic
mesh the integral is `∫ j_l(e^{ρ+κ}) f e^{3ρ} dρ`, a convolution in the logarithms.
-/
namespace Spec
open scoped BigOperators

/-- The spherical Bessel functions for `x ≠ 0`: `j_0 = sin x / x`, `j_1 = sin x / x² - cos x / x` and
`j_{l+2} = (2l+3)/x j_{l+1} - j_l`. -/
noncomputable def sphericalBessel : ℕ → ℝ → ℝ
  | 0, x => Real.sin x / x
  | 1, x => Real.sin x / x ^ 2 - Real.cos x / x
  | l + 2, x => (2 * l + 3) / x * sphericalBessel (l + 1) x - sphericalBessel l x

/-- The Mellin transform `∫₀^∞ j_l(x) x^{s-1} dx = √π 2^{s-2} Γ((l+s)/2) / Γ((3+l-s)/2)` of the spherical
Bessel function at `s = 3/2 - it` (closed form; `besselMellin_integral` proves that it is the integral). -/
noncomputable def besselMellin (l : ℕ) (t : ℝ) : ℂ :=
  let s : ℂ := 3 / 2 - Complex.I * t
  (Real.sqrt Real.pi : ℂ) * (2 : ℂ) ^ (s - 2) * Complex.Gamma (((l : ℂ) + s) / 2) /
    Complex.Gamma ((3 + (l : ℂ) - s) / 2)

/-- The rectangle rule in `log r` for `∫ j_l(kr) f(r) r² dr`: step `h`, radii `r i`. -/
noncomputable def logRiemann (j : ℝ → ℝ) (h : ℝ) (nr : ℕ) (r f : ℕ → ℝ) (k : ℝ) : ℝ :=
  ∑ i ∈ Finset.range nr, j (k * r i) * f i * r i ^ 3 * h

/-- Samples continued to `nr` more points below the mesh by the power law `r^e` through the first sample;
position `p < nr` of the doubled mesh is the point `(nr - p)` steps of `log r` below the first. -/
noncomputable def continued (h : ℝ) (e : ℤ) (nr : ℕ) (f : ℕ → ℝ) (p : ℕ) : ℝ :=
  if p < nr then f 0 * Real.exp (e * (((p : ℝ) - nr) * h)) else f (p - nr)

/-- `log r` at position `p` of the doubled mesh that starts `nr` steps below `log r₀`. -/
noncomputable def logMesh (h ρ₀ : ℝ) (nr p : ℕ) : ℝ := ρ₀ + ((p : ℝ) - nr) * h

/-- The Mellin-space form of the same integral, with `nr` frequencies `t_m = πm/(nr h)` and the doubled mesh:
`k^{3/2} g(k) = Re (1/nr) Σ'_m M_l(t_m) Σ_p F_p r_p^{3/2} (r_p k)^{i t_m}` with half weight for `m = 0`. -/
noncomputable def talman (l : ℕ) (h ρ₀ : ℝ) (nr : ℕ) (F : ℕ → ℝ) (κ : ℝ) : ℝ :=
  Real.exp (-(3 / 2) * κ) *
    ((1 / (nr : ℂ)) * ∑ m ∈ Finset.range nr, (if m = 0 then 1 / 2 else 1) *
      besselMellin l (Real.pi * m / (nr * h)) *
      ∑ p ∈ Finset.range (2 * nr), ((F p * Real.exp (3 / 2 * logMesh h ρ₀ nr p) : ℝ) : ℂ) *
        Complex.exp (Complex.I * ((Real.pi * m / (nr * h) * (logMesh h ρ₀ nr p + κ) : ℝ) : ℂ))).re

/-- `i` is the first position below `n` where `x` is smallest. -/
def IsFirstMin (n : ℕ) (x : ℕ → ℝ) (i : ℕ) : Prop :=
  i < n ∧ (∀ j < n, x i ≤ x j) ∧ ∀ j < i, x i < x j

end Spec
