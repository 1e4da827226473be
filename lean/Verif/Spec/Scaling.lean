import Verif.Spec.Grid
import Verif.Model.Xc

/- Vocabulary of C112: homogeneous functionals and the size of the regularisation of the potential of the nuclei. -/
namespace Jrystal
open scoped BigOperators

/-- The functionals named in a configuration scale like an exchange energy: when lengths shrink by `t`, so that
densities grow by `t³` and squared gradients by `t⁸`, energies per electron grow by `t`. -/
structure Spec.Homogeneous (lib : XcLib) (xt : String) : Prop where
  lda : pyIn "gga" xt = false → ∀ x ∈ splitPlus xt, ∀ t u : ℝ, 0 < t → 0 ≤ u →
    lib.lda x (t ^ 3 * u) = t * lib.lda x u
  ldaPol : pyIn "gga" xt = false → ∀ x ∈ splitPlus xt, ∀ t u v : ℝ, 0 < t → 0 ≤ u → 0 ≤ v →
    lib.ldaPol x (t ^ 3 * u) (t ^ 3 * v) = t * lib.ldaPol x u v
  gga : pyIn "gga" xt = true → ∀ x ∈ splitPlus xt, ∀ t u σ : ℝ, 0 < t → 0 ≤ u → 0 ≤ σ →
    lib.gga x (t ^ 3 * u) (t ^ 8 * σ) = t * lib.gga x u σ
  ggaPol : pyIn "gga" xt = true → ∀ x ∈ splitPlus xt, ∀ t u v σ τ υ : ℝ, 0 < t → 0 ≤ u → 0 ≤ v → 0 ≤ σ → 0 ≤ υ →
    lib.ggaPol x (t ^ 3 * u) (t ^ 3 * v) (t ^ 8 * σ) (t ^ 8 * τ) (t ^ 8 * υ) = t * lib.ggaPol x u v σ τ υ

/-- The number `1e-10` which is added to `|G|²` in the potential of the nuclei, relative to `|G|⁴`, summed over the
nonzero vectors of the grid; with the factor `4π/vol` of that potential. -/
noncomputable def Spec.regularisation (A : Matrix (Fin 3) (Fin 3) ℝ) (n : Fin 3 → ℕ) : ℝ :=
  4 * Real.pi / |A.det| * ∑ k ∈ Finset.univ.filter (fun k : Idx n => ∃ i, (k i : ℕ) ≠ 0),
    1e-10 / Spec.dot (gVectors A n k) (gVectors A n k) ^ 2

end Jrystal
