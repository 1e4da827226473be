import Verif.Model.Energy
import Verif.Model.Grid
import Mathlib.Analysis.SpecialFunctions.Trigonometric.Basic

/-
Model of /repo/jrystal/_src/ewald.py.  `jax.scipy.special.erfc` is a parameter.  The translation
list has one axis (this is what `translation_vectors` returns and what the broadcasts need; the
annotation `x y z 3` is not what the code accepts).
-/
namespace Jrystal
open scoped BigOperators

/-- `tau[i, j]` (/repo/jrystal/_src/ewald.py:52): `positions[None] - positions[:, None]`. -/
def ewaldTau {na : ℕ} (pos : Fin na → Fin 3 → ℝ) (i j : Fin na) (d : Fin 3) : ℝ := pos j d - pos i d

/-- `tau_t_norm` for one difference vector and translation (/repo/jrystal/_src/ewald.py:53-56). -/
noncomputable def ewaldNorm (tau t : Fin 3 → ℝ) : ℝ :=
  letI := Classical.propDecidable
  let x := Real.sqrt ((∑ d, (tau d - t d) ^ 2) + 1e-20)
  if x ≤ 1e-9 then 1e20 else x

/-- `ew_ovlp` (/repo/jrystal/_src/ewald.py:59-61). -/
noncomputable def ewaldOverlap (erfc : ℝ → ℝ) (eta : ℝ) {nt : ℕ} (T : Fin nt → Fin 3 → ℝ)
    (tau : Fin 3 → ℝ) : ℝ :=
  ∑ t, erfc (eta * ewaldNorm tau (T t)) / ewaldNorm tau (T t)

/-- `gvec_norm_sq` with the entry at the origin replaced (/repo/jrystal/_src/ewald.py:64-65). -/
noncomputable def ewaldGSq {n : Fin 3 → ℕ} (g : Idx n → Fin 3 → ℝ) (k : Idx n) : ℝ :=
  if isOrigin k then 1e16 else ∑ d, g k d ^ 2

/-- `ew_rprcl` (/repo/jrystal/_src/ewald.py:67-78). -/
noncomputable def ewaldReciprocal {n : Fin 3 → ℕ} (g : Idx n → Fin 3 → ℝ) (vol eta : ℝ)
    (tau : Fin 3 → ℝ) : ℝ :=
  (∑ k, Real.exp (-ewaldGSq g k / 4 / eta ^ 2) / ewaldGSq g k *
    (if isOrigin k then 0 else Real.cos (∑ d, g k d * tau d))) * 4 * Real.pi / vol

/-- `ewald_coulomb_repulsion` (/repo/jrystal/_src/ewald.py:21-86). -/
noncomputable def ewald (erfc : ℝ → ℝ) {na nt : ℕ} {n : Fin 3 → ℕ} (pos : Fin na → Fin 3 → ℝ)
    (q : Fin na → ℝ) (g : Idx n → Fin 3 → ℝ) (vol eta : ℝ) (T : Fin nt → Fin 3 → ℝ) : ℝ :=
  let aa := (∑ j, (∑ i, q i * (ewaldOverlap erfc eta T (ewaldTau pos i j)
    + ewaldReciprocal g vol eta (ewaldTau pos i j))) * q j) / 2
  let a := -(∑ i, q i ^ 2) * 2 * eta / Real.sqrt Real.pi / 2
  aa + (a - (∑ i, q i) ^ 2 * Real.pi / eta ^ 2 / vol / 2)

end Jrystal
