import Verif.Model.Planewave
import Mathlib.Analysis.SpecialFunctions.Trigonometric.Basic

/-
Model of `nabla_density_grid` of /repo/jrystal/_src/pw.py.  Exact real and complex arithmetic.  The
reshape and size check of `r` (/repo/jrystal/_src/pw.py:475-478) are `checkPosition`.
-/
namespace Jrystal
open scoped BigOperators

/-- `r = jnp.reshape(r, (-1)); if r.shape[0] != 3: raise` (/repo/jrystal/_src/pw.py:475-478); the
argument is the list of all entries of `r` in storage order. -/
def checkPosition (r : List ℝ) : Except PyErr (Fin 3 → ℝ) :=
  if h : r.length = 3 then .ok fun d => r.get (d.cast h.symm) else .error .valueError

/-- `nabla_density_grid` without occupation (/repo/jrystal/_src/pw.py:480-505, 511), one component `d`
of one band: `2 * (o1 * o2 + o3 * o4)`.  Nothing is divided by the volume. -/
noncomputable def nablaDensityBands {ns nk nb : ℕ} {n : Fin 3 → ℕ} (r : Fin 3 → ℝ)
    (c : Coef ns nk nb n) (g : Idx n → Fin 3 → ℝ) :
    Fin ns → Fin nk → Fin nb → Fin 3 → ℝ :=
  fun s k b d =>
    let gr : Idx n → ℝ := fun x => ∑ e, g x e * r e
    let rcos : Idx n → ℝ := fun x => (c s k b x).re * Real.cos (gr x)
    let rsin : Idx n → ℝ := fun x => (c s k b x).re * Real.sin (gr x)
    let icos : Idx n → ℝ := fun x => (c s k b x).im * Real.cos (gr x)
    let isin : Idx n → ℝ := fun x => (c s k b x).im * Real.sin (gr x)
    let o1 := ∑ x, (rcos x - isin x)
    let o2 := -∑ x, (rsin x + icos x) * g x d
    let o3 := ∑ x, (rsin x + icos x)
    let o4 := ∑ x, (rcos x - isin x) * g x d
    2 * (o1 * o2 + o3 * o4)

/-- `nabla_density_grid` with occupation (/repo/jrystal/_src/pw.py:507-509). -/
noncomputable def nablaDensity {ns nk nb : ℕ} {n : Fin 3 → ℕ} (r : Fin 3 → ℝ) (c : Coef ns nk nb n)
    (A : Matrix (Fin 3) (Fin 3) ℝ) (g : Idx n → Fin 3 → ℝ) (occ : Occ ns nk nb) : Fin 3 → ℝ :=
  fun d => (∑ s, ∑ k, ∑ b, nablaDensityBands r c g s k b d * occ s k b) / volume A

end Jrystal
