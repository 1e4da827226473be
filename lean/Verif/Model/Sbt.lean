import Verif.Model.FftSize
import Mathlib.Analysis.SpecialFunctions.Log.Basic
import Mathlib.Algebra.BigOperators.Fin

/-
Model of /repo/jrystal/sbt: the quadrature weights of `pyNumSBT`, and the numerical spherical Bessel
transform.  Exact real arithmetic; the spherical Bessel functions are a parameter.  The methods of `pyNumSBT`
are in SbtFft.lean.
-/
namespace Jrystal
open scoped BigOperators

/-- A list of samples with an entry for every position; positions beyond the mesh are not read
(/repo/jrystal/sbt/pysbt.py:112-122). -/
abbrev Samples := ℕ → ℝ

/-- The loop of `sbt_init` (/repo/jrystal/sbt/pysbt.py:114-122) from `ii` downwards in steps of two, as
updates of the weights. -/
noncomputable def simpsonLoop (drho : ℝ) (rr : Samples) : ℕ → Samples → Samples
  | 0, w => w
  | 1, w => w
  | (ii + 2), w =>
    let w := Function.update w (ii + 2) (drho * rr (ii + 2) / 3 + w (ii + 2))
    let w := Function.update w (ii + 1) (drho * rr (ii + 1) * 4 / 3)
    let w := Function.update w ii (drho * rr ii / 3)
    simpsonLoop drho rr ii w

/-- `simp_wht_rr` (/repo/jrystal/sbt/pysbt.py:112-118) for a mesh of `nr` points; `simp_wht_kk` is the
same with the mesh `kk`. -/
noncomputable def simpsonWeights (drho : ℝ) (nr : ℕ) (rr : Samples) : Samples :=
  simpsonLoop drho rr (nr - 1) fun _ => 0

/-- `drho` (/repo/jrystal/sbt/pysbt.py:68-74). -/
noncomputable def meshStep (nr : ℕ) (rr : Samples) : ℝ :=
  (Real.log (rr (nr - 1)) - Real.log (rr 0)) / ((nr : ℝ) - 1)

/-- The library function `spherical_jn(l, x)` (/repo/jrystal/sbt/sbt_numerical.py:63-76). -/
abbrev SphBessel := ℤ → ℝ → ℝ

/-- The default `delta_r` of `sbt` (/repo/jrystal/sbt/sbt_numerical.py:44-46). -/
def deltaR (nr : ℕ) (rr : Samples) (i : ℕ) : ℝ := if i + 1 < nr then rr (i + 1) - rr i else 0

/-- `np.linspace(0.0001, kmax, 2 * nr)` (/repo/jrystal/sbt/sbt_numerical.py:48-50). -/
noncomputable def gGrid (nr : ℕ) (kmax : ℝ) (j : ℕ) : ℝ :=
  0.0001 + j * ((kmax - 0.0001) / ((2 * nr : ℕ) - 1 : ℝ))

/-- One row of `sbt` (/repo/jrystal/sbt/sbt_numerical.py:63-76): the sum over the mesh at the `j`-th
point of the output grid. -/
noncomputable def sbtNumerical (jn : SphBessel) (nr : ℕ) (rr : Samples) (kmax : ℝ) (l : ℤ) (ff : Samples)
    (delta : Samples) (j : ℕ) : ℝ :=
  ∑ i ∈ Finset.range nr, ff i * rr i ^ 2 * jn l (gGrid nr kmax j * rr i) * delta i

/-- `sbt` with a list of degrees (/repo/jrystal/sbt/sbt_numerical.py:53-65): row `f` uses the degree at
position `f`; a different number of rows and degrees fails the assertion. -/
noncomputable def sbtRows (jn : SphBessel) (nr : ℕ) (rr : Samples) (kmax : ℝ) (ls : List ℤ)
    (rows : List Samples) : Except PyErr (List (ℕ → ℝ)) :=
  if rows.length = ls.length then
    .ok (List.zipWith (fun f l => sbtNumerical jn nr rr kmax l f (deltaR nr rr)) rows ls)
  else .error .assertionError

end Jrystal
