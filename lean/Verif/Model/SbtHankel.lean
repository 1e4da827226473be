import Verif.Model.SbtFft
import Mathlib.Analysis.SpecialFunctions.Pow.Real

/-
Model of `_sbt_hankel` in /repo/jrystal/sbt/sbt.py, the spherical Bessel transform by way of scipy's fast
Hankel transform.  `scipy.fft.fht` and `scipy.fft.fhtoffset` are parameters.
-/
namespace Jrystal
open scoped BigOperators

/-- `scipy.fft.fht(a, dln, mu, offset)` for arrays of `n` samples (/repo/jrystal/sbt/sbt.py:113-115). -/
abbrev Fht := (n : ℕ) → (a : Samples) → (dln mu offset : ℝ) → Samples

/-- `np.mean(np.diff(np.log(r_grid)))` (/repo/jrystal/sbt/sbt.py:110). -/
noncomputable def hankelStep (n : ℕ) (r : Samples) : ℝ :=
  (∑ i ∈ Finset.range (n - 1), (Real.log (r (i + 1)) - Real.log (r i))) / ((n - 1 : ℕ) : ℝ)

/-- `offset` (/repo/jrystal/sbt/sbt.py:111-112), from `scipy.fft.fhtoffset(dln, mu, initial)`. -/
noncomputable def hankelOffset (fhtoffset : ℝ → ℝ → ℝ → ℝ) (n : ℕ) (r : Samples) (l : ℤ) (kmax : ℝ) : ℝ :=
  fhtoffset (hankelStep n r) ((l : ℝ) + 0.5)
    (Real.log kmax - (Real.log (r (n - 1)) - Real.log (r 0)))

/-- `_sbt_hankel` (/repo/jrystal/sbt/sbt.py:105-117): transform and grid, in this order. -/
noncomputable def sbtHankel (fht : Fht) (fhtoffset : ℝ → ℝ → ℝ → ℝ) (n : ℕ) (r f : Samples) (l : ℤ)
    (kmax : ℝ) : Samples × Samples :=
  let dln := hankelStep n r
  let offset := hankelOffset fhtoffset n r l kmax
  let a := fht n (fun i => f i * r i ^ (1.5 : ℝ)) dln ((l : ℝ) + 0.5) (offset + Real.log (r (n - 1)))
  let k : Samples := fun j => Real.exp offset * Real.exp (j * dln)
  (fun j => a j / k j ^ (1.5 : ℝ), k)

end Jrystal
