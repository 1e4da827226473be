import Verif.Model.Grid
import Mathlib.Analysis.SpecialFunctions.Complex.Circle

/-
Model of the three-dimensional discrete Fourier transforms used throughout /repo/jrystal:
`jnp.fft.fftn(x, axes=range(-3, 0))`, `jnp.fft.ifftn` and the sharded versions
/repo/jrystal/_src/spmd/fft.py:37-75, whose single-device implementation is the same call.
Exact complex arithmetic; the sums are the definition in the numpy documentation.
-/
namespace Jrystal
open scoped BigOperators

/-- Number of grid points `np.prod(shape[-3:])` (/repo/jrystal/_src/pw.py:208-211). -/
def gridCount (n : Fin 3 → ℕ) : ℕ := ∏ i, n i

/-- `fftn` / `fftn3d` (/repo/jrystal/_src/spmd/fft.py:37-49, 73-75). -/
noncomputable def fftn {n : Fin 3 → ℕ} (f : Idx n → ℂ) : Idx n → ℂ :=
  fun k => ∑ j, f j * Complex.exp (-(2 * Real.pi * Complex.I *
    ∑ i, ((k i : ℕ) : ℂ) * ((j i : ℕ) : ℂ) / (n i : ℂ)))

/-- `ifftn` / `ifftn3d` (/repo/jrystal/_src/spmd/fft.py:52-64, 68-70). -/
noncomputable def ifftn {n : Fin 3 → ℕ} (F : Idx n → ℂ) : Idx n → ℂ :=
  fun j => (∑ k, F k * Complex.exp (2 * Real.pi * Complex.I *
    ∑ i, ((k i : ℕ) : ℂ) * ((j i : ℕ) : ℂ) / (n i : ℂ))) / (gridCount n : ℂ)

end Jrystal
