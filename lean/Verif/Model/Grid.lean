import Verif.Model.Py
import Mathlib.Data.Matrix.Basic
import Mathlib.LinearAlgebra.Matrix.NonsingularInverse
import Mathlib.Analysis.SpecialFunctions.Trigonometric.Basic

/-
Model of /repo/jrystal/_src/grid.py.

Arrays on the FFT grid of sizes `n 0, n 1, n 2` are functions on `Idx n`.
Simplification: real numbers instead of floats; only three-dimensional grids (the code's
`_vector_grid` is dimension-generic but every caller passes three axes, and `cubic_mask`'s einsum
accepts exactly three).
-/

namespace Jrystal
open scoped BigOperators
open Matrix

/-- Index of a grid point / frequency on a 3D grid with `n i` points along axis `i`
(/repo/jrystal/_src/grid.py:93-119). -/
abbrev Idx (n : Fin 3 → ℕ) := (i : Fin 3) → Fin (n i)

/-- Integer frequency at position `j` of `fftfreq(n)`: `0, 1, …, (n-1)//2, -(n//2), …, -1`
(numpy/jax `fftfreq`, used at /repo/jrystal/_src/grid.py:115-117). -/
def sfreq (n : ℕ) (j : ℕ) : ℤ :=
  if j < (n - 1) / 2 + 1 then (j : ℤ) else -((n / 2 : ℕ) : ℤ) + ((j : ℤ) - (((n - 1) / 2 + 1 : ℕ) : ℤ))

/-- `fftfreq(n, d)` at position `j`: integer frequency divided by `n d`
(/repo/jrystal/_src/grid.py:115-117). -/
noncomputable def fftfreq (n : ℕ) (d : ℝ) (j : ℕ) : ℝ := (sfreq n j : ℝ) / ((n : ℝ) * d)

/-- `_vector_grid(basis, grid_sizes, normalize)` (/repo/jrystal/_src/grid.py:93-119): the sum over
axes of the outer products `fftfreq(n_i, 1 or 1/n_i) ⊗ basis[i]`. -/
noncomputable def vectorGrid (basis : Matrix (Fin 3) (Fin 3) ℝ) (n : Fin 3 → ℕ) (normalize : Bool) :
    Idx n → Fin 3 → ℝ :=
  fun j d => ∑ i, fftfreq (n i) (if normalize then 1 else 1 / (n i : ℝ)) (j i) * basis i d

/-- `2 * pi * inv(cell).T` (/repo/jrystal/_src/grid.py:148, 261 and
/repo/jrystal/_src/crystal.py:113-116). -/
noncomputable def reciprocalVectors (A : Matrix (Fin 3) (Fin 3) ℝ) : Matrix (Fin 3) (Fin 3) ℝ :=
  (2 * Real.pi) • (A⁻¹)ᵀ

/-- `g_vectors` (/repo/jrystal/_src/grid.py:122-149). -/
noncomputable def gVectors (A : Matrix (Fin 3) (Fin 3) ℝ) (n : Fin 3 → ℕ) : Idx n → Fin 3 → ℝ :=
  vectorGrid (reciprocalVectors A) n false

/-- `r_vectors` (/repo/jrystal/_src/grid.py:152-178). -/
noncomputable def rVectors (A : Matrix (Fin 3) (Fin 3) ℝ) (n : Fin 3 → ℕ) : Idx n → Fin 3 → ℝ :=
  vectorGrid A n true

/-- Sum of squares of a vector (`jnp.sum(g**2, axis=-1)`) (/repo/jrystal/_src/grid.py:291). -/
def normSq3 {K : Type*} [Field K] (v : Fin 3 → K) : K := ∑ d, v d ^ 2

/-- `grid_vector_radius` (/repo/jrystal/_src/grid.py:352-374): square root of the sum of squares of the vector
at each index, for any number of axes (`I` is the index type of the array without its last axis). -/
noncomputable def gridVectorRadius {I : Type*} (v : I → Fin 3 → ℝ) (k : I) : ℝ := Real.sqrt (normSq3 (v k))

/-- `spherical_mask` (/repo/jrystal/_src/grid.py:265-293):
`norm(g)**2 <= cutoff_energy * 2`, with `norm` the square root of the sum of squares. -/
noncomputable def sphericalMask (A : Matrix (Fin 3) (Fin 3) ℝ) (n : Fin 3 → ℕ) (cutoff : ℝ)
    (k : Idx n) : Bool :=
  letI := Classical.propDecidable
  decide ((Real.sqrt (normSq3 (gVectors A n k))) ^ 2 ≤ cutoff * 2)

/-- One axis of `cubic_mask` (/repo/jrystal/_src/grid.py:315-322): a vector of `True` whose slice
`[upper+1 : lower]` is set to `False`, with `G_max = (size-1)//2`, `lower = -G_max // 2`
(parsed as `(-G_max) // 2`) and `upper = G_max // 2`. -/
def cubicMask1 (size : ℕ) (j : ℕ) : Bool :=
  let gmax : ℤ := half ((size : ℤ) - 1)
  let lower : ℤ := half (-gmax)
  let upper : ℤ := half gmax
  !(inSlice size (upper + 1) lower j)

/-- `cubic_mask` (/repo/jrystal/_src/grid.py:296-325): outer product of the three axis masks. -/
def cubicMask (n : Fin 3 → ℕ) (k : Idx n) : Bool :=
  cubicMask1 (n 0) (k 0) && cubicMask1 (n 1) (k 1) && cubicMask1 (n 2) (k 2)

/-- `estimate_max_cutoff_energy` (/repo/jrystal/_src/grid.py:328-349): maximum over the grid of
`norm(g)**2/2 * mask`.  `jnp.max` of an empty array raises, hence the non-emptiness argument. -/
noncomputable def estimateMaxCutoffEnergy (A : Matrix (Fin 3) (Fin 3) ℝ) (n : Fin 3 → ℕ)
    (mask : Idx n → Bool) (hne : (Finset.univ : Finset (Idx n)).Nonempty) : ℝ :=
  Finset.univ.sup' hne fun k =>
    (Real.sqrt (normSq3 (gVectors A n k))) ^ 2 / 2 * (if mask k then 1 else 0)

/-- Grid array flattened to a matrix with one row per grid point (`reshape([-1, 3])`)
(/repo/jrystal/_src/grid.py:428-470). -/
def gridMatrix {n : Fin 3 → ℕ} (f : Idx n → Fin 3 → ℝ) : Matrix (Idx n) (Fin 3) ℝ := Matrix.of f

/-- `g2cell_vectors` (/repo/jrystal/_src/grid.py:428-448):
`inv(inv(a.T @ a) @ a.T @ b)` with `a` the flattened G grid of the identity cell. -/
noncomputable def g2cellVectors {n : Fin 3 → ℕ} (g : Idx n → Fin 3 → ℝ) :
    Matrix (Fin 3) (Fin 3) ℝ :=
  let a := gridMatrix (gVectors 1 n)
  let b := gridMatrix g
  ((aᵀ * a)⁻¹ * aᵀ * b)⁻¹

/-- `r2cell_vectors` (/repo/jrystal/_src/grid.py:451-470). -/
noncomputable def r2cellVectors {n : Fin 3 → ℕ} (r : Idx n → Fin 3 → ℝ) :
    Matrix (Fin 3) (Fin 3) ℝ :=
  let d := gridMatrix (rVectors 1 n)
  (dᵀ * d)⁻¹ * dᵀ * gridMatrix r

/-- `g2r_vector_grid` (/repo/jrystal/_src/grid.py:377-401). -/
noncomputable def g2rVectorGrid {n : Fin 3 → ℕ} (g : Idx n → Fin 3 → ℝ)
    (cell : Option (Matrix (Fin 3) (Fin 3) ℝ)) : Idx n → Fin 3 → ℝ :=
  rVectors (cell.getD (g2cellVectors g)) n

/-- `r2g_vector_grid` (/repo/jrystal/_src/grid.py:404-425). -/
noncomputable def r2gVectorGrid {n : Fin 3 → ℕ} (r : Idx n → Fin 3 → ℝ)
    (cell : Option (Matrix (Fin 3) (Fin 3) ℝ)) : Idx n → Fin 3 → ℝ :=
  gVectors (cell.getD (r2cellVectors r)) n

/-- `ase.dft.kpoints.monkhorst_pack(size)`: fractional coordinates `(i + 0.5)/size - 0.5` for the
multi-index `i` in row-major order (external function, written from its definition; it raises
`ValueError` for sizes below 1) (/repo/jrystal/_src/grid.py:262). -/
noncomputable def monkhorstPack (n : Fin 3 → ℕ) (i : Idx n) : Fin 3 → ℝ :=
  fun d => (((i d : ℕ) : ℝ) + 0.5) / (n d : ℝ) - 0.5

/-- `k_vectors` (/repo/jrystal/_src/grid.py:239-262): `monkhorst_pack(sizes) @ b`. -/
noncomputable def kVectors (A : Matrix (Fin 3) (Fin 3) ℝ) (n : Fin 3 → ℕ) (i : Idx n) : Fin 3 → ℝ :=
  fun d => ∑ l, monkhorstPack n i l * reciprocalVectors A l d

/-- Number of translations per axis in `translation_vectors` (/repo/jrystal/_src/grid.py:234):
`int(ceil(cutoff / norm(sum of cell rows)**2))`.  A zero row sum divides by zero in the code, so
the theorems assume it is non-zero. -/
noncomputable def translationCount (A : Matrix (Fin 3) (Fin 3) ℝ) (cutoff : ℝ) : ℤ :=
  ⌈cutoff / (Real.sqrt (normSq3 (fun d => ∑ i, A i d))) ^ 2⌉

/-- `translation_vectors` (/repo/jrystal/_src/grid.py:213-236); each row of the returned list is
one index of the result.  A negative count makes `fftfreq` fail in the code; the theorems assume a
positive cutoff. -/
noncomputable def translationVectors (A : Matrix (Fin 3) (Fin 3) ℝ) (cutoff : ℝ) :
    Idx (fun _ => (translationCount A cutoff).toNat) → Fin 3 → ℝ :=
  vectorGrid A (fun _ => (translationCount A cutoff).toNat) false

end Jrystal
