import Verif.Model.FftSize
import Mathlib.Analysis.SpecialFunctions.Complex.Arg
import Mathlib.Analysis.SpecialFunctions.Trigonometric.Inverse

/-
Model of /repo/jrystal/pseudopotential/spherical.py over the real numbers.  `arctan2 y x` is the argument
of `x + i y` (zero at the origin), `jnp.mod a b` is `a - b ⌊a / b⌋`.  The library function `sph_harm_y`
is a parameter.
-/
namespace Jrystal
open scoped BigOperators ComplexConjugate

/-- `jnp.linalg.norm(x, axis=-1)` of a vector with three entries
(/repo/jrystal/pseudopotential/spherical.py:33-64). -/
noncomputable def vecNorm (x : Fin 3 → ℝ) : ℝ := Real.sqrt (∑ d, x d ^ 2)

/-- `jnp.mod` on reals (/repo/jrystal/pseudopotential/spherical.py:33-64). -/
noncomputable def realMod (a b : ℝ) : ℝ := a - b * ⌊a / b⌋

/-- The three columns of `cartesian_to_spherical` (/repo/jrystal/pseudopotential/spherical.py:33-64). -/
structure SphCoord where
  r : ℝ
  theta : ℝ
  phi : ℝ

/-- `cartesian_to_spherical` (/repo/jrystal/pseudopotential/spherical.py:33-64): `eps` replaces a zero
radius, the polar angle is `arccos(clip(z / r, -1, 1))`, the azimuth `mod(arctan2(y, x) + 2π, 2π)`. -/
noncomputable def cartesianToSpherical (x : Fin 3 → ℝ) (eps : ℝ := 1e-10) : SphCoord :=
  let r := if vecNorm x = 0 then eps else vecNorm x
  { r := r
    phi := Real.arccos (max (-1) (min 1 (x 2 / r)))
    theta := realMod (Complex.arg ⟨x 0, x 1⟩ + 2 * Real.pi) (2 * Real.pi) }

/-- `legendre_kernel_trick` (/repo/jrystal/pseudopotential/spherical.py:177-209): the feature map for
`l = 0` and `l = 1`; `NotImplementedError` otherwise.  For `l = 1` the division of the zero vector by its
norm is not a number and replaced by zero, which is what division by zero gives here. -/
noncomputable def legendreKernelTrick (l : ℤ) : Except PyErr ((Fin 3 → ℝ) → Fin 3 → ℝ) :=
  if l = 0 then .ok fun _ _ => Real.sqrt 3 / 3 + 0
  else if l = 1 then .ok fun x d => Real.sqrt 3 * (x d / Real.sqrt (∑ e, x e ^ 2))
  else .error .notImplemented

/-- The library function `sph_harm_y(l, m, polar, azimuth)` of SciPy/JAX
(/repo/jrystal/pseudopotential/spherical.py:89-121). -/
abbrev SphHarm := ℕ → ℤ → ℝ → ℝ → ℂ

/-- `batch_sph_harm` (/repo/jrystal/pseudopotential/spherical.py:89-121): entry `i` holds order
`m = i - l`; the polar angle comes first in `sph_harm_y`. -/
def batchSphHarm (sph : SphHarm) (l : ℕ) (theta phi : ℝ) (i : ℕ) : ℂ :=
  sph l ((i : ℤ) - l) phi theta

/-- `batch_sph_harm_real` (/repo/jrystal/pseudopotential/spherical.py:67-86): entry `i` (order
`m = i - l`). -/
noncomputable def batchSphHarmReal (sph : SphHarm) (l : ℕ) (theta phi : ℝ) (i : ℕ) : ℝ :=
  let m : ℤ := (i : ℤ) - l
  let y1 := batchSphHarm sph l theta phi i
  let y2 := conj y1 * ((-1 : ℂ) ^ m)
  if i = l then y1.re
  else if 0 ≤ m then y1.re * Real.sqrt 2 * (-1 : ℝ) ^ m
  else y2.im * Real.sqrt 2 * (-1 : ℝ) ^ m

/-- `legendre_to_sph_harm(l, l_max)` applied to one vector
(/repo/jrystal/pseudopotential/spherical.py:124-174): the orders `-l .. l` of degree `l` at the direction
of the vector, zeros up to `2 * l_max + 1` entries (a negative padding is a `ValueError`), times
`2 * sqrt(pi)`.  `sph_harm(m, n, azimuth, polar)` is the same library function as `sph_harm_y` with the
arguments in another order. -/
noncomputable def legendreToSphHarm (sph : SphHarm) (l lMax : ℕ) (x : Fin 3 → ℝ) :
    Except PyErr (List ℂ) :=
  if lMax < l then .error .valueError
  else
    let y := (List.range (2 * l + 1)).map fun i : ℕ =>
      sph l ((i : ℤ) - l) (cartesianToSpherical x).phi (cartesianToSpherical x).theta
    .ok ((y ++ List.replicate ((lMax - l) * 2) 0).map fun v => v * 2 * (Real.sqrt Real.pi : ℂ))

/-- `_compute_spherical_harmonics` (/repo/jrystal/pseudopotential/nloc.py:19-40) at one vector: row `l` is
filled up with zeros after its `2l+1` entries. -/
noncomputable def sphericalRow (sph : SphHarm) (l i : ℕ) (v : Fin 3 → ℝ) : ℝ :=
  if i < 2 * l + 1 then
    batchSphHarmReal sph l (cartesianToSpherical v).theta (cartesianToSpherical v).phi i
  else 0

end Jrystal
