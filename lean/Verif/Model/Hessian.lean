import Mathlib.Analysis.Calculus.FDeriv.Basic
import Mathlib.Analysis.Complex.Basic

/-
Model of /repo/jrystal/_src/hessian.py.

`jax.vjp` of a function of complex vectors is modelled by the real Fréchet derivative together with
JAX's documented convention for complex cotangents: the vector-Jacobian product of `f = u + i v` at
`z = x + i y` with cotangent `c + i d` is `(c u_x - d v_x) - i (c u_y - d v_y)`.
-/
namespace Jrystal
open scoped BigOperators

/-- `jax.vjp(f, x)[1](v)[0]` as used in /repo/jrystal/_src/hessian.py:40-46. -/
noncomputable def vjp {n m : ℕ} (f : (Fin n → ℂ) → (Fin m → ℂ)) (x : Fin n → ℂ) (v : Fin m → ℂ) :
    Fin n → ℂ :=
  fun j =>
    (((∑ i, v i * fderiv ℝ f x (Pi.single j 1) i).re : ℝ) : ℂ)
      - Complex.I * (((∑ i, v i * fderiv ℝ f x (Pi.single j Complex.I) i).re : ℝ) : ℂ)

/-- `grad_f` (/repo/jrystal/_src/hessian.py:39-41) for a scalar function; its value, an array of shape
`()`, is a vector of length one here. -/
noncomputable def gradF {n : ℕ} (f : (Fin n → ℂ) → ℂ) (x : Fin n → ℂ) : Fin n → ℂ :=
  vjp (m := 1) (fun u _ => f u) x fun _ => 1

/-- `complex_hessian` (/repo/jrystal/_src/hessian.py:21-55): row `i` is the vector-Jacobian product of
`grad_f` with the `i`-th unit vector. -/
noncomputable def complexHessian {n : ℕ} (f : (Fin n → ℂ) → ℂ) (x : Fin n → ℂ) :
    Matrix (Fin n) (Fin n) ℂ :=
  fun i => vjp (gradF f) x (Pi.single i 1)

end Jrystal
