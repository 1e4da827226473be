import Verif.Model.Fft
import Verif.Model.Planewave
import Mathlib.Analysis.Calculus.Deriv.Basic

/-
Model of /repo/jrystal/_src/xc.py.

The functionals of the external library jax_xc are parameters (`XcLib`); they act pointwise, so a
flattened and reshaped array is a pointwise application.  Exact real arithmetic; `jax.grad` and
`jax.jacfwd` are (partial) derivatives.  The number of spin channels is 1 or 2 in every documented
use; for other numbers the reshapes of `_parse_xc_type` fail and the model returns 0.
-/
namespace Jrystal
open scoped BigOperators ComplexConjugate

/-- `jax_xc.impl.<name>.unpol` and `.pol` for LDA functionals `(rho)` and GGA functionals
`(rho, sigma)`; `get_xc_functional` (/repo/jrystal/_src/xc.py:13-32) looks them up by name. -/
structure XcLib where
  lda : String → ℝ → ℝ
  ldaPol : String → ℝ → ℝ → ℝ
  gga : String → ℝ → ℝ → ℝ
  ggaPol : String → ℝ → ℝ → ℝ → ℝ → ℝ → ℝ

/-- Python's `sub in s` for strings, as used in /repo/jrystal/_src/xc.py:42, 228. -/
def pyIn (sub s : String) : Bool := s.toList.tails.any fun t => sub.toList.isPrefixOf t

/-- `xc_type.split('+')` (/repo/jrystal/_src/xc.py:230, 244). -/
def splitPlus (s : String) : List String := (s.toList.splitOn '+').map String.ofList

/-- `is_exchange = '_x' in xc_type` (/repo/jrystal/_src/xc.py:42). -/
def isExchange (xt : String) : Bool := pyIn "_x" xt

/-- `_lda` at one grid point of a spin-polarised density (/repo/jrystal/_src/xc.py:54-61). -/
noncomputable def ldaPoint2 (lib : XcLib) (xt : String) (up dn : ℝ) : ℝ :=
  if isExchange xt then 0.5 * (lib.lda xt (2 * up) + lib.lda xt (2 * dn)) else lib.ldaPol xt up dn

/-- `_lda` at one grid point of an unpolarised density (/repo/jrystal/_src/xc.py:62-63). -/
noncomputable def ldaPoint1 (lib : XcLib) (xt : String) (rho : ℝ) : ℝ := lib.lda xt rho

/-- `_gga` at one grid point of a polarised density (/repo/jrystal/_src/xc.py:67-82). -/
noncomputable def ggaPoint2 (lib : XcLib) (xt : String) (up dn suu sud sdd : ℝ) : ℝ :=
  if isExchange xt then 0.5 * (lib.gga xt (2 * up) (4 * suu) + lib.gga xt (2 * dn) (4 * sdd))
  else lib.ggaPol xt up dn suu sud sdd

/-- `_gga` at one grid point of an unpolarised density (/repo/jrystal/_src/xc.py:83-84). -/
noncomputable def ggaPoint1 (lib : XcLib) (xt : String) (rho sigma : ℝ) : ℝ := lib.gga xt rho sigma

/-- `exc_fn` of the LDA branch (/repo/jrystal/_src/xc.py:243-245): sum over the `+`-separated names,
given here as the list `xt.split('+')`. -/
noncomputable def excLda1 (lib : XcLib) (xts : List String) (rho : ℝ) : ℝ :=
  (xts.map fun xt => ldaPoint1 lib xt rho).sum

/-- `exc_fn` of the LDA branch for a polarised density (/repo/jrystal/_src/xc.py:243-245). -/
noncomputable def excLda2 (lib : XcLib) (xts : List String) (up dn : ℝ) : ℝ :=
  (xts.map fun xt => ldaPoint2 lib xt up dn).sum

/-- `exc_fn` of the GGA branch (/repo/jrystal/_src/xc.py:229-231). -/
noncomputable def excGga1 (lib : XcLib) (xts : List String) (rho sigma : ℝ) : ℝ :=
  (xts.map fun xt => ggaPoint1 lib xt rho sigma).sum

/-- `exc_fn` of the GGA branch for a polarised density (/repo/jrystal/_src/xc.py:229-231). -/
noncomputable def excGga2 (lib : XcLib) (xts : List String) (up dn suu sud sdd : ℝ) : ℝ :=
  (xts.map fun xt => ggaPoint2 lib xt up dn suu sud sdd).sum

/-- `grad_rho_r` of `sigma_r_fn` (/repo/jrystal/_src/xc.py:95-97): `ifftn(rho_G * 1j * gs)` over the
grid axes, one Cartesian component. -/
noncomputable def gradRho {n : Fin 3 → ℕ} (g : Idx n → Fin 3 → ℝ) (rho : Idx n → ℝ) (d : Fin 3) :
    Idx n → ℂ :=
  ifftn fun k => fftn (fun j => (rho j : ℂ)) k * Complex.I * (g k d : ℂ)

/-- One entry of `sigma_r_fn` for two densities (/repo/jrystal/_src/xc.py:98-104):
`sum_d conj(grad a) * grad b`, real part. -/
noncomputable def sigmaPair {n : Fin 3 → ℕ} (g : Idx n → Fin 3 → ℝ) (a b : Idx n → ℝ) (j : Idx n) : ℝ :=
  (∑ d, conj (gradRho g a d j) * gradRho g b d j).re

/-- `sigma_r_fn` for a polarised density (/repo/jrystal/_src/xc.py:98-104): rows `uu, ud, dd`. -/
noncomputable def sigma2 {n : Fin 3 → ℕ} (g : Idx n → Fin 3 → ℝ) (up dn : Idx n → ℝ) :
    Fin 3 → Idx n → ℝ
  | 0 => sigmaPair g up up
  | 1 => sigmaPair g up dn
  | 2 => sigmaPair g dn dn

/-- `sigma_r_fn` for an unpolarised density (/repo/jrystal/_src/xc.py:105-106). -/
noncomputable def sigma1 {n : Fin 3 → ℕ} (g : Idx n → Fin 3 → ℝ) (rho : Idx n → ℝ) (j : Idx n) : ℝ :=
  ∑ d, absoluteSquare (gradRho g rho d j)

/-- `vxc_lda` at one point, unpolarised (/repo/jrystal/_src/xc.py:117-124): `exc'(rho) rho + exc`. -/
noncomputable def vxcLda1 (exc : ℝ → ℝ) (rho : ℝ) : ℝ := deriv exc rho * rho + exc rho

/-- `vxc_lda` at one point, polarised (/repo/jrystal/_src/xc.py:113-124): channel `σ` of
`jacfwd(exc)(rho) * rho + exc(rho)`. -/
noncomputable def vxcLda2 (exc : ℝ → ℝ → ℝ) (up dn : ℝ) : ℝ × ℝ :=
  (deriv (fun x => exc x dn) up * up + exc up dn, deriv (fun x => exc up x) dn * dn + exc up dn)

/-- Spin channel `i` of a density array, `rho_r[i]` (/repo/jrystal/_src/xc.py:57-63); zero when there
is no such channel. -/
def chan {ns : ℕ} {n : Fin 3 → ℕ} (rho : Fin ns → Idx n → ℝ) (i : ℕ) : Idx n → ℝ :=
  if h : i < ns then rho ⟨i, h⟩ else fun _ => 0

/-- `xc_density(density, g, kohn_sham=False, xc_type)` (/repo/jrystal/_src/xc.py:222-253): energy per
electron on the grid, no spin axis.  `polarized` is `density.shape[0] == 2`. -/
noncomputable def excDensity (lib : XcLib) (xt : String) {ns : ℕ} {n : Fin 3 → ℕ}
    (g : Idx n → Fin 3 → ℝ) (rho : Fin ns → Idx n → ℝ) (j : Idx n) : ℝ :=
  let xts := splitPlus xt
  if pyIn "gga" xt then
    if ns = 2 then
      excGga2 lib xts (chan rho 0 j) (chan rho 1 j) (sigma2 g (chan rho 0) (chan rho 1) 0 j)
        (sigma2 g (chan rho 0) (chan rho 1) 1 j) (sigma2 g (chan rho 0) (chan rho 1) 2 j)
    else excGga1 lib xts (chan rho 0 j) (sigma1 g (chan rho 0) j)
  else
    if ns = 2 then excLda2 lib xts (chan rho 0 j) (chan rho 1 j)
    else excLda1 lib xts (chan rho 0 j)

/-- `ifftn(F, axes=range(-3, 0))` of an array of shape `x y z 3`, as called in
/repo/jrystal/_src/xc.py:161, 165: the transformed axes are `y`, `z` and the Cartesian axis. -/
noncomputable def ifftnYZD {n : Fin 3 → ℕ} (F : Idx n → Fin 3 → ℂ) (j : Idx n) (d : Fin 3) : ℂ :=
  (∑ y : Fin (n 1), ∑ z : Fin (n 2), ∑ e : Fin 3, F (mkIdx (j 0) y z) e *
    Complex.exp (2 * Real.pi * Complex.I * (((j 1 : ℕ) : ℂ) * ((y : ℕ) : ℂ) / (n 1 : ℂ) +
      ((j 2 : ℕ) : ℂ) * ((z : ℕ) : ℂ) / (n 2 : ℂ) + ((d : ℕ) : ℂ) * ((e : ℕ) : ℂ) / 3))) /
    ((n 1 * n 2 * 3 : ℕ) : ℂ)

/-- `jnp.fft.fft(x)` of an array of shape `x y z`: transform of the last axis only
(/repo/jrystal/_src/xc.py:165). -/
noncomputable def fftZ {n : Fin 3 → ℕ} (f : Idx n → ℂ) (j : Idx n) : ℂ :=
  ∑ z : Fin (n 2), f (mkIdx (j 0) (j 1) z) *
    Complex.exp (-(2 * Real.pi * Complex.I * (((j 2 : ℕ) : ℂ) * ((z : ℕ) : ℂ) / (n 2 : ℂ))))

/-- `grad_fft` of `vxc_gga_recp` (/repo/jrystal/_src/xc.py:165). -/
noncomputable def gradFftKs {n : Fin 3 → ℕ} (g : Idx n → Fin 3 → ℝ) (f : Idx n → ℂ) :
    Idx n → Fin 3 → ℂ :=
  ifftnYZD fun k d => Complex.I * (g k d : ℂ) * fftZ f k

/-- `grad_rho_r` of `vxc_gga_recp` (/repo/jrystal/_src/xc.py:160-161). -/
noncomputable def gradRhoKs {n : Fin 3 → ℕ} (g : Idx n → Fin 3 → ℝ) (rho : Idx n → ℝ) :
    Idx n → Fin 3 → ℂ :=
  ifftnYZD fun k d => fftn (fun j => (rho j : ℂ)) k * Complex.I * (g k d : ℂ)

/-- `lapl_rho_r` of `vxc_gga_recp` (/repo/jrystal/_src/xc.py:162-163). -/
noncomputable def laplRho {n : Fin 3 → ℕ} (g : Idx n → Fin 3 → ℝ) (rho : Idx n → ℝ) : Idx n → ℂ :=
  ifftn fun k => -1 * ((∑ d, g k d ^ 2 : ℝ) : ℂ) * fftn (fun j => (rho j : ℂ)) k

/-- `where(sigma > 0, t, 0)` (/repo/jrystal/_src/xc.py:173, 184, 201). -/
noncomputable def whereGt (sigma t : ℝ) : ℝ :=
  letI := Classical.propDecidable
  if sigma > 0 then t else 0

/-- `vxc_gga` for an unpolarised density (/repo/jrystal/_src/xc.py:127-219); the final pair
`ifftn(fftn(integrand))` is kept as in the code. -/
noncomputable def vxcGga1 {n : Fin 3 → ℕ} (exc : ℝ → ℝ → ℝ) (g : Idx n → Fin 3 → ℝ)
    (rho sigma : Idx n → ℝ) : Idx n → ℂ :=
  let loc : Idx n → ℝ := fun j => deriv (fun x => exc x (sigma j)) (rho j) * rho j + exc (rho j) (sigma j)
  let t : Idx n → ℝ := fun j => whereGt (sigma j) (deriv (fun x => exc (rho j) x) (sigma j) * rho j)
  let t3 : Idx n → ℂ := fun j => ∑ d, gradFftKs g (fun i => (t i : ℂ)) j d * gradRhoKs g rho j d
  let t4 : Idx n → ℂ := fun j => (t j : ℂ) * laplRho g rho j
  ifftn (fftn fun j => (loc j : ℂ) - 2 * (t3 j + t4 j))

/-- `vxc_gga` for a polarised density (/repo/jrystal/_src/xc.py:127-219); `sigma` holds the rows
`uu, ud, dd`. -/
noncomputable def vxcGga2 {n : Fin 3 → ℕ} (exc : ℝ → ℝ → ℝ → ℝ → ℝ → ℝ) (g : Idx n → Fin 3 → ℝ)
    (up dn : Idx n → ℝ) (sigma : Fin 3 → Idx n → ℝ) : Fin 2 → Idx n → ℂ :=
  let e : Idx n → ℝ := fun j => exc (up j) (dn j) (sigma 0 j) (sigma 1 j) (sigma 2 j)
  let locUp : Idx n → ℝ := fun j =>
    deriv (fun x => exc x (dn j) (sigma 0 j) (sigma 1 j) (sigma 2 j)) (up j) * up j + e j
  let locDn : Idx n → ℝ := fun j =>
    deriv (fun x => exc (up j) x (sigma 0 j) (sigma 1 j) (sigma 2 j)) (dn j) * dn j + e j
  let dUU : Idx n → ℝ := fun j => deriv (fun x => exc (up j) (dn j) x (sigma 1 j) (sigma 2 j)) (sigma 0 j)
  let dUD : Idx n → ℝ := fun j => deriv (fun x => exc (up j) (dn j) (sigma 0 j) x (sigma 2 j)) (sigma 1 j)
  let dDD : Idx n → ℝ := fun j => deriv (fun x => exc (up j) (dn j) (sigma 0 j) (sigma 1 j) x) (sigma 2 j)
  let pair : (Idx n → ℝ) → (Idx n → ℝ) → Idx n → ℂ := fun t rho j =>
    (∑ d, gradFftKs g (fun i => (t i : ℂ)) j d * gradRhoKs g rho j d) + (t j : ℂ) * laplRho g rho j
  let tUp : Idx n → ℝ := fun j => whereGt (sigma 0 j) (dUU j * up j)
  let tCrossUp : Idx n → ℝ := fun j => dUD j * dn j
  let tDn : Idx n → ℝ := fun j => whereGt (sigma 2 j) (dDD j * dn j)
  let tCrossDn : Idx n → ℝ := fun j => dUD j * up j
  fun s => ifftn (fftn fun j =>
    if s = 0 then (locUp j : ℂ) - (2 * pair tUp up j + pair tCrossUp dn j)
    else (locDn j : ℂ) - (2 * pair tDn dn j + pair tCrossDn up j))

/-- `xc_density(density, g, kohn_sham=True, xc_type)` (/repo/jrystal/_src/xc.py:222-253). -/
noncomputable def vxcDensity (lib : XcLib) (xt : String) {ns : ℕ} {n : Fin 3 → ℕ}
    (g : Idx n → Fin 3 → ℝ) (rho : Fin ns → Idx n → ℝ) (s : Fin ns) (j : Idx n) : ℂ :=
  let xts := splitPlus xt
  if pyIn "gga" xt then
    if ns = 2 then
      vxcGga2 (excGga2 lib xts) g (chan rho 0) (chan rho 1) (sigma2 g (chan rho 0) (chan rho 1))
        (if (s : ℕ) = 0 then 0 else 1) j
    else vxcGga1 (excGga1 lib xts) g (chan rho 0) (sigma1 g (chan rho 0)) j
  else
    if ns = 2 then
      let v := vxcLda2 (excLda2 lib xts) (chan rho 0 j) (chan rho 1 j)
      ((if (s : ℕ) = 0 then v.1 else v.2 : ℝ) : ℂ)
    else (vxcLda1 (excLda1 lib xts) (chan rho 0 j) : ℂ)

/-- `xc_density` (/repo/jrystal/_src/xc.py:222-253) as an array with a spin axis: without `kohn_sham` the result has no spin axis and
is repeated, which is what every later broadcast does. -/
noncomputable def xcDensity (lib : XcLib) (xt : String) (ks : Bool) {ns : ℕ} {n : Fin 3 → ℕ}
    (g : Idx n → Fin 3 → ℝ) (rho : Fin ns → Idx n → ℝ) (s : Fin ns) (j : Idx n) : ℂ :=
  if ks then vxcDensity lib xt g rho s j else (excDensity lib xt g rho j : ℂ)

end Jrystal
