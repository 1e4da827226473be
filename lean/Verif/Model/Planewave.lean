import Verif.Model.Fft
import Verif.Model.Occupation
import Mathlib.Analysis.Real.Sqrt

/-
Model of /repo/jrystal/_src/pw.py, /repo/jrystal/_src/unitary_module.py and the array helpers of
/repo/jrystal/_src/utils.py.

Arrays of shape `spin kpt band x y z` are functions of their indices with exact complex entries.
Shape errors are modelled separately (Model/Shape.lean); here every array has the shape its type
says, which is the shape the functions document.
-/
namespace Jrystal
open scoped BigOperators ComplexConjugate

/-- Coefficients or wave functions, shape `spin kpt band x y z` (/repo/jrystal/_src/pw.py:94-137). -/
abbrev Coef (ns nk nb : ℕ) (n : Fin 3 → ℕ) := Fin ns → Fin nk → Fin nb → Idx n → ℂ

/-- Occupation numbers, shape `spin kpt band` (/repo/jrystal/_src/pw.py:270-284). -/
abbrev Occ (ns nk nb : ℕ) := Fin ns → Fin nk → Fin nb → ℝ

/-- Grid index `(a, b, c)` (/repo/jrystal/_src/utils.py:279-281). -/
def mkIdx {n : Fin 3 → ℕ} (a : Fin (n 0)) (b : Fin (n 1)) (c : Fin (n 2)) : Idx n
  | 0 => a
  | 1 => b
  | 2 => c

/-- All grid indices in the order numpy stores them (last axis fastest)
(/repo/jrystal/_src/utils.py:279-281). -/
def idxList (n : Fin 3 → ℕ) : List (Idx n) :=
  (List.finRange (n 0)).flatMap fun a =>
    (List.finRange (n 1)).flatMap fun b => (List.finRange (n 2)).map fun c => mkIdx a b c

/-- The positions selected by indexing with a boolean mask, in numpy's order (`nonzero`)
(/repo/jrystal/_src/utils.py:279-281). -/
def maskList {n : Fin 3 → ℕ} (mask : Idx n → Bool) : List (Idx n) := (idxList n).filter mask

/-- Number of selected positions: the size of axis `gpt` of a compact coefficient array
(/repo/jrystal/_src/pw.py:88-91). -/
def maskCount {n : Fin 3 → ℕ} (mask : Idx n → Bool) : ℕ := (maskList mask).length

/-- The `g`-th selected position (/repo/jrystal/_src/utils.py:279-281). -/
def maskPos {n : Fin 3 → ℕ} (mask : Idx n → Bool) (g : Fin (maskCount mask)) : Idx n :=
  (maskList mask).get g

/-- One row of `zeros(shape).at[..., mask].set(values)` (/repo/jrystal/_src/utils.py:279-281): the
values are written one after the other at the selected positions. -/
def scatterMask {n : Fin 3 → ℕ} (mask : Idx n → Bool) (v : Fin (maskCount mask) → ℂ) : Idx n → ℂ :=
  (List.finRange (maskCount mask)).foldl
    (fun ret g => Function.update ret (maskPos mask g) (v g)) (fun _ => 0)

/-- `expand_coefficient` (/repo/jrystal/_src/utils.py:257-281); the compact array has shape
`spin kpt gpt band`, the swap of the last two axes is the exchange of the last two arguments. -/
def expandCoefficient {ns nk nb : ℕ} {n : Fin 3 → ℕ} (mask : Idx n → Bool)
    (c : Fin ns → Fin nk → Fin (maskCount mask) → Fin nb → ℂ) : Coef ns nk nb n :=
  fun s k b => scatterMask mask fun g => c s k g b

/-- The gather `coeff[..., mask]` followed by the swap of the last two axes: what
`squeeze_coefficient` (/repo/jrystal/_src/utils.py:307-308) computes apart from its call of `.get()`
on the indexed array. -/
def gatherMask {ns nk nb : ℕ} {n : Fin 3 → ℕ} (mask : Idx n → Bool) (c : Coef ns nk nb n) :
    Fin ns → Fin nk → Fin (maskCount mask) → Fin nb → ℂ :=
  fun s k g b => c s k b (maskPos mask g)

/-- `squeeze_coefficient` (/repo/jrystal/_src/utils.py:284-308): `coeff[..., mask]` is an array, and
arrays have no method `get` (only the `.at[...]` proxy has), so the call raises `AttributeError`. -/
def squeezeCoefficient {ns nk nb : ℕ} {n : Fin 3 → ℕ} (mask : Idx n → Bool) (_c : Coef ns nk nb n) :
    Except PyErr (Fin ns → Fin nk → Fin (maskCount mask) → Fin nb → ℂ) :=
  .error .attributeError

/-- Shape of the two parameter arrays made by `param_init` (/repo/jrystal/_src/pw.py:88-91);
`np.sum(freq_mask)` counts the selected positions. -/
def paramShape {n : Fin 3 → ℕ} (nb nk : ℕ) (mask : Idx n → Bool) (restricted : Bool) : List ℕ :=
  [if restricted then 1 else 2, nk, ((idxList n).map fun k => if mask k then 1 else 0).sum, nb]

/-- Parameters of the plane-wave coefficients: `w_re`, `w_im` of shape `spin kpt gpt band`
(/repo/jrystal/_src/pw.py:88-91). -/
structure PwParams (ns nk g nb : ℕ) where
  re : Fin ns → Fin nk → Matrix (Fin g) (Fin nb) ℝ
  im : Fin ns → Fin nk → Matrix (Fin g) (Fin nb) ℝ

/-- `unitary_matrix(params, complex=True)` (/repo/jrystal/_src/unitary_module.py:66-81):
the reduced QR factor of `w_re + 1j * w_im` for every spin and k point. -/
def unitaryMatrix (qr : QR ℂ) {ns nk g nb : ℕ} (p : PwParams ns nk g nb) :
    Fin ns → Fin nk → Fin g → Fin (min g nb) → ℂ :=
  fun s k => qr.q (Matrix.of fun a b => (p.re s k a b : ℂ) + Complex.I * (p.im s k a b : ℂ))

/-- `pw.coeff` (/repo/jrystal/_src/pw.py:94-137). -/
def pwCoeff (qr : QR ℂ) {ns nk nb : ℕ} {n : Fin 3 → ℕ} (mask : Idx n → Bool)
    (p : PwParams ns nk (maskCount mask) nb) : Coef ns nk (min (maskCount mask) nb) n :=
  expandCoefficient mask (unitaryMatrix qr p)

/-- `pw.wave_grid` (/repo/jrystal/_src/pw.py:140-211). -/
noncomputable def waveGrid {ns nk nb : ℕ} {n : Fin 3 → ℕ} (c : Coef ns nk nb n) (vol : ℝ) :
    Coef ns nk nb n :=
  fun s k b j => ifftn (c s k b) j * (((gridCount n : ℝ) / Real.sqrt vol : ℝ) : ℂ)

/-- `absolute_square` (/repo/jrystal/_src/utils.py:108-130). -/
def absoluteSquare (z : ℂ) : ℝ := (conj z * z).re

/-- `volume` (/repo/jrystal/_src/utils.py:133-158). -/
def volume (A : Matrix (Fin 3) (Fin 3) ℝ) : ℝ := |A.det|

/-- `pw.density_grid` without occupation (/repo/jrystal/_src/pw.py:273-274). -/
noncomputable def densityGridBands {ns nk nb : ℕ} {n : Fin 3 → ℕ} (c : Coef ns nk nb n) (vol : ℝ) :
    Fin ns → Fin nk → Fin nb → Idx n → ℝ :=
  fun s k b j => absoluteSquare (waveGrid c vol s k b j)

/-- `pw.density_grid` with occupation (/repo/jrystal/_src/pw.py:276-284): einsum
`skb...,skb->s...`. -/
noncomputable def densityGrid {ns nk nb : ℕ} {n : Fin 3 → ℕ} (c : Coef ns nk nb n) (vol : ℝ)
    (occ : Occ ns nk nb) : Fin ns → Idx n → ℝ :=
  fun s j => ∑ k, ∑ b, densityGridBands c vol s k b j * occ s k b

/-- `pw.density_grid_reciprocal` with occupation (/repo/jrystal/_src/pw.py:287-334). -/
noncomputable def densityGridReciprocal {ns nk nb : ℕ} {n : Fin 3 → ℕ} (c : Coef ns nk nb n)
    (vol : ℝ) (occ : Occ ns nk nb) : Fin ns → Idx n → ℂ :=
  fun s => fftn fun j => (densityGrid c vol occ s j : ℂ)

/-- `wave_to_density` with occupation (/repo/jrystal/_src/utils.py:186-197): product with the
occupation broadcast over the grid, summed over axes 1 and 2. -/
noncomputable def waveToDensity {ns nk nb : ℕ} {n : Fin 3 → ℕ} (w : Coef ns nk nb n)
    (occ : Occ ns nk nb) : Fin ns → Idx n → ℝ :=
  fun s j => ∑ p : Fin nk × Fin nb, absoluteSquare (w s p.1 p.2 j) * occ s p.1 p.2

/-- `wave_to_density_reciprocal` with occupation (/repo/jrystal/_src/utils.py:200-224). -/
noncomputable def waveToDensityReciprocal {ns nk nb : ℕ} {n : Fin 3 → ℕ} (w : Coef ns nk nb n)
    (occ : Occ ns nk nb) : Fin ns → Idx n → ℂ :=
  fun s => fftn fun j => (waveToDensity w occ s j : ℂ)

end Jrystal
