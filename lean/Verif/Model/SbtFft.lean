import Verif.Model.Sbt
import Mathlib.Analysis.SpecialFunctions.Gamma.Basic
import Mathlib.Analysis.SpecialFunctions.Trigonometric.Arctan
import Mathlib.Analysis.SpecialFunctions.Pow.Real

/-
Model of the class `pyNumSBT` (/repo/jrystal/sbt/pysbt.py) with its FFT-based transform, and of the
wrappers /repo/jrystal/sbt/sbt.py.  Exact real and complex arithmetic; the spherical Bessel functions are a
parameter, the Gamma function is Mathlib's.  The mesh has positive radii; input arrays have the length of
the mesh.
-/
namespace Jrystal
open scoped BigOperators ComplexConjugate

/-- The arguments of the constructor (/repo/jrystal/sbt/pysbt.py:44-52). -/
structure SbtMesh where
  nr : ℕ
  rr : Samples
  kmax : ℝ

namespace SbtMesh

/-- `drho` (/repo/jrystal/sbt/pysbt.py:74). -/
noncomputable def drho (S : SbtMesh) : ℝ := meshStep S.nr S.rr

/-- `rho_min` (/repo/jrystal/sbt/pysbt.py:71). -/
noncomputable def rhoMin (S : SbtMesh) : ℝ := Real.log (S.rr 0)

/-- `kappa_min` (/repo/jrystal/sbt/pysbt.py:72, 76-77). -/
noncomputable def kappaMin (S : SbtMesh) : ℝ :=
  Real.log S.kmax - (Real.log (S.rr (S.nr - 1)) - S.rhoMin)

/-- `kk` (/repo/jrystal/sbt/pysbt.py:80). -/
noncomputable def kk (S : SbtMesh) : Samples := fun j => Real.exp S.kappaMin * Real.exp (j * S.drho)

/-- `rr_ext` (/repo/jrystal/sbt/pysbt.py:88). -/
noncomputable def rrExt (S : SbtMesh) : Samples := fun i => S.rr 0 * Real.exp (((i : ℝ) - S.nr) * S.drho)

/-- `rr15[0]` (/repo/jrystal/sbt/pysbt.py:92). -/
noncomputable def rr15Ext (S : SbtMesh) : Samples := fun i =>
  S.rrExt i ^ (1.5 : ℝ) / S.rr 0 ^ (1.5 : ℝ)

/-- `rr15[1]` (/repo/jrystal/sbt/pysbt.py:93). -/
noncomputable def rr15 (S : SbtMesh) : Samples := fun i => S.rr i ^ (1.5 : ℝ) / S.rr 0 ^ (1.5 : ℝ)

/-- `tt = np.arange(nr) * dt` (/repo/jrystal/sbt/pysbt.py:98, 139). -/
noncomputable def tt (S : SbtMesh) (m : ℕ) : ℝ := m * (2 * Real.pi / ((2 * S.nr : ℕ) * S.drho))

/-- `post_div_fac` (/repo/jrystal/sbt/pysbt.py:103). -/
noncomputable def postDiv (S : SbtMesh) (j : ℕ) : ℝ := Real.exp (-(j : ℝ) * S.drho * 1.5)

/-- The table `M_lt1[l, m]` (/repo/jrystal/sbt/pysbt.py:149-167). -/
noncomputable def mlt1 (S : SbtMesh) : ℕ → ℕ → ℂ
  | 0, m =>
    let t := S.tt m
    let v : ℂ := (Real.sqrt (Real.pi / 2) : ℂ) *
      Complex.exp (Complex.I * (((Complex.log (Complex.Gamma (0.5 - Complex.I * t))).im
        - Real.arctan (Real.tanh (Real.pi * t / 2)) : ℝ) : ℂ)) / (S.nr : ℂ)
    (if m = 0 then v / 2 else v) * Complex.exp (Complex.I * t * ((S.kappaMin + S.rhoMin : ℝ) : ℂ))
  | 1, m =>
    let t := S.tt m
    let phi := Real.arctan (Real.tanh (Real.pi * t / 2)) - Real.arctan (2 * t)
    S.mlt1 0 m * Complex.exp (2 * Complex.I * (phi : ℂ))
  | ll + 2, m =>
    let phi := Real.arctan (2 * S.tt m / (2 * ((ll + 1 : ℕ) : ℝ) + 1))
    Complex.exp (-2 * Complex.I * (phi : ℂ)) * S.mlt1 ll m

/-- `xx` (/repo/jrystal/sbt/pysbt.py:171). -/
noncomputable def xx (S : SbtMesh) (p : ℕ) : ℝ := Real.exp (S.rhoMin + S.kappaMin + p * S.drho)

end SbtMesh

/-- `scipy.fft.rfft` of `N` real numbers, at position `m` (/repo/jrystal/sbt/pysbt.py:238, 256). -/
noncomputable def rfft (N : ℕ) (x : ℕ → ℝ) (m : ℕ) : ℂ :=
  ∑ p ∈ Finset.range N, (x p : ℂ) *
    Complex.exp (-(2 * Real.pi * Complex.I * ((m : ℂ) * (p : ℂ) / (N : ℂ))))

/-- `scipy.fft.ifft` of `N` complex numbers, at position `q` (/repo/jrystal/sbt/pysbt.py:174-176, 245). -/
noncomputable def ifft (N : ℕ) (X : ℕ → ℂ) (q : ℕ) : ℂ :=
  (∑ m ∈ Finset.range N, X m *
    Complex.exp (2 * Real.pi * Complex.I * ((m : ℂ) * (q : ℂ) / (N : ℂ)))) / (N : ℂ)

/-- `scipy.fft.irfft` of `n + 1` complex numbers, at position `q` of the `2n` results: the imaginary parts
of the first and last entries are not read (/repo/jrystal/sbt/pysbt.py:259). -/
noncomputable def irfft (n : ℕ) (X : ℕ → ℂ) (q : ℕ) : ℝ :=
  ((X 0).re + (X n).re * (-1) ^ q + 2 * ∑ m ∈ Finset.Ico 1 n, (X m *
    Complex.exp (2 * Real.pi * Complex.I * ((m : ℂ) * (q : ℂ) / ((2 * n : ℕ) : ℂ)))).re) / (2 * n : ℕ)

/-- The table `M_lt2[l, m]` (/repo/jrystal/sbt/pysbt.py:174-176). -/
noncomputable def SbtMesh.mlt2 (S : SbtMesh) (jn : SphBessel) (l m : ℕ) : ℂ :=
  conj (ifft (2 * S.nr) (fun p => (jn l (S.xx p) : ℂ)) m)

/-- `np.argmin` of positions `0..n` (/repo/jrystal/sbt/pysbt.py:265). -/
noncomputable def argminUpTo (x : ℕ → ℝ) : ℕ → ℕ
  | 0 => 0
  | n + 1 => if x (n + 1) < x (argminUpTo x n) then n + 1 else argminUpTo x n

/-- `sqrt_2_over_pi` (/repo/jrystal/sbt/pysbt.py:217, 318). -/
noncomputable def sbtPrefactor (norm : Bool) : ℝ := if norm then Real.sqrt (2 / Real.pi) else 1

/-- The direction argument: `1` and `-1` are accepted (/repo/jrystal/sbt/pysbt.py:219-228). -/
inductive SbtDir
  | forward
  | inverse
  deriving DecidableEq

/-- The test of the direction (/repo/jrystal/sbt/pysbt.py:219-228). -/
def sbtDir (direction : ℤ) : Except PyErr SbtDir :=
  if direction = 1 then .ok .forward else if direction = -1 then .ok .inverse else .error .valueError

/-- `r2c_in` for large `k` (/repo/jrystal/sbt/pysbt.py:219-235). -/
noncomputable def sbtLargeIn (S : SbtMesh) (d : SbtDir) (npl : ℤ) (ff : Samples) (p : ℕ) : ℝ :=
  let C := match d with
    | .forward => ff 0 / S.rr 0 ^ npl
    | .inverse => ff 0 / S.kk 0 ^ npl
  if p < S.nr then C * S.rrExt p ^ npl * S.rr15Ext p else ff (p - S.nr) * S.rr15 (p - S.nr)

/-- `gg` for large `k` with row `row` of the table (/repo/jrystal/sbt/pysbt.py:238-247). -/
noncomputable def sbtLarge (S : SbtMesh) (d : SbtDir) (norm : Bool) (npl : ℤ) (row : ℕ) (ff : Samples)
    (j : ℕ) : ℝ :=
  let out := rfft (2 * S.nr) (sbtLargeIn S d npl ff)
  let tmp1 := fun m => if m < S.nr then conj (out m) * S.mlt1 row m else 0
  let tmp2 := fun q => ifft (2 * S.nr) tmp1 q * ((2 * S.nr : ℕ) : ℂ)
  let ratio := match d with
    | .forward => S.rr 0 / S.kk 0
    | .inverse => S.kk 0 / S.rr 0
  ratio ^ (1.5 : ℝ) * (tmp2 (S.nr + j)).re * S.postDiv j * sbtPrefactor norm

/-- `c2r_out` (/repo/jrystal/sbt/pysbt.py:251-260). -/
noncomputable def sbtSmall (S : SbtMesh) (jn : SphBessel) (d : SbtDir) (norm : Bool) (row : ℕ) (ff : Samples)
    (j : ℕ) : ℝ :=
  let inp : Samples := fun p => if p < S.nr then
    (match d with
      | .forward => S.rr p ^ 3
      | .inverse => S.kk p ^ 3) * ff p else 0
  let out := rfft (2 * S.nr) inp
  irfft S.nr (fun m => conj (out m) * S.mlt2 jn row m * (sbtPrefactor norm : ℂ)) j
    * ((2 * S.nr : ℕ) : ℝ) * S.drho

/-- The values returned without the point zero (/repo/jrystal/sbt/pysbt.py:264-266). -/
noncomputable def sbtJoin (S : SbtMesh) (large small : Samples) (j : ℕ) : ℝ :=
  if j ≤ argminUpTo (fun i => |large i - small i|) (S.nr - 1) then small j else large j

/-- `gg0` (/repo/jrystal/sbt/pysbt.py:269-277, 325-328, 334-337). -/
noncomputable def sbtZero (S : SbtMesh) (jn : SphBessel) (d : SbtDir) (norm : Bool) (l : ℤ) (ff : Samples) : ℝ :=
  sbtPrefactor norm * jn l 0 * match d with
    | .forward => ∑ i ∈ Finset.range S.nr, simpsonWeights S.drho S.nr S.rr i * S.rr i ^ 2 * ff i
    | .inverse => ∑ i ∈ Finset.range S.nr, simpsonWeights S.drho S.nr S.kk i * S.kk i ^ 2 * ff i

/-- What `run` and `run_int` return: the mesh if asked for, and the values
(/repo/jrystal/sbt/pysbt.py:279-289, 341-351). -/
noncomputable def sbtReturn (S : SbtMesh) (d : SbtDir) (returnRr includeZero : Bool) (gg0 : ℝ) (gg : Samples) :
    Option (List ℝ) × List ℝ :=
  let mesh := (List.range S.nr).map (match d with
    | .forward => S.kk
    | .inverse => S.rr)
  let vals := (List.range S.nr).map gg
  (if returnRr then some (if includeZero then 0 :: mesh else mesh) else none,
   if includeZero then gg0 :: vals else vals)

/-- The constructor (/repo/jrystal/sbt/pysbt.py:44-52, 133-142, 149, 162): a table with no row 1 raises at the
assignment of line 162, one with no row at all at line 149, a negative number of rows at line 142. -/
def sbtTable (lmax : ℤ) : Except PyErr ℕ :=
  if lmax < -1 then .error .valueError else if lmax < 1 then .error .indexError else .ok lmax.toNat

/-- Python indexing of the tables, which have `lmax + 1` rows (/repo/jrystal/sbt/pysbt.py:242, 258). -/
def sbtRow (lmax : ℕ) (l : ℤ) : Except PyErr ℕ :=
  if 0 ≤ l then .ok l.toNat
  else if -((lmax : ℤ) + 1) ≤ l then .ok (l + (lmax + 1)).toNat else .error .indexError

/-- `run` (/repo/jrystal/sbt/pysbt.py:178-289) of an object built with `lmax`. -/
noncomputable def sbtRun (S : SbtMesh) (jn : SphBessel) (lmax : ℕ) (ff : Samples) (l direction : ℤ) (norm : Bool)
    (npIn : ℤ) (returnRr includeZero : Bool) : Except PyErr (Option (List ℝ) × List ℝ) := do
  if (lmax : ℤ) < l then .error .assertionError
  else
    let d ← sbtDir direction
    let row ← sbtRow lmax l
    .ok (sbtReturn S d returnRr includeZero (sbtZero S jn d norm l ff)
      (sbtJoin S (sbtLarge S d norm (npIn + l) row ff) (sbtSmall S jn d norm row ff)))

/-- `run_int` (/repo/jrystal/sbt/pysbt.py:291-351). -/
noncomputable def sbtRunInt (S : SbtMesh) (jn : SphBessel) (ff : Samples) (l direction : ℤ) (norm : Bool)
    (returnRr includeZero : Bool) : Except PyErr (Option (List ℝ) × List ℝ) := do
  let d ← sbtDir direction
  .ok (sbtReturn S d returnRr includeZero (sbtZero S jn d norm l ff) fun j =>
    sbtPrefactor norm * match d with
    | .forward => ∑ i ∈ Finset.range S.nr,
        jn l (S.rr i * S.kk j) * (S.rr i ^ 2 * ff i * simpsonWeights S.drho S.nr S.rr i)
    | .inverse => ∑ i ∈ Finset.range S.nr,
        jn l (S.rr j * S.kk i) * (S.kk i ^ 2 * ff i * simpsonWeights S.drho S.nr S.kk i))

/-- `sbt` (/repo/jrystal/sbt/sbt.py:24-64): `lmax` has its default 10. -/
noncomputable def sbtFast (jn : SphBessel) (nr : ℕ) (rr ff : Samples) (l : ℤ) (kmax : ℝ) (norm : Bool) :
    Except PyErr (List ℝ × List ℝ) := do
  let S : SbtMesh := ⟨nr, rr, kmax⟩
  let lmax ← sbtTable 10
  let out ← sbtRun S jn lmax ff l 1 norm 0 false false
  .ok ((List.range nr).map S.kk, out.2)

/-- The degree argument of `batch_sbt` (/repo/jrystal/sbt/sbt.py:92-101): a sequence or one integer; anything
else raises. -/
inductive Degrees
  | many (ls : List ℤ)
  | one (l : ℤ)
  | other

/-- The loop of `batch_sbt` over pairs (/repo/jrystal/sbt/sbt.py:93-99); the first component is the mesh of
the last pass, if any. -/
noncomputable def batchLoop (jn : SphBessel) (nr : ℕ) (rr : Samples) (kmax : ℝ) (norm : Bool) :
    List (Samples × ℤ) → Except PyErr (Option (List ℝ) × List (List ℝ))
  | [] => .ok (none, [])
  | (f, l) :: rest => do
    let (k, g) ← sbtFast jn nr rr f l kmax norm
    let (k', out) ← batchLoop jn nr rr kmax norm rest
    .ok (some (k'.getD k), g :: out)

/-- `batch_sbt` (/repo/jrystal/sbt/sbt.py:67-102): `zip` stops at the shorter list; with no pair the name
`k` is unbound. -/
noncomputable def batchSbt (jn : SphBessel) (nr : ℕ) (rr : Samples) (rows : List Samples) (l : Degrees)
    (kmax : ℝ) (norm : Bool) : Except PyErr (List ℝ × List (List ℝ)) := do
  let pairs ← (match l with
    | .many ls => .ok (rows.zip ls)
    | .one l => .ok (rows.map fun f => (f, l))
    | .other => .error .valueError : Except PyErr (List (Samples × ℤ)))
  match ← batchLoop jn nr rr kmax norm pairs with
  | (some k, out) => .ok (k, out)
  | (none, _) => .error .unboundLocal

end Jrystal
