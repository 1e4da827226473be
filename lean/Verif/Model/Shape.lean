import Verif.Model.Braket

/-
Shapes and exceptions of the array functions of /repo/jrystal/_src.

Every function below follows one function of the library and computes, from the shapes of its array
arguments, the shape of the result or the exception.  The numpy/JAX rules used are: broadcasting,
`einsum` subscripts, `expand_dims`, sums over axes, `matmul`, reshape with one `-1`, index and
assertion checks.  Data, data types and empty axes are not looked at here.
-/
namespace Jrystal

/-- The result of a shape computation (/repo/jrystal/_src/pw.py:208-211). -/
abbrev Sh := Except PyErr (List ℕ)

/-- numpy broadcasting of two shapes listed from the last axis
(used by every arithmetic operator in /repo/jrystal/_src). -/
def bcastRev : List ℕ → List ℕ → Sh
  | [], ys => .ok ys
  | xs, [] => .ok xs
  | x :: xs, y :: ys =>
    match bcLen x y with
    | .error e => .error e
    | .ok d =>
      match bcastRev xs ys with
      | .error e => .error e
      | .ok ds => .ok (d :: ds)

/-- numpy broadcasting of two shapes (used by every arithmetic operator in /repo/jrystal/_src). -/
def bcast (xs ys : List ℕ) : Sh :=
  match bcastRev xs.reverse ys.reverse with
  | .error e => .error e
  | .ok ds => .ok ds.reverse

/-- An einsum label: a letter, or a position inside `...` (/repo/jrystal/_src/pw.py:379). -/
inductive Lbl
  | c (ch : Char)
  | e (i : ℕ)
  deriving DecidableEq

/-- The labels of an einsum operand without ellipsis (e.g. `'lxyz'`, /repo/jrystal/_src/pw.py:379). -/
def lbls (s : List Char) : List Lbl := s.map Lbl.c

/-- Common size of a label over all operands, with broadcasting of size one (/repo/jrystal/_src/pw.py:379). -/
def labelDim (l : Lbl) : List (Lbl × ℕ) → Except PyErr (Option ℕ)
  | [] => .ok none
  | (l', d) :: rest =>
    match labelDim l rest with
    | .error e => .error e
    | .ok r =>
      if l' = l then
        match r with
        | none => .ok (some d)
        | some d' =>
          match bcLen d d' with
          | .error e => .error e
          | .ok m => .ok (some m)
      else .ok r

/-- Sizes of a list of labels; a label that occurs in no operand is a `ValueError`
(/repo/jrystal/_src/pw.py:379). -/
def outDims : List Lbl → List (Lbl × ℕ) → Sh
  | [], _ => .ok []
  | l :: ls, pairs =>
    match labelDim l pairs with
    | .error e => .error e
    | .ok none => .error .valueError
    | .ok (some d) =>
      match outDims ls pairs with
      | .error e => .error e
      | .ok ds => .ok (d :: ds)

/-- `jnp.einsum` (and `einops.einsum`, which translates to it): each operand must have as many axes as
labels, every label one size, and every output label must occur in an operand
(/repo/jrystal/_src/pw.py:379). -/
def einsumSh (ops : List (List Lbl × List ℕ)) (out : List Lbl) : Sh :=
  if ops.all fun o => o.1.length == o.2.length then
    let pairs := ops.flatMap fun o => o.1.zip o.2
    match outDims (ops.flatMap fun o => o.1) pairs with
    | .error e => .error e
    | .ok _ => outDims out pairs
  else .error .valueError

/-- `jnp.expand_dims(x, axes)` for non-negative `axes` given in the numbering of the result
(/repo/jrystal/_src/energy.py:172-173). -/
def expandGo (axes : List ℕ) : ℕ → ℕ → List ℕ → List ℕ
  | 0, _, s => s
  | m + 1, i, s =>
    if i ∈ axes then 1 :: expandGo axes m (i + 1) s
    else match s with
      | [] => []
      | d :: ds => d :: expandGo axes m (i + 1) ds

/-- `jnp.expand_dims` (e.g. /repo/jrystal/_src/energy.py:172-173). -/
def expandDims (axes s : List ℕ) : List ℕ := expandGo axes (s.length + axes.length) 0 s

/-- `x.shape[-1]` (/repo/jrystal/_src/potential.py:58). -/
def lastDim (s : List ℕ) : Except PyErr ℕ :=
  match s.getLast? with
  | none => .error .indexError
  | some d => .ok d

/-- `jnp.sum(x, axis=0)` (/repo/jrystal/_src/potential.py:58-77). -/
def sumFirst : List ℕ → Sh
  | [] => .error .valueError
  | _ :: s => .ok s

/-- `jnp.sum(x, axis=-1)` (/repo/jrystal/_src/kinetic.py:43-45). -/
def sumLast (s : List ℕ) : Sh := if s = [] then .error .valueError else .ok s.dropLast

/-- `jnp.sum(x, axis=range(i, j))`: all axes must exist (/repo/jrystal/_src/utils.py:185-197). -/
def sumRange (i j : ℕ) (s : List ℕ) : Sh :=
  if j ≤ s.length then .ok (s.take i ++ s.drop j) else .error .valueError

/-- `jnp.sum(x, axis=2)` and other single axes (/repo/jrystal/_src/xc.py:95-106). -/
def sumAxis (i : ℕ) (s : List ℕ) : Sh := sumRange i (i + 1) s

/-- Transforms over the last `dim` axes (/repo/jrystal/_src/pw.py:208-211). -/
def fftSh (dim : ℕ) (s : List ℕ) : Sh := if dim ≤ s.length then .ok s else .error .valueError

/-- `jnp.matmul(a, b)` with a vector or a matrix `b` and `a` of any rank at least one
(/repo/jrystal/_src/pw.py:368-381). -/
def matmulSh (a b : List ℕ) : Sh :=
  match a.getLast?, b with
  | some m, [k] => if m = k then .ok a.dropLast else .error .typeError
  | some m, [k, l] => if m = k then .ok (a.dropLast ++ [l]) else .error .typeError
  | _, _ => .error .typeError

/-- `x.reshape(pre + (-1,))` (/repo/jrystal/_src/xc.py:40-64). -/
def reshapeTail (pre s : List ℕ) : Sh :=
  if pre.prod ∣ s.prod ∧ pre.prod ≠ 0 then .ok (pre ++ [s.prod / pre.prod]) else .error .typeError

/-- `x.reshape(target)` without `-1` (/repo/jrystal/_src/pw.py:368-381). -/
def reshapeSh (target s : List ℕ) : Sh := if target.prod = s.prod then .ok target else .error .typeError

/-- `x[0]` (/repo/jrystal/_src/xc.py:57-63). -/
def indexFirst : List ℕ → Sh
  | [] => .error .indexError
  | _ :: s => .ok s

/-! ### Calls -/

/-- A parameter of a Python function: its name and whether it has a default
(/repo/jrystal/_src/hamiltonian.py:243-306). -/
structure Param where
  name : String
  hasDefault : Bool

/-- Binding of a Python call with `npos` positional arguments and the given keywords: too many
positionals, an unknown keyword, a keyword for a parameter already given, or a missing argument raise
`TypeError` (/repo/jrystal/_src/hamiltonian.py:243-306). -/
def bindCall (params : List Param) (npos : ℕ) (kws : List String) : Except PyErr Unit :=
  if params.length < npos then .error .typeError
  else if kws.any fun k => !((params.drop npos).any fun p => p.name == k) then .error .typeError
  else if (params.drop npos).any fun p => !p.hasDefault && !kws.contains p.name then .error .typeError
  else .ok ()

/-- What an expression evaluates to, as far as the method `get` is concerned
(/repo/jrystal/_src/utils.py:279-281, 307). -/
inductive ArrVal
  | array (s : List ℕ)
  | atRef (s : List ℕ)

/-- `x[..., mask]` for a mask over the last three axes selecting `m` positions: an array
(/repo/jrystal/_src/utils.py:307). -/
def ArrVal.indexMask (m : ℕ) : ArrVal → Except PyErr ArrVal
  | .array s => if 3 ≤ s.length then .ok (.array (s.take (s.length - 3) ++ [m])) else .error .indexError
  | .atRef s => if 3 ≤ s.length then .ok (.atRef (s.take (s.length - 3) ++ [m])) else .error .indexError

/-- `x.at` (/repo/jrystal/_src/utils.py:279-281). -/
def ArrVal.at : ArrVal → Except PyErr ArrVal
  | .array s => .ok (.atRef s)
  | .atRef _ => .error .attributeError

/-- `x.get()`: arrays have no such attribute, indexed update references have
(/repo/jrystal/_src/utils.py:307). -/
def ArrVal.get : ArrVal → Except PyErr ArrVal
  | .array _ => .error .attributeError
  | .atRef s => .ok (.array s)

/-- `jnp.swapaxes(x, -1, -2)` (/repo/jrystal/_src/utils.py:281, 308). -/
def swapLast (s : List ℕ) : Sh :=
  match s.reverse with
  | a :: b :: r => .ok (b :: a :: r).reverse
  | _ => .error .valueError

/-- `squeeze_coefficient` (/repo/jrystal/_src/utils.py:284-308) for a mask selecting `m` grid positions;
`viaAt` adds the missing `.at`. -/
def squeezeSh (viaAt : Bool) (coeff : List ℕ) (m : ℕ) : Sh :=
  let x : Except PyErr ArrVal := if viaAt then ArrVal.at (.array coeff) else .ok (.array coeff)
  match x with
  | .error e => .error e
  | .ok x =>
    match x.indexMask m with
    | .error e => .error e
    | .ok y =>
      match y.get with
      | .error e => .error e
      | .ok (.array s) => swapLast s
      | .ok (.atRef _) => .error .typeError

/-- `expand_coefficient` (/repo/jrystal/_src/utils.py:257-281) for a mask of shape `mask` selecting `m`
positions: the compact array must broadcast to the selected positions. -/
def expandSh (compact mask : List ℕ) (m : ℕ) : Sh := do
  let c ← swapLast compact
  let target := c.dropLast ++ [m]
  let b ← bcast c target
  if b = target then .ok (c.dropLast ++ mask) else .error .valueError

/-! ### pw.py -/

/-- `wave_grid` (/repo/jrystal/_src/pw.py:208-211). -/
def waveGridSh (coeff : List ℕ) : Sh := fftSh 3 coeff

/-- `density_grid` (/repo/jrystal/_src/pw.py:270-284). -/
def densityGridSh (coeff : List ℕ) (occ : Option (List ℕ)) : Sh := do
  let dens ← waveGridSh coeff
  match occ with
  | none => .ok dens
  | some o =>
    if dens.length < 3 then .error .valueError
    else
      let ell := (List.range (dens.length - 3)).map Lbl.e
      einsumSh [(lbls ['s', 'k', 'b'] ++ ell, dens), (lbls ['s', 'k', 'b'], o)] (lbls ['s'] ++ ell)

/-- `density_grid_reciprocal` (/repo/jrystal/_src/pw.py:333-334). -/
def densityReciprocalSh (coeff : List ℕ) (occ : Option (List ℕ)) : Sh := do
  let d ← densityGridSh coeff occ
  fftSh 3 d

/-- `x, y, z = coeff.shape[-3:]` (/repo/jrystal/_src/pw.py:369). -/
def lastThree (s : List ℕ) : Except PyErr (ℕ × ℕ × ℕ) :=
  match s.drop (s.length - 3) with
  | [x, y, z] => .ok (x, y, z)
  | _ => .error .valueError

/-- `wave_r` (/repo/jrystal/_src/pw.py:368-381); `out` is the output part of the subscripts on line 379
(`'skb'` in the code), a parameter so that the effect of this one string can be stated. -/
def waveRSh (out : List Char) (r coeff : List ℕ) (g : Option (List ℕ)) : Sh := do
  let (x, y, z) ← lastThree coeff
  let g := g.getD [x, y, z, 3]
  if r ≠ [3] then .error .valueError
  else
    let lead := coeff.take (coeff.length - 3)
    let c ← (if (x * y * z) ∣ coeff.prod ∧ x * y * z ≠ 0
      then (.ok [coeff.prod / (x * y * z), x, y, z] : Sh) else .error .typeError)
    let e ← matmulSh g r
    let o ← einsumSh [(lbls ['l', 'x', 'y', 'z'], c), (lbls ['x', 'y', 'z'], e)] (lbls out)
    reshapeSh lead o

/-- `density_r` (/repo/jrystal/_src/pw.py:412-415). -/
def densityRSh (out : List Char) (r coeff : List ℕ) (g occ : Option (List ℕ)) : Sh := do
  let d ← waveRSh out r coeff g
  match occ with
  | none => .ok d
  | some o => do
    let _ ← bcast d o
    .ok []

/-- `nabla_density_r` (/repo/jrystal/_src/pw.py:444-447): `jax.grad` needs a scalar function. -/
def nablaDensityRSh (out : List Char) (r coeff : List ℕ) (g occ : Option (List ℕ)) : Sh := do
  let d ← densityRSh out r coeff g occ
  if d = [] then .ok r else .error .typeError

/-- `nabla_density_grid` (/repo/jrystal/_src/pw.py:475-511). -/
def nablaDensityGridSh (r coeff : List ℕ) (g occ : Option (List ℕ)) : Sh := do
  let (x, y, z) ← lastThree coeff
  if r.prod ≠ 3 then .error .valueError
  else
    let g := g.getD [x, y, z, 3]
    let gr ← matmulSh g [3]
    let rc ← einsumSh [(lbls ['s', 'k', 'b', 'x', 'y', 'z'], coeff), (lbls ['x', 'y', 'z'], gr)]
      (lbls ['s', 'k', 'b', 'x', 'y', 'z'])
    let o1 ← sumRange (rc.length - 3) rc.length rc
    let o2 ← einsumSh [(lbls ['s', 'k', 'b', 'x', 'y', 'z'], rc), (lbls ['x', 'y', 'z', 'd'], g)]
      (lbls ['s', 'k', 'b', 'd'])
    let out ← bcast (o1 ++ [1]) o2
    match occ with
    | none => .ok out
    | some o => do
      let p ← bcast out (o ++ [1])
      sumRange 0 3 p

/-! ### utils.py -/

/-- `wave_to_density` (/repo/jrystal/_src/utils.py:185-197): the bare `except` turns every failure
into `ValueError`. -/
def waveToDensitySh (wave : List ℕ) (occ : Option (List ℕ)) : Sh :=
  match occ with
  | none => .ok wave
  | some o =>
    match bcast wave (o ++ [1, 1, 1]) with
    | .error _ => .error .valueError
    | .ok p => sumRange 1 3 p

/-! ### kinetic.py, potential.py, xc.py -/

/-- `kinetic_operator` (/repo/jrystal/_src/kinetic.py:43-45): `rearrange` needs exactly two axes. -/
def kineticOperatorSh (g : List ℕ) (kpts : Option (List ℕ)) : Sh := do
  match kpts.getD [1, 3] with
  | [k, d] => do
    let s ← bcast g [k, 1, 1, 1, d]
    sumLast s
  | _ => .error .valueError

/-- `hartree_reciprocal` (/repo/jrystal/_src/potential.py:58-77). -/
def hartreeReciprocalSh (rho g : List ℕ) : Sh := do
  let dim ← lastDim g
  if rho.length ≠ dim + 1 then .error .assertionError
  else
    let r ← sumFirst rho
    let gsq ← sumLast g
    if gsq.length < dim then .error .indexError
    else bcast r gsq

/-- `potential.hartree` (/repo/jrystal/_src/potential.py:111-118). -/
def hartreePotentialSh (rho g : List ℕ) : Sh :=
  if rho.length ≠ 4 then .error .assertionError
  else do
    let r ← sumFirst rho
    let v ← hartreeReciprocalSh r g
    fftSh 3 v

/-- `external_reciprocal` (/repo/jrystal/_src/potential.py:153-166). -/
def externalReciprocalSh (pos charge g : List ℕ) : Sh := do
  let si ← matmulSh g pos.reverse
  let gsq ← sumLast g
  let vi ← bcast (expandDims [0, 1, 2] charge) (gsq ++ [1])
  let o ← bcast vi si
  sumLast o

/-- `potential.external` (/repo/jrystal/_src/potential.py:199-200). -/
def externalPotentialSh (pos charge g : List ℕ) : Sh := do
  let v ← externalReciprocalSh pos charge g
  fftSh 3 v

/-- `_lda` (/repo/jrystal/_src/xc.py:40-64): flattened to `2 × N` or `1 × N`, one value per column, put
back on the grid `shape[1:]`. -/
def ldaSh (rho : List ℕ) : Sh := do
  let rows := if rho.head? = some 2 then 2 else 1
  let flat ← reshapeTail [rows] rho
  reshapeSh rho.tail flat.tail

/-- `vxc_lda` (/repo/jrystal/_src/xc.py:109-124): the derivative of `exc` has the flattened shape. -/
def vxcLdaSh (rho : List ℕ) : Sh :=
  match rho with
  | [] => .error .indexError
  | s :: grid => do
    let flat ← reshapeTail [s] rho
    let d ← reshapeSh ((if s = 2 then 2 else 1) :: grid) (if s = 2 then flat else flat.tail)
    let t1 ← bcast d rho
    let t2 ← ldaSh rho
    bcast t1 t2

/-- `sigma_r_fn` (/repo/jrystal/_src/xc.py:88-106); unpacking two rows needs exactly two of them. -/
def sigmaSh (rho g : List ℕ) : Sh := do
  let r ← fftSh 3 rho
  let p ← bcast (r ++ [1]) g
  let p ← fftSh 4 p
  if rho.head? = some 2 then
    match p with
    | 2 :: rest => do
      let s ← sumLast rest
      .ok (3 :: s)
    | _ => .error .valueError
  else sumLast p

/-- `_gga` (/repo/jrystal/_src/xc.py:67-85). -/
def ggaSh (rho sigma : List ℕ) : Sh := do
  let pol := rho.head? = some 2
  let flat ← reshapeTail [if pol then 2 else 1] rho
  let sflat ← reshapeTail [if pol then 3 else 1] sigma
  if flat.tail = sflat.tail then reshapeSh rho.tail flat.tail else .error .valueError

/-- `xc_density` without `kohn_sham` (/repo/jrystal/_src/xc.py:222-253); `gga` says whether the name
contains `gga`. -/
def excDensitySh (gga : Bool) (rho g : List ℕ) : Sh :=
  if gga then do
    let s ← sigmaSh rho g
    ggaSh rho s
  else ldaSh rho

/-- `xc_density` (/repo/jrystal/_src/xc.py:222-253) for LDA functionals. -/
def xcLdaSh (ks : Bool) (rho : List ℕ) : Sh := if ks then vxcLdaSh rho else ldaSh rho

/-- `potential.effective(..., split=False)` (/repo/jrystal/_src/potential.py:255-279) for LDA. -/
def effectiveSh (ks : Bool) (dens pos charge g : List ℕ) : Sh := do
  let dim ← lastDim pos
  if dens.length ≠ dim ∧ dens.length ≠ dim + 1 then .error .assertionError
  else
    let dens := if dens.length = dim then 1 :: dens else dens
    let rcp ← fftSh dim dens
    let h ← hartreeReciprocalSh rcp g
    let x ← externalReciprocalSh pos charge g
    let v ← xcLdaSh ks dens
    let h ← fftSh dim h
    let x ← fftSh dim x
    let s ← bcast (1 :: h) (1 :: x)
    bcast s v

/-! ### braket.py, energy.py -/

/-- `reciprocal_braket` (/repo/jrystal/_src/braket.py:58-72). -/
def reciprocalBraketSh (bra ket : List ℕ) : Sh :=
  if bra.drop (bra.length - 3) ≠ ket.drop (ket.length - 3) then .error .valueError
  else do
    let _ ← bcast bra ket
    .ok []

/-- `real_braket` (/repo/jrystal/_src/braket.py:105-114). -/
def realBraketSh (bra ket : List ℕ) : Sh := if bra ≠ ket then .error .valueError else .ok []

/-- `expectation` (/repo/jrystal/_src/braket.py:168-207) with one of the three modes. -/
def expectationSh (bra ham : List ℕ) (ket : Option (List ℕ)) (diagonal : Bool) : Sh :=
  let ket := ket.getD bra
  if bra.length ≠ 6 then .error .assertionError
  else if ham.length ≠ 3 ∧ ham.length ≠ 4 then .error .assertionError
  else
    let h := if ham.length = 3 then lbls ['x', 'y', 'z'] else lbls ['k', 'x', 'y', 'z']
    if diagonal then
      einsumSh [(lbls ['a', 'k', 'i', 'x', 'y', 'z'], bra), (h, ham),
        (lbls ['a', 'k', 'i', 'x', 'y', 'z'], ket)] (lbls ['a', 'k', 'i'])
    else
      einsumSh [(lbls ['a', 'k', 'i', 'x', 'y', 'z'], bra), (h, ham),
        (lbls ['a', 'k', 'j', 'x', 'y', 'z'], ket)] (lbls ['a', 'k', 'i', 'j'])

/-- `energy.hartree` (/repo/jrystal/_src/energy.py:68-82). -/
def hartreeEnergySh (rho g : List ℕ) : Sh := do
  let dim ← lastDim g
  if rho.length ≠ dim + 1 then .error .assertionError
  else
    let v ← hartreeReciprocalSh rho g
    reciprocalBraketSh (1 :: v) rho

/-- `energy.external` (/repo/jrystal/_src/energy.py:121-135). -/
def externalEnergySh (rho pos charge g : List ℕ) : Sh := do
  let dim ← lastDim g
  if rho.length ≠ dim + 1 then .error .assertionError
  else
    let v ← externalReciprocalSh pos charge g
    reciprocalBraketSh (1 :: v) rho

/-- `energy.kinetic` (/repo/jrystal/_src/energy.py:170-182). -/
def kineticSh (g kpts coeff : List ℕ) (occ : Option (List ℕ)) : Sh := do
  let dim ← lastDim g
  let e ← bcast (expandDims [0, 1, 2] g)
    (expandDims (0 :: (List.range (dim + 1)).map (· + 2)) kpts)
  let e ← sumLast e
  let p ← bcast e coeff
  let e ← sumRange 3 (dim + 3) p
  match occ with
  | none => .ok e
  | some o => do
    let _ ← bcast e o
    .ok []

/-- `energy.xc_energy` (/repo/jrystal/_src/energy.py:204-211) without `kohn_sham`. -/
def xcEnergySh (gga : Bool) (dens g : List ℕ) : Sh :=
  if dens.length ≠ 4 then .error .assertionError
  else do
    let e ← excDensitySh gga dens g
    let _ ← bcast e dens
    .ok []

/-- `energy.total_energy` (/repo/jrystal/_src/energy.py:290-307), `split=False`. -/
def totalEnergySh (gga : Bool) (coeff pos charge g kpts : List ℕ) (occ : Option (List ℕ)) : Sh := do
  let w ← waveGridSh coeff
  let occ := occ.getD (coeff.take 3)
  let dens ← waveToDensitySh w (some occ)
  let rcp ← (do let d ← waveToDensitySh w (some occ); fftSh 3 d : Sh)
  let k ← kineticSh g kpts coeff (some occ)
  let x ← externalEnergySh rcp pos charge g
  let h ← hartreeEnergySh rcp g
  let c ← xcEnergySh gga dens g
  let s ← bcast k x
  let s ← bcast s h
  bcast s c

/-- `energy.band_energy` (/repo/jrystal/_src/energy.py:349-365) for LDA. -/
def bandEnergySh (ks : Bool) (coeff pos charge g kpts occ : List ℕ) : Sh := do
  let sum ← densityGridSh coeff (some occ)
  let per ← densityGridSh coeff none
  let v ← effectiveSh ks sum pos charge g
  let e ← realBraketSh per v
  let k ← kineticSh g kpts coeff none
  if k ≠ e then .error .assertionError else bcast e k

/-- `ewald_coulomb_repulsion` (/repo/jrystal/_src/ewald.py:50-86). -/
def ewaldSh (pos charge g T : List ℕ) : Sh := do
  let dim ← lastDim pos
  let tau ← bcast (expandDims [0] pos) (expandDims [1] pos)
  let taut ← bcast (expandDims [2] tau) (expandDims [0, 1] T)
  let nrm ← sumLast taut
  let ov ← sumAxis 2 nrm
  let gsq ← sumAxis 3 g
  let e1 := expandDims [dim, dim + 1] gsq
  let e2 ← bcast (g.dropLast ++ [1, 1] ++ g.drop (g.length - 1)) (expandDims (List.range dim) tau)
  let e2 ← sumLast e2
  let e ← bcast e1 e2
  let e ← sumRange 0 dim e
  let m ← bcast ov e
  let v ← einsumSh [(lbls ['i'], charge), (lbls ['i', 'j'], m)] (lbls ['j'])
  if v = charge then .ok [] else .error .typeError

/-! ### hamiltonian.py -/

/-- Parameters of `potential.effective` (/repo/jrystal/_src/potential.py:203-212). -/
def effectiveParams : List Param :=
  [⟨"density_grid", false⟩, ⟨"position", false⟩, ⟨"charge", false⟩, ⟨"g_vector_grid", false⟩,
   ⟨"vol", false⟩, ⟨"split", true⟩, ⟨"xc_type", true⟩, ⟨"kohn_sham", true⟩]

/-- `_hamiltonian_matrix` (/repo/jrystal/_src/hamiltonian.py:81-102); `xcKw` is the keyword under which
the functional name is passed on line 91 (`"xc"` in the code). -/
def hamiltonianMatrixOldSh (xcKw : String) (ks : Bool) (coeff pos charge dens g kpts : List ℕ) : Sh := do
  let dens ← (if dens.length = 4 then sumFirst dens else .ok dens)
  let _ ← bindCall effectiveParams 5 ["split", xcKw, "kohn_sham"]
  let v ← effectiveSh ks dens pos charge g
  let w ← waveGridSh coeff
  let f ← expectationSh w v none false
  let t ← kineticOperatorSh g (some kpts)
  let k ← expectationSh coeff t none false
  bcast f k

/-- `hamiltonian_matrix_trace` (/repo/jrystal/_src/hamiltonian.py:147-168). -/
def hamiltonianTraceSh (ks keep : Bool) (coeff pos charge dens g kpts : List ℕ) : Sh := do
  let _ ← bindCall effectiveParams 8 []
  let v ← effectiveSh ks dens pos charge g
  let w ← waveGridSh coeff
  let f ← expectationSh w v none true
  let t ← kineticOperatorSh g (some kpts)
  let k ← expectationSh coeff t none true
  let h ← bcast f k
  if keep then sumRange 1 3 h else sumRange 0 3 h

/-- `hamiltonian_matrix` (/repo/jrystal/_src/hamiltonian.py:209-240): two nested `vmap`s over spins and
k points; at each of them the Hessian of a function of `num_bands` numbers. -/
def hamiltonianMatrixSh (ks : Bool) (coeff pos charge dens g kpts : List ℕ) : Sh := do
  match coeff, kpts with
  | [s, nk, nb, x, y, z], [nk', d] =>
    if nk ≠ nk' then .error .valueError
    else do
      let k ← reshapeSh [d / 3, 3] [d]
      let c ← einsumSh [(lbls ['i'], [nb]), (lbls ['i', 'x', 'y', 'z'], [nb, x, y, z])]
        (lbls ['x', 'y', 'z'])
      let _ ← hamiltonianTraceSh ks false (expandDims [0, 1, 2] c) pos charge dens g k
      .ok [s, nk, nb, nb]
  | _, _ => .error .indexError

end Jrystal
