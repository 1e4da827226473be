import Verif.Model.Config
import Mathlib.Algebra.Order.Ring.Rat

/-
Model of /repo/jrystal/pseudopotential/load.py and /repo/jrystal/pseudopotential/dataclass.py.  A Python
string is its list of characters.  Letter case and white space are those of ASCII.  The XML parser, the
directory listing and the readers of numbers are parameters.  Floats are exact rationals.
-/
namespace Jrystal

/-- A Python string (/repo/jrystal/pseudopotential/load.py:26-100). -/
abbrev Str := List Char

/-- `str.lower()` on ASCII (/repo/jrystal/pseudopotential/load.py:38, 231, 233). -/
def pyLower (s : Str) : Str := s.map Char.toLower

/-- White space of `str.strip()` and `str.split()` on ASCII: codes 9 to 13, 28 to 31 and 32
(/repo/jrystal/pseudopotential/load.py:29). -/
def pySpace (c : Char) : Bool :=
  decide (9 ≤ c.toNat ∧ c.toNat ≤ 13) || decide (28 ≤ c.toNat ∧ c.toNat ≤ 32)

/-- `str.strip()` (/repo/jrystal/pseudopotential/load.py:29, 68, 76, 86, 200). -/
def pyStrip (s : Str) : Str := ((s.dropWhile pySpace).reverse.dropWhile pySpace).reverse

/-- Scanner of `str.split()`; `cur` is the word read so far (/repo/jrystal/pseudopotential/load.py:87). -/
def wordsFrom : Str → Str → List Str
  | [], cur => if cur = [] then [] else [cur]
  | c :: s, cur =>
    if pySpace c then (if cur = [] then wordsFrom s [] else cur :: wordsFrom s [])
    else wordsFrom s (cur ++ [c])

/-- `str.split()` without argument (/repo/jrystal/pseudopotential/load.py:87, 111, 112, 136, 142, 157, 173,
183). -/
def pyWords (s : Str) : List Str := wordsFrom s []

/-- Scanner of `str.split('\n')`; `cur` is the line read so far (/repo/jrystal/pseudopotential/load.py:34). -/
def linesFrom : Str → Str → List Str
  | [], cur => [cur]
  | c :: s, cur => if c = '\n' then cur :: linesFrom s [] else linesFrom s (cur ++ [c])

/-- `str.split('\n')` (/repo/jrystal/pseudopotential/load.py:34). -/
def pyLines (s : Str) : List Str := linesFrom s []

/-- `sub in s` (/repo/jrystal/pseudopotential/load.py:38, 41). -/
def strIn (sub s : Str) : Bool := s.tails.any fun t => sub.isPrefixOf t

/-- `extract_value` (/repo/jrystal/pseudopotential/load.py:26-29): `line.split(':', 1)` has a second part
exactly when the line has a colon. -/
def extractValue (line : Str) : Str :=
  match line.dropWhile (· ≠ ':') with
  | [] => pyStrip line
  | _ :: rest => pyStrip rest

/-- One entry of the valence configuration (/repo/jrystal/pseudopotential/load.py:90-98). -/
structure ValenceRow where
  nl : Str
  pn : ℤ
  l : ℤ
  occ : ℚ
  rcut : ℚ
  rcutUs : ℚ
  ePseu : ℚ
  deriving DecidableEq

/-- `valence_data[i]` (/repo/jrystal/pseudopotential/load.py:91-97). -/
def wordAt (ws : List Str) (i : ℕ) : Except PyErr Str :=
  match ws[i]? with
  | some w => .ok w
  | none => .error .indexError

/-- `int(w)` (/repo/jrystal/pseudopotential/load.py:92, 93, 150, 151). -/
def readInt (rd : NumReader) (w : Str) : Except PyErr ℤ :=
  match rd.int (String.ofList w) with
  | some v => .ok v
  | none => .error .valueError

/-- `float(w)` (/repo/jrystal/pseudopotential/load.py:94-97, 111, 112, 136, 142, 157, 173, 183). -/
def readFloat (rd : NumReader) (w : Str) : Except PyErr ℚ :=
  match rd.float (String.ofList w) with
  | some v => .ok v
  | none => .error .valueError

/-- The dictionary entry of one line (/repo/jrystal/pseudopotential/load.py:90-98). -/
def readRow (rd : NumReader) (ws : List Str) : Except PyErr ValenceRow := do
  let nl ← wordAt ws 0
  let pn ← (wordAt ws 1 >>= readInt rd)
  let l ← (wordAt ws 2 >>= readInt rd)
  let occ ← (wordAt ws 3 >>= readFloat rd)
  let rcut ← (wordAt ws 4 >>= readFloat rd)
  let rcutUs ← (wordAt ws 5 >>= readFloat rd)
  let ePseu ← (wordAt ws 6 >>= readFloat rd)
  pure ⟨nl, pn, l, occ, rcut, rcutUs, ePseu⟩

/-- Is the line read as an entry (/repo/jrystal/pseudopotential/load.py:86, 89)? -/
def isRow (line : Str) : Bool :=
  decide (pyStrip line ≠ []) && !("Generation configuration".toList.isPrefixOf line) &&
    match pyWords line with
    | [] => false
    | w :: _ => decide (w ≠ "nl".toList)

/-- `parse_valence_configuration` (/repo/jrystal/pseudopotential/load.py:82-100). -/
def parseValence (rd : NumReader) (lines : List Str) : Except PyErr (List ValenceRow) :=
  (lines.filter isRow).mapM fun line => readRow rd (pyWords line)

/-- One step of the loop that looks for the valence block (/repo/jrystal/pseudopotential/load.py:38-45); the
state is the pair of start and end index. -/
def scanStep (st : ℕ × ℕ) (p : Str × ℕ) : ℕ × ℕ :=
  let vi := if strIn "valence configuration".toList (pyLower p.1) then p.2 else st.1
  let ei := if vi ≠ 0 ∧ strIn "generation configuration".toList (pyLower p.1) = true then p.2 else vi
  (vi, ei)

/-- The loop over the lines (/repo/jrystal/pseudopotential/load.py:36-45).  The end index has no value before
the first line; a string always has a first line. -/
def scanLines (lines : List Str) : ℕ × ℕ := lines.zipIdx.foldl scanStep (0, 0)

/-- `lines[a:b]` for non-negative bounds (/repo/jrystal/pseudopotential/load.py:73). -/
def slice {α : Type*} (xs : List α) (a b : ℕ) : List α := (xs.take b).drop a

/-- The dictionary of `parse_pp_info` (/repo/jrystal/pseudopotential/load.py:50-77). -/
structure PpInfo where
  head : List Str
  valence : List ValenceRow
  generation : Str
  deriving DecidableEq

/-- `parse_pp_info` (/repo/jrystal/pseudopotential/load.py:32-79).  `head` collects the ten values taken from
the first ten lines, in order. -/
def parseInfo (rd : NumReader) (text : Str) : Except PyErr PpInfo := do
  let lines := pyLines text
  let st := scanLines lines
  let head ← (List.range 10).mapM fun i => do
    let line ← wordAt lines i
    pure (if i = 8 then pyStrip line else extractValue line)
  let valence ← parseValence rd (slice lines (st.1 + 2) st.2)
  pure ⟨head, valence, pyStrip (lines.getLastD [])⟩

/-- An XML element as `xml.etree.ElementTree` presents it (/repo/jrystal/pseudopotential/load.py:198-212). -/
inductive Xml where
  | elem (tag : Str) (attrs : List (Str × Str)) (text : Option Str) (children : List Xml)

/-- `elem.tag` (/repo/jrystal/pseudopotential/load.py:126). -/
def Xml.tag : Xml → Str
  | .elem t _ _ _ => t

/-- `elem.get(name)`; attribute names of an element are distinct
(/repo/jrystal/pseudopotential/load.py:130). -/
def Xml.get : Xml → Str → Option Str
  | .elem _ a _ _, name => a.lookup name

/-- `elem.keys()` with `elem.get`, as a dictionary (/repo/jrystal/pseudopotential/load.py:105, 110). -/
def Xml.attrs : Xml → List (Str × Str)
  | .elem _ a _ _ => a

/-- Iteration over an element (/repo/jrystal/pseudopotential/load.py:125). -/
def Xml.children : Xml → List Xml
  | .elem _ _ _ c => c

/-- `elem.find(tag)`: the first child with this tag (/repo/jrystal/pseudopotential/load.py:141). -/
def Xml.find (x : Xml) (tag : String) : Option Xml := x.children.find? fun c => c.tag == tag.toList

/-- `elem.find(tag)` followed by an attribute access: `None` has no attributes
(/repo/jrystal/pseudopotential/load.py:200). -/
def Xml.child (x : Xml) (tag : String) : Except PyErr Xml :=
  match x.find tag with
  | some c => .ok c
  | none => .error .attributeError

/-- `elem.text` followed by a method call: the text of an empty element is `None`
(/repo/jrystal/pseudopotential/load.py:111). -/
def Xml.textOf : Xml → Except PyErr Str
  | .elem _ _ (some t) _ => .ok t
  | .elem _ _ none _ => .error .attributeError

/-- `[float(i) for i in elem.text.split()]` (/repo/jrystal/pseudopotential/load.py:111, 112, 136, 142, 157,
173, 183). -/
def readFloats (rd : NumReader) (x : Xml) : Except PyErr (List ℚ) := do
  let t ← x.textOf
  (pyWords t).mapM (readFloat rd)

/-- `int(elem.get(name))`: `int(None)` is a `TypeError` (/repo/jrystal/pseudopotential/load.py:150, 151). -/
def readIntOpt (rd : NumReader) : Option Str → Except PyErr ℤ
  | none => .error .typeError
  | some w => readInt rd w

/-- A projector of the file (/repo/jrystal/pseudopotential/load.py:129-137). -/
structure BetaEntry where
  index : Option Str
  label : Option Str
  angularMomentum : Option Str
  cutoffRadiusIndex : Option Str
  cutoffRadius : Option Str
  usCutoffRadius : Option Str
  values : List ℚ

/-- An augmentation function of the file (/repo/jrystal/pseudopotential/load.py:168-174). -/
structure QijEntry where
  firstIndex : Option Str
  secondIndex : Option Str
  compositeIndex : Option Str
  angularMomentum : Option Str
  values : List ℚ

/-- `PP_AUGMENTATION` (/repo/jrystal/pseudopotential/load.py:146-175). -/
structure AugEntry where
  qWithL : Bool
  nqf : ℤ
  nqlc : ℤ
  q : Option (List ℚ)
  qij : Option (List QijEntry)

/-- `PP_NONLOCAL` (/repo/jrystal/pseudopotential/load.py:119-178); `none` is a missing key. -/
structure NlEntry where
  beta : Option (List BetaEntry)
  dij : Option (List ℚ)
  aug : Option AugEntry

/-- One projector (/repo/jrystal/pseudopotential/load.py:127-138). -/
def readBeta (rd : NumReader) (x : Xml) : Except PyErr BetaEntry := do
  let v ← readFloats rd x
  pure ⟨x.get "index".toList, x.get "label".toList, x.get "angular_momentum".toList,
    x.get "cutoff_radius_index".toList, x.get "cutoff_radius".toList,
    x.get "ultrasoft_cutoff_radius".toList, v⟩

/-- One augmentation function (/repo/jrystal/pseudopotential/load.py:166-175). -/
def readQij (rd : NumReader) (x : Xml) : Except PyErr QijEntry := do
  let v ← readFloats rd x
  pure ⟨x.get "first_index".toList, x.get "second_index".toList, x.get "composite_index".toList,
    x.get "angular_momentum".toList, v⟩

/-- Augmentation block (/repo/jrystal/pseudopotential/load.py:144-177). -/
def readAug (rd : NumReader) (x : Xml) : Except PyErr AugEntry := do
  let nqf ← readIntOpt rd (x.get "nqf".toList)
  let nqlc ← readIntOpt rd (x.get "nqlc".toList)
  let q ← (match x.find "PP_Q" with
    | none => pure none
    | some c => (readFloats rd c).map some)
  let qs := x.children.filter fun c => "PP_QIJ".toList.isPrefixOf c.tag
  let qij ← (if qs = [] then pure none else (qs.mapM (readQij rd)).map some)
  pure ⟨match x.get "q_with_l".toList with
    | none => false
    | some w => decide (String.ofList w ∈ ["true", "True", "T", "t", "1", "TRUE"]), nqf, nqlc, q, qij⟩

/-- `parse_pp_nonlocal` (/repo/jrystal/pseudopotential/load.py:116-178). -/
def parseNonlocal (rd : NumReader) (x : Xml) : Except PyErr NlEntry := do
  let bs := x.children.filter fun c => "PP_BETA".toList.isPrefixOf c.tag
  let beta ← (if bs = [] then pure none else (bs.mapM (readBeta rd)).map some)
  let dij ← (match x.find "PP_DIJ" with
    | none => pure none
    | some c => (readFloats rd c).map some)
  let aug ← (match x.find "PP_AUGMENTATION" with
    | none => pure none
    | some c => (readAug rd c).map some)
  pure ⟨beta, dij, aug⟩

/-- The dictionary of `parse_upf` (/repo/jrystal/pseudopotential/load.py:206-212). -/
structure PpDict where
  info : PpInfo
  header : List (Str × Str)
  meshAttrs : List (Str × Str)
  r : List ℚ
  rab : List ℚ
  nl : NlEntry
  loc : List ℚ

/-- `parse_upf` after the XML parser (/repo/jrystal/pseudopotential/load.py:200-212). -/
def parseUpf (rd : NumReader) (root : Xml) : Except PyErr PpDict := do
  let info ← (root.child "PP_INFO" >>= Xml.textOf >>= fun t => parseInfo rd (pyStrip t))
  let header ← root.child "PP_HEADER"
  let mesh ← root.child "PP_MESH"
  let r ← (mesh.child "PP_R" >>= readFloats rd)
  let rab ← (mesh.child "PP_RAB" >>= readFloats rd)
  let nl ← (match root.find "PP_NONLOCAL" with
    | none => .error .typeError
    | some c => parseNonlocal rd c)
  let loc ← (root.child "PP_LOCAL" >>= readFloats rd)
  pure ⟨info, header.attrs, mesh.attrs, r, rab, nl, loc⟩

/-- The test of a file name in `find_upf` (/repo/jrystal/pseudopotential/load.py:231-235). -/
def upfMatches (atom name : Str) : Bool :=
  (pyLower atom ++ ".".toList).isPrefixOf (pyLower name) && "upf".toList.isSuffixOf (pyLower name)

/-- `find_upf` (/repo/jrystal/pseudopotential/load.py:215-241).  `listdir d` are the names in the directory in
the order of the operating system, `none` when it does not exist; `listdir none` is the working directory, and
`None + name` is a `TypeError`. -/
def findUpf (listdir : Option Str → Option (List Str)) (dir : Option Str) (atom : Str) : Except PyErr Str :=
  match listdir dir with
  | none => .error .fileNotFound
  | some names => match names.find? (upfMatches atom) with
    | none => .error .valueError
    | some name => match dir with
      | none => .error .typeError
      | some d => .ok (d ++ name)

/-- The per-atom lists of `NormConservingPseudopotential`
(/repo/jrystal/pseudopotential/dataclass.py:106-119).  `Pseudopotential.create` of the base class does nothing
(/repo/jrystal/pseudopotential/dataclass.py:36-41).  `r_cutoff` only ever holds `None`; the cutoff radius of
an atom without projectors is the number 0, here `none`. -/
structure NcLists where
  valence : List ℤ
  rGrid : List (List ℚ)
  rAb : List (List ℚ)
  rCutoff : List (Option ℚ)
  lMax : List ℤ
  lMaxRho : List (Option ℤ)
  localGrid : List (List ℚ)
  localCharge : List ℤ
  numBeta : List ℕ
  betaGrid : List (List (List ℚ))
  betaCutoff : List (Option Str)
  dMatrix : List (List (List ℚ))
  angular : List (List ℤ)
  valenceConf : List (List ValenceRow)

/-- The empty lists (/repo/jrystal/pseudopotential/dataclass.py:106-119). -/
def NcLists.empty : NcLists := ⟨[], [], [], [], [], [], [], [], [], [], [], [], [], []⟩

/-- `x[r > 0]` for one-dimensional arrays: the mask must have the length of the array
(/repo/jrystal/pseudopotential/dataclass.py:124, 125, 136, 151). -/
def takePositive {α : Type*} (r : List ℚ) (x : List α) : Except PyErr (List α) :=
  if r.length = x.length then .ok (((r.zip x).filter fun p => decide (0 < p.1)).map (·.2))
  else .error .indexError

/-- `np.divide(values, den(r), where=(r > 0))` with `den(r) = r`
(/repo/jrystal/pseudopotential/dataclass.py:148) or `r ** 2` (293, 312).  Entries where the mask is false keep
what was in memory, the parameter `junk`.  Arrays of different lengths raise; arrays of length one, which NumPy
would stretch, are not modelled separately. -/
def divideWhere (junk : ℕ → ℚ) (den : ℚ → ℚ) (values r : List ℚ) : Except PyErr (List ℚ) :=
  if values.length = r.length then
    .ok ((values.zip r).zipIdx.map fun p => if 0 < p.1.2 then p.1.1 / den p.1.2 else junk p.2)
  else .error .valueError

/-- `header[key]` (/repo/jrystal/pseudopotential/dataclass.py:122). -/
def headerAt (h : List (Str × Str)) (key : String) : Except PyErr Str :=
  match h.lookup key.toList with
  | some v => .ok v
  | none => .error .keyError

/-- Python's `int` of a float: truncation towards zero (/repo/jrystal/pseudopotential/dataclass.py:122). -/
def truncQ (q : ℚ) : ℤ := if 0 ≤ q then q.floor else q.ceil

/-- `np.reshape(d, [m, m])` (/repo/jrystal/pseudopotential/dataclass.py:154). -/
def reshapeSq (m : ℕ) (d : List ℚ) : Except PyErr (List (List ℚ)) :=
  if d.length = m * m then .ok ((List.range m).map fun i => slice d (i * m) ((i + 1) * m))
  else .error .valueError

/-- The loop body of `create` (/repo/jrystal/pseudopotential/dataclass.py:121-171). -/
def ncStep (rd : NumReader) (junk : ℕ → ℚ) (acc : NcLists) (pp : PpDict) : Except PyErr NcLists := do
  let z ← (headerAt pp.header "z_valence" >>= readFloat rd)
  let valence := acc.valence ++ [truncQ z]
  let rg ← takePositive pp.r pp.r
  let rab ← takePositive pp.r pp.rab
  let lm ← (headerAt pp.header "l_max" >>= readInt rd)
  let lmr ← (match pp.header.lookup "l_max_rho".toList with
    | none => pure none
    | some w => (readInt rd w).map some)
  let loc ← takePositive pp.r pp.loc
  let rGrid := acc.rGrid ++ [rg]
  match pp.nl.beta with
  | some bs =>
    let rows ← bs.mapM fun b => do
      let v ← divideWhere junk id b.values pp.r
      let l ← readIntOpt rd b.angularMomentum
      pure (v, l)
    let grid ← rows.mapM fun p => takePositive pp.r p.1
    let d ← (match pp.nl.dij with
      | none => .error .keyError
      | some d => reshapeSq bs.length d)
    pure ⟨valence, rGrid, acc.rAb ++ [rab], acc.rCutoff ++ [none], acc.lMax ++ [lm], acc.lMaxRho ++ [lmr],
      acc.localGrid ++ [loc.map (· / 2)], acc.localCharge ++ [valence.getLastD 0],
      acc.numBeta ++ [bs.length], acc.betaGrid ++ [grid],
      acc.betaCutoff ++ [(bs.getLast?).bind BetaEntry.cutoffRadius],
      acc.dMatrix ++ [d.map fun row => row.map (· / 2)], acc.angular ++ [rows.map (·.2)],
      acc.valenceConf ++ [pp.info.valence]⟩
  | none =>
    pure ⟨valence, rGrid, acc.rAb ++ [rab], acc.rCutoff ++ [none], acc.lMax ++ [lm], acc.lMaxRho ++ [lmr],
      acc.localGrid ++ [loc.map (· / 2)], acc.localCharge ++ [valence.getLastD 0],
      acc.numBeta ++ [1], acc.betaGrid ++ [[(rGrid.getLastD []).map fun _ => 0]],
      acc.betaCutoff ++ [none], acc.dMatrix ++ [[[0]]], acc.angular ++ [[0]],
      acc.valenceConf ++ [pp.info.valence]⟩

/-- The first loop of `create` (/repo/jrystal/pseudopotential/dataclass.py:100-104); `parse path` is the XML
parser. -/
def loadAll (rd : NumReader) (listdir : Option Str → Option (List Str)) (parse : Str → Except PyErr Xml)
    (dir : Option Str) (symbols : List Str) : Except PyErr (List PpDict) :=
  symbols.mapM fun s => do
    let path ← findUpf listdir dir s
    let root ← parse path
    parseUpf rd root

/-- `NormConservingPseudopotential.create` (/repo/jrystal/pseudopotential/dataclass.py:91-192) without the
fields copied from the crystal. -/
def ncCreate (rd : NumReader) (junk : ℕ → ℚ) (listdir : Option Str → Option (List Str))
    (parse : Str → Except PyErr Xml) (dir : Option Str) (symbols : List Str) : Except PyErr NcLists := do
  let pps ← loadAll rd listdir parse dir symbols
  pps.foldlM (ncStep rd junk) NcLists.empty

/-- The additional lists of `UltrasoftPseudopotential` (/repo/jrystal/pseudopotential/dataclass.py:251-253);
`qij[a] m n l` is the radial function. -/
structure UsLists where
  qMatrix : List (List (List ℚ))
  qij : List (ℕ → ℕ → ℕ → List ℚ)
  qWithL : List Bool

/-- NumPy's index of an axis of length `n` (/repo/jrystal/pseudopotential/dataclass.py:279-297). -/
def axisIdx (n : ℕ) (i : ℤ) : Except PyErr ℕ :=
  if 0 ≤ i ∧ i < n then .ok i.toNat
  else if i < 0 ∧ 0 ≤ i + n then .ok (i + n).toNat
  else .error .indexError

/-- Assignment of one augmentation function to `(m, n, l)` and `(n, m, l)`
(/repo/jrystal/pseudopotential/dataclass.py:279-297 with the angular momentum, 302-316 with `l = 0`). -/
def setQij (rd : NumReader) (junk : ℕ → ℚ) (num nl : ℕ) (withL : Bool) (r : List ℚ)
    (q : ℕ → ℕ → ℕ → List ℚ) (e : QijEntry) : Except PyErr (ℕ → ℕ → ℕ → List ℚ) := do
  let m ← readIntOpt rd e.firstIndex
  let n ← readIntOpt rd e.secondIndex
  let l ← (if withL then readIntOpt rd e.angularMomentum else pure 0)
  let v ← divideWhere junk (· ^ 2) e.values r
  let m' ← axisIdx num (m - 1)
  let n' ← axisIdx num (n - 1)
  let l' ← axisIdx nl l
  let q₁ := fun a b c => if a = m' ∧ b = n' ∧ c = l' then v else q a b c
  pure (if m = n then q₁ else fun a b c => if a = n' ∧ b = m' ∧ c = l' then q₁ m' n' l' else q₁ a b c)

/-- The loop body of `UltrasoftPseudopotential.create` (/repo/jrystal/pseudopotential/dataclass.py:255-318);
`eigTop` is the largest eigenvalue returned by `eigvalsh`.  `np.sqrt(num_q).astype(int)` is the integer square
root.  A negative `l_max_rho` is taken as an axis of length zero. -/
def usStep (rd : NumReader) (junk : ℕ → ℚ) (eigTop : List (List ℚ) → ℚ) (acc : UsLists) (pp : PpDict) :
    Except PyErr UsLists :=
  match pp.nl.aug with
  | none => pure acc
  | some a => do
    let q ← (match a.q with
      | none => .error .keyError
      | some q => pure q)
    let num := Nat.sqrt q.length
    let qm ← reshapeSq num q
    if eigTop qm < -1 then .error .assertionError
    else do
      let nl ← (if a.qWithL then (headerAt pp.header "l_max_rho" >>= readInt rd).map fun l => (l + 1).toNat
        else pure 1)
      let es ← (match a.qij with
        | none => .error .keyError
        | some es => pure es)
      let f ← es.foldlM (setQij rd junk num nl a.qWithL pp.r) fun _ _ _ => pp.r.map fun _ => 0
      pure ⟨acc.qMatrix ++ [qm], acc.qij ++ [f], acc.qWithL ++ [a.qWithL]⟩

/-- `UltrasoftPseudopotential.create` (/repo/jrystal/pseudopotential/dataclass.py:238-325). -/
def usCreate (rd : NumReader) (junk : ℕ → ℚ) (eigTop : List (List ℚ) → ℚ)
    (listdir : Option Str → Option (List Str)) (parse : Str → Except PyErr Xml) (dir : Option Str)
    (symbols : List Str) : Except PyErr (NcLists × UsLists) := do
  let nc ← ncCreate rd junk listdir parse dir symbols
  let pps ← loadAll rd listdir parse dir symbols
  let us ← pps.foldlM (usStep rd junk eigTop) ⟨[], [], []⟩
  pure (nc, us)

end Jrystal
