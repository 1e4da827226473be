import Verif.Model.FftSize
import Mathlib.Data.Rat.Defs

/-
Model of /repo/jrystal/config.py, /repo/main.py, of `parse_args` and of the `create_*` selectors in
/repo/jrystal/calc/opt_utils.py, and of the beta cache in the same file.
-/
namespace Jrystal

/-- Values that occur in a configuration.  Floats are exact rationals (as written)
(/repo/jrystal/config.py:21-105). -/
inductive CfgVal where
  | null
  | bool (b : Bool)
  | int (i : Int)
  | float (x : ℚ)
  | str (s : String)
  | list (l : List CfgVal)
  | dict (d : List (String × CfgVal))

/-- A configuration: keys with values, in order (`JrystalConfigDict`) (/repo/jrystal/config.py:21-58). -/
abbrev Cfg := List (String × CfgVal)

/-- `config.get(key)`: the first entry with this key (/repo/jrystal/config.py:108-120). -/
def Cfg.find (c : Cfg) (key : String) : Option CfgVal := (List.find? (fun e => e.1 == key) c).map (·.2)

/-- `config.key`: `AttributeError` when the key is missing (/repo/jrystal/config.py:108-120). -/
def Cfg.attr (c : Cfg) (key : String) : Except PyErr CfgVal :=
  match c.find key with
  | some v => .ok v
  | none => .error .attributeError

/-- `config[key] = value`: replace the entry, or append a new one (/repo/jrystal/calc/opt_utils.py:71-72). -/
def Cfg.set : Cfg → String → CfgVal → Cfg
  | [], k, v => [(k, v)]
  | e :: c, k, v => if e.1 == k then (k, v) :: c else e :: Cfg.set c k v

/-- `default_config` (/repo/jrystal/config.py:61-105). -/
def defaultConfig : Cfg :=
  [("crystal", .str "diamond"), ("crystal_file_path_path", .null), ("save_dir", .null),
   ("spin", .int 0), ("xc", .str "lda_x"), ("use_pseudopotential", .bool false),
   ("pseudopotential_file_dir", .null), ("freq_mask_method", .str "spherical"),
   ("cutoff_energy", .int 100), ("grid_sizes", .int 64), ("k_grid_sizes", .int 3),
   ("occupation", .str "uniform"), ("smearing", .float (1 / 1000)), ("empty_bands", .int 8),
   ("spin_restricted", .bool true),
   ("ewald_args", .dict [("ewald_eta", .float (1 / 10)), ("ewald_cutoff", .float 20000)]),
   ("epoch", .int 5000), ("optimizer", .str "adam"),
   ("optimizer_args", .dict [("learning_rate", .float (1 / 100)), ("b1", .float (9 / 10)),
     ("b2", .float (99 / 100))]),
   ("scheduler", .null), ("convergence_window_size", .int 20),
   ("convergence_condition", .float (1 / 10000)), ("band_structure_empty_bands", .int 8),
   ("k_path_special_points", .null), ("num_kpoints", .int 60), ("k_path_file", .null),
   ("band_structure_epoch", .int 5000), ("k_path_fine_tuning", .bool true),
   ("k_path_fine_tuning_epoch", .int 300), ("seed", .int 123), ("parallel_over_k_mesh", .bool false),
   ("parallel_over_k_path", .bool true), ("xla_preallocate", .bool true),
   ("jax_enable_x64", .bool true), ("jax_debug_nans", .bool false), ("verbose", .bool true),
   ("eps", .float (1 / 100000000))]

/-- `get_config` (/repo/jrystal/config.py:108-120).  The argument is the mapping that
`yaml.safe_load` read from the file, or `none` for no file name.  (A file that does not hold a mapping
is not modelled.) -/
def getConfig (file : Option Cfg) : Except PyErr Cfg :=
  let config := match file with
    | some c => c
    | none => defaultConfig
  match config.attr "band_structure_empty_bands" with
  | .error e => .error e
  | .ok .null => match config.attr "empty_bands" with
    | .error e => .error e
    | .ok v => .ok (config.set "band_structure_empty_bands" v)
  | .ok _ => .ok config

/-- Python truth value (/repo/main.py:42-54). -/
def CfgVal.truthy : CfgVal → Bool
  | .null => false
  | .bool b => b
  | .int i => i != 0
  | .float x => x != 0
  | .str s => s != ""
  | .list l => !l.isEmpty
  | .dict d => !d.isEmpty

/-- The four calculation drivers called by `main` (/repo/main.py:42-54). -/
inductive Driver where
  | energyNormcons
  | energyAllElectrons
  | bandNormcons
  | bandAllElectrons
  deriving DecidableEq

/-- `main` (/repo/main.py:15-54) after reading the command line: `mode` is the value of `-m`, if
given; argparse exits for a value outside `choices`.  The configuration is what the file holds. -/
def mainDispatch (mode : Option String) (file : Cfg) : Except PyErr Driver :=
  let m := mode.getD "energy"
  if m ≠ "energy" ∧ m ≠ "band" then .error .systemExit
  else
    match getConfig (some file) with
    | .error e => .error e
    | .ok config =>
      match config.attr "use_pseudopotential" with
      | .error e => .error e
      | .ok v =>
        if m = "energy" then .ok (if v.truthy then .energyNormcons else .energyAllElectrons)
        else .ok (if v.truthy then .bandNormcons else .bandAllElectrons)

/-- Readers of numbers: Python's `int(s)` and `float(s)`, `none` where they raise `ValueError`
(/repo/jrystal/calc/opt_utils.py:68). -/
structure NumReader where
  int : String → Option Int
  float : String → Option ℚ

/-- `type(default)(s)` as argparse calls it (/repo/jrystal/calc/opt_utils.py:68); `none` is a
`TypeError` or `ValueError`, which argparse turns into an exit.  `NoneType(s)` takes no argument.
Calling the type of a nested mapping with a string is taken to fail. -/
def convertLike (rd : NumReader) (default : CfgVal) (s : String) : Option CfgVal :=
  match default with
  | .null => none
  | .bool _ => some (.bool (s != ""))
  | .int _ => (rd.int s).map .int
  | .float _ => (rd.float s).map .float
  | .str _ => some (.str s)
  | .list _ => some (.list (s.toList.map fun c => .str (String.singleton c)))
  | .dict _ => none

/-- argparse's option lookup: an exact name, else the only option with this prefix, else an exit
(/repo/jrystal/calc/opt_utils.py:66-69). -/
def resolveOption (keys : List String) (name : String) : Option String :=
  if keys.contains name then some name
  else match keys.filter (fun k => name.toList.isPrefixOf k.toList) with
    | [k] => some k
    | _ => none

/-- argparse over the option/value pairs of a command line (`--key value`, in order): the namespace
starts with the defaults and every option overwrites its entry.  Simplification: the line is already
split into pairs; positional arguments, `--key=value` and values that start with a dash are not
modelled (/repo/jrystal/calc/opt_utils.py:66-69). -/
def parsePairs (rd : NumReader) (defaults : Cfg) : Cfg → List (String × String) → Except PyErr Cfg
  | ns, [] => .ok ns
  | ns, (name, s) :: rest =>
    match resolveOption (defaults.map (·.1)) name with
    | none => .error .systemExit
    | some key => match defaults.find key with
      | none => .error .systemExit
      | some d => match convertLike rd d s with
        | none => .error .systemExit
        | some v => parsePairs rd defaults (ns.set key v) rest

/-- `parse_args` (/repo/jrystal/calc/opt_utils.py:64-73): every entry of the namespace is written
back. -/
def parseArgs (rd : NumReader) (config : Cfg) (line : List (String × String)) : Except PyErr Cfg :=
  match parsePairs rd config config line with
  | .error e => .error e
  | .ok ns => .ok (ns.foldl (fun c e => c.set e.1 e.2) config)

/-- The constructor chosen by `create_pseudopotential` (/repo/jrystal/calc/opt_utils.py:117-140). -/
inductive PspKind where
  | normConserving
  | ultrasoft
  deriving DecidableEq

/-- Selection in `create_pseudopotential` (/repo/jrystal/calc/opt_utils.py:117-140): kind and
directory (`none` is the package directory).  The crystal is created in between; that part is
`create_crystal`. -/
def selectPseudopotential (config : Cfg) : Except PyErr (PspKind × Option CfgVal) :=
  match config.attr "use_pseudopotential" with
  | .error e => .error e
  | .ok u =>
    if !u.truthy then .error .assertionError
    else match config.attr "pseudopotential_type" with
    | .error e => .error e
    | .ok t =>
      let dir : Except PyErr (Option CfgVal) := match config.attr "pseudopotential_file_dir" with
        | .error e => .error e
        | .ok .null => .ok none
        | .ok d => .ok (some d)
      match t with
      | .str s =>
        if s ∈ ["normcons", "normconserving", "nc"] then dir.map fun d => (.normConserving, d)
        else if s ∈ ["ultrasoft", "us"] then dir.map fun d => (.ultrasoft, d)
        else .error .valueError
      | _ => .error .valueError

/-- Mask constructors (/repo/jrystal/calc/opt_utils.py:76-103). -/
inductive MaskKind where
  | cubic
  | spherical
  deriving DecidableEq

/-- Selection in `create_freq_mask` (/repo/jrystal/calc/opt_utils.py:76-103). -/
def selectMask (config : Cfg) : Except PyErr MaskKind :=
  match config.attr "freq_mask_method" with
  | .error e => .error e
  | .ok (.str s) =>
    if s = "cubic" then .ok .cubic
    else if s = "spherical" then .ok .spherical
    else .error .valueError
  | .ok _ => .error .valueError

/-- `create_occupation` (/repo/jrystal/calc/opt_utils.py:171-184): the name of the function that is
returned.  `jr.occupation` exports the names of `exported` (/repo/jrystal/occupation.py:16-23). -/
def createOccupation (exported : List String) (config : Cfg) : Except PyErr String :=
  let get (name : String) : Except PyErr String :=
    if name ∈ exported then .ok name else .error .attributeError
  match config.attr "occupation" with
  | .error e => .error e
  | .ok (.str s) =>
    if s = "idempotent" then get "idempotent"
    else if s = "simplex-projector" then get "simplex_projector"
    else if s = "uniform" then get "uniform"
    else if s = "gamma" then get "gamma"
    else .error .notImplemented
  | .ok _ => .error .notImplemented

/-- `jr.occupation.__all__` (/repo/jrystal/occupation.py:16-32). -/
def occupationExports : List String :=
  ["idempotent_param_init", "idempotent", "uniform", "gamma", "param_init", "occupation"]

/-- `create_optimizer` (/repo/jrystal/calc/opt_utils.py:153-168): name, learning rate and the other
arguments handed to optax; `known` are the names in `optax._src.alias`. -/
def createOptimizer (known : List String) (config : Cfg) :
    Except PyErr (String × CfgVal × List (String × CfgVal)) :=
  match config.attr "optimizer" with
  | .error e => .error e
  | .ok o => match config.attr "optimizer_args" with
    | .error e => .error e
    | .ok (.dict args) =>
      match Cfg.find args "learning_rate" with
      | none => .error .keyError
      | some lr => match config.attr "scheduler" with
        | .error e => .error e
        | .ok sch =>
          if sch.truthy then .error .notImplemented
          else match o with
          | .str s =>
            if s ∈ known then .ok (s, lr, args.filter fun e => e.1 != "learning_rate")
            else .error .notImplemented
          | _ => .error .typeError
    | .ok _ => .error .typeError

/-! ### Beta cache -/

/-- What a path holds: a directory, or an `.npz` archive with named arrays
(/repo/jrystal/calc/opt_utils.py:204-223). -/
inductive Node (A : Type*) where
  | dir
  | file (entries : List (String × A))

/-- A file system: contents of every path (/repo/jrystal/calc/opt_utils.py:204-223). -/
abbrev FS (A : Type*) := String → Option (Node A)

/-- Path of the cache directory: `os.path.join(get_pkg_path(), "_cache")`
(/repo/jrystal/calc/opt_utils.py:206). -/
def cacheDir (pkg : String) : String := pkg ++ "/_cache"

/-- Default cache file (/repo/jrystal/calc/opt_utils.py:207). -/
def cacheFile (pkg : String) : String := cacheDir pkg ++ "/beta_sbt.npz"

/-- Overwrite one path (/repo/jrystal/calc/opt_utils.py:209-213). -/
def FS.write {A : Type*} (fs : FS A) (p : String) (n : Node A) : FS A := fun q => if q = p then some n else fs q

/-- `if not os.path.exists(d): os.makedirs(d)`; the package directory exists
(/repo/jrystal/calc/opt_utils.py:208-209). -/
def FS.ensureDir {A : Type*} (fs : FS A) (d : String) : FS A :=
  match fs d with
  | some _ => fs
  | none => fs.write d .dir

/-- `np.savez(file, *arrays)`: entry `i` is stored under `arr_i`; needs the directory to be one and
the target not to be a directory (/repo/jrystal/calc/opt_utils.py:210-213). -/
def savez {A : Type*} (fs : FS A) (dir file : String) (arrays : List A) : Except PyErr (FS A) :=
  match fs dir with
  | some .dir => match fs file with
    | some .dir => .error .osError
    | _ => .ok (fs.write file (.file (arrays.mapIdx fun i a => ("arr_" ++ Nat.repr i, a))))
  | some (.file _) => .error .osError
  | none => .error .fileNotFound

/-- `save_beta_sbt` (/repo/jrystal/calc/opt_utils.py:204-213).  With an explicit file name the local
`cache_dir` is never assigned, so `os.path.exists(cache_dir)` raises `UnboundLocalError`. -/
def saveBetaSbt {A : Type*} (pkg : String) (fs : FS A) (output : List A) (filename : Option String) :
    Except PyErr (FS A) :=
  match filename with
  | some _ => .error .unboundLocal
  | none => savez (fs.ensureDir (cacheDir pkg)) (cacheDir pkg) (cacheFile pkg) output

/-- `[output[f"arr_{i}"] for i in range(len(output))]` (/repo/jrystal/calc/opt_utils.py:223). -/
def readArrays {A : Type*} (entries : List (String × A)) : List ℕ → Except PyErr (List A)
  | [] => .ok []
  | i :: is => match entries.find? (fun e => e.1 == "arr_" ++ Nat.repr i) with
    | none => .error .keyError
    | some e => match readArrays entries is with
      | .error e => .error e
      | .ok l => .ok (e.2 :: l)

/-- `load_beta_sbt` (/repo/jrystal/calc/opt_utils.py:216-223): result and file system afterwards. -/
def loadBetaSbt {A : Type*} (pkg : String) (fs : FS A) (filename : Option String) :
    Except PyErr (List A × FS A) :=
  match filename with
  | some _ => .error .unboundLocal
  | none =>
    let fs' := fs.ensureDir (cacheDir pkg)
    match fs' (cacheFile pkg) with
    | none => .error .fileNotFound
    | some .dir => .error .osError
    | some (.file es) => match readArrays es (List.range es.length) with
      | .error e => .error e
      | .ok l => .ok (l, fs')

end Jrystal
