import Verif.Model.Config

/-
Model of the command line program /repo/main.py with its files, and of `set_env_params` in
/repo/jrystal/calc/opt_utils.py, which every calculation calls first.
-/
namespace Jrystal

/-- What `argparse` returns: the values of `-m`, `-c` and `-l`, if given (/repo/main.py:15-40). -/
structure MainArgs where
  mode : Option String
  config : Option String
  load : Option String

/-- `main` (/repo/main.py:7-54): the driver that is called and the configuration it is given.  `logo` says
whether the file with the logo is beside the package; `files` are the readable configuration files with the
mapping they hold. -/
def mainCall (logo : Bool) (files : String → Option Cfg) (args : MainArgs) : Except PyErr (Driver × Cfg) :=
  if !logo then .error .fileNotFound
  else
    let m := args.mode.getD "energy"
    if m ≠ "energy" ∧ m ≠ "band" then .error .systemExit
    else
      match files (args.config.getD "config.yaml") with
      | none => .error .fileNotFound
      | some file =>
        match getConfig (some file) with
        | .error e => .error e
        | .ok config =>
          match mainDispatch args.mode file with
          | .error e => .error e
          | .ok d => .ok (d, config)

/-- Log levels (/repo/jrystal/calc/opt_utils.py:50-59). -/
inductive Verbosity
  | info
  | warning
  deriving DecidableEq

/-- The settings of the process that `set_env_params` touches: environment variables, the two JAX switches,
the log level, and the lines logged (/repo/jrystal/calc/opt_utils.py:44-61). -/
structure ProcState where
  environ : String → Option String
  debugNans : Bool
  x64 : Bool
  verbosity : Verbosity
  logged : List String

/-- `os.environ[key] = value` (/repo/jrystal/calc/opt_utils.py:45-47). -/
def setEnviron (e : String → Option String) (key value : String) : String → Option String :=
  fun k => if k = key then some value else e k

/-- `logging.info(msg)`: a line only at level INFO (/repo/jrystal/calc/opt_utils.py:52-56). -/
def logInfo (st : ProcState) (msg : String) : ProcState :=
  match st.verbosity with
  | .info => { st with logged := st.logged ++ [msg] }
  | .warning => st

/-- `logging.warning(msg)` (/repo/jrystal/calc/opt_utils.py:59). -/
def logWarning (st : ProcState) (msg : String) : ProcState := { st with logged := st.logged ++ [msg] }

/-- `set_env_params` (/repo/jrystal/calc/opt_utils.py:44-61): the state of the process afterwards, and the
exception if one is raised on the way.  The switches are Python truth values; that JAX rejects a value that
is not a truth value is not modelled. -/
def setEnvParams (config : Cfg) (st : ProcState) : ProcState × Except PyErr Unit :=
  let st := { st with environ := setEnviron st.environ "OPENBLAS_NUM_THREADS" "4" }
  let st := { st with environ := setEnviron st.environ "MKL_NUM_THREADS" "4" }
  let st := { st with environ := setEnviron st.environ "OMP_NUM_THREADS" "4" }
  match config.attr "jax_debug_nans" with
  | .error e => (st, .error e)
  | .ok nans =>
    let st := { st with debugNans := nans.truthy }
    match config.attr "verbose" with
    | .error e => (st, .error e)
    | .ok verbose =>
      let r : ProcState × Except PyErr Unit :=
        if verbose.truthy then
          let st := { st with verbosity := .info }
          let st := logInfo st "Versbose mode is on."
          match config.attr "jax_enable_x64" with
          | .error e => (st, .error e)
          | .ok x64 =>
            if x64.truthy then (logInfo st "Precision: Double (64 bit).", .ok ())
            else (logInfo st "Precision: Single (32 bit).", .ok ())
        else
          let st := { st with verbosity := .warning }
          (logWarning st "Versbose mode is off.", .ok ())
      match r with
      | (st, .error e) => (st, .error e)
      | (st, .ok ()) =>
        match config.attr "jax_enable_x64" with
        | .error e => (st, .error e)
        | .ok x64 => ({ st with x64 := x64.truthy }, .ok ())

end Jrystal
