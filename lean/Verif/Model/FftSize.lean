/-
Model of the FFT grid-size rounding.

Source: /repo/jrystal/_src/const.py:265-456 (table), /repo/jrystal/_src/utils.py:227-254,
/repo/jrystal/_src/grid.py:181-210.
-/
namespace Jrystal

/-- Python exceptions raised by the modelled code, as values (/repo/jrystal/_src/utils.py:227-254). -/
inductive PyErr where
  | valueError
  | typeError
  | indexError
  | assertionError
  | attributeError
  | notImplemented
  | unboundLocal
  | keyError
  | importError
  | zeroDivision
  | fileNotFound
  | osError
  | systemExit
  | nameError
  deriving DecidableEq, Repr

/-- `CUFFT_FACTORS`, the list of FFT sizes (/repo/jrystal/_src/const.py:265-456), copied entry by
entry. -/
def cufftFactors : List Nat :=
  [1, 2, 3, 4, 5, 6, 7, 8, 9, 10, 12, 14, 15, 16, 18, 20,
   21, 24, 25, 27, 28, 30, 32, 35, 36, 40, 42, 45, 48, 49, 50, 54,
   56, 60, 63, 64, 70, 72, 75, 80, 81, 84, 90, 96, 98, 100, 105, 108,
   112, 120, 125, 126, 128, 135, 140, 144, 147, 150, 160, 162, 168, 175, 180, 189,
   192, 196, 200, 210, 216, 224, 225, 240, 243, 245, 250, 252, 256, 270, 280, 288,
   294, 300, 315, 320, 324, 336, 343, 350, 360, 375, 378, 384, 392, 400, 405, 420,
   432, 441, 448, 450, 480, 486, 490, 500, 504, 512, 525, 540, 560, 567, 576, 588,
   600, 625, 630, 640, 648, 672, 675, 686, 700, 720, 729, 735, 750, 756, 768, 784,
   800, 810, 840, 864, 875, 882, 896, 900, 945, 960, 972, 980, 1000, 1008, 1024, 1029,
   1050, 1080, 1120, 1125, 1134, 1152, 1176, 1200, 1215, 1225, 1250, 1260, 1280, 1296, 1323, 1344,
   1350, 1372, 1400, 1440, 1458, 1470, 1500, 1512, 1536, 1568, 1575, 1600, 1620, 1680, 1701, 1715,
   1728, 1750, 1764, 1792, 1800, 1875, 1890, 1920, 1944, 1960, 2000, 2016, 2025, 2048]

/-- `fft_factor(n)` (/repo/jrystal/_src/utils.py:227-254): raise when `n > 2048`, otherwise take the
first table entry `f` with `f - n >= 0`.  Indexing an empty selection with `[0]` raises
`IndexError` in numpy; that branch is kept explicitly. -/
def fftFactor (n : Int) : Except PyErr Nat :=
  if n > 2048 then .error .valueError
  else
    match cufftFactors.filter (fun (f : Nat) => decide ((f : Int) - n ≥ 0)) with
    | [] => .error .indexError
    | f :: _ => .ok f

/-- Argument of `proper_grid_size`: something with `__len__` (a list, tuple or array of integers), a
scalar that `int()` accepts, or anything else (/repo/jrystal/_src/grid.py:181-210). -/
inductive GridArg where
  | vec (l : List Int)
  | scalar (n : Int)
  | other

/-- `proper_grid_size` (/repo/jrystal/_src/grid.py:181-210): a scalar is repeated three times, every
entry goes through `fft_factor`; an argument that is neither a sequence nor convertible by `int()`
raises `TypeError`. -/
def properGridSize : GridArg → Except PyErr (List Nat)
  | .vec l => l.mapM fftFactor
  | .scalar n => [n, n, n].mapM fftFactor
  | .other => .error .typeError

end Jrystal
