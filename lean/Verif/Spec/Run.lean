import Verif.Model.Run
import Verif.Spec.Driver
import Verif.Spec.FftSize

/- Specification vocabulary for whole calculations (C79). -/
namespace Jrystal

/-- The sizes a configuration may ask for: three numbers, or one number for all axes, none above 2048. -/
def Spec.SizesOk (g : GridArg) (size : Fin 3 → ℤ) : Prop :=
  (g = .vec [size 0, size 1, size 2] ∨ g = .scalar (size 0) ∧ size 1 = size 0 ∧ size 2 = size 0) ∧
  ∀ i, size i ≤ 2048

/-- The grid that the program makes for requested sizes: on every axis the least product of powers of
2, 3, 5 and 7 that holds the request. -/
def Spec.LeastGrid (size : Fin 3 → ℤ) (n : Fin 3 → ℕ) : Prop :=
  ∀ i, Spec.LeastAtLeast Spec.Smooth7 (size i) (n i)

/-- The calculations that can be carried out: `size` and `ksize` are the requested sizes of the FFT grid and
of the k mesh, `ne` the number of electrons, `spin` the number of unpaired ones. -/
structure Spec.AdmissibleRun (L : RunLib) (cfg : RunConfig) {m : ℕ} (a : AseAtoms m) (size ksize : Fin 3 → ℤ)
    (ne spin : ℤ) : Prop where
  /-- the cell vectors span the space -/
  cell : a.cell.det ≠ 0
  sizes : Spec.SizesOk cfg.gridSizes size
  ksizes : Spec.SizesOk cfg.kGridSizes ksize
  electrons : ne = ∑ i, a.numbers i
  /-- the requested spin, or the least one -/
  unpaired : spin = cfg.spin.getD (ne % 2)
  placeable : Spec.Placeable cfg.occupation ne spin cfg.emptyBands
  method : cfg.maskMethod = "cubic" ∨ cfg.maskMethod = "spherical"
  /-- the mask selects at least one plane wave for each band -/
  waves : ∀ n, Spec.LeastGrid size n →
    ∀ mask, createFreqMask cfg ((angstrom2bohr : ℝ) • a.cell) n = .ok mask →
      (ne.toNat + 1) / 2 + cfg.emptyBands ≤ Fintype.card {k // mask k = true}
  ewald : 0 < cfg.ewaldCutoff
  /-- the devices in use can share the k points evenly -/
  devices : ∀ kn, Spec.LeastGrid ksize kn → (if cfg.parallelK then L.devices else 1) ∣ kn 0 * kn 1 * kn 2
  /-- there is an optimiser, and it keeps the kind and shape of the occupation parameters -/
  optimizer : ∃ opt, L.optimizer = .ok opt ∧ ∀ {ns nk g nb : ℕ} (f : GsParams ns nk g nb → Except PyErr ℝ)
    (p : GsParams ns nk g nb × opt.State), Spec.KeepsShape p.1.occ (opt.step f p).1.occ
  epochs : 0 < cfg.epoch
  /-- the optimiser needs nothing but the gradient and its own state -/
  noFault : L.updateFault = none := by rfl

end Jrystal
