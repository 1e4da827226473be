import Verif.Model.RunNC
import Verif.Spec.Run

/- Specification vocabulary for whole norm-conserving calculations (C86). -/
namespace Jrystal

/-- The norm-conserving calculations that can be carried out: `size` and `ksize` are the requested sizes of
the FFT grid and of the k mesh, `P` the data of the pseudopotential files, `ne` the number of valence
electrons, `spin` the number of unpaired ones. -/
structure Spec.AdmissibleRunNC (L : NcLib) (cfg : NcConfig) {m : ℕ} (a : AseAtoms m) (size ksize : Fin 3 → ℤ)
    (P : NcLists) (ne spin : ℤ) : Prop where
  atoms : 0 < m
  /-- the cell vectors span the space -/
  cell : a.cell.det ≠ 0
  sizes : Spec.SizesOk cfg.gridSizes size
  ksizes : Spec.SizesOk cfg.kGridSizes ksize
  /-- every element has a readable pseudopotential file -/
  loaded : createPseudo L cfg (List.ofFn fun i => L.symbol (a.numbers i)) = .ok P
  /-- with at least one point of positive radius -/
  mesh : ∀ r ∈ P.rGrid, r ≠ []
  electrons : ne = P.valence.sum
  /-- the requested spin, or the least one for all electrons, the core included -/
  unpaired : spin = cfg.spin.getD ((∑ i, a.numbers i) % 2)
  /-- the spin is possible for all electrons, the core included -/
  parity : (∑ i, a.numbers i) % 2 = spin % 2
  /-- the valence electrons fit into the bands -/
  placeable : Spec.Placeable cfg.occupation ne spin cfg.emptyBands
  /-- fixed occupations are available for spin-restricted calculations only; variable ones need a number of
  bands that the devices can share evenly -/
  occupation : (cfg.restricted = true ∧ (cfg.occupation = "uniform" ∨ cfg.occupation = "gamma")) ∨
    (cfg.occupation = "simplex-projector" ∧
      (if cfg.parallelK then L.devices else 1) ∣ (ne.toNat + 1) / 2 + cfg.emptyBands)
  method : cfg.maskMethod = "cubic" ∨ cfg.maskMethod = "spherical"
  /-- the mask selects at least one plane wave for each band -/
  waves : ∀ n, Spec.LeastGrid size n →
    ∀ mask, createFreqMask cfg.toRunConfig ((angstrom2bohr : ℝ) • a.cell) n = .ok mask →
      (ne.toNat + 1) / 2 + cfg.emptyBands ≤ Fintype.card {k // mask k = true}
  ewald : 0 < cfg.ewaldCutoff
  /-- the devices in use can share the k points evenly -/
  devices : ∀ kn, Spec.LeastGrid ksize kn → (if cfg.parallelK then L.devices else 1) ∣ kn 0 * kn 1 * kn 2
  processors : 2 ≤ L.cpus
  /-- there is an optimiser, and it keeps the kind and shape of the occupation parameters -/
  optimizer : ∃ opt, L.optimizer = .ok opt ∧ ∀ {ns nk g nb : ℕ} (f : GsParams ns nk g nb → Except PyErr ℝ)
    (p : GsParams ns nk g nb × opt.State), Spec.KeepsShape p.1.occ (opt.step f p).1.occ
  epochs : 0 < cfg.epoch
  /-- the optimiser needs nothing but the gradient and its own state -/
  noFault : L.updateFault = none := by rfl

end Jrystal
