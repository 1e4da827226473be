import Verif.Spec.Run
import Verif.Model.RunNC

/- Specification vocabulary for the inputs that a calculation accepts (C119). -/
namespace Jrystal

/-- Consistent input of a calculation, in terms of the settings: `size` and `ksize` are the requested sizes of the FFT grid
and of the k mesh, `ne` the number of electrons, `spin` the number of unpaired ones.  `enough w b` says when `w` plane waves
are enough for `b` bands. -/
structure Spec.Consistent (enough : ℕ → ℕ → Prop) (L : RunLib) (cfg : RunConfig) {m : ℕ} (a : AseAtoms m)
    (size ksize : Fin 3 → ℤ) (ne spin : ℤ) : Prop where
  sizes : Spec.SizesOk cfg.gridSizes size
  ksizes : Spec.SizesOk cfg.kGridSizes ksize
  electrons : ne = ∑ i, a.numbers i
  /-- the requested spin, or the least one -/
  unpaired : spin = cfg.spin.getD (ne % 2)
  parity : ne % 2 = spin % 2
  method : cfg.maskMethod = "cubic" ∨ cfg.maskMethod = "spherical"
  occupation : cfg.occupation = "uniform" ∨ cfg.occupation = "gamma" ∨ cfg.occupation = "simplex-projector" ∨
    cfg.occupation = "idempotent" ∧ 0 ≤ ne + spin
  waves : ∀ n, Spec.LeastGrid size n →
    ∀ mask, createFreqMask cfg ((angstrom2bohr : ℝ) • a.cell) n = .ok mask →
      enough (Fintype.card {k // mask k = true}) ((ne.toNat + 1) / 2 + cfg.emptyBands)
  ewald : 0 < cfg.ewaldCutoff
  /-- the devices in use can share the k points evenly -/
  devices : ∀ kn, Spec.LeastGrid ksize kn → (if cfg.parallelK then L.devices else 1) ∣ kn 0 * kn 1 * kn 2
  optimizer : ∃ opt, L.optimizer = .ok opt
  epochs : 0 < cfg.epoch
  /-- the optimiser needs nothing but the gradient and its own state -/
  noFault : L.updateFault = none

/-- Consistent input of a norm-conserving calculation: as above, with the data `P` of the pseudopotential files and `ne`
valence electrons.  The spin is that of all electrons, the core included. -/
structure Spec.ConsistentNC (enough : ℕ → ℕ → Prop) (L : NcLib) (cfg : NcConfig) {m : ℕ} (a : AseAtoms m)
    (size ksize : Fin 3 → ℤ) (P : NcLists) (ne spin : ℤ) : Prop where
  atoms : 0 < m
  sizes : Spec.SizesOk cfg.gridSizes size
  ksizes : Spec.SizesOk cfg.kGridSizes ksize
  /-- every element has a readable pseudopotential file -/
  loaded : createPseudo L cfg (List.ofFn fun i => L.symbol (a.numbers i)) = .ok P
  electrons : ne = P.valence.sum
  /-- the requested spin, or the least one -/
  unpaired : spin = cfg.spin.getD ((∑ i, a.numbers i) % 2)
  parity : (∑ i, a.numbers i) % 2 = spin % 2
  method : cfg.maskMethod = "cubic" ∨ cfg.maskMethod = "spherical"
  /-- variable occupations need a number of bands that the devices can share evenly; the idempotent method is not
  available -/
  occupation : cfg.occupation = "uniform" ∨ cfg.occupation = "gamma" ∨ cfg.occupation = "simplex-projector" ∧
    (if cfg.parallelK then L.devices else 1) ∣ (ne.toNat + 1) / 2 + cfg.emptyBands
  waves : ∀ n, Spec.LeastGrid size n →
    ∀ mask, createFreqMask cfg.toRunConfig ((angstrom2bohr : ℝ) • a.cell) n = .ok mask →
      enough (Fintype.card {k // mask k = true}) ((ne.toNat + 1) / 2 + cfg.emptyBands)
  ewald : 0 < cfg.ewaldCutoff
  /-- the devices in use can share the k points evenly -/
  devices : ∀ kn, Spec.LeastGrid ksize kn → (if cfg.parallelK then L.devices else 1) ∣ kn 0 * kn 1 * kn 2
  processors : 2 ≤ L.cpus
  optimizer : ∃ opt, L.optimizer = .ok opt
  epochs : 0 < cfg.epoch
  /-- the optimiser needs nothing but the gradient and its own state -/
  noFault : L.updateFault = none

end Jrystal
