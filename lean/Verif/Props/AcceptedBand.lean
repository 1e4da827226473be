import Verif.Spec.AcceptedBand
import Verif.Props.AcceptedNC
import Verif.Props.BandRun
import Verif.Props.BandRunNC

/- C120: which inputs a band-structure calculation accepts, and the shape of what it saves. -/
namespace Jrystal
open scoped BigOperators ComplexConjugate
open Matrix RunSetup

private theorem crystal_of {m : ℕ} {a : AseAtoms m} {spin : Option ℤ} {c : Crystal m} (h : createCrystal a spin = .ok c) :
    c = Crystal.fromAse a spin := by
  unfold createCrystal at h
  simp only at h
  cases hq : checkSpinNumber (Crystal.fromAse a spin).numElectron (Crystal.fromAse a spin).spin with
  | error e => rw [hq] at h; cases h
  | ok u => rw [hq] at h; exact (Except.ok.inj h).symm

private theorem bandCalc_iff {na d ns nb : ℕ} {n : Fin 3 → ℕ} {O : Type*} (E : BandEnv na d n)
    (N num devices : ℕ) (parallel : Bool) (hns : 0 < ns)
    (upd : (Fin 3 → ℝ) → PwParams ns 1 (maskCount E.mask) nb × O → PwParams ns 1 (maskCount E.mask) nb × O)
    (epoch fineEpoch : ℕ) (p0 : PwParams ns 1 (maskCount E.mask) nb × O) (path : ℕ → Fin 3 → ℝ) :
    (∃ r, bandCalc E N num devices parallel upd epoch fineEpoch p0 path = .ok r) ↔
      devices ∣ N ∧ (parallel = true ∨ devices ≤ 1) ∧ N * min (maskCount E.mask) nb = num * nb := by
  unfold bandCalc bandAllElectrons
  simp only
  have hm : N * ns * min (maskCount E.mask) nb = num * ns * nb ↔ N * min (maskCount E.mask) nb = num * nb := by
    rw [mul_right_comm, mul_right_comm num]
    exact Nat.mul_left_inj hns.ne'
  have hu : ¬ (if parallel = true then devices else 1) < devices ↔ parallel = true ∨ devices ≤ 1 := by
    cases parallel <;> simp
  rw [← hu, ← hm, Nat.dvd_iff_mod_eq_zero]
  by_cases h1 : N % devices ≠ 0
  · rw [if_pos h1]
    exact ⟨fun ⟨_, h⟩ => (by cases h), fun h => absurd h.1 h1⟩
  rw [if_neg h1]
  by_cases h2 : (if parallel = true then devices else 1) < devices
  · rw [if_pos h2]
    exact ⟨fun ⟨_, h⟩ => (by cases h), fun h => absurd h2 h.2.1⟩
  rw [if_neg h2]
  by_cases h3 : N * ns * min (maskCount E.mask) nb ≠ num * ns * nb
  · rw [if_pos h3]
    exact ⟨fun ⟨_, h⟩ => (by cases h), fun h => absurd h.2.2 h3⟩
  rw [if_neg h3]
  exact ⟨fun _ => ⟨not_not.1 h1, h2, not_not.1 h3⟩, fun _ => ⟨_, rfl⟩⟩

/-- What a saved file tells of the calculation. -/
private theorem bandAtoms_inv (L : RunLib) (T : BandTools) (cfg : RunConfig) (b : BandConfig) {m : ℕ} (a : AseAtoms m)
    {f : BandFile} (h : bandAtoms L T cfg b a = .ok f) :
    ∃ (n kn : Fin 3 → ℕ) (rep : GsReport EnergyParts n) (mask : Idx n → Bool) (q : ℕ) (frac : Matrix (Fin q) (Fin 3) ℝ)
      (num : ℕ) (opt : BandOptimizer) (r : ℕ → ℕ → ℕ → ℝ),
      createCrystal a cfg.spin = .ok (Crystal.fromAse a cfg.spin) ∧ runSizes cfg = .ok (n, kn) ∧
      createFreqMask cfg ((angstrom2bohr : ℝ) • a.cell) n = .ok mask ∧
      T.bandpath (((bohr2angstrom : ℚ) : ℝ) • (angstrom2bohr : ℝ) • a.cell) b.kPath (some num) = .ok ⟨q, frac⟩ ∧
      runGrid L cfg (Crystal.fromAse a cfg.spin) n kn = .ok rep ∧ T.optimizer = .ok opt ∧ b.numKpoints = some num ∧
      (let E := bandRunEnv L T cfg (Crystal.fromAse a cfg.spin) n mask rep.density.2
       let p0 := L.pwDraw (if cfg.restricted then 1 else 2) 1 (maskCount E.mask)
        (driverBands (Crystal.fromAse a cfg.spin).numElectron.toNat b.emptyBands)
       bandCalc E q num L.devices b.parallelPath (bandUpdate opt E) b.epoch b.fineEpoch
        (p0, opt.init p0) (pathAt fun i => getKPath (fun _ => frac) (Crystal.fromAse a cfg.spin).cell false i) = .ok r) ∧
      f = ⟨String.join (List.ofFn fun i => T.symbol ((Crystal.fromAse a cfg.spin).charges i)) ++ "_band_structure.npy",
        if cfg.restricted then 1 else 2, num, driverBands (Crystal.fromAse a cfg.spin).numElectron.toNat b.emptyBands,
        fun s k j => r s k j⟩ := by
  unfold bandAtoms at h
  cases hc : createCrystal a cfg.spin with
  | error e => rw [hc] at h; cases h
  | ok c =>
    obtain rfl := crystal_of hc
    rw [hc] at h
    simp only at h
    unfold bandCrystal at h
    cases hs : runSizes cfg with
    | error e => rw [hs] at h; cases h
    | ok nn =>
      obtain ⟨n, kn⟩ := nn
      rw [hs] at h
      simp only at h
      cases hm : createFreqMask cfg (Crystal.fromAse a cfg.spin).cell n with
      | error e => rw [hm] at h; cases h
      | ok mask =>
        rw [hm] at h
        simp only at h
        unfold bandPoints at h
        cases hbp : T.bandpath (((bohr2angstrom : ℚ) : ℝ) • (Crystal.fromAse a cfg.spin).cell) b.kPath
            b.numKpoints with
        | error e => rw [hbp] at h; cases h
        | ok qf =>
          obtain ⟨q, frac⟩ := qf
          rw [hbp] at h
          simp only at h
          unfold bandGrid at h
          cases hr : runGrid L cfg (Crystal.fromAse a cfg.spin) n kn with
          | error e => rw [hr] at h; cases h
          | ok rep =>
            rw [hr] at h
            simp only at h
            cases ho : T.optimizer with
            | error e => rw [ho] at h; cases h
            | ok opt =>
              rw [ho] at h
              simp only at h
              generalize hbc : bandCalc _ _ _ _ _ _ _ _ _ _ = bc at h
              cases bc with
              | error e => cases h
              | ok r =>
                simp only at h
                cases hnk : b.numKpoints with
                | none => rw [hnk] at h; cases h
                | some num =>
                  rw [hnk] at hbc hbp h
                  simp only [Option.getD_some] at hbc
                  exact ⟨n, kn, rep, mask, q, frac, num, opt, r, rfl, rfl, hm, hbp, hr, rfl, rfl, hbc,
                    (Except.ok.inj h).symm⟩

/-- C120: which input an all-electron band-structure calculation accepts, exactly and without any assumption: that of
a ground-state calculation which returns (`run_accepted`), with the number of k points given, a path, devices that are all in use
and share its points, and an array of the right size for the file.  The right size is a matter of numbers only: the
points of the path times the orbitals there are, for the points times the bands asked for. -/
theorem bandRun_accepted (L : RunLib) (T : BandTools) (cfg : RunConfig) (b : BandConfig) {m : ℕ} (a : AseAtoms m) :
    (∃ f, bandAtoms L T cfg b a = .ok f) ↔ (∃ r, runAtoms L cfg a = .ok r) ∧
      ∃ size q, Spec.ConsistentBand L T cfg b a size q fun w num =>
        q * min w (((∑ i, a.numbers i).toNat + 1) / 2 + b.emptyBands) =
          num * (((∑ i, a.numbers i).toNat + 1) / 2 + b.emptyBands) := by
  have hns : 0 < if cfg.restricted then 1 else 2 := by split_ifs <;> omega
  constructor
  · rintro ⟨f, h⟩
    obtain ⟨hrun, -⟩ := bandRun_saved L T cfg b a f h
    refine ⟨hrun, ?_⟩
    obtain ⟨n, kn, rep, mask, q, frac, num, opt, r, hc, hs, hm, hbp, hr, ho, hnk, hbc, -⟩ := bandAtoms_inv L T cfg b a h
    obtain ⟨size, ksize, hg, hk⟩ := runSizes_ok hs
    obtain ⟨n', kn', hs', hn, -⟩ := run_sizes cfg size ksize hg hk
    rw [hs] at hs'
    obtain ⟨rfl, rfl⟩ := Prod.mk.inj (Except.ok.inj hs')
    obtain ⟨g1, g2, g3⟩ := (bandCalc_iff _ _ _ _ _ hns _ _ _ _ _).1 ⟨r, hbc⟩
    refine ⟨size, q, hg, ⟨num, frac, hnk, hbp, fun n1 hn1 mask1 hm1 => ?_⟩, g1, g2, opt, ho⟩
    obtain rfl := same_grid hn1 hn
    obtain rfl := Except.ok.inj (hm1.symm.trans hm)
    rw [← maskCount_card]
    exact g3
  · rintro ⟨⟨⟨n, rep⟩, hrun⟩, size, q, H⟩
    obtain ⟨num, frac, hnk, hbp, hfit⟩ := H.path
    obtain ⟨opt, hopt⟩ := H.optimizer
    obtain ⟨hc, kn, hs, hg⟩ := runAtoms_inv L cfg a hrun
    obtain ⟨size', ksize, hg', hk⟩ := runSizes_ok hs
    obtain ⟨n', kn', hs', hn, -⟩ := run_sizes cfg size ksize H.sizes hk
    rw [hs] at hs'
    obtain ⟨rfl, rfl⟩ := Prod.mk.inj (Except.ok.inj hs')
    obtain ⟨mask, hm⟩ : ∃ mask, createFreqMask cfg (Crystal.fromAse a cfg.spin).cell n = .ok mask := by
      unfold runGrid at hg
      cases hm : createFreqMask cfg (Crystal.fromAse a cfg.spin).cell n with
      | error e => rw [hm] at hg; cases hg
      | ok mask => exact ⟨mask, rfl⟩
    have hbp' : T.bandpath (((bohr2angstrom : ℚ) : ℝ) • (Crystal.fromAse a cfg.spin).cell) b.kPath (some num)
      = .ok ⟨q, frac⟩ := hbp
    have hf := hfit n hn mask hm
    rw [← maskCount_card] at hf
    unfold bandAtoms bandCrystal bandPoints
    simp only [hc, hs, hm, hnk, hbp']
    unfold bandGrid
    simp only [hg, hopt, hnk, Option.getD_some]
    obtain ⟨r, hr⟩ := (bandCalc_iff (bandRunEnv L T cfg (Crystal.fromAse a cfg.spin) n mask rep.density.2) q num L.devices
      b.parallelPath hns (nb := driverBands (Crystal.fromAse a cfg.spin).numElectron.toNat b.emptyBands)
      (bandUpdate opt (bandRunEnv L T cfg (Crystal.fromAse a cfg.spin) n mask rep.density.2)) b.epoch b.fineEpoch
      (L.pwDraw (if cfg.restricted then 1 else 2) 1
        (maskCount (bandRunEnv L T cfg (Crystal.fromAse a cfg.spin) n mask rep.density.2).mask)
        (driverBands (Crystal.fromAse a cfg.spin).numElectron.toNat b.emptyBands), opt.init (L.pwDraw (if cfg.restricted then 1 else 2) 1
        (maskCount (bandRunEnv L T cfg (Crystal.fromAse a cfg.spin) n mask rep.density.2).mask)
        (driverBands (Crystal.fromAse a cfg.spin).numElectron.toNat b.emptyBands)))
      (pathAt fun i => getKPath (fun _ => frac) (Crystal.fromAse a cfg.spin).cell false i)).2 ⟨H.share, H.parallel, hf⟩
    simp only [hr]
    exact ⟨_, rfl⟩

/-- C120: with a plane wave for each band, a file is saved exactly if the path of ase has the requested number of points and the
other settings are consistent.  Missing: with fewer plane waves the sizes can agree by chance (`bandRun_mixed`). -/
theorem bandRun_refuses_partial (L : RunLib) (T : BandTools) (cfg : RunConfig) (b : BandConfig) {m : ℕ} (a : AseAtoms m)
    (hb : 0 < ((∑ i, a.numbers i).toNat + 1) / 2 + b.emptyBands)
    (hw : ∀ size n, Spec.SizesOk cfg.gridSizes size → Spec.LeastGrid size n →
      ∀ mask, createFreqMask cfg ((angstrom2bohr : ℝ) • a.cell) n = .ok mask →
        ((∑ i, a.numbers i).toNat + 1) / 2 + b.emptyBands ≤ Fintype.card {k // mask k = true}) :
    (∃ f, bandAtoms L T cfg b a = .ok f) ↔ (∃ r, runAtoms L cfg a = .ok r) ∧
      ∃ size q, Spec.ConsistentBand L T cfg b a size q fun _ num => q = num := by
  rw [bandRun_accepted]
  refine and_congr_right fun hr => exists_congr fun size => exists_congr fun q => ⟨fun H => ?_, fun H => ?_⟩
  · obtain ⟨num, frac, h1, h2, h3⟩ := H.path
    refine { H with path := ⟨num, frac, h1, h2, fun n hn mask hm => ?_⟩ }
    have := h3 n hn mask hm
    rw [min_eq_right (hw size n H.sizes hn mask hm)] at this
    exact Nat.eq_of_mul_eq_mul_right hb this
  · obtain ⟨num, frac, h1, h2, h3⟩ := H.path
    refine { H with path := ⟨num, frac, h1, h2, fun n hn mask hm => ?_⟩ }
    rw [min_eq_right (hw size n H.sizes hn mask hm), h3 n hn mask hm]

/-- C120 fails with fewer plane waves than bands: if a file is saved, the path has more points than the file, and the energies of
different points are mixed.  The entry for spin `s`, point `i` and band `j` is the exact energy number `l / q / spins` at the point
`l % q` of the path, where `l = i + kpts * (s + spins * j)`. -/
theorem bandRun_mixed (L : RunLib) (T : BandTools) (cfg : RunConfig) (b : BandConfig) {m : ℕ} (a : AseAtoms m)
    (hcell : a.cell.det ≠ 0) (f : BandFile) (h : bandAtoms L T cfg b a = .ok f)
    (A : Matrix (Fin 3) (Fin 3) ℝ) (hA : A = (angstrom2bohr : ℝ) • a.cell)
    (pos : Fin m → Fin 3 → ℝ) (hpos : ∀ i d, pos i d = angstrom2bohr * a.positions i d)
    (z : Fin m → ℝ) (hz : ∀ i, z i = a.numbers i)
    {n : Fin 3 → ℕ} {rep : GsReport EnergyParts n} (hrun : runAtoms L cfg a = .ok ⟨n, rep⟩)
    {mask : Idx n → Bool} (hmask : createFreqMask cfg A n = .ok mask) (hfew : maskCount mask < f.bands) (hk : 0 < f.kpts) :
    ∃ q frac, T.bandpath (((bohr2angstrom : ℚ) : ℝ) • A) b.kPath (some f.kpts) = .ok ⟨q, frac⟩ ∧ f.kpts < q ∧
      q * maskCount mask = f.kpts * f.bands ∧
      ∀ k, Spec.HasCoordinates A frac k → ∀ V, Spec.KohnShamPotential L.xc cfg.xc pos z (gVectors A n) |A.det| rep.density.2 V →
        ∀ (s : Fin f.spins) (i : Fin f.kpts) (j : Fin f.bands) l, l = (i : ℕ) + f.kpts * (s + f.spins * j) → ∀ (hl : l % q < q) lam,
          Spec.IsSpectrum (∑ σ, Spec.planeWaveHamiltonian (fun w => gVectors A n (maskPos mask w)) (rVectors A n) (V σ)
            (k ⟨l % q, hl⟩)) lam →
          ∃ h : l / q / f.spins < maskCount mask, f.values s i j = lam ⟨l / q / f.spins, h⟩ := by
  have hns : 0 < if cfg.restricted then 1 else 2 := by split_ifs <;> omega
  obtain ⟨n', kn, rep', mask', q, frac, num, opt, r, hc, hs, hm, hbp, hr, ho, hnk, hbc, rfl⟩ := bandAtoms_inv L T cfg b a h
  obtain ⟨-, kn', hs', hg⟩ := runAtoms_inv L cfg a hrun
  rw [hs] at hs'
  obtain ⟨rfl, rfl⟩ := Prod.mk.inj (Except.ok.inj hs')
  rw [hr] at hg
  obtain rfl := Except.ok.inj hg
  subst hA
  obtain rfl := Except.ok.inj (hm.symm.trans hmask)
  obtain rfl : pos = fun i d => (angstrom2bohr : ℝ) * a.positions i d := funext fun i => funext fun d => hpos i d
  obtain rfl : z = fun i => (a.numbers i : ℝ) := funext hz
  have hdet := fromAse_det a cfg.spin hcell
  obtain ⟨g1, g2, g3⟩ := (bandCalc_iff _ _ _ _ _ hns _ _ _ _ _).1 ⟨r, hbc⟩
  have hfew' : maskCount mask' < driverBands (Crystal.fromAse a cfg.spin).numElectron.toNat b.emptyBands := hfew
  have g3' : q * maskCount mask' = num * driverBands (Crystal.fromAse a cfg.spin).numElectron.toNat b.emptyBands := by
    rw [← g3]
    congr 1
    exact (min_eq_left hfew'.le).symm
  refine ⟨q, frac, hbp, ?_, g3', ?_⟩
  · by_contra hle
    have h1 : q * maskCount mask' ≤ num * maskCount mask' := Nat.mul_le_mul_right _ (not_lt.1 hle)
    have h2 : num * maskCount mask' < num * driverBands (Crystal.fromAse a cfg.spin).numElectron.toNat b.emptyBands :=
      Nat.mul_lt_mul_of_pos_left hfew' hk
    omega
  · intro k hkc V hV s i j l hl hlq lam hlam
    obtain rfl : V = fun σ x => (hartreeRealSpace rep'.density.2 (gVectors ((angstrom2bohr : ℝ) • a.cell) n') true x
      + externalPotential (fun i d => (angstrom2bohr : ℝ) * a.positions i d) (fun i => (a.numbers i : ℝ))
        (gVectors ((angstrom2bohr : ℝ) • a.cell) n') |((angstrom2bohr : ℝ) • a.cell).det| x
      + vxcDensity L.xc cfg.xc (gVectors ((angstrom2bohr : ℝ) • a.cell) n') rep'.density.2 σ x).re :=
      funext fun σ => funext fun x => hV σ x
    obtain ⟨r', e1, e2⟩ := bandCalc_mixed (bandRunEnv L T cfg (Crystal.fromAse a cfg.spin) n' mask' rep'.density.2)
      ((angstrom2bohr : ℝ) • a.cell) hdet rfl (vol_pos (Crystal.fromAse a cfg.spin) hdet) _ (fun _ _ => rfl) hfew'.le q num L.devices
      b.parallelPath g2 (Nat.mod_eq_zero_of_dvd g1) g3' (bandUpdate opt _) b.epoch b.fineEpoch
      (L.pwDraw (if cfg.restricted then 1 else 2) 1 (maskCount mask') _, opt.init (L.pwDraw (if cfg.restricted then 1 else 2) 1
        (maskCount mask') _))
      (pathAt fun i => getKPath (fun _ => frac) (Crystal.fromAse a cfg.spin).cell false i)
    obtain rfl := Except.ok.inj (e1.symm.trans hbc)
    refine e2 s s.2 i i.2 j j.2 l hl lam ?_
    have hp : pathAt (fun i => getKPath (fun _ => frac) (Crystal.fromAse a cfg.spin).cell false i) (l % q) = k ⟨l % q, hlq⟩ := by
      unfold pathAt
      rw [dif_pos hlq]
      exact congrFun (coordinates_eq hdet hkc) _
    rw [hp]
    exact hlam

/-! ### Norm-conserving calculations -/

/-- C120, norm-conserving calculations: which input is accepted, exactly: that of a ground-state calculation which returns
(`ncRun_accepted`), with a path whose points the devices in use share and no ground state supplied.  The file has a row for
every point of the path and channel of the density, whatever number of points was asked for, and one column for each band or
plane wave, whichever are fewer. -/
theorem bandRunNC_accepted (L : NcLib) (T : BandTools) (cfg : NcConfig) (b : BandConfig) (supplied : Bool) {m : ℕ}
    (a : AseAtoms m) (hcell : a.cell.det ≠ 0)
    (hmesh : ∀ P, createPseudo L cfg (List.ofFn fun i => L.symbol (a.numbers i)) = .ok P → ∀ r ∈ P.rGrid, r ≠ []) :
    ((∃ f, bandAtomsNC L T cfg b supplied a = .ok f) ↔ supplied = false ∧ (∃ r, runAtomsNC L cfg a = .ok r) ∧
      ∃ q, Spec.ConsistentBandNC L T b a q) ∧
    ∀ f, bandAtomsNC L T cfg b supplied a = .ok f → ∀ n rep, runAtomsNC L cfg a = .ok ⟨n, rep⟩ →
      ∀ P, createPseudo L cfg (List.ofFn fun i => L.symbol (a.numbers i)) = .ok P →
      ∀ q, Spec.ConsistentBandNC L T b a q →
      ∀ mask, createFreqMask cfg.toRunConfig ((angstrom2bohr : ℝ) • a.cell) n = .ok mask →
        f.rows = q * rep.density.1 ∧
        f.bands = min (Fintype.card {k // mask k = true}) ((P.valence.sum.toNat + 1) / 2 + b.emptyBands) := by
  have hdet := fromAse_det a cfg.spin hcell
  have key : ∀ n rep, runAtomsNC L cfg a = .ok ⟨n, rep⟩ → ∀ q, Spec.ConsistentBandNC L T b a q →
      ∃ f, bandAtomsNC L T cfg b false a = .ok f ∧ f.rows = q * rep.density.1 ∧
        ∀ P, createPseudo L cfg (List.ofFn fun i => L.symbol (a.numbers i)) = .ok P →
        ∀ mask, createFreqMask cfg.toRunConfig ((angstrom2bohr : ℝ) • a.cell) n = .ok mask →
          f.bands = min (Fintype.card {k // mask k = true}) ((P.valence.sum.toNat + 1) / 2 + b.emptyBands) := by
    intro n rep hrun q H
    obtain ⟨frac, hbp⟩ := H.path
    obtain ⟨opt, hopt⟩ := H.optimizer
    obtain ⟨hc, P, kn, hP, hs, hg⟩ := runAtomsNC_inv L cfg a hrun
    have hbp' : T.bandpath (((bohr2angstrom : ℚ) : ℝ) • (Crystal.fromAse a cfg.spin).cell) b.kPath b.numKpoints
      = .ok ⟨q, frac⟩ := hbp
    have hg0 := hg
    unfold runGridNC at hg
    cases hm : createFreqMask cfg.toRunConfig (Crystal.fromAse a cfg.spin).cell n with
    | error e => rw [hm] at hg; cases hg
    | ok mask =>
      rw [hm] at hg
      dsimp only at hg
      cases hrp : runRepulsion L.erfc cfg.toRunConfig (Crystal.fromAse a cfg.spin) n with
      | error e => rw [hrp] at hg; cases hg
      | ok ew =>
        rw [hrp] at hg
        dsimp only at hg
        cases hv : localReciprocal L.jn L.csLoc (ncLocalAtom P (Crystal.fromAse a cfg.spin).positions)
            (gVectors (Crystal.fromAse a cfg.spin).cell n) (Crystal.fromAse a cfg.spin).vol "sbt" with
        | error e => rw [hv] at hg; cases hg
        | ok vloc =>
          rw [hv] at hg
          dsimp only at hg
          have hcpu : 2 ≤ L.cpus := by
            by_contra hcpu
            by_cases hd : (idxList kn).length % (if cfg.parallelK then L.devices else 1) ≠ 0
            · rw [if_pos hd] at hg
              cases hg
            · rw [if_neg hd] at hg
              unfold ncBetas at hg
              rw [if_pos (by omega)] at hg
              cases hg
          obtain ⟨bs, hbs⟩ := ncBetas_ok L cfg _ P hP (hmesh P hP) hcpu (gVectors (Crystal.fromAse a cfg.spin).cell n)
            (fun i => getKPath (fun _ => frac) (Crystal.fromAse a cfg.spin).cell false i)
          unfold bandAtomsNC bandCrystalNC bandPoints
          simp only [hc, hP, hs, hm, hbp']
          unfold bandGridNC
          simp only [hv, hbs, hg0, Bool.false_eq_true, if_false]
          unfold bandLoopNC
          simp only [hopt]
          rw [if_neg (not_not.2 (Nat.mod_eq_zero_of_dvd H.share))]
          obtain ⟨e', h1, -⟩ := bandEigNC_channels (bandRunEnvNC L T cfg (Crystal.fromAse a cfg.spin) n mask
            rep.density.2 vloc (fun a : Fin m => ncSpecies P bs a)) (Crystal.fromAse a cfg.spin).cell hdet rfl
            (vol_pos (Crystal.fromAse a cfg.spin) hdet) _ (fun _ _ => rfl)
            (L.pwDraw 1 1 (maskCount mask) (driverBands P.valence.sum.toNat b.emptyBands))
            (pathAt (fun i => getKPath (fun _ => frac) (Crystal.fromAse a cfg.spin).cell false i) 0,
              pathAt (fun j (a : Fin m) => (ncSpecies P bs a).beta j) 0)
          have h1' := h1
          simp only [bandRunEnvNC] at h1' ⊢
          rw [h1']
          simp only
          unfold bandCalcNC bandNormcons
          simp only
          rw [if_neg (not_not.2 (Nat.mod_eq_zero_of_dvd H.share))]
          refine ⟨_, rfl, rfl, fun P' hP' mask' hm' => ?_⟩
          obtain rfl := Except.ok.inj hP'
          obtain rfl := Except.ok.inj (hm'.symm.trans hm)
          rw [← maskCount_card]
          rfl
  constructor
  · constructor
    · rintro ⟨f, h⟩
      obtain ⟨h1, h2, n, rep, P, q, frac, h3, -, h4, h5, -⟩ := bandRunNC_saved L T cfg b supplied a hcell f h
      exact ⟨h1, ⟨_, h3⟩, q, ⟨frac, h4⟩, h5, h2⟩
    · rintro ⟨rfl, ⟨⟨n, rep⟩, hrun⟩, q, H⟩
      obtain ⟨f, h, -⟩ := key n rep hrun q H
      exact ⟨f, h⟩
  · intro f h n rep hrun P hP q H mask hm
    obtain ⟨rfl, -⟩ := bandRunNC_saved L T cfg b supplied a hcell f h
    obtain ⟨f', h', h1, h2⟩ := key n rep hrun q H
    obtain rfl := Except.ok.inj (h.symm.trans h')
    exact ⟨h1, h2 P hP mask hm⟩

/-- C120 fails for norm-conserving calculations that ask for more bands than there are plane waves: a file with fewer bands is
saved, without an error. -/
theorem bandRunNC_fewer (L : NcLib) (T : BandTools) (cfg : NcConfig) (b : BandConfig) {m : ℕ}
    (a : AseAtoms m) (hcell : a.cell.det ≠ 0) (P : NcLists)
    (hP : createPseudo L cfg (List.ofFn fun i => L.symbol (a.numbers i)) = .ok P) (hmesh : ∀ r ∈ P.rGrid, r ≠ [])
    {n : Fin 3 → ℕ} {rep : GsReport (EnergyParts × ℝ) n} (hrun : runAtomsNC L cfg a = .ok ⟨n, rep⟩)
    {q : ℕ} (H : Spec.ConsistentBandNC L T b a q)
    {mask : Idx n → Bool} (hmask : createFreqMask cfg.toRunConfig ((angstrom2bohr : ℝ) • a.cell) n = .ok mask)
    (hfew : Fintype.card {k // mask k = true} < (P.valence.sum.toNat + 1) / 2 + b.emptyBands) :
    ∃ f, bandAtomsNC L T cfg b false a = .ok f ∧ f.bands < (P.valence.sum.toNat + 1) / 2 + b.emptyBands := by
  have hmesh' : ∀ P', createPseudo L cfg (List.ofFn fun i => L.symbol (a.numbers i)) = .ok P' → ∀ r ∈ P'.rGrid, r ≠ [] := by
    intro P' hP'
    obtain rfl := Except.ok.inj (hP.symm.trans hP')
    exact hmesh
  obtain ⟨h1, h2⟩ := bandRunNC_accepted L T cfg b false a hcell hmesh'
  obtain ⟨f, hf⟩ := h1.2 ⟨rfl, ⟨_, hrun⟩, q, H⟩
  refine ⟨f, hf, ?_⟩
  rw [(h2 f hf n rep hrun P hP q H mask hmask).2]
  omega

/-! ### Concrete cases -/

/-- Both sides of `bandRun_accepted` and of `bandRun_refuses_partial` occur: the lithium atom with sixteen points is accepted,
but not if ase returns twenty-four. -/
example (ε : ℝ) (xc : XcLib) :
    (∃ f, bandAtoms (lithiumLib xc) (lithiumTools ε) lithiumConfig lithiumBands (⟨fun _ => 3, 0, 1⟩ : AseAtoms 1) = .ok f) ∧
    ¬ ∃ f, bandAtoms (lithiumLib xc) { lithiumTools ε with bandpath := fun _ _ _ => .ok ⟨24, 0⟩ } lithiumConfig lithiumBands
      (⟨fun _ => 3, 0, 1⟩ : AseAtoms 1) = .ok f := by
  have key := fun T => bandRun_refuses_partial (lithiumLib xc) T lithiumConfig lithiumBands (⟨fun _ => 3, 0, 1⟩ : AseAtoms 1)
    (by decide) fun size n hs hn mask hm => by
    have h4 : ∀ i, size i = 4 := by
      rcases hs.1 with h | ⟨h, -, -⟩
      · have h : GridArg.vec [4, 4, 4] = .vec [size 0, size 1, size 2] := h
        simp only [GridArg.vec.injEq, List.cons.injEq, and_true] at h
        intro i
        fin_cases i
        · exact h.1.symm
        · exact h.2.1.symm
        · exact h.2.2.symm
      · cases h
    obtain rfl : n = fun _ => 4 := funext fun i => least_eq (k := 4) (by have := hn i; rwa [h4 i] at this) smooth4
    obtain rfl := Except.ok.inj (show Except.ok (cubicMask _) = Except.ok mask from hm)
    decide +kernel
  constructor
  · refine (key _).2 ⟨?_, fun _ => 4, 16, (lithium_consistent xc).sizes,
      ⟨16, _, rfl, rfl, fun _ _ _ _ => rfl⟩, ⟨2, rfl⟩, Or.inl rfl, _, rfl⟩
    exact (run_refuses_partial _ lithiumConfig _ (by simp) (by simp [lithiumConfig]) idle_keeps).1
      ⟨_, _, lithium_consistent xc⟩
  · intro h
    obtain ⟨-, size, q, H⟩ := (key _).1 h
    obtain ⟨num, frac, h1, h2, h3⟩ := H.path
    obtain ⟨n, -, -, hn, -⟩ := run_sizes lithiumConfig size (fun _ => 2) H.sizes (lithium_consistent xc).ksizes
    obtain rfl : q = num := h3 n hn (cubicMask n) rfl
    have h4 : 16 = q := Option.some.inj h1
    have h5 : 24 = q := (Sigma.mk.inj (Except.ok.inj h2)).1
    omega

/-- The hypotheses of `bandRun_mixed` hold for a lithium atom on a grid of one point, eight k points asked for and a path
through twenty-four. -/
example (ε : ℝ) (xc : XcLib) : ∃ f n rep mask,
    bandAtoms (lithiumLib xc) { lithiumTools ε with bandpath := fun _ _ _ => .ok ⟨24, fun i l => if l = 0 then (i : ℝ) / 48 else 0⟩ }
      { lithiumConfig with gridSizes := .scalar 1 } { lithiumBands with numKpoints := some 8 }
      (⟨fun _ => 3, 0, 1⟩ : AseAtoms 1) = .ok f ∧
    runAtoms (lithiumLib xc) { lithiumConfig with gridSizes := .scalar 1 } (⟨fun _ => 3, 0, 1⟩ : AseAtoms 1) = .ok ⟨n, rep⟩ ∧
    createFreqMask { lithiumConfig with gridSizes := .scalar 1 } ((angstrom2bohr : ℝ) • 1) n = .ok mask ∧
    maskCount mask < f.bands ∧ 0 < f.kpts := by
  have H := lithium_one_wave xc
  have hr : ∃ r, runAtoms (lithiumLib xc) { lithiumConfig with gridSizes := .scalar 1 } (⟨fun _ => 3, 0, 1⟩ : AseAtoms 1)
      = .ok r := (run_one_wave _ _ _ _ _ _ _ (by simp) (by simp [lithiumConfig]) idle_keeps H (by norm_num)).1
  obtain ⟨⟨n, rep⟩, hrun⟩ := hr
  obtain ⟨-, kn, hs, -⟩ := runAtoms_inv _ _ _ hrun
  obtain ⟨n', kn', hs', hn, -⟩ := run_sizes { lithiumConfig with gridSizes := .scalar 1 } (fun _ => 1) (fun _ => 2) H.sizes H.ksizes
  rw [hs] at hs'
  obtain ⟨rfl, rfl⟩ := Prod.mk.inj (Except.ok.inj hs')
  obtain ⟨f, hf⟩ := (bandRun_accepted (lithiumLib xc) { lithiumTools ε with
      bandpath := fun _ _ _ => .ok ⟨24, fun i l => if l = 0 then (i : ℝ) / 48 else 0⟩ }
      { lithiumConfig with gridSizes := .scalar 1 } { lithiumBands with numKpoints := some 8 }
      (⟨fun _ => 3, 0, 1⟩ : AseAtoms 1)).2 ⟨⟨_, hrun⟩, fun _ => 1, 24, H.sizes, ⟨8, _, rfl, rfl, fun n1 hn1 mask hm => by
        rw [H.waves n1 hn1 mask hm]
        decide⟩, ⟨3, rfl⟩, Or.inl rfl, _, rfl⟩
  refine ⟨f, n, rep, cubicMask n, hf, hrun, rfl, ?_, ?_⟩
  · obtain ⟨-, -, -, -, -, -, -, hb⟩ := bandRun_saved _ _ _ _ _ _ hf
    rw [hb, maskCount_card, H.waves n hn (cubicMask n) rfl]
    decide
  · obtain ⟨-, hk, -⟩ := bandRun_saved _ _ _ _ _ _ hf
    have : 8 = f.kpts := Option.some.inj hk
    omega

/-- Both sides of `bandRunNC_accepted` hold for the silicon pair, as do the hypotheses of `bandRunNC_fewer` with a hundred empty
bands on a grid of 64 points. -/
example (ε : ℝ) (xc : XcLib) (eigh : Eigh) (jn : SphBessel) (csLoc csBeta : Spline) :
    (∃ f, bandAtomsNC (siliconLib xc eigh jn csLoc csBeta) (lithiumTools ε) siliconConfig lithiumBands false siliconAtoms
      = .ok f) ∧
    ∃ f, bandAtomsNC (siliconLib xc eigh jn csLoc csBeta) (lithiumTools ε) siliconConfig { lithiumBands with emptyBands := 100 }
      false siliconAtoms = .ok f ∧ f.bands < 102 := by
  obtain ⟨P, H⟩ := silicon_admissible xc eigh jn csLoc csBeta
  obtain ⟨n, kn, rep, mask, vloc, bs, h1, h2, -⟩ :=
    ncRun_complete_partial _ _ _ _ _ _ _ _ H _ rfl _ (fun _ _ => rfl) _ (fun _ => rfl)
  have hb : Spec.ConsistentBandNC (siliconLib xc eigh jn csLoc csBeta) (lithiumTools ε) lithiumBands siliconAtoms 16 :=
    ⟨⟨_, rfl⟩, by show 8 ∣ 16; norm_num, _, rfl⟩
  have hmesh : ∀ P', createPseudo (siliconLib xc eigh jn csLoc csBeta) siliconConfig
      (List.ofFn fun i => (siliconLib xc eigh jn csLoc csBeta).symbol (siliconAtoms.numbers i)) = .ok P' →
      ∀ r ∈ P'.rGrid, r ≠ [] := by
    intro P' hP'
    obtain rfl := Except.ok.inj (H.loaded.symm.trans hP')
    exact H.mesh
  refine ⟨(bandRunNC_accepted _ _ _ _ _ _ H.cell hmesh).1.2 ⟨rfl, ⟨_, h1⟩, 16, hb⟩, ?_⟩
  have h4 : P.valence.sum = 4 := H.electrons.symm
  have hfew : Fintype.card {k // cubicMask n k = true} < (P.valence.sum.toNat + 1) / 2 + 100 := by
    obtain rfl : n = fun _ => 4 := funext fun i => least_eq (k := 4) (h2 i) smooth4
    rw [h4]
    decide +kernel
  obtain ⟨f, hf, hlt⟩ := bandRunNC_fewer _ (lithiumTools ε) siliconConfig { lithiumBands with emptyBands := 100 } siliconAtoms
    H.cell P H.loaded H.mesh h1 (q := 16) ⟨⟨_, rfl⟩, by show 8 ∣ 16; norm_num, _, rfl⟩ (mask := cubicMask n) rfl hfew
  refine ⟨f, hf, ?_⟩
  rw [h4] at hlt
  exact hlt

end Jrystal
