import Verif.Lemmas.BandSymmetry
import Verif.Props.Symmetry
import Verif.Props.BandRun

/- C92: a whole band-structure calculation does not depend on how the crystal is described. -/
namespace Jrystal
open scoped BigOperators ComplexConjugate
open Matrix

/-- What a band calculation uses of a ground-state calculation. -/
private def density? (r : Except PyErr (Σ n : Fin 3 → ℕ, GsReport EnergyParts n)) :
    Except PyErr (Σ n : Fin 3 → ℕ, Σ S : ℕ, Fin S → Idx n → ℝ) :=
  r.map fun x => ⟨x.1, x.2.density⟩

theorem createCrystal_eq {m : ℕ} (a : AseAtoms m) (spin : Option ℤ) :
    createCrystal a spin = match checkSpinNumber (Crystal.fromAse a spin).numElectron (Crystal.fromAse a spin).spin with
      | .error e => .error e
      | .ok _ => .ok (Crystal.fromAse a spin) := by
  unfold createCrystal
  rfl

/-- Two descriptions of a crystal give the same bands when they give the same mask, density, electrons,
fractional path and traces. -/
private theorem bandAtoms_congr (L : RunLib) (T : BandTools) (cfg : RunConfig) (b : BandConfig) {m m' : ℕ}
    (a : AseAtoms m) (a' : AseAtoms m') (c : Crystal m) (hc : Crystal.fromAse a cfg.spin = c)
    (c' : Crystal m') (hc' : Crystal.fromAse a' cfg.spin = c') (φ : (Fin 3 → ℝ) → Fin 3 → ℝ) (hφ : φ 0 = 0)
    (hrun : density? (runAtoms L cfg a') = density? (runAtoms L cfg a))
    (hne : c'.numElectron = c.numElectron) (hspin : c'.spin = c.spin)
    (hmask : ∀ n, createFreqMask cfg c'.cell n = createFreqMask cfg c.cell n)
    (hpath : T.bandpath (((bohr2angstrom : ℚ) : ℝ) • c'.cell) b.kPath b.numKpoints =
      T.bandpath (((bohr2angstrom : ℚ) : ℝ) • c.cell) b.kPath b.numKpoints)
    (hk : ∀ {q : ℕ} (frac : Matrix (Fin q) (Fin 3) ℝ) i,
      getKPath (fun _ => frac) c'.cell false i = φ (getKPath (fun _ => frac) c.cell false i))
    (htr : ∀ {n : Fin 3 → ℕ} {S : ℕ} (dens : Fin S → Idx n → ℝ) {ns nb : ℕ} (C : Coef ns 1 nb n) k,
      hamiltonianTrace L.xc cfg.xc true false C c'.positions (fun i => (c'.charges i : ℝ)) dens (gVectors c'.cell n)
        (fun _ : Fin 1 => φ k) c'.vol =
      hamiltonianTrace L.xc cfg.xc true false C c.positions (fun i => (c.charges i : ℝ)) dens (gVectors c.cell n)
        (fun _ : Fin 1 => k) c.vol) :
    bandAtoms L T cfg b a' = (bandAtoms L T cfg b a).map fun f =>
      { f with name := String.join (List.ofFn fun i => T.symbol (a'.numbers i)) ++ "_band_structure.npy" } := by
  have hn' : a'.numbers = c'.charges := by rw [← hc']; rfl
  unfold runAtoms at hrun
  unfold bandAtoms
  rw [createCrystal_eq, createCrystal_eq, hc, hc', hne, hspin] at hrun ⊢
  rw [hn']
  cases hck : checkSpinNumber c.numElectron c.spin with
  | error e => rfl
  | ok u =>
    rw [hck] at hrun
    simp only at hrun ⊢
    unfold runCrystal at hrun
    unfold bandCrystal
    cases hs : runSizes cfg with
    | error e => rfl
    | ok nn =>
      obtain ⟨n, kn⟩ := nn
      rw [hs] at hrun
      simp only at hrun ⊢
      rw [hmask]
      cases createFreqMask cfg c.cell n with
      | error e => rfl
      | ok mask =>
        simp only
        unfold bandPoints
        rw [hpath]
        cases T.bandpath (((bohr2angstrom : ℚ) : ℝ) • c.cell) b.kPath b.numKpoints with
        | error e => rfl
        | ok qf =>
          obtain ⟨q, frac⟩ := qf
          simp only
          unfold bandGrid
          rw [hne]
          cases hg : runGrid L cfg c n kn with
          | error e =>
            cases hg' : runGrid L cfg c' n kn with
            | error e' =>
              rw [hg, hg'] at hrun
              injection hrun with h
              rw [h]
              rfl
            | ok r' =>
              rw [hg, hg'] at hrun
              cases hrun
          | ok r =>
            cases hg' : runGrid L cfg c' n kn with
            | error e' =>
              rw [hg, hg'] at hrun
              cases hrun
            | ok r' =>
              rw [hg, hg'] at hrun
              obtain ⟨p1, w1, t1, d1⟩ := r
              obtain ⟨p2, w2, t2, d2⟩ := r'
              injection hrun with h
              obtain rfl : d2 = d1 := by
                have := (Sigma.mk.inj h).2
                exact eq_of_heq this
              obtain ⟨S, dens⟩ := d2
              simp only
              cases T.optimizer with
              | error e => rfl
              | ok opt =>
                simp only
                have key := bandCalc_reband (bandRunEnv L T cfg c n mask dens) (gVectors c'.cell n) c'.positions
                  (fun i => (c'.charges i : ℝ)) c'.vol φ (fun C k => htr dens C k) opt q (b.numKpoints.getD q) L.devices
                  b.parallelPath b.epoch b.fineEpoch
                  (L.pwDraw (if cfg.restricted then 1 else 2) 1 (maskCount mask)
                    (driverBands c.numElectron.toNat b.emptyBands),
                   opt.init (L.pwDraw (if cfg.restricted then 1 else 2) 1 (maskCount mask)
                    (driverBands c.numElectron.toNat b.emptyBands)))
                  (pathAt fun i => getKPath (fun _ => frac) c.cell false i)
                have hp : (fun i => φ (pathAt (fun i => getKPath (fun _ => frac) c.cell false i) i)) =
                    pathAt fun i => getKPath (fun _ => frac) c'.cell false i := by
                  funext i
                  unfold pathAt
                  by_cases h : i < q
                  · rw [dif_pos h, dif_pos h]
                    exact (hk frac ⟨i, h⟩).symm
                  · rw [dif_neg h, dif_neg h]
                    exact hφ
                rw [hp] at key
                generalize hbc' : bandCalc (bandRunEnv L T cfg c' n mask dens) _ _ _ _ _ _ _ _ _ = bc'
                generalize hbc : bandCalc (bandRunEnv L T cfg c n mask dens) _ _ _ _ _ _ _ _ _ = bc
                obtain rfl : bc' = bc := hbc'.symm.trans (key.trans hbc)
                cases bc' with
                | error e => rfl
                | ok r =>
                  simp only
                  cases b.numKpoints with
                  | none => rfl
                  | some num => rfl


theorem kpath_rotate {R : Matrix (Fin 3) (Fin 3) ℝ} (hR : R * Rᵀ = 1) (A : Matrix (Fin 3) (Fin 3) ℝ) {q : ℕ}
    (frac : Matrix (Fin q) (Fin 3) ℝ) (i : Fin q) :
    getKPath (fun _ => frac) (A * R) false i = rot3 R (getKPath (fun _ => frac) A false i) := by
  rw [← rot3_rows]
  have h2 : (2 : Matrix (Fin 3) (Fin 3) ℝ) = (2 : ℝ) • 1 := by
    ext i j
    rw [Matrix.ofNat_apply]
    simp [Matrix.one_apply]
  have key : (getKPath (fun _ => frac) (A * R) false : Matrix (Fin q) (Fin 3) ℝ) =
    (getKPath (fun _ => frac) A false : Matrix (Fin q) (Fin 3) ℝ) * R := ?_
  · exact congrFun key i
  unfold getKPath aseCartesianKpts
  simp only [Bool.false_eq_true, if_false]
  rw [show ((bohr2angstrom : ℚ) : ℝ) • (A * R) = (((bohr2angstrom : ℚ) : ℝ) • A) * R from (Matrix.smul_mul _ _ _).symm,
    inv_rotate hR, inv_rotate hR, Matrix.transpose_mul, h2]
  simp only [Matrix.mul_smul, Matrix.smul_mul, Matrix.mul_one]
  rw [show ∀ X : Matrix (Fin q) (Fin 3) ℝ, X * (((((bohr2angstrom : ℚ) : ℝ) • A)⁻¹)ᵀ * R) * (Rᵀ * Aᵀ) * ((A⁻¹)ᵀ * R) =
    X * ((((bohr2angstrom : ℚ) : ℝ) • A)⁻¹)ᵀ * Aᵀ * (A⁻¹)ᵀ * R from fun X => by
      simp only [Matrix.mul_assoc]
      rw [← Matrix.mul_assoc R, hR, Matrix.one_mul]]

private theorem external_congr {m m' : ℕ} {n : Fin 3 → ℕ} {pos : Fin m → Fin 3 → ℝ} {pos' : Fin m' → Fin 3 → ℝ}
    {ch : Fin m → ℝ} {ch' : Fin m' → ℝ} {g : Idx n → Fin 3 → ℝ} {vol : ℝ}
    (h : ∀ y, structureFactor pos' ch' g y = structureFactor pos ch g y) :
    externalReciprocal pos' ch' g vol = externalReciprocal pos ch g vol := by
  funext y
  rw [externalReciprocal_eq, externalReciprocal_eq, h]

private theorem same_name {m : ℕ} {L : RunLib} {T : BandTools} {cfg : RunConfig} {b : BandConfig} (a : AseAtoms m) :
    ((bandAtoms L T cfg b a).map fun f =>
      { f with name := String.join (List.ofFn fun i => T.symbol (a.numbers i)) ++ "_band_structure.npy" }) = bandAtoms L T cfg b a := by
  cases h : bandAtoms L T cfg b a with
  | error e => rfl
  | ok f =>
    have hn := (bandRun_saved L T cfg b a f h).2.2.2.2.2.1
    simp only [Except.map]
    rw [← hn]

theorem vxc_lda_any {lib : XcLib} {xt : String} (h : pyIn "gga" xt = false) {S : ℕ} {n : Fin 3 → ℕ}
    (g g' : Idx n → Fin 3 → ℝ) (dens : Fin S → Idx n → ℝ) (s : Fin S) (j : Idx n) :
    vxcDensity lib xt g' dens s j = vxcDensity lib xt g dens s j := by
  unfold vxcDensity
  simp only [h, Bool.false_eq_true, if_false]

/-- C92 (part): rotating or reflecting the whole geometry changes nothing in what a band calculation with a local
density functional saves, provided that the fractional path of ase does not depend on the orientation of the
cell.  Missing: GGA functionals, whose potential depends on the orientation (`vxc_gga_rotate_wrong`). -/
theorem bandRun_rotated_partial (L : RunLib) (T : BandTools) (cfg : RunConfig) (b : BandConfig) {m : ℕ}
    (a : AseAtoms m) (R : Matrix (Fin 3) (Fin 3) ℝ) (hR : R * Rᵀ = 1) (hxc : pyIn "gga" cfg.xc = false)
    (hT : ∀ cell, T.bandpath (cell * R) b.kPath b.numKpoints = T.bandpath cell b.kPath b.numKpoints) :
    bandAtoms L T cfg b (Spec.rotated R a) = bandAtoms L T cfg b a := by
  have hf : Crystal.fromAse (Spec.rotated R a) cfg.spin = ⟨(Crystal.fromAse a cfg.spin).charges,
      (Crystal.fromAse a cfg.spin).positions * R, (Crystal.fromAse a cfg.spin).cell * R,
      (Crystal.fromAse a cfg.spin).spin⟩ := by
    unfold Crystal.fromAse Spec.rotated
    simp only [Matrix.smul_mul]
  have key := bandAtoms_congr L T cfg b a (Spec.rotated R a) _ rfl _ hf (rot3 R) (by funext d; simp [rot3])
    (by rw [run_rotated L cfg a R hR]) rfl rfl (fun n => by
      unfold createFreqMask
      rw [sphericalMask_rotate hR]) (by rw [← Matrix.smul_mul]; exact hT _)
    (fun frac i => kpath_rotate hR _ frac i) (fun {n} {S} dens {ns} {nb} C k => by
      have e1 := gVectors_rotate hR (Crystal.fromAse a cfg.spin).cell n
      have e2 : (⟨(Crystal.fromAse a cfg.spin).charges, (Crystal.fromAse a cfg.spin).positions * R,
        (Crystal.fromAse a cfg.spin).cell * R, (Crystal.fromAse a cfg.spin).spin⟩ : Crystal m).vol =
          (Crystal.fromAse a cfg.spin).vol := vol_rotate hR _
      have e3 : ((Crystal.fromAse a cfg.spin).positions * R : Fin m → Fin 3 → ℝ) =
          fun i => rot3 R ((Crystal.fromAse a cfg.spin).positions i) := funext fun i => rot3_rows _ _ i
      rw [e2]
      dsimp only
      rw [e1, e3]
      refine hamiltonianTrace_congr L.xc cfg.xc C dens (externalReciprocal_rotate hR _ _ _ _) ?_
        (fun s j => vxc_lda_any hxc _ _ _ _ _) (fun x => ?_)
      · unfold hartreeRealSpace
        rw [hartreeReciprocal_rotate hR]
      · simp only [rot3_add, rot3_sq hR])
  rw [key]
  exact same_name a

/-- C92: the order in which the geometry file lists the atoms matters only for the name of the file. -/
theorem bandRun_reordered (L : RunLib) (T : BandTools) (cfg : RunConfig) (b : BandConfig) {m : ℕ}
    (a : AseAtoms m) (e : Equiv.Perm (Fin m)) :
    bandAtoms L T cfg b (Spec.reordered e a) = (bandAtoms L T cfg b a).map fun f =>
      { f with name := String.join (List.ofFn fun i => T.symbol (a.numbers (e i))) ++ "_band_structure.npy" } := by
  have hs : ∑ i, a.numbers (e i) = ∑ i, a.numbers i := Equiv.sum_comp e a.numbers
  have hf : Crystal.fromAse (Spec.reordered e a) cfg.spin =
      ⟨fun i => (Crystal.fromAse a cfg.spin).charges (e i),
        Matrix.of fun i => (Crystal.fromAse a cfg.spin).positions (e i),
        (Crystal.fromAse a cfg.spin).cell, (Crystal.fromAse a cfg.spin).spin⟩ := by
    unfold Crystal.fromAse Spec.reordered
    simp only [hs]
    rfl
  refine bandAtoms_congr L T cfg b a (Spec.reordered e a) _ rfl _ hf id rfl
    (by rw [run_reordered L cfg a e]) (Equiv.sum_comp e (Crystal.fromAse a cfg.spin).charges) rfl (fun n => rfl) rfl
    (fun frac i => rfl) (fun {n} {S} dens {ns} {nb} C k => ?_)
  refine hamiltonianTrace_congr L.xc cfg.xc C dens ?_ rfl (fun s j => rfl) (fun x => rfl)
  refine external_congr fun x => ?_
  unfold structureFactor
  exact Equiv.sum_comp e fun i => (((Crystal.fromAse a cfg.spin).charges i : ℝ) : ℂ) *
      Complex.exp (-(Complex.I * ((∑ d, gVectors (Crystal.fromAse a cfg.spin).cell n x d *
        (Crystal.fromAse a cfg.spin).positions i d : ℝ) : ℂ)))

/-- C92: a site without nuclear charge matters only for the name of the file. -/
theorem bandRun_withGhost (L : RunLib) (T : BandTools) (cfg : RunConfig) (b : BandConfig) {m : ℕ}
    (a : AseAtoms m) (x : Fin 3 → ℝ) :
    bandAtoms L T cfg b (Spec.withGhost x a) = (bandAtoms L T cfg b a).map fun f =>
      { f with name := String.join (T.symbol 0 :: List.ofFn fun i => T.symbol (a.numbers i)) ++ "_band_structure.npy" } := by
  have hs : ∑ i, (Fin.cons 0 a.numbers : Fin (m + 1) → ℤ) i = ∑ i, a.numbers i := by
    rw [Fin.sum_univ_succ]
    simp
  have hf : Crystal.fromAse (Spec.withGhost x a) cfg.spin =
      ⟨Fin.cons 0 (Crystal.fromAse a cfg.spin).charges,
        Matrix.of (Fin.cons (fun d => (angstrom2bohr : ℝ) * x d)
          fun i => (Crystal.fromAse a cfg.spin).positions i),
        (Crystal.fromAse a cfg.spin).cell, (Crystal.fromAse a cfg.spin).spin⟩ := by
    unfold Crystal.fromAse Spec.withGhost
    simp only [hs]
    congr 1
    ext i d
    refine Fin.cases ?_ (fun i => ?_) i <;> simp
  have hn : List.ofFn (fun i => T.symbol ((Spec.withGhost x a).numbers i)) =
      T.symbol 0 :: List.ofFn fun i => T.symbol (a.numbers i) := by
    rw [List.ofFn_succ]
    rfl
  rw [← hn]
  refine bandAtoms_congr L T cfg b a (Spec.withGhost x a) _ rfl _ hf id rfl
    (by rw [run_withGhost L cfg a x]) ?_ rfl (fun n => rfl) rfl
    (fun frac i => rfl) (fun {n} {S} dens {ns} {nb} C k => ?_)
  · unfold Crystal.numElectron
    rw [Fin.sum_univ_succ]
    simp
  refine hamiltonianTrace_congr L.xc cfg.xc C dens ?_ rfl (fun s j => rfl) (fun x => rfl)
  refine external_congr fun y => ?_
  unfold structureFactor
  rw [Fin.sum_univ_succ]
  simp

/-- C92: moving atoms by lattice vectors, a different one for each atom, changes nothing. -/
theorem bandRun_lattice_move (L : RunLib) (T : BandTools) (cfg : RunConfig) (b : BandConfig) {m : ℕ}
    (a : AseAtoms m) (hA : a.cell.det ≠ 0) (v : Fin m → Fin 3 → ℝ) (hv : ∀ i, Spec.IsLatticeVector a.cell (v i)) :
    bandAtoms L T cfg b (Spec.moved v a) = bandAtoms L T cfg b a := by
  have hA' := fromAse_det a cfg.spin hA
  have hv' := fun i => fromAse_lattice a cfg.spin (v i) (hv i)
  have key := bandAtoms_congr L T cfg b a (Spec.moved v a) _ rfl _ (fromAse_moved a cfg.spin v) id rfl (by
      cases hr : runAtoms L cfg a with
      | error e => rw [run_lattice_refused L cfg a hA v hv e hr]
      | ok nr =>
        obtain ⟨n, r⟩ := nr
        obtain ⟨r', h1, -, h2, -⟩ := run_lattice_move L cfg a hA v hv r hr
        rw [h1]
        unfold density?
        simp only [Except.map, h2]) rfl rfl (fun n => rfl) rfl
    (fun frac i => rfl) (fun {n} {S} dens {ns} {nb} C k => by
      refine hamiltonianTrace_congr L.xc cfg.xc C dens ?_ rfl (fun s j => rfl) (fun x => rfl)
      refine external_congr fun y => ?_
      have := structureFactor_shift (Crystal.fromAse a cfg.spin).cell n (Crystal.fromAse a cfg.spin).positions
        (shifted (Crystal.fromAse a cfg.spin) fun i d => (angstrom2bohr : ℝ) * v i d).positions
        (fun i => ((Crystal.fromAse a cfg.spin).charges i : ℝ)) y 1
        fun i => exp_lattice (Crystal.fromAse a cfg.spin).cell hA' n y _ (by simpa [shifted] using hv' i)
      rw [one_mul] at this
      exact this)
  rw [key]
  exact same_name a

/-- Hypotheses of these theorems, and what they say for the bands of the lithium atom: turning the cell, adding a site
without charge and moving the atom by a lattice vector give files with the same values. -/
example (ε : ℝ) : ∃ f, bandAtoms (lithiumLib diracLib) (lithiumTools ε) lithiumConfig lithiumBands
      (⟨fun _ => 3, 0, 1⟩ : AseAtoms 1) = .ok f ∧ f.name = "Li_band_structure.npy" ∧
    bandAtoms (lithiumLib diracLib) (lithiumTools ε) lithiumConfig lithiumBands (Spec.rotated
      !![3 / 5, 4 / 5, 0; -4 / 5, 3 / 5, 0; 0, 0, 1] (⟨fun _ => 3, 0, 1⟩ : AseAtoms 1)) = .ok f ∧
    bandAtoms (lithiumLib diracLib) (lithiumTools ε) lithiumConfig lithiumBands (Spec.moved
      (fun _ => ![1, -2, 0]) (⟨fun _ => 3, 0, 1⟩ : AseAtoms 1)) = .ok f ∧
    bandAtoms (lithiumLib diracLib) (lithiumTools ε) lithiumConfig lithiumBands (Spec.withGhost
      ![0, 1 / 2, 0] (⟨fun _ => 3, 0, 1⟩ : AseAtoms 1)) = .ok { f with name := "XLi_band_structure.npy" } := by
  obtain ⟨frac, H⟩ := lithium_band ε diracLib
  obtain ⟨k, hk⟩ := coordinates_exist (fromAse_det (⟨fun _ => 3, 0, 1⟩ : AseAtoms 1) none (by simp)) frac
  obtain ⟨n, rep, mask, values, -, -, -, h, -⟩ := bandRun_channels _ _ _ _ _ _ _ _ _ H _ rfl _ (fun _ _ => rfl) _
    (fun _ => rfl) k hk
  refine ⟨_, h, by simp [lithiumTools], ?_, ?_, ?_⟩
  · rw [bandRun_rotated_partial _ _ _ _ _ _ (by
      ext i j
      fin_cases i <;> fin_cases j <;> simp [Matrix.mul_apply, Fin.sum_univ_three] <;> norm_num)
      (by decide +kernel) fun _ => rfl]
    exact h
  · rw [bandRun_lattice_move _ _ _ _ _ (by simp) _ fun _ =>
      ⟨![1, -2, 0], fun d => by fin_cases d <;> simp [Fin.sum_univ_three, Matrix.one_apply]⟩]
    exact h
  · rw [bandRun_withGhost, h]
    simp [Except.map, lithiumTools, String.join]

end Jrystal
