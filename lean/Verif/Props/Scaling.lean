import Verif.Lemmas.Scaling

/- C112: how the energies of a crystal change when it is scaled, and the virial theorem. -/
namespace Jrystal
open scoped BigOperators ComplexConjugate
open Matrix
open RunSetup

/-- C112: the energies of one state in a crystal and in the crystal scaled by `s`.  The kinetic energy scales like
`1/s²`, the repulsion of the electrons and a homogeneous exchange energy like `1/s`, and so does the attraction of the
nuclei, up to the regularisation of their potential. -/
theorem energy_scaled (lib : XcLib) {ns nb na : ℕ} {n kn : Fin 3 → ℕ} (hn : ∀ i, 0 < n i)
    {A : Matrix (Fin 3) (Fin 3) ℝ} (hA : A.det ≠ 0) {mask : Idx n → Bool} {ne spin : ℤ} {r : Bool} {share : ℝ}
    {c : Coef ns (idxList kn).length nb n} {occ : Occ ns (idxList kn).length nb}
    (h : Spec.PhysicalState mask ne spin r share c occ) (pos : Fin na → Fin 3 → ℝ) (z : Fin na → ℝ) (xt : String)
    (hx : Spec.Homogeneous lib xt) {s : ℝ} (hs : 0 < s) (p p' : EnergyParts)
    (e : totalEnergySplit lib c pos z (gVectors A n) (flatRows (kVectors A kn)) |A.det| (some occ) false xt = .ok p)
    (e' : totalEnergySplit lib c (fun i d => s * pos i d) z (gVectors (s • A) n) (flatRows (kVectors (s • A) kn))
      |(s • A).det| (some occ) false xt = .ok p') :
    p'.kin = p.kin / s ^ 2 ∧ p'.har = p.har / s ∧ p'.xc = p.xc / s ∧
    |p'.ext - p.ext / s| ≤ |s ^ 2 - 1| / s * ((∑ i, |z i|) * ne * Spec.regularisation A n) := by
  have hv : 0 < |A.det| := abs_pos.mpr hA
  obtain ⟨a1, a2, a3, a4⟩ := totalEnergy_parts _ _ _ _ _ _ _ _ _ _ _ e
  obtain ⟨b1, b2, b3, b4⟩ := totalEnergy_parts _ _ _ _ _ _ _ _ _ _ _ e'
  simp only [Option.getD_some] at a1 a2 a3 a4 b1 b2 b3 b4
  have hext := external_scaled hn hA h pos z hs a2 b2
  rw [vol_scaled A hs, gVectors_scaled A hs, densityGridReciprocal_scaled c hv hs] at b3
  rw [vol_scaled A hs, gVectors_scaled A hs, densityGrid_scaled c hv hs] at b4
  rw [gVectors_scaled A hs, kVectors_scaled A hs] at b1
  refine ⟨?_, hartree_scaled _ _ hs a3 b3,
    xc_scaled hx _ _ (fun σ j => densityGrid_nonneg c _ occ h.nonneg σ j) hs a4 b4, hext⟩
  rw [a1, b1, kinetic_scaled]

/-- The selection of plane waves is the same for the scaled crystal, with the cutoff divided by `s²`. -/
theorem mask_scaled (cfg : RunConfig) (A : Matrix (Fin 3) (Fin 3) ℝ) (n : Fin 3 → ℕ) {s : ℝ} (hs : 0 < s) :
    createFreqMask { cfg with cutoff := cfg.cutoff / s ^ 2 } (s • A) n = createFreqMask cfg A n := by
  unfold createFreqMask
  dsimp only
  split_ifs
  · rfl
  · congr 1
    funext x
    refine Bool.eq_iff_iff.2 ?_
    rw [sphericalMask_iff, sphericalMask_iff, gVectors_scaled A hs]
    unfold Spec.kineticEnergy
    rw [dot_scaled, le_div_iff₀ (by positivity)]
    have : s⁻¹ ^ 2 * Spec.dot (gVectors A n x) (gVectors A n x) / 2 * s ^ 2
        = Spec.dot (gVectors A n x) (gVectors A n x) / 2 := by
      have : s ≠ 0 := hs.ne'
      field_simp
    rw [this]
  · rfl

/-- The state to which the reported energies belong. -/
private theorem run_parts_state (L : RunLib) (cfg : RunConfig) {m : ℕ} (a : AseAtoms m) (size ksize : Fin 3 → ℤ)
    (ne spin : ℤ) (H : Spec.AdmissibleRun L cfg a size ksize ne spin)
    (hC : Spec.Triangular L.qrC) (hR : Spec.Triangular L.qrR) (hxc : Spec.ContinuousXc L.xc cfg.xc)
    (heps : 0 < cfg.eps) (hspin : cfg.occupation = "simplex-projector" → cfg.restricted = true → spin = 0)
    (hg : cfg.occupation = "gamma" → ∀ i, ksize i ≤ 1)
    (ε : ℝ) (hopt : ∀ opt, L.optimizer = .ok opt → Spec.NearOptimizer ε opt)
    (A : Matrix (Fin 3) (Fin 3) ℝ) (hA : A = (angstrom2bohr : ℝ) • a.cell)
    (pos : Fin m → Fin 3 → ℝ) (hpos : ∀ i d, pos i d = angstrom2bohr * a.positions i d)
    (z : Fin m → ℝ) (hz : ∀ i, z i = a.numbers i) (he : 3 ≤ cfg.epoch) (hw : 2 ≤ cfg.window) :
    ∃ n kn, ∃ mask : Idx n → Bool, Spec.LeastGrid size n ∧ Spec.LeastGrid ksize kn ∧ createFreqMask cfg A n = .ok mask ∧
    ∃ rep, ∃ (c : Coef (if cfg.restricted then 1 else 2) (idxList kn).length ((ne.toNat + 1) / 2 + cfg.emptyBands) n),
      ∃ occ, runAtoms L cfg a = .ok ⟨n, rep⟩ ∧
      Spec.PhysicalState mask ne spin cfg.restricted (Spec.kShare cfg.occupation (idxList kn).length) c occ ∧
      (cfg.occupation = "uniform" ∨ cfg.occupation = "gamma" → occ = Spec.givenOccupation cfg.occupation ne spin) ∧
      totalEnergySplit L.xc c pos z (gVectors A n) (flatRows (kVectors A kn)) |A.det| (some occ) false cfg.xc
        = .ok rep.parts ∧
      (cfg.smearing ≤ 0 →
        rep.parts.kin + rep.parts.ext + rep.parts.har + rep.parts.xc ≤ rep.total - rep.repulsion + ε) := by
  obtain ⟨n, kn, rep, mask, a1, a2, a3, a4, ns, nb, rfl, rfl, en, j, h3, h4, h5, h6, h7⟩ :=
    run_history L cfg a size ksize ne spin H hC hR hxc heps hspin hg ε hopt A hA pos hpos z hz
  obtain ⟨c, occ, g1, g2⟩ := h7 j
  refine ⟨n, kn, mask, a2, a3, a4, rep, c, occ, a1, g1.physical, g1.given, (g2 rfl).2, fun hT => ?_⟩
  have hj := h4 (by omega) hw
  obtain ⟨c', occ', k1, -⟩ := h7 (j - 1)
  rw [Nat.sub_add_cancel hj] at k1
  have := g1.least c' occ' _ k1.physical (fun hm => (k1.given hm).trans (g1.given hm).symm) k1.value
  rw [temperature_zero _ hT, zero_mul, zero_mul, sub_zero, sub_zero] at this
  linarith

/-- C112, whole calculations: the calculation for the scaled crystal succeeds as well, and its total energy without the
repulsion of the nuclei is at most what the components reported for the original crystal give when each is scaled, up to
the regularisation, the accuracy of the optimiser and, with smearing, `2 T log 2` per band. -/
theorem run_scaled (L : RunLib) (cfg : RunConfig) {m : ℕ} (a : AseAtoms m)
    (size ksize : Fin 3 → ℤ) (ne spin : ℤ) (H : Spec.AdmissibleRun L cfg a size ksize ne spin)
    (hC : Spec.Triangular L.qrC) (hR : Spec.Triangular L.qrR) (hxc : Spec.ContinuousXc L.xc cfg.xc)
    (hx : Spec.Homogeneous L.xc cfg.xc)
    (heps : 0 < cfg.eps) (hspin : cfg.occupation = "simplex-projector" → cfg.restricted = true → spin = 0)
    (hg : cfg.occupation = "gamma" → ∀ i, ksize i ≤ 1)
    (ε : ℝ) (hopt : ∀ opt, L.optimizer = .ok opt → Spec.NearOptimizer ε opt)
    (A : Matrix (Fin 3) (Fin 3) ℝ) (hA : A = (angstrom2bohr : ℝ) • a.cell)
    (he : 3 ≤ cfg.epoch) (hw : 2 ≤ cfg.window) (hq : cfg.threshold ≤ 0 ∨ cfg.smearing ≤ 0) :
    ∃ n rep, Spec.LeastGrid size n ∧ runAtoms L cfg a = .ok ⟨n, rep⟩ ∧
      (cfg.smearing ≤ 0 →
        rep.parts.kin + rep.parts.ext + rep.parts.har + rep.parts.xc ≤ rep.total - rep.repulsion + ε) ∧
      ∀ s : ℝ, 0 < s → ∃ rep',
        runAtoms L { cfg with cutoff := cfg.cutoff / s ^ 2 } ⟨a.numbers, s • a.positions, s • a.cell⟩ = .ok ⟨n, rep'⟩ ∧
        rep'.total - rep'.repulsion
          ≤ rep.parts.kin / s ^ 2 + (rep.parts.ext + rep.parts.har + rep.parts.xc) / s
            + |s ^ 2 - 1| / s * ((∑ i, |(a.numbers i : ℝ)|) * ne * Spec.regularisation A n)
            + 2 * max cfg.smearing 0 * ((ne.toNat + 1) / 2 + cfg.emptyBands : ℕ) * Real.log 2 + ε := by
  obtain ⟨n, kn, mask, a2, a3, a4, rep, c, occ, h1, hphys, hgiven, hsplit, hsum⟩ :=
    run_parts_state L cfg a size ksize ne spin H hC hR hxc heps hspin hg ε hopt A hA _ (fun _ _ => rfl) _ (fun _ => rfl)
      he hw
  refine ⟨n, rep, a2, h1, hsum, fun s hs => ?_⟩
  have hdet : A.det ≠ 0 := by
    rw [hA]
    exact fromAse_det a cfg.spin H.cell
  have hcell : (angstrom2bohr : ℝ) • (s • a.cell) = s • A := by rw [hA, smul_comm]
  have hmask' : createFreqMask { cfg with cutoff := cfg.cutoff / s ^ 2 } ((angstrom2bohr : ℝ) • (s • a.cell)) n = .ok mask := by
    rw [hcell, mask_scaled cfg A n hs, a4]
  have H' : Spec.AdmissibleRun L { cfg with cutoff := cfg.cutoff / s ^ 2 } ⟨a.numbers, s • a.positions, s • a.cell⟩
      size ksize ne spin := { H with
    cell := by
      show (s • a.cell).det ≠ 0
      rw [Matrix.det_smul]
      exact mul_ne_zero (pow_ne_zero _ hs.ne') H.cell
    waves := fun n' hn' mask' hm' => by
      obtain rfl := leastGrid_unique a2 hn'
      obtain rfl := Except.ok.inj (hmask'.symm.trans hm')
      exact H.waves _ a2 mask (by rw [← hA]; exact a4) }
  obtain ⟨rep', c', occ', h1', h2'⟩ := run_total_ground L _ _ size ksize ne spin H' hC hR hxc heps hspin hg ε hopt _ rfl
    (fun i d => s * (angstrom2bohr * a.positions i d))
    (fun i d => by
      show s * (angstrom2bohr * a.positions i d) = angstrom2bohr * (s * a.positions i d)
      ring) (fun i => a.numbers i) (fun i => rfl) he hw hq a2 a3 mask hmask'
  refine ⟨rep', h1', ?_⟩
  rw [show (angstrom2bohr : ℝ) • (AseAtoms.mk a.numbers (s • a.positions) (s • a.cell)).cell = s • A from hcell] at h2'
  obtain ⟨e, he'⟩ := totalEnergy_succeeds L.xc c (fun i d => s * (angstrom2bohr * a.positions i d)) (fun i => a.numbers i)
    (gVectors (s • A) n) (flatRows (kVectors (s • A) kn)) |(s • A).det| (some occ) false cfg.xc (Or.inl rfl)
  have hsplit' : ∃ p', totalEnergySplit L.xc c (fun i d => s * (angstrom2bohr * a.positions i d)) (fun i => a.numbers i)
      (gVectors (s • A) n) (flatRows (kVectors (s • A) kn)) |(s • A).det| (some occ) false cfg.xc = .ok p' := by
    cases hp : totalEnergySplit L.xc c (fun i d => s * (angstrom2bohr * a.positions i d)) (fun i => a.numbers i)
        (gVectors (s • A) n) (flatRows (kVectors (s • A) kn)) |(s • A).det| (some occ) false cfg.xc with
    | ok p' => exact ⟨p', rfl⟩
    | error er =>
      have := (totalEnergy_sum _ _ _ _ _ _ _ _ _ _).2 er hp
      rw [he'] at this
      exact absurd this nofun
  obtain ⟨p', hp'⟩ := hsplit'
  have hsum' := (totalEnergy_sum _ _ _ _ _ _ _ _ _ _).1 p' hp'
  obtain ⟨s1, s2, s3, s4⟩ := energy_scaled L.xc (fun i => smooth_pos (a2 i).1) hdet hphys
    (fun i d => angstrom2bohr * a.positions i d) (fun i => a.numbers i) cfg.xc hx hs rep.parts p' hsplit hp'
  have hle := h2'.least c occ _ hphys (fun hm => (hgiven hm).trans (h2'.given hm).symm) hsum'
  have hkpos := idxList_length_pos fun i => smooth_pos (a3 i).1
  have ent := mul_le_mul_of_nonneg_left
    (entropy_gap hkpos (fun h => one_kpoint a3 (hg h)) heps h2'.physical hphys) (le_max_right cfg.smearing 0)
  rw [s1, s2, s3] at hle
  have s5 := (abs_le.1 s4).2
  have s6 : (rep.parts.ext + rep.parts.har + rep.parts.xc) / s = rep.parts.ext / s + rep.parts.har / s + rep.parts.xc / s := by
    ring
  rw [s6]
  simp only at hle ent
  linarith

/-- C112, the virial theorem: when neither compressing nor stretching a crystal by a small factor lowers the total energy
which calculations report, then twice the reported kinetic energy and the other reported energies cancel the derivative of
the repulsion of the nuclei, as measured by the difference of the reported repulsions, up to the accuracy of the
optimiser, the size of the change and the regularisation. -/
theorem run_virial (L : RunLib) (cfg : RunConfig) {m : ℕ} (a : AseAtoms m)
    (size ksize : Fin 3 → ℤ) (ne spin : ℤ) (H : Spec.AdmissibleRun L cfg a size ksize ne spin)
    (hC : Spec.Triangular L.qrC) (hR : Spec.Triangular L.qrR) (hxc : Spec.ContinuousXc L.xc cfg.xc)
    (hx : Spec.Homogeneous L.xc cfg.xc)
    (heps : 0 < cfg.eps) (hspin : cfg.occupation = "simplex-projector" → cfg.restricted = true → spin = 0)
    (hg : cfg.occupation = "gamma" → ∀ i, ksize i ≤ 1)
    (ε : ℝ) (hopt : ∀ opt, L.optimizer = .ok opt → Spec.NearOptimizer ε opt)
    (A : Matrix (Fin 3) (Fin 3) ℝ) (hA : A = (angstrom2bohr : ℝ) • a.cell)
    (he : 3 ≤ cfg.epoch) (hw : 2 ≤ cfg.window) (hT : cfg.smearing ≤ 0) :
    ∃ n rep, Spec.LeastGrid size n ∧ runAtoms L cfg a = .ok ⟨n, rep⟩ ∧
      ∀ u s t : ℝ, 0 < u → u ≤ 1 / 2 → s * (1 + u) = 1 → t * (1 - u) = 1 → ∃ rep₁ rep₂,
        runAtoms L { cfg with cutoff := cfg.cutoff / s ^ 2 } ⟨a.numbers, s • a.positions, s • a.cell⟩ = .ok ⟨n, rep₁⟩ ∧
        runAtoms L { cfg with cutoff := cfg.cutoff / t ^ 2 } ⟨a.numbers, t • a.positions, t • a.cell⟩ = .ok ⟨n, rep₂⟩ ∧
        (rep.total ≤ rep₁.total → rep.total ≤ rep₂.total →
          -(2 * ε / u + rep.parts.kin * u + 3 * ((∑ i, |(a.numbers i : ℝ)|) * ne * Spec.regularisation A n))
            ≤ 2 * rep.parts.kin + (rep.parts.ext + rep.parts.har + rep.parts.xc) + (rep₁.repulsion - rep.repulsion) / u ∧
          2 * rep.parts.kin + (rep.parts.ext + rep.parts.har + rep.parts.xc) + (rep.repulsion - rep₂.repulsion) / u
            ≤ 2 * ε / u + rep.parts.kin * u
              + 3 * ((∑ i, |(a.numbers i : ℝ)|) * ne * Spec.regularisation A n)) := by
  obtain ⟨n, rep, a2, h1, hsum, hall⟩ := run_scaled L cfg a size ksize ne spin H hC hR hxc hx heps hspin hg ε hopt A hA he hw
    (Or.inr hT)
  refine ⟨n, rep, a2, h1, fun u s t hu hu' hs ht => ?_⟩
  have hs0 : 0 < s := by nlinarith
  have ht0 : 0 < t := by nlinarith
  obtain ⟨rep₁, r1, b1⟩ := hall s hs0
  obtain ⟨rep₂, r2, b2⟩ := hall t ht0
  refine ⟨rep₁, rep₂, r1, r2, fun l1 l2 => ?_⟩
  have h0 := hsum hT
  rw [max_eq_right hT, mul_zero, zero_mul, zero_mul, add_zero] at b1 b2
  have hne : 0 ≤ (ne : ℝ) := by
    have : 0 ≤ ne := by
      rcases H.placeable.2 with ⟨-, h, -⟩ | ⟨-, h, -⟩ | ⟨-, -, h⟩
      · exact (abs_nonneg spin).trans h
      · exact (abs_nonneg spin).trans h.le
      · exact h
    exact_mod_cast this
  have hR0 : 0 ≤ (∑ i, |(a.numbers i : ℝ)|) * ne * Spec.regularisation A n := by
    refine mul_nonneg (mul_nonneg (Finset.sum_nonneg fun i _ => abs_nonneg _) hne) ?_
    unfold Spec.regularisation
    refine mul_nonneg (by positivity) (Finset.sum_nonneg fun k _ => ?_)
    positivity
  generalize (∑ i, |(a.numbers i : ℝ)|) * ne * Spec.regularisation A n = R at *
  have es : 1 / s = 1 + u := by
    rw [div_eq_iff hs0.ne', mul_comm]
    exact hs.symm
  have et : 1 / t = 1 - u := by
    rw [div_eq_iff ht0.ne', mul_comm]
    exact ht.symm
  have hs1 : s ≤ 1 := by nlinarith
  have ht1 : 1 ≤ t := by nlinarith
  have ht2 : t ≤ 2 := by nlinarith
  have qs : |s ^ 2 - 1| / s = u * (1 + s) := by
    rw [abs_of_nonpos (by nlinarith), div_eq_iff hs0.ne']
    linear_combination (-(1 + s)) * hs
  have qt : |t ^ 2 - 1| / t = u * (1 + t) := by
    rw [abs_of_nonneg (by nlinarith), div_eq_iff ht0.ne']
    linear_combination (1 + t) * ht
  have ks : rep.parts.kin / s ^ 2 = rep.parts.kin * (1 + u) ^ 2 := by rw [← es]; field_simp
  have kt : rep.parts.kin / t ^ 2 = rep.parts.kin * (1 - u) ^ 2 := by rw [← et]; field_simp
  have vs : ∀ v : ℝ, v / s = v * (1 + u) := fun v => by rw [← es]; field_simp
  have vt : ∀ v : ℝ, v / t = v * (1 - u) := fun v => by rw [← et]; field_simp
  rw [ks, vs, qs] at b1
  rw [kt, vt, qt] at b2
  have c1 : u * (1 + s) * R ≤ u * (3 * R) := by
    have : (1 + s) * R ≤ 3 * R := mul_le_mul_of_nonneg_right (by linarith) hR0
    nlinarith
  have c2 : u * (1 + t) * R ≤ u * (3 * R) := by
    have : (1 + t) * R ≤ 3 * R := mul_le_mul_of_nonneg_right (by linarith) hR0
    nlinarith
  have d1 : (rep₁.repulsion - rep.repulsion) / u * u = rep₁.repulsion - rep.repulsion := div_mul_cancel₀ _ hu.ne'
  have d2 : (rep.repulsion - rep₂.repulsion) / u * u = rep.repulsion - rep₂.repulsion := div_mul_cancel₀ _ hu.ne'
  have d3 : 2 * ε / u * u = 2 * ε := div_mul_cancel₀ _ hu.ne'
  clear hall H hopt qs qt ks kt vs vt es et hs ht hs0 ht0 hs1 ht1 ht2
  constructor
  · refine le_of_mul_le_mul_right ?_ hu
    rw [neg_mul, add_mul (2 * ε / u + _) _ u, add_mul (2 * ε / u) _ u, add_mul _ _ u, d3, d1]
    linarith
  · refine le_of_mul_le_mul_right ?_ hu
    rw [add_mul _ _ u, add_mul (2 * ε / u + _) _ u, add_mul (2 * ε / u) _ u, d3, d2]
    linarith

/-- Dirac's exchange energy is homogeneous. -/
theorem diracLib_homogeneous : Spec.Homogeneous diracLib "lda_x" where
  lda := fun _ x _ t u ht hu => by
    show -(3 / 4) * (3 / Real.pi) ^ (1 / 3 : ℝ) * (t ^ 3 * u) ^ (1 / 3 : ℝ)
      = t * (-(3 / 4) * (3 / Real.pi) ^ (1 / 3 : ℝ) * u ^ (1 / 3 : ℝ))
    rw [Real.mul_rpow (by positivity) hu, ← Real.rpow_natCast t 3, ← Real.rpow_mul ht.le]
    norm_num
    ring
  ldaPol := fun _ _ _ t _ _ _ _ _ => (mul_zero t).symm
  gga := fun _ _ _ t _ _ _ _ _ => (mul_zero t).symm
  ggaPol := fun _ _ _ t _ _ _ _ _ _ _ _ _ _ => (mul_zero t).symm

/-- The hypotheses of `run_virial`, and with them those of `run_scaled`, `mask_scaled` and `energy_scaled`, hold for the
lithium atom. -/
example {ε : ℝ} (hε : 0 < ε) :
    let L : RunLib := { lithiumLib diracLib with
      qrC := gramSchmidtQR ℂ, qrR := gramSchmidtQR ℝ, optimizer := .ok (nearOptimizer ε) }
    ∃ n rep, runAtoms L lithiumConfig (⟨fun _ => 3, 0, 1⟩ : AseAtoms 1) = .ok ⟨n, rep⟩ ∧ ∀ s : ℝ, 0 < s →
      ∃ rep', runAtoms L { lithiumConfig with cutoff := lithiumConfig.cutoff / s ^ 2 }
        (⟨fun _ => 3, s • 0, s • 1⟩ : AseAtoms 1) = .ok ⟨n, rep'⟩ ∧
        rep'.total - rep'.repulsion ≤ rep.parts.kin / s ^ 2 + (rep.parts.ext + rep.parts.har + rep.parts.xc) / s
          + |s ^ 2 - 1| / s * (9 * Spec.regularisation ((angstrom2bohr : ℝ) • 1) n) + ε := by
  intro L
  obtain ⟨n, rep, -, h1, -, h2⟩ := run_scaled L lithiumConfig (⟨fun _ => 3, 0, 1⟩ : AseAtoms 1)
    (fun _ => 4) (fun _ => 2) 3 1
    { lithium_admissible diracLib with optimizer := ⟨nearOptimizer ε, rfl, nearOptimizer_keeps ε⟩ }
    (gramSchmidtQR_triangular ℂ) (gramSchmidtQR_triangular ℝ) diracLib_continuous diracLib_homogeneous
    (by norm_num [lithiumConfig]) (fun _ h => absurd h (by decide)) (fun h => absurd h (by decide)) ε
    (fun o ho => by cases Except.ok.inj ho; exact nearOptimizer_near hε) _ rfl (by decide) (by decide) (Or.inr le_rfl)
  refine ⟨n, rep, h1, fun s hs => ?_⟩
  obtain ⟨rep', r1, r2⟩ := h2 s hs
  refine ⟨rep', r1, r2.trans (le_of_eq ?_)⟩
  have hsm : max lithiumConfig.smearing 0 = 0 := max_eq_right le_rfl
  rw [hsm]
  norm_num

end Jrystal
