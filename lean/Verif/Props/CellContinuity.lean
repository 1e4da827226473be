import Verif.Lemmas.FirstUpdate
import Verif.Lemmas.CellCont
import Verif.Spec.OffCutoff
import Verif.Props.Stability

/- C111: the energy as a function of the cell vectors. -/
namespace Jrystal
open scoped BigOperators ComplexConjugate
open Matrix
open RunSetup

/-- The energies of all physical states change little when the geometry changes little. -/
private theorem states_uniform (lib : XcLib) {ns nb na : ℕ} {n kn : Fin 3 → ℕ}
    (mask : Idx n → Bool) (ne spin : ℤ) (r : Bool) (method : String) (z : Fin na → ℝ) (xt : String)
    (hx : Spec.ContinuousXc lib xt) (A : Matrix (Fin 3) (Fin 3) ℝ) (hA : A.det ≠ 0) (pos : Fin na → Fin 3 → ℝ)
    {δ : ℝ} (hδ : 0 < δ) :
    ∃ η, 0 < η ∧ ∀ (A' : Matrix (Fin 3) (Fin 3) ℝ) (pos' : Fin na → Fin 3 → ℝ),
      (∀ i d, |A' i d - A i d| < η) → (∀ i d, |pos' i d - pos i d| < η) → A'.det ≠ 0 ∧
      ∀ x ∈ competing mask ne spin r method ns (idxList kn).length nb, ∀ e e',
        totalEnergy lib x.1 pos z (gVectors A n) (flatRows (kVectors A kn)) |A.det| (some x.2) false xt = .ok e →
        totalEnergy lib x.1 pos' z (gVectors A' n) (flatRows (kVectors A' kn)) |A'.det| (some x.2) false xt = .ok e' →
        |e - e'| < δ := by
  let U : Set (Matrix (Fin 3) (Fin 3) ℝ × (Fin na → Fin 3 → ℝ)) := {y | y.1.det ≠ 0}
  have hU : IsOpen U := isOpen_ne_fun (Continuous.matrix_det continuous_fst) continuous_const
  let K := competing (n := n) mask ne spin r method ns (idxList kn).length nb
  have m1 : Set.MapsTo (fun x : (Matrix (Fin 3) (Fin 3) ℝ × (Fin na → Fin 3 → ℝ)) ×
      (Coef ns (idxList kn).length nb n × Occ ns (idxList kn).length nb) => x.1.1) (U ×ˢ K) {A | A.det ≠ 0} :=
    fun x hx => hx.1
  obtain ⟨f, hf, hE⟩ := joint_totalEnergy (S := U ×ˢ K) (c := fun x => x.2.1) (occ := fun x => x.2.2)
    (vol := fun x => |x.1.1.det|) (g := fun x => gVectors x.1.1 n) (kpts := fun x => flatRows (kVectors x.1.1 kn))
    (pos := fun x => x.1.2) lib xt hx z
    (continuous_fst.comp continuous_snd).continuousOn (continuous_snd.comp continuous_snd).continuousOn
    ((Continuous.matrix_det (continuous_fst.comp continuous_fst)).abs.continuousOn)
    (fun x hx => abs_pos.mpr hx.1)
    ((continuousOn_gVectors n).comp (continuous_fst.comp continuous_fst).continuousOn m1)
    (fun x hx k hk => (gVectors_sq_pos x.1.1 hx.1 n k hk).ne')
    ((continuousOn_kVectors kn).comp (continuous_fst.comp continuous_fst).continuousOn m1)
    (continuous_snd.comp continuous_fst).continuousOn (fun x hx => hx.2.1.nonneg)
  obtain ⟨v, hv, huni⟩ := (competing_compact (ns := ns) (nk := (idxList kn).length) (nb := nb) mask ne spin r
    method).mem_uniformity_of_prod (f := fun y x => f (y, x)) (s := U) (q := (A, pos)) hf hA
    (Metric.dist_mem_uniformity hδ)
  rw [hU.nhdsWithin_eq hA] at hv
  have hw : (show Set ((Fin 3 → Fin 3 → ℝ) × (Fin na → Fin 3 → ℝ)) from v ∩ U)
      ∈ nhds ((A, pos) : (Fin 3 → Fin 3 → ℝ) × (Fin na → Fin 3 → ℝ)) := Filter.inter_mem hv (hU.mem_nhds hA)
  obtain ⟨η, hη, hball⟩ := Metric.mem_nhds_iff.1 hw
  refine ⟨η, hη, fun A' pos' h1 h2 => ?_⟩
  have hin : ((A', pos') : (Fin 3 → Fin 3 → ℝ) × (Fin na → Fin 3 → ℝ))
      ∈ Metric.ball ((A, pos) : (Fin 3 → Fin 3 → ℝ) × (Fin na → Fin 3 → ℝ)) η := by
    rw [Metric.mem_ball, Prod.dist_eq, max_lt_iff]
    constructor
    · refine (dist_pi_lt_iff hη).2 fun i => (dist_pi_lt_iff hη).2 fun d => ?_
      rw [Real.dist_eq]
      exact h1 i d
    · refine (dist_pi_lt_iff hη).2 fun i => (dist_pi_lt_iff hη).2 fun d => ?_
      rw [Real.dist_eq]
      exact h2 i d
  obtain ⟨g1, g2⟩ := hball hin
  refine ⟨g2, fun x hx e e' he he' => ?_⟩
  have := huni _ g1 x hx
  rw [← Except.ok.inj ((hE ((A, pos), x)).symm.trans he), ← Except.ok.inj ((hE ((A', pos'), x)).symm.trans he'),
    abs_sub_comm]
  exact this

/-- C111: the free energies of (nearly) ground states for two geometries of one crystal are as close as one likes, up
to the accuracy with which the ground states are known, when the cell vectors and the positions are close. -/
theorem ground_cell_continuous (lib : XcLib) {ns nb na : ℕ} {n kn : Fin 3 → ℕ}
    (mask : Idx n → Bool) (ne spin : ℤ) (r : Bool) (method : String) (T eps : ℝ) (z : Fin na → ℝ) (xt : String)
    (hx : Spec.ContinuousXc lib xt) (A : Matrix (Fin 3) (Fin 3) ℝ) (hA : A.det ≠ 0) (pos : Fin na → Fin 3 → ℝ)
    {δ : ℝ} (hδ : 0 < δ) :
    ∃ η, 0 < η ∧ ∀ (A' : Matrix (Fin 3) (Fin 3) ℝ) (pos' : Fin na → Fin 3 → ℝ),
      (∀ i d, |A' i d - A i d| < η) → (∀ i d, |pos' i d - pos i d| < η) → A'.det ≠ 0 ∧
      ∀ (ε ε' : ℝ) (c c' : Coef ns (idxList kn).length nb n) (occ occ' : Occ ns (idxList kn).length nb) (e e' : ℝ),
        Spec.GroundWithin ε T eps mask ne spin r method
          (fun c occ e => totalEnergy lib c pos z (gVectors A n) (flatRows (kVectors A kn)) |A.det| (some occ) false xt
            = .ok e) c occ e →
        Spec.GroundWithin ε' T eps mask ne spin r method
          (fun c occ e => totalEnergy lib c pos' z (gVectors A' n) (flatRows (kVectors A' kn)) |A'.det| (some occ) false xt
            = .ok e) c' occ' e' →
        |(e - T * Spec.smearingEntropy eps ((3 - (ns : ℝ)) / (idxList kn).length) occ)
            - (e' - T * Spec.smearingEntropy eps ((3 - (ns : ℝ)) / (idxList kn).length) occ')| ≤ δ + max ε ε' := by
  obtain ⟨η, hη, hall⟩ := states_uniform (ns := ns) (nb := nb) (kn := kn) lib mask ne spin r method z xt hx A hA pos hδ
  refine ⟨η, hη, fun A' pos' h1 h2 => ?_⟩
  obtain ⟨hA', hst⟩ := hall A' pos' h1 h2
  refine ⟨hA', fun ε ε' c c' occ occ' e e' h h' => ?_⟩
  obtain ⟨e₁, k₁⟩ := totalEnergy_succeeds lib c pos' z (gVectors A' n) (flatRows (kVectors A' kn)) |A'.det| (some occ)
    false xt (Or.inl rfl)
  obtain ⟨e₂, k₂⟩ := totalEnergy_succeeds lib c' pos z (gVectors A n) (flatRows (kVectors A kn)) |A.det| (some occ')
    false xt (Or.inl rfl)
  have a1 := hst (c, occ) ⟨h.physical, h.given⟩ e e₁ h.value k₁
  have a2 := hst (c', occ') ⟨h'.physical, h'.given⟩ e₂ e' k₂ h'.value
  have b1 := h.least c' occ' e₂ h'.physical (fun hm => (h'.given hm).trans (h.given hm).symm) k₂
  have b2 := h'.least c occ e₁ h.physical (fun hm => (h.given hm).trans (h'.given hm).symm) k₁
  rw [abs_lt] at a1 a2
  rw [abs_le]
  constructor <;> linarith [a1.1, a1.2, a2.1, a2.2, le_max_left ε ε', le_max_right ε ε']

/-- The selection of plane waves is the same for neighbouring cells when no plane wave lies on the cutoff. -/
theorem mask_stable (cfg : RunConfig) (A : Matrix (Fin 3) (Fin 3) ℝ) (hA : A.det ≠ 0) (n : Fin 3 → ℕ)
    (hoff : Spec.OffCutoff cfg A n) :
    ∃ η, 0 < η ∧ ∀ A' : Matrix (Fin 3) (Fin 3) ℝ, (∀ i d, |A' i d - A i d| < η) →
      createFreqMask cfg A' n = createFreqMask cfg A n := by
  by_cases hcub : cfg.maskMethod = "cubic"
  · exact ⟨1, one_pos, fun A' _ => by unfold createFreqMask; rw [if_pos hcub, if_pos hcub]⟩
  by_cases hsph : cfg.maskMethod = "spherical"
  · have hev : ∀ᶠ A' in nhds A, ∀ x : Idx n, sphericalMask A' n cfg.cutoff x = sphericalMask A n cfg.cutoff x := by
      refine Filter.eventually_all.2 fun x => ?_
      have hc : ContinuousAt (fun A' => Spec.kineticEnergy (gVectors A' n x)) A := by
        have hg : ∀ d, ContinuousAt (fun A' => gVectors A' n x d) A := fun d =>
          ((continuousOn_pi.1 (continuousOn_pi.1 (continuousOn_gVectors n) x) d).continuousAt
            ((isOpen_ne_fun (Continuous.matrix_det continuous_id) continuous_const).mem_nhds hA))
        unfold Spec.kineticEnergy Spec.dot
        exact (tendsto_finsetSum _ fun d _ => (hg d).mul (hg d)).div_const 2
      rcases lt_or_gt_of_ne (hoff hsph x) with h | h
      · filter_upwards [hc.eventually_lt_const h] with A' h'
        rw [(sphericalMask_iff A' n _ x).2 h'.le, (sphericalMask_iff A n _ x).2 h.le]
      · filter_upwards [hc.eventually_const_lt h] with A' h'
        rw [Bool.eq_false_iff.2 fun e => absurd ((sphericalMask_iff A' n _ x).1 e) (not_le.2 h'),
          Bool.eq_false_iff.2 fun e => absurd ((sphericalMask_iff A n _ x).1 e) (not_le.2 h)]
    have hev' : {A' : Fin 3 → Fin 3 → ℝ | ∀ x : Idx n, sphericalMask A' n cfg.cutoff x = sphericalMask A n cfg.cutoff x}
        ∈ nhds (show Fin 3 → Fin 3 → ℝ from A) := hev
    obtain ⟨η, hη, hball⟩ := Metric.mem_nhds_iff.1 hev'
    refine ⟨η, hη, fun A' h => ?_⟩
    have hin : (show Fin 3 → Fin 3 → ℝ from A') ∈ Metric.ball (show Fin 3 → Fin 3 → ℝ from A) η := by
      rw [Metric.mem_ball]
      refine (dist_pi_lt_iff hη).2 fun i => (dist_pi_lt_iff hη).2 fun d => ?_
      rw [Real.dist_eq]
      exact h i d
    unfold createFreqMask
    rw [if_neg hcub, if_neg hcub, if_pos hsph, if_pos hsph, show sphericalMask A' n cfg.cutoff = sphericalMask A n cfg.cutoff
      from funext (hball hin)]
  · exact ⟨1, one_pos, fun A' _ => by unfold createFreqMask; rw [if_neg hcub, if_neg hcub, if_neg hsph, if_neg hsph]⟩

/-- C111, the selection of plane waves is not stable: when a cell is shrunk however little, a plane wave on the cutoff
is lost. -/
theorem sphericalMask_jump (A : Matrix (Fin 3) (Fin 3) ℝ) (n : Fin 3 → ℕ) (x : Idx n)
    (hx : 0 < Spec.kineticEnergy (gVectors A n x)) (s : ℝ) (hs : 0 < s) (hs' : s < 1) :
    sphericalMask A n (Spec.kineticEnergy (gVectors A n x)) x = true ∧
    sphericalMask (s • A) n (Spec.kineticEnergy (gVectors A n x)) x = false := by
  refine ⟨(sphericalMask_iff A n _ x).2 le_rfl, Bool.eq_false_iff.2 fun h => ?_⟩
  have h1 := (sphericalMask_iff _ n _ x).1 h
  have hinv : (s • A)⁻¹ = s⁻¹ • A⁻¹ := by
    by_cases hA : IsUnit A.det
    · have := invertibleOfNonzero hs.ne'
      rw [Matrix.inv_smul (A := A) s hA, invOf_eq_inv]
    · rw [Matrix.nonsing_inv_apply_not_isUnit A hA, smul_zero, Matrix.nonsing_inv_apply_not_isUnit]
      rw [Matrix.det_smul]
      exact fun h' => hA (isUnit_of_mul_isUnit_right h')
  have hg : ∀ d, gVectors (s • A) n x d = s⁻¹ * gVectors A n x d := by
    intro d
    simp only [gVectors_apply, reciprocalVectors, hinv, Matrix.smul_apply, Matrix.transpose_apply, smul_eq_mul,
      Finset.mul_sum]
    exact Finset.sum_congr rfl fun i _ => by ring
  have hk : Spec.kineticEnergy (gVectors (s • A) n x) = s⁻¹ ^ 2 * Spec.kineticEnergy (gVectors A n x) := by
    simp only [Spec.kineticEnergy, Spec.dot, hg, mul_div_assoc', Finset.mul_sum]
    congr 1
    exact Finset.sum_congr rfl fun i _ => by ring
  have h2 : 1 < s⁻¹ ^ 2 := one_lt_pow₀ ((one_lt_inv₀ hs).2 hs') two_ne_zero
  rw [hk] at h1
  nlinarith

/-- C111, whole calculations (part): when no plane wave lies on the cutoff, calculations for all geometries near a given
one succeed as well, with the same grid, and their total energies without the repulsion of the nuclei are as close as
one likes, up to the accuracy of the optimiser and, with smearing, `2 T log 2` per band.  Missing: cells with a plane
wave on the cutoff, see `sphericalMask_jump`. -/
theorem run_cell_continuous_partial (L : RunLib) (cfg : RunConfig) {m : ℕ} (a : AseAtoms m)
    (size ksize : Fin 3 → ℤ) (ne spin : ℤ) (H : Spec.AdmissibleRun L cfg a size ksize ne spin)
    (hC : Spec.Triangular L.qrC) (hR : Spec.Triangular L.qrR) (hxc : Spec.ContinuousXc L.xc cfg.xc)
    (heps : 0 < cfg.eps) (hspin : cfg.occupation = "simplex-projector" → cfg.restricted = true → spin = 0)
    (hg : cfg.occupation = "gamma" → ∀ i, ksize i ≤ 1)
    (ε : ℝ) (hopt : ∀ opt, L.optimizer = .ok opt → Spec.NearOptimizer ε opt)
    (A : Matrix (Fin 3) (Fin 3) ℝ) (hA : A = (angstrom2bohr : ℝ) • a.cell)
    (hoff : ∀ n, Spec.LeastGrid size n → Spec.OffCutoff cfg A n)
    (he : 3 ≤ cfg.epoch) (hw : 2 ≤ cfg.window) (hq : cfg.threshold ≤ 0 ∨ cfg.smearing ≤ 0) (δ : ℝ) (hδ : 0 < δ) :
    ∃ n rep, Spec.LeastGrid size n ∧ runAtoms L cfg a = .ok ⟨n, rep⟩ ∧ ∃ η, 0 < η ∧
      ∀ a' : AseAtoms m, a'.numbers = a.numbers → (∀ i d, |a'.cell i d - a.cell i d| < η) →
        (∀ i d, |a'.positions i d - a.positions i d| < η) →
      ∃ rep', runAtoms L cfg a' = .ok ⟨n, rep'⟩ ∧
        |(rep.total - rep.repulsion) - (rep'.total - rep'.repulsion)|
          ≤ δ + 2 * max cfg.smearing 0 * ((ne.toNat + 1) / 2 + cfg.emptyBands : ℕ) * Real.log 2 + ε := by
  obtain ⟨n, kn, -, mask, -, a2, a3, a4, -⟩ :=
    run_history L cfg a size ksize ne spin H hC hR hxc heps hspin hg ε hopt A hA _ (fun _ _ => rfl) _ (fun _ => rfl)
  obtain ⟨rep, c, occ, h1, h2⟩ := run_total_ground L cfg a size ksize ne spin H hC hR hxc heps hspin hg ε hopt A hA
    (fun i d => angstrom2bohr * a.positions i d) (fun _ _ => rfl) (fun i => a.numbers i) (fun _ => rfl) he hw hq a2 a3
    mask a4
  have hdet : A.det ≠ 0 := by
    rw [hA]
    exact fromAse_det a cfg.spin H.cell
  obtain ⟨η₁, hη₁, hst⟩ := mask_stable cfg A hdet n (hoff n a2)
  obtain ⟨η₂, hη₂, hgr⟩ := ground_cell_continuous (ns := if cfg.restricted then 1 else 2) (nb := (ne.toNat + 1) / 2 + cfg.emptyBands)
    (kn := kn) L.xc mask ne spin cfg.restricted cfg.occupation (max cfg.smearing 0) cfg.eps (fun i => (a.numbers i : ℝ)) cfg.xc hxc A
    hdet (fun i d => angstrom2bohr * a.positions i d) hδ
  have hbohr : (0 : ℝ) < angstrom2bohr := by norm_num [angstrom2bohr]
  have hη : 0 < min η₁ η₂ := lt_min hη₁ hη₂
  have close : ∀ u v : ℝ, |u - v| < min η₁ η₂ / angstrom2bohr →
      |(angstrom2bohr : ℝ) * u - angstrom2bohr * v| < min η₁ η₂ := by
    intro u v h
    rw [← mul_sub, abs_mul, abs_of_pos hbohr, mul_comm]
    exact (lt_div_iff₀ hbohr).1 h
  refine ⟨n, rep, a2, h1, min η₁ η₂ / angstrom2bohr, div_pos hη hbohr, fun a' hnum hcell hposn => ?_⟩
  have hc : ∀ i d, |((angstrom2bohr : ℝ) • a'.cell) i d - A i d| < min η₁ η₂ := by
    intro i d
    rw [hA]
    exact close _ _ (hcell i d)
  have hp : ∀ i d, |(angstrom2bohr : ℝ) * a'.positions i d - angstrom2bohr * a.positions i d| < min η₁ η₂ :=
    fun i d => close _ _ (hposn i d)
  obtain ⟨hdet', hgr'⟩ := hgr ((angstrom2bohr : ℝ) • a'.cell) (fun i d => angstrom2bohr * a'.positions i d)
    (fun i d => (hc i d).trans_le (min_le_right _ _)) (fun i d => (hp i d).trans_le (min_le_right _ _))
  have hmask' : createFreqMask cfg ((angstrom2bohr : ℝ) • a'.cell) n = .ok mask :=
    (hst _ fun i d => (hc i d).trans_le (min_le_left _ _)).trans a4
  have H' : Spec.AdmissibleRun L cfg a' size ksize ne spin := { H with
    cell := by
      intro h0
      rw [Matrix.det_smul, h0, mul_zero] at hdet'
      exact hdet' rfl
    electrons := by rw [hnum]; exact H.electrons
    waves := fun n' hn' mask' hm' => by
      obtain rfl := leastGrid_unique a2 hn'
      obtain rfl := Except.ok.inj (hmask'.symm.trans hm')
      exact H.waves _ a2 mask (by rw [← hA]; exact a4) }
  obtain ⟨rep', c', occ', h1', h2'⟩ := run_total_ground L cfg a' size ksize ne spin H' hC hR hxc heps hspin hg ε hopt _ rfl
    (fun i d => angstrom2bohr * a'.positions i d) (fun _ _ => rfl) (fun i => a.numbers i) (fun i => by rw [hnum]) he hw hq a2 a3
    mask hmask'
  refine ⟨rep', h1', ?_⟩
  have h3 := hgr' ε ε c c' occ occ' _ _ h2 h2'
  rw [max_self] at h3
  have hkpos := idxList_length_pos fun i => smooth_pos (a3 i).1
  have ent := entropy_gap hkpos (fun h => one_kpoint a3 (hg h)) heps h2.physical h2'.physical
  have ent' := entropy_gap hkpos (fun h => one_kpoint a3 (hg h)) heps h2'.physical h2.physical
  have hT := le_max_right cfg.smearing 0
  have m1 := mul_le_mul_of_nonneg_left ent hT
  have m2 := mul_le_mul_of_nonneg_left ent' hT
  rw [abs_le] at h3 ⊢
  constructor <;> linarith [h3.1, h3.2]

/-- C111, too few plane waves: a calculation with fewer selected plane waves than bands, but more than one, fails. -/
theorem run_few_waves (L : RunLib) (cfg : RunConfig) {m : ℕ} (a : AseAtoms m) (size ksize : Fin 3 → ℤ)
    (hg : Spec.SizesOk cfg.gridSizes size) (hk : Spec.SizesOk cfg.kGridSizes ksize)
    (hw : ∀ n, Spec.LeastGrid size n → ∀ mask, createFreqMask cfg ((angstrom2bohr : ℝ) • a.cell) n = .ok mask →
      1 < Fintype.card {k // mask k = true} ∧
      Fintype.card {k // mask k = true} < ((∑ i, a.numbers i).toNat + 1) / 2 + cfg.emptyBands) :
    ∃ e, runAtoms L cfg a = .error e := by
  obtain ⟨n, kn, hs, hn, -⟩ := run_sizes cfg size ksize hg hk
  unfold runAtoms
  cases hc : createCrystal a cfg.spin with
  | error e => exact ⟨e, rfl⟩
  | ok c =>
    have hc' : c = Crystal.fromAse a cfg.spin := by
      unfold createCrystal at hc
      dsimp only at hc
      split at hc
      · exact absurd hc nofun
      · exact (Except.ok.inj hc).symm
    have hcell : c.cell = (angstrom2bohr : ℝ) • a.cell := by rw [hc']; rfl
    have hne : c.numElectron = ∑ i, a.numbers i := by rw [hc']; rfl
    unfold runCrystal runGrid
    simp only [hs]
    cases hm : createFreqMask cfg c.cell n with
    | error e => exact ⟨e, rfl⟩
    | ok mask =>
      simp only
      cases runRepulsion L.erfc cfg c n with
      | error e => exact ⟨e, rfl⟩
      | ok ew =>
        simp only
        generalize (if cfg.parallelK = true then L.devices else 1) = dv
        by_cases h' : (idxList kn).length % dv ≠ 0
        · rw [if_pos h']
          exact ⟨_, rfl⟩
        · rw [if_neg h']
          obtain ⟨h1, h2⟩ := hw n hn mask (hcell ▸ hm)
          rw [← maskCount_card, ← hne] at h2
          rw [← maskCount_card] at h1
          have hst : ∀ p, ∃ e, gsDensity (ns := if cfg.restricted then 1 else 2)
              (nb := driverBands (runEnv L cfg c n kn mask).ne.toNat cfg.emptyBands) (runEnv L cfg c n kn mask) p
                = .error e := by
            intro p
            have hb : bcLen (min (maskCount (runEnv L cfg c n kn mask).mask)
                (driverBands (runEnv L cfg c n kn mask).ne.toNat cfg.emptyBands))
                (driverBands (runEnv L cfg c n kn mask).ne.toNat cfg.emptyBands) = .error .valueError := by
              have e1 : maskCount (runEnv L cfg c n kn mask).mask = maskCount mask := rfl
              have e2 : driverBands (runEnv L cfg c n kn mask).ne.toNat cfg.emptyBands
                = (c.numElectron.toNat + 1) / 2 + cfg.emptyBands := rfl
              rw [e1, e2, min_eq_left h2.le]
              unfold bcLen
              rw [if_neg h2.ne, if_neg h1.ne', if_neg (by omega)]
            unfold gsDensity gsState
            cases occupation (runEnv L cfg c n kn mask).qrR p.occ (runEnv L cfg c n kn mask).ne
              (runEnv L cfg c n kn mask).spin (runEnv L cfg c n kn mask).method (runEnv L cfg c n kn mask).restricted with
            | error e => exact ⟨e, rfl⟩
            | ok o =>
              simp only
              cases bcLen (if cfg.restricted = true then 1 else 2) o.length with
              | error e => exact ⟨e, rfl⟩
              | ok S =>
                simp only [hb]
                exact ⟨_, rfl⟩
          have hl : ∃ e, runLoop L cfg (runEnv L cfg c n kn mask) ew = .error e := by
            unfold runLoop
            cases L.optimizer with
            | error e => exact ⟨e, rfl⟩
            | ok opt =>
              dsimp only
              split
              · exact ⟨_, rfl⟩
              · refine firstUpdate_error _ _ _ _ ?_
                unfold gsCalc gsRun
                split
                · exact ⟨_, rfl⟩
                · rename_i p _ _
                  obtain ⟨e, he⟩ := hst p.1
                  simp only [he]
                  exact ⟨e, rfl⟩
          obtain ⟨e, he⟩ := hl
          simp only [he]
          exact ⟨e, rfl⟩

/-- A lithium calculation with eight bands and a spherical selection of plane waves, whose cutoff is the kinetic
energy of the second shell of plane waves of a cube with an edge of one ångström. -/
noncomputable def shellConfig : RunConfig := { lithiumConfig with
  maskMethod := "spherical"
  cutoff := (2 * Real.pi / angstrom2bohr) ^ 2
  emptyBands := 6 }

private def shell (N : ℤ) (k : Idx fun _ => 4) : Bool :=
  decide (sfreq 4 (k 0) ^ 2 + sfreq 4 (k 1) ^ 2 + sfreq 4 (k 2) ^ 2 ≤ N)

private theorem shell_kinetic {s : ℝ} (hs : 0 < s) (k : Idx fun _ => 4) :
    Spec.kineticEnergy (gVectors ((angstrom2bohr : ℝ) • (s • (1 : Matrix (Fin 3) (Fin 3) ℝ))) (fun _ => 4) k)
      = (2 * Real.pi / angstrom2bohr) ^ 2 / (2 * s ^ 2) *
        ((sfreq 4 (k 0) ^ 2 + sfreq 4 (k 1) ^ 2 + sfreq 4 (k 2) ^ 2 : ℤ) : ℝ) := by
  have hb : (0 : ℝ) < angstrom2bohr := by norm_num [angstrom2bohr]
  have hinv : ((angstrom2bohr : ℝ) • (s • (1 : Matrix (Fin 3) (Fin 3) ℝ)))⁻¹ = ((angstrom2bohr : ℝ) * s)⁻¹ • 1 := by
    rw [smul_smul]
    refine Matrix.inv_eq_left_inv ?_
    rw [Matrix.smul_mul, Matrix.one_mul, smul_smul, inv_mul_cancel₀ (mul_pos hb hs).ne', one_smul]
  have hg : ∀ d, gVectors ((angstrom2bohr : ℝ) • (s • (1 : Matrix (Fin 3) (Fin 3) ℝ))) (fun _ => 4) k d
      = 2 * Real.pi / angstrom2bohr / s * sfreq 4 (k d) := by
    intro d
    rw [gVectors_apply]
    unfold reciprocalVectors
    rw [hinv]
    simp only [Matrix.smul_apply, Matrix.transpose_apply, Matrix.one_apply, smul_eq_mul, mul_ite, mul_one, mul_zero,
      Finset.sum_ite_eq, Finset.mem_univ, if_true]
    field_simp
  unfold Spec.kineticEnergy Spec.dot
  rw [Fin.sum_univ_three, hg, hg, hg]
  push_cast
  field_simp

private theorem shell_mask {s : ℝ} (hs : 0 < s) (N : ℤ) (hN : ∀ z : ℤ, (z : ℝ) ≤ 2 * s ^ 2 ↔ z ≤ N) :
    sphericalMask ((angstrom2bohr : ℝ) • (s • (1 : Matrix (Fin 3) (Fin 3) ℝ))) (fun _ => 4) shellConfig.cutoff = shell N := by
  have hb : (0 : ℝ) < angstrom2bohr := by norm_num [angstrom2bohr]
  have hpos : 0 < (2 * Real.pi / (angstrom2bohr : ℝ)) ^ 2 := by positivity
  funext k
  refine Bool.eq_iff_iff.2 ?_
  rw [sphericalMask_iff, shell_kinetic hs]
  unfold shell
  rw [decide_eq_true_iff, ← hN]
  show _ ≤ (2 * Real.pi / (angstrom2bohr : ℝ)) ^ 2 ↔ _
  rw [div_mul_eq_mul_div, div_le_iff₀ (by positivity), mul_le_mul_iff_right₀ hpos]

/-- C111 fails for cells with a plane wave on the cutoff: the calculation of a lithium atom in a cube succeeds, but every
calculation in a slightly smaller cube fails. -/
theorem run_cell_continuous_false (xc : XcLib) :
    (∃ n rep, runAtoms (lithiumLib xc) shellConfig (⟨fun _ => 3, 0, 1⟩ : AseAtoms 1) = .ok ⟨n, rep⟩) ∧
    ∀ s : ℝ, 3 / 4 < s → s < 1 →
      ∃ e, runAtoms (lithiumLib xc) shellConfig (⟨fun _ => 3, 0, s • 1⟩ : AseAtoms 1) = .error e := by
  have hcreate : ∀ A n, createFreqMask shellConfig A n = .ok (sphericalMask A n shellConfig.cutoff) := fun A n => by
    unfold createFreqMask
    rw [if_neg (by decide), if_pos (by decide)]
  constructor
  · have H : Spec.AdmissibleRun (lithiumLib xc) shellConfig (⟨fun _ => 3, 0, 1⟩ : AseAtoms 1) (fun _ => 4) (fun _ => 2) 3 1 :=
      { lithium_admissible xc with
        placeable := ⟨by decide, Or.inr (Or.inl ⟨rfl, by decide, by decide⟩)⟩
        method := Or.inr rfl
        waves := fun n hn mask hm => by
          obtain rfl : n = fun _ => 4 := funext fun i => least_eq (k := 4) (hn i) smooth4
          obtain rfl := Except.ok.inj ((hcreate _ _).symm.trans hm)
          have := shell_mask one_pos 2 fun z => by
            rw [one_pow, mul_one]
            exact_mod_cast Iff.rfl
          rw [one_smul] at this
          simp only [this]
          decide +kernel }
    obtain ⟨n, rep, h, -⟩ := run_complete_partial _ _ _ _ _ _ _ H
    exact ⟨n, rep, h⟩
  · intro s hs hs'
    refine run_few_waves _ shellConfig _ (fun _ => 4) (fun _ => 2) (lithium_admissible xc).sizes
      (lithium_admissible xc).ksizes fun n hn mask hm => ?_
    obtain rfl : n = fun _ => 4 := funext fun i => least_eq (k := 4) (hn i) smooth4
    obtain rfl := Except.ok.inj ((hcreate _ _).symm.trans hm)
    have := shell_mask (s := s) (by linarith) 1 fun z => by
      constructor
      · intro h
        have : (z : ℝ) < 2 := by nlinarith
        have : z < 2 := by exact_mod_cast this
        omega
      · intro h
        have : (z : ℝ) ≤ 1 := by exact_mod_cast h
        nlinarith
    simp only [this]
    decide +kernel

/-- The hypotheses of `run_cell_continuous_partial`, and with them those of `ground_cell_continuous` and `mask_stable`,
hold for the lithium atom. -/
example {ε δ : ℝ} (hε : 0 < ε) (hδ : 0 < δ) :
    let L : RunLib := { lithiumLib diracLib with
      qrC := gramSchmidtQR ℂ, qrR := gramSchmidtQR ℝ, optimizer := .ok (nearOptimizer ε) }
    ∃ n rep, runAtoms L lithiumConfig (⟨fun _ => 3, 0, 1⟩ : AseAtoms 1) = .ok ⟨n, rep⟩ ∧ ∃ η, 0 < η ∧
      ∀ a' : AseAtoms 1, a'.numbers = (fun _ => 3) → (∀ i d, |a'.cell i d - (1 : Matrix (Fin 3) (Fin 3) ℝ) i d| < η) →
        (∀ i d, |a'.positions i d - 0| < η) →
      ∃ rep', runAtoms L lithiumConfig a' = .ok ⟨n, rep'⟩ ∧
        |(rep.total - rep.repulsion) - (rep'.total - rep'.repulsion)| ≤ δ + ε := by
  intro L
  obtain ⟨n, rep, -, h1, η, hη, h2⟩ := run_cell_continuous_partial L lithiumConfig (⟨fun _ => 3, 0, 1⟩ : AseAtoms 1)
    (fun _ => 4) (fun _ => 2) 3 1
    { lithium_admissible diracLib with optimizer := ⟨nearOptimizer ε, rfl, nearOptimizer_keeps ε⟩ }
    (gramSchmidtQR_triangular ℂ) (gramSchmidtQR_triangular ℝ) diracLib_continuous (by norm_num [lithiumConfig])
    (fun _ h => absurd h (by decide)) (fun h => absurd h (by decide)) ε
    (fun o ho => by cases Except.ok.inj ho; exact nearOptimizer_near hε) _ rfl
    (fun _ _ h => absurd h (by decide)) (by decide) (by decide) (Or.inr le_rfl) δ hδ
  refine ⟨n, rep, h1, η, hη, fun a' e1 e2 e3 => ?_⟩
  obtain ⟨rep', h3, h4⟩ := h2 a' e1 e2 e3
  exact ⟨rep', h3, by simpa [lithiumConfig] using h4⟩

/-- A spherical selection without a plane wave on the cutoff. -/
example : Spec.OffCutoff shellConfig ((angstrom2bohr : ℝ) • (((3 : ℝ) / 4) • (1 : Matrix (Fin 3) (Fin 3) ℝ))) fun _ => 4 := by
  intro _ k h
  have hb : (0 : ℝ) < angstrom2bohr := by norm_num [angstrom2bohr]
  have hpos : 0 < (2 * Real.pi / (angstrom2bohr : ℝ)) ^ 2 := by positivity
  rw [shell_kinetic (by norm_num)] at h
  generalize sfreq 4 (k 0) ^ 2 + sfreq 4 (k 1) ^ 2 + sfreq 4 (k 2) ^ 2 = N at h
  have h' : (2 * Real.pi / (angstrom2bohr : ℝ)) ^ 2 / (2 * (3 / 4) ^ 2) * (N : ℝ)
    = (2 * Real.pi / (angstrom2bohr : ℝ)) ^ 2 := h
  rw [div_mul_eq_mul_div, div_eq_iff (by norm_num)] at h'
  have h2 := mul_left_cancel₀ hpos.ne' h'
  have h3 : (8 * N : ℝ) = 9 := by rw [h2]; norm_num
  have h4 : (8 * N : ℤ) = 9 := by exact_mod_cast h3
  omega

/-- A plane wave on the cutoff, lost when the cell shrinks: the first plane wave along the first axis of a cube. -/
example : sphericalMask (1 : Matrix (Fin 3) (Fin 3) ℝ) (fun _ => 4)
      (Spec.kineticEnergy (gVectors 1 (fun _ => 4) (fun i => if i = 0 then 1 else 0))) (fun i => if i = 0 then 1 else 0) = true ∧
    sphericalMask (((9 : ℝ) / 10) • (1 : Matrix (Fin 3) (Fin 3) ℝ)) (fun _ => 4)
      (Spec.kineticEnergy (gVectors 1 (fun _ => 4) (fun i => if i = 0 then 1 else 0))) (fun i => if i = 0 then 1 else 0)
        = false := by
  refine sphericalMask_jump _ _ _ ?_ _ (by norm_num) (by norm_num)
  have h : gVectors (1 : Matrix (Fin 3) (Fin 3) ℝ) (fun _ => 4) (fun i => if i = 0 then 1 else 0) 0 = 2 * Real.pi := by
    rw [gVectors_apply, recip_one, Fin.sum_univ_three]
    simp [sfreq]
  unfold Spec.kineticEnergy Spec.dot
  rw [Fin.sum_univ_three, h]
  have := Real.pi_pos
  have h1 := mul_self_nonneg (gVectors (1 : Matrix (Fin 3) (Fin 3) ℝ) (fun _ => 4) (fun i => if i = 0 then 1 else 0) 1)
  have h2 := mul_self_nonneg (gVectors (1 : Matrix (Fin 3) (Fin 3) ℝ) (fun _ => 4) (fun i => if i = 0 then 1 else 0) 2)
  have h3 := mul_pos (mul_pos two_pos this) (mul_pos two_pos this)
  linarith

end Jrystal
