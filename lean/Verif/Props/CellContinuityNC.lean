import Verif.Lemmas.CellContNC
import Verif.Props.EwaldCell
import Verif.Props.StabilityNC

/- C128: the energy of valence electrons as a function of the cell vectors. -/
namespace Jrystal
open scoped BigOperators ComplexConjugate
open Filter RunSetup

/-- The energies of all physical states of valence electrons change little when the geometry changes little. -/
private theorem statesNC_uniform (L : NcLib) (hL : Spec.ContinuousPseudo L) (P : NcLists) {ns nb na : ℕ} (hna : 0 < na)
    {n kn : Fin 3 → ℕ} (mask : Idx n → Bool) (ne spin : ℤ) (r : Bool) (method : String) (xt : String)
    (hx : Spec.ContinuousXc L.xc xt) (A : Matrix (Fin 3) (Fin 3) ℝ) (hA : A.det ≠ 0) (pos : Fin na → Fin 3 → ℝ)
    (ht : Spec.Tabulated (gVectors A n) (flatRows (kVectors A kn))) {δ : ℝ} (hδ : 0 < δ) :
    ∃ η, 0 < η ∧ ∀ (A' : Matrix (Fin 3) (Fin 3) ℝ) (pos' : Fin na → Fin 3 → ℝ),
      (∀ i d, |A' i d - A i d| < η) → (∀ i d, |pos' i d - pos i d| < η) → A'.det ≠ 0 ∧ ∀ v v',
      localReciprocal L.jn L.csLoc (ncLocalAtom P pos) (gVectors A n) |A.det| "sbt" = .ok v →
      localReciprocal L.jn L.csLoc (ncLocalAtom P pos') (gVectors A' n) |A'.det| "sbt" = .ok v' →
      ∀ x ∈ competing mask ne spin r method ns (idxList kn).length nb, ∀ e e',
        Spec.EnergyNC L.xc xt v (pseudoPsi L P pos (gVectors A n) (flatRows (kVectors A kn))) (gVectors A n)
          (flatRows (kVectors A kn)) |A.det| x.1 x.2 e →
        Spec.EnergyNC L.xc xt v' (pseudoPsi L P pos' (gVectors A' n) (flatRows (kVectors A' kn))) (gVectors A' n)
          (flatRows (kVectors A' kn)) |A'.det| x.1 x.2 e' →
        |e - e'| < δ := by
  obtain ⟨⟨x₀, t₀⟩, k₁, x₁, t₁⟩ := ht
  let V : Set (Matrix (Fin 3) (Fin 3) ℝ) := {A | A.det ≠ 0}
  have hV : IsOpen V := isOpen_ne_fun (Continuous.matrix_det continuous_id) continuous_const
  have cg : ∀ x d, ContinuousOn (fun A => gVectors A n x d) V := fun x d =>
    continuousOn_pi.1 (continuousOn_pi.1 (continuousOn_gVectors n) x) d
  have ck : ∀ k d, ContinuousOn (fun A => flatRows (kVectors A kn) k d) V := fun k d =>
    continuousOn_pi.1 (continuousOn_pi.1 (continuousOn_kVectors kn) k) d
  let W : Set (Matrix (Fin 3) (Fin 3) ℝ) := {B | 0.0001 < Spec.length (gVectors B n x₀) ∧
    0.0001 < Spec.length fun d => flatRows (kVectors B kn) k₁ d + gVectors B n x₁ d}
  have hW : W ∈ nhds A := by
    have c0 : ContinuousOn (fun B => Spec.length (gVectors B n x₀)) V :=
      Real.continuous_sqrt.comp_continuousOn (continuousOn_finsetSum _ fun d _ => (cg x₀ d).pow 2)
    have c1 : ContinuousOn (fun B => Spec.length fun d => flatRows (kVectors B kn) k₁ d + gVectors B n x₁ d) V :=
      Real.continuous_sqrt.comp_continuousOn (continuousOn_finsetSum _ fun d _ => ((ck k₁ d).add (cg x₁ d)).pow 2)
    exact ((c0.continuousAt (hV.mem_nhds hA)).eventually (lt_mem_nhds t₀)).and
      ((c1.continuousAt (hV.mem_nhds hA)).eventually (lt_mem_nhds t₁))
  let U : Set (Matrix (Fin 3) (Fin 3) ℝ × (Fin na → Fin 3 → ℝ)) := {y | y.1 ∈ V ∩ W}
  have hU : U ∈ nhds (A, pos) :=
    (continuous_fst.continuousAt (x := (A, pos))).preimage_mem_nhds (inter_mem (hV.mem_nhds hA) hW)
  let K := competing (n := n) mask ne spin r method ns (idxList kn).length nb
  have m1 : Set.MapsTo (fun x : (Matrix (Fin 3) (Fin 3) ℝ × (Fin na → Fin 3 → ℝ)) ×
      (Coef ns (idxList kn).length nb n × Occ ns (idxList kn).length nb) => x.1.1) (U ×ˢ K) {A | A.det ≠ 0} :=
    fun x hx => hx.1.1
  have cg' := (continuousOn_gVectors n).comp (continuous_fst.comp continuous_fst).continuousOn m1
  have ck' := (continuousOn_kVectors kn).comp (continuous_fst.comp continuous_fst).continuousOn m1
  have cv : ContinuousOn (fun x : (Matrix (Fin 3) (Fin 3) ℝ × (Fin na → Fin 3 → ℝ)) ×
      (Coef ns (idxList kn).length nb n × Occ ns (idxList kn).length nb) => |x.1.1.det|) (U ×ˢ K) :=
    (Continuous.matrix_det (continuous_fst.comp continuous_fst)).abs.continuousOn
  have cp : ContinuousOn (fun x : (Matrix (Fin 3) (Fin 3) ℝ × (Fin na → Fin 3 → ℝ)) ×
      (Coef ns (idxList kn).length nb n × Occ ns (idxList kn).length nb) => x.1.2) (U ×ˢ K) :=
    (continuous_snd.comp continuous_fst).continuousOn
  obtain ⟨vl, hvl, hvE⟩ := joint_local (S := U ×ˢ K) (vol := fun x => |x.1.1.det|) (g := fun x => gVectors x.1.1 n)
    (pos := fun x => x.1.2) hL.bessel hL.splineLoc P hna cv (fun x hx => abs_pos.mpr hx.1.1) cg'
    (fun x hx k hk => (gVectors_sq_pos x.1.1 hx.1.1 n k hk).ne') cp fun x hx => lt_maxRadius x₀ hx.1.2.1
  obtain ⟨f, hf, hE⟩ := joint_energyNC (S := U ×ˢ K) (c := fun x => x.2.1) (occ := fun x => x.2.2)
    (vol := fun x => |x.1.1.det|) (g := fun x => gVectors x.1.1 n) (kpts := fun x => flatRows (kVectors x.1.1 kn))
    (vloc := vl) (psi := fun x => pseudoPsi L P x.1.2 (gVectors x.1.1 n) (flatRows (kVectors x.1.1 kn))) L.xc xt hx
    (continuous_fst.comp continuous_snd).continuousOn (continuous_snd.comp continuous_snd).continuousOn cv
    (fun x hx => abs_pos.mpr hx.1.1) cg' (fun x hx k hk => (gVectors_sq_pos x.1.1 hx.1.1 n k hk).ne') ck'
    (fun x hx => hx.2.1.nonneg) hvl
    (joint_psi (S := U ×ˢ K) (g := fun x => gVectors x.1.1 n) (kpts := fun x => flatRows (kVectors x.1.1 kn))
      (pos := fun x => x.1.2) L hL P cg' ck' cp (fun x hx => ⟨k₁, x₁, hx.1.2.2⟩) fun k y =>
        (wave_zero n kn k y).imp (fun h x _ => h x.1.1) fun h x hx => h x.1.1 hx.1.1)
  obtain ⟨v, hv, huni⟩ := (competing_compact (ns := ns) (nk := (idxList kn).length) (nb := nb) mask ne spin r
    method).mem_uniformity_of_prod (f := fun y x => f (y, x)) (s := U) (q := (A, pos)) hf (mem_of_mem_nhds hU)
    (Metric.dist_mem_uniformity hδ)
  rw [nhdsWithin_eq_nhds.2 hU] at hv
  have hw : (show Set ((Fin 3 → Fin 3 → ℝ) × (Fin na → Fin 3 → ℝ)) from v ∩ U)
      ∈ nhds ((A, pos) : (Fin 3 → Fin 3 → ℝ) × (Fin na → Fin 3 → ℝ)) := Filter.inter_mem hv hU
  obtain ⟨η, hη, hball⟩ := Metric.mem_nhds_iff.1 hw
  refine ⟨η, hη, fun A' pos' h1 h2 => ?_⟩
  have hin : ((A', pos') : (Fin 3 → Fin 3 → ℝ) × (Fin na → Fin 3 → ℝ))
      ∈ Metric.ball ((A, pos) : (Fin 3 → Fin 3 → ℝ) × (Fin na → Fin 3 → ℝ)) η := by
    rw [Metric.mem_ball, Prod.dist_eq, max_lt_iff]
    constructor
    · refine (dist_pi_lt_iff hη).2 fun i => (dist_pi_lt_iff hη).2 fun d => ?_
      rw [Real.dist_eq]
      exact h1 i d
    · refine (dist_pi_lt_iff hη).2 fun i => (dist_pi_lt_iff hη).2 fun d => ?_
      rw [Real.dist_eq]
      exact h2 i d
  obtain ⟨g1, g2⟩ := hball hin
  refine ⟨g2.1, fun w w' hw hw' x hx e e' he he' => ?_⟩
  have := huni _ g1 x hx
  obtain rfl := Except.ok.inj ((hvE ((A, pos), x)).symm.trans hw)
  obtain rfl := Except.ok.inj ((hvE ((A', pos'), x)).symm.trans hw')
  rw [← energyNC_unique (hE ((A, pos), x)) he, ← energyNC_unique (hE ((A', pos'), x)) he', abs_sub_comm]
  exact this

/-- C128: the free energies of (nearly) ground states of valence electrons for two geometries of one crystal are as close
as one likes, up to the accuracy with which the ground states are known, when the cell vectors and the positions are
close.  The data of the pseudopotentials are the tables for each geometry. -/
theorem groundNC_cell_continuous (L : NcLib) (hL : Spec.ContinuousPseudo L) (cfg : NcConfig) {ns nb na : ℕ} (hna : 0 < na)
    (symbols : Fin na → Str) (P : NcLists) (hP : createPseudo L cfg (List.ofFn symbols) = .ok P)
    {n kn : Fin 3 → ℕ} (mask : Idx n → Bool) (ne spin : ℤ) (r : Bool) (method : String) (T eps : ℝ) (xt : String)
    (hx : Spec.ContinuousXc L.xc xt) (A : Matrix (Fin 3) (Fin 3) ℝ) (hA : A.det ≠ 0) (pos : Fin na → Fin 3 → ℝ)
    (ht : Spec.Tabulated (gVectors A n) (flatRows (kVectors A kn))) {δ : ℝ} (hδ : 0 < δ) :
    ∃ η, 0 < η ∧ ∀ (A' : Matrix (Fin 3) (Fin 3) ℝ) (pos' : Fin na → Fin 3 → ℝ),
      (∀ i d, |A' i d - A i d| < η) → (∀ i d, |pos' i d - pos i d| < η) → A'.det ≠ 0 ∧ ∀ v v' bs bs',
      localReciprocal L.jn L.csLoc (ncLocalAtom P pos) (gVectors A n) |A.det| "sbt" = .ok v →
      localReciprocal L.jn L.csLoc (ncLocalAtom P pos') (gVectors A' n) |A'.det| "sbt" = .ok v' →
      ncBetas L P (gVectors A n) (flatRows (kVectors A kn)) = .ok bs →
      ncBetas L P (gVectors A' n) (flatRows (kVectors A' kn)) = .ok bs' →
      ∀ (ε ε' : ℝ) (c c' : Coef ns (idxList kn).length nb n) (occ occ' : Occ ns (idxList kn).length nb) (e e' : ℝ),
        Spec.GroundWithin ε T eps mask ne spin r method
          (Spec.EnergyNC L.xc xt v (nlPsiAll L.eigh L.sph (fun a : Fin na => ncSpecies P bs a) pos (gVectors A n)
            (flatRows (kVectors A kn))) (gVectors A n) (flatRows (kVectors A kn)) |A.det|) c occ e →
        Spec.GroundWithin ε' T eps mask ne spin r method
          (Spec.EnergyNC L.xc xt v' (nlPsiAll L.eigh L.sph (fun a : Fin na => ncSpecies P bs' a) pos' (gVectors A' n)
            (flatRows (kVectors A' kn))) (gVectors A' n) (flatRows (kVectors A' kn)) |A'.det|) c' occ' e' →
        |(e - T * Spec.smearingEntropy eps ((3 - (ns : ℝ)) / (idxList kn).length) occ)
            - (e' - T * Spec.smearingEntropy eps ((3 - (ns : ℝ)) / (idxList kn).length) occ')| ≤ δ + max ε ε' := by
  obtain ⟨η, hη, hall⟩ := statesNC_uniform (ns := ns) (nb := nb) (kn := kn) L hL P hna mask ne spin r method xt hx A hA pos
    ht hδ
  refine ⟨η, hη, fun A' pos' h1 h2 => ?_⟩
  obtain ⟨hA', hst⟩ := hall A' pos' h1 h2
  refine ⟨hA', fun v v' bs bs' hv hv' hbs hbs' ε ε' c c' occ occ' e e' h h' => ?_⟩
  have e1 : ∀ (B : Matrix (Fin 3) (Fin 3) ℝ) (q : Fin na → Fin 3 → ℝ) (w : Idx n → ℂ) (S : Fin na → NlSpecies (idxList kn).length n),
      S = (fun a : Fin na => pseudoSpecies L P (gVectors B n) (flatRows (kVectors B kn)) a) →
      Spec.EnergyNC (ns := ns) (nb := nb) L.xc xt w (nlPsiAll L.eigh L.sph S q (gVectors B n)
            (flatRows (kVectors B kn))) (gVectors B n) (flatRows (kVectors B kn)) |B.det|
      = Spec.EnergyNC L.xc xt w (pseudoPsi L P q (gVectors B n) (flatRows (kVectors B kn))) (gVectors B n)
          (flatRows (kVectors B kn)) |B.det| := by
    rintro B q w _ rfl
    rfl
  rw [e1 A pos v _ (species_all_written L cfg symbols P hP hbs)] at h
  rw [e1 A' pos' v' _ (species_all_written L cfg symbols P hP hbs')] at h'
  obtain ⟨e₁, k₁⟩ := energyNC_exists L.xc xt v' (pseudoPsi L P pos' (gVectors A' n) (flatRows (kVectors A' kn)))
    (gVectors A' n) (flatRows (kVectors A' kn)) |A'.det| c occ
  obtain ⟨e₂, k₂⟩ := energyNC_exists L.xc xt v (pseudoPsi L P pos (gVectors A n) (flatRows (kVectors A kn)))
    (gVectors A n) (flatRows (kVectors A kn)) |A.det| c' occ'
  have a1 := hst v v' hv hv' (c, occ) ⟨h.physical, h.given⟩ e e₁ h.value k₁
  have a2 := hst v v' hv hv' (c', occ') ⟨h'.physical, h'.given⟩ e₂ e' k₂ h'.value
  have b1 := h.least c' occ' e₂ h'.physical (fun hm => (h'.given hm).trans (h.given hm).symm) k₂
  have b2 := h'.least c occ e₁ h.physical (fun hm => (h.given hm).trans (h'.given hm).symm) k₁
  rw [abs_lt] at a1 a2
  rw [abs_le]
  constructor <;> linarith [a1.1, a1.2, a2.1, a2.2, le_max_left ε ε', le_max_right ε ε']

/-- C128, whole calculations (part): when no plane wave lies on the cutoff, calculations with norm-conserving
pseudopotentials for all geometries near a given one succeed as well, with the same grid, and their total energies
without the repulsion of the nuclei are as close as one likes, up to the accuracy of the optimiser and, with smearing,
`2 T log 2` per band.  Missing: cells with a plane wave on the cutoff, see `sphericalMask_jump`. -/
theorem ncRun_cell_continuous_partial (L : NcLib) (hL : Spec.ContinuousPseudo L) (cfg : NcConfig) {m : ℕ}
    (a : AseAtoms m) (size ksize : Fin 3 → ℤ) (P : NcLists) (ne spin : ℤ)
    (H : Spec.AdmissibleRunNC L cfg a size ksize P ne spin)
    (hC : Spec.Triangular L.qrC) (hR : Spec.Triangular L.qrR) (hxc : Spec.ContinuousXc L.xc cfg.xc)
    (heps : 0 < cfg.eps) (hspin : cfg.occupation = "simplex-projector" → cfg.restricted = true → spin = 0)
    (hg : cfg.occupation = "gamma" → ∀ i, ksize i ≤ 1)
    (ε : ℝ) (hopt : ∀ opt, L.optimizer = .ok opt → Spec.NearOptimizer ε opt)
    (A : Matrix (Fin 3) (Fin 3) ℝ) (hA : A = (angstrom2bohr : ℝ) • a.cell)
    (hoff : ∀ n, Spec.LeastGrid size n → Spec.OffCutoff cfg.toRunConfig A n)
    (ht : ∀ n kn, Spec.LeastGrid size n → Spec.LeastGrid ksize kn →
      Spec.Tabulated (gVectors A n) (flatRows (kVectors A kn)))
    (he : 3 ≤ cfg.epoch) (hw : 2 ≤ cfg.window) (hq : cfg.threshold ≤ 0 ∨ cfg.smearing ≤ 0) (δ : ℝ) (hδ : 0 < δ) :
    ∃ n rep, Spec.LeastGrid size n ∧ runAtomsNC L cfg a = .ok ⟨n, rep⟩ ∧ ∃ η, 0 < η ∧
      ∀ a' : AseAtoms m, a'.numbers = a.numbers → (∀ i d, |a'.cell i d - a.cell i d| < η) →
        (∀ i d, |a'.positions i d - a.positions i d| < η) →
      ∃ rep', runAtomsNC L cfg a' = .ok ⟨n, rep'⟩ ∧
        |(rep.total - rep.repulsion) - (rep'.total - rep'.repulsion)|
          ≤ δ + 2 * max cfg.smearing 0 * ((ne.toNat + 1) / 2 + cfg.emptyBands : ℕ) * Real.log 2 + ε := by
  obtain ⟨n, kn, -, mask, -, bs, -, a2, a3, a4, -, a6, -⟩ :=
    ncRun_history L cfg a size ksize P ne spin H hC hR hxc heps hspin hg ε hopt A hA _ (fun _ _ => rfl)
  obtain ⟨rep, v, c, occ, h1, hv, h2⟩ := ncRun_total_ground L cfg a size ksize P ne spin H hC hR hxc heps hspin hg ε hopt
    A hA (fun i d => angstrom2bohr * a.positions i d) (fun _ _ => rfl) he hw hq a2 a3 mask a4 bs a6
  have hdet : A.det ≠ 0 := by
    rw [hA]
    exact fromAse_det a cfg.spin H.cell
  obtain ⟨η₁, hη₁, hst⟩ := mask_stable cfg.toRunConfig A hdet n (hoff n a2)
  obtain ⟨η₂, hη₂, hgr⟩ := groundNC_cell_continuous (ns := if cfg.restricted then 1 else 2)
    (nb := (ne.toNat + 1) / 2 + cfg.emptyBands) (kn := kn) L hL cfg H.atoms _ P H.loaded mask ne spin cfg.restricted
    cfg.occupation (max cfg.smearing 0) cfg.eps cfg.xc hxc A hdet (fun i d => angstrom2bohr * a.positions i d)
    (ht n kn a2 a3) hδ
  have hbohr : (0 : ℝ) < angstrom2bohr := by norm_num [angstrom2bohr]
  have hη : 0 < min η₁ η₂ := lt_min hη₁ hη₂
  have close : ∀ u v : ℝ, |u - v| < min η₁ η₂ / angstrom2bohr →
      |(angstrom2bohr : ℝ) * u - angstrom2bohr * v| < min η₁ η₂ := by
    intro u v h
    rw [← mul_sub, abs_mul, abs_of_pos hbohr, mul_comm]
    exact (lt_div_iff₀ hbohr).1 h
  refine ⟨n, rep, a2, h1, min η₁ η₂ / angstrom2bohr, div_pos hη hbohr, fun a' hnum hcell hposn => ?_⟩
  have hc : ∀ i d, |((angstrom2bohr : ℝ) • a'.cell) i d - A i d| < min η₁ η₂ := by
    intro i d
    rw [hA]
    exact close _ _ (hcell i d)
  have hp : ∀ i d, |(angstrom2bohr : ℝ) * a'.positions i d - angstrom2bohr * a.positions i d| < min η₁ η₂ :=
    fun i d => close _ _ (hposn i d)
  obtain ⟨hdet', hgr'⟩ := hgr ((angstrom2bohr : ℝ) • a'.cell) (fun i d => angstrom2bohr * a'.positions i d)
    (fun i d => (hc i d).trans_le (min_le_right _ _)) (fun i d => (hp i d).trans_le (min_le_right _ _))
  have hmask' : createFreqMask cfg.toRunConfig ((angstrom2bohr : ℝ) • a'.cell) n = .ok mask :=
    (hst _ fun i d => (hc i d).trans_le (min_le_left _ _)).trans a4
  have H' : Spec.AdmissibleRunNC L cfg a' size ksize P ne spin := { H with
    cell := by
      intro h0
      rw [Matrix.det_smul, h0, mul_zero] at hdet'
      exact hdet' rfl
    loaded := by rw [hnum]; exact H.loaded
    unpaired := by rw [hnum]; exact H.unpaired
    parity := by rw [hnum]; exact H.parity
    waves := fun n' hn' mask' hm' => by
      obtain rfl := leastGrid_unique a2 hn'
      obtain rfl := Except.ok.inj (hmask'.symm.trans hm')
      exact H.waves _ a2 mask (by rw [← hA]; exact a4) }
  obtain ⟨bs', a6'⟩ := ncBetas_ok L cfg _ P H.loaded H.mesh H.processors (gVectors ((angstrom2bohr : ℝ) • a'.cell) n)
    (flatRows (kVectors ((angstrom2bohr : ℝ) • a'.cell) kn))
  obtain ⟨rep', v', c', occ', h1', hv', h2'⟩ := ncRun_total_ground L cfg a' size ksize P ne spin H' hC hR hxc heps hspin hg ε
    hopt _ rfl (fun i d => angstrom2bohr * a'.positions i d) (fun _ _ => rfl) he hw hq a2 a3 mask hmask' bs' a6'
  refine ⟨rep', h1', ?_⟩
  have h3 := hgr' v v' bs bs' hv hv' a6 a6' ε ε c c' occ occ' _ _ h2 h2'
  rw [max_self] at h3
  have hkpos := idxList_length_pos fun i => smooth_pos (a3 i).1
  have ent := entropy_gap hkpos (fun h => one_kpoint a3 (hg h)) heps h2.physical h2'.physical
  have ent' := entropy_gap hkpos (fun h => one_kpoint a3 (hg h)) heps h2'.physical h2.physical
  have hT := le_max_right cfg.smearing 0
  have m1 := mul_le_mul_of_nonneg_left ent hT
  have m2 := mul_le_mul_of_nonneg_left ent' hT
  rw [abs_le] at h3 ⊢
  constructor <;> linarith [h3.1, h3.2]

/-- C128, whole calculations (part): off the cutoff of the plane waves and off a step of the Ewald sum, the total
energies for neighbouring geometries, the repulsion of the nuclei included, are as close as one likes, up to the accuracy
of the optimiser and, with smearing, `2 T log 2` per band.  Missing: the excluded cells, see `sphericalMask_jump` and
`repulsion_cell_jump`. -/
theorem ncRun_cell_total_continuous_partial (L : NcLib) (hL : Spec.ContinuousPseudo L) (cfg : NcConfig) {m : ℕ}
    (a : AseAtoms m) (size ksize : Fin 3 → ℤ) (P : NcLists) (ne spin : ℤ)
    (H : Spec.AdmissibleRunNC L cfg a size ksize P ne spin)
    (hC : Spec.Triangular L.qrC) (hR : Spec.Triangular L.qrR) (hxc : Spec.ContinuousXc L.xc cfg.xc)
    (heps : 0 < cfg.eps) (hspin : cfg.occupation = "simplex-projector" → cfg.restricted = true → spin = 0)
    (hg : cfg.occupation = "gamma" → ∀ i, ksize i ≤ 1)
    (ε : ℝ) (hopt : ∀ opt, L.optimizer = .ok opt → Spec.NearOptimizer ε opt)
    (A : Matrix (Fin 3) (Fin 3) ℝ) (hA : A = (angstrom2bohr : ℝ) • a.cell)
    (hoff : ∀ n, Spec.LeastGrid size n → Spec.OffCutoff cfg.toRunConfig A n)
    (ht : ∀ n kn, Spec.LeastGrid size n → Spec.LeastGrid ksize kn →
      Spec.Tabulated (gVectors A n) (flatRows (kVectors A kn)))
    (he : 3 ≤ cfg.epoch) (hw : 2 ≤ cfg.window) (hq : cfg.threshold ≤ 0 ∨ cfg.smearing ≤ 0)
    (herfc : Continuous L.erfc) (hsep : Spec.Separated A fun i d => (angstrom2bohr : ℝ) * a.positions i d)
    (hstep : Spec.OffStep cfg.ewaldCutoff A) (δ : ℝ) (hδ : 0 < δ) :
    ∃ n rep, Spec.LeastGrid size n ∧ runAtomsNC L cfg a = .ok ⟨n, rep⟩ ∧ ∃ η, 0 < η ∧
      ∀ a' : AseAtoms m, a'.numbers = a.numbers → (∀ i d, |a'.cell i d - a.cell i d| < η) →
        (∀ i d, |a'.positions i d - a.positions i d| < η) →
      ∃ rep', runAtomsNC L cfg a' = .ok ⟨n, rep'⟩ ∧
        |rep.total - rep'.total|
          ≤ δ + 2 * max cfg.smearing 0 * ((ne.toNat + 1) / 2 + cfg.emptyBands : ℕ) * Real.log 2 + ε := by
  obtain ⟨n, rep, h1, h2, η₁, hη₁, h3⟩ := ncRun_cell_continuous_partial L hL cfg a size ksize P ne spin H hC hR hxc heps
    hspin hg ε hopt A hA hoff ht he hw hq (δ / 2) (by linarith)
  have hdet : A.det ≠ 0 := by
    rw [hA]
    exact fromAse_det a cfg.spin H.cell
  obtain ⟨e, h4, η₂, hη₂, h5⟩ := repulsion_cell_continuous L.erfc herfc (fun i => (a.numbers i : ℝ)) n cfg.ewaldEta
    cfg.ewaldCutoff H.ewald A hdet (fun i d => (angstrom2bohr : ℝ) * a.positions i d) hsep hstep (δ / 2) (by linarith)
  have hbohr : (0 : ℝ) < angstrom2bohr := by norm_num [angstrom2bohr]
  have hdetc : ContinuousAt (fun B : Fin 3 → Fin 3 → ℝ => (Matrix.of B).det) a.cell :=
    (Continuous.matrix_det (A := fun B : Fin 3 → Fin 3 → ℝ => Matrix.of B) continuous_id).continuousAt
  obtain ⟨η₃, hη₃, h6⟩ := Metric.mem_nhds_iff.1 (hdetc.eventually (isOpen_ne.mem_nhds H.cell))
  have hrep : rep.repulsion = e := by
    have := ncRun_repulsion L cfg a H.cell H.ewald h2
    rw [runRepulsion_eq] at this
    subst hA
    exact Except.ok.inj (this.symm.trans h4)
  refine ⟨n, rep, h1, h2, min η₁ (min (η₂ / angstrom2bohr) η₃), lt_min hη₁ (lt_min (div_pos hη₂ hbohr) hη₃),
    fun a' hnum hcell hpos => ?_⟩
  have close : ∀ u v : ℝ, |u - v| < min η₁ (min (η₂ / angstrom2bohr) η₃) →
      |(angstrom2bohr : ℝ) * u - angstrom2bohr * v| < η₂ := by
    intro u v h
    rw [← mul_sub, abs_mul, abs_of_pos hbohr, mul_comm]
    exact (lt_div_iff₀ hbohr).1 (h.trans_le ((min_le_right _ _).trans (min_le_left _ _)))
  obtain ⟨rep', k1, k2⟩ := h3 a' hnum (fun i d => (hcell i d).trans_le (min_le_left _ _))
    (fun i d => (hpos i d).trans_le (min_le_left _ _))
  obtain ⟨e', k3, k4⟩ := h5 ((angstrom2bohr : ℝ) • a'.cell) (fun i d => (angstrom2bohr : ℝ) * a'.positions i d)
    (fun i d => by rw [hA]; exact close _ _ (hcell i d)) (fun i d => close _ _ (hpos i d))
  have hcell' : a'.cell.det ≠ 0 := h6 (a := a'.cell) ((dist_pi_lt_iff hη₃).2 fun i => (dist_pi_lt_iff hη₃).2 fun d => by
    rw [Real.dist_eq]
    exact (hcell i d).trans_le ((min_le_right _ _).trans (min_le_right _ _)))
  have hrep' : rep'.repulsion = e' := by
    have := ncRun_repulsion L cfg a' hcell' H.ewald k1
    rw [runRepulsion_eq] at this
    rw [← hnum] at k3
    exact Except.ok.inj (this.symm.trans k3)
  refine ⟨rep', k1, ?_⟩
  rw [hrep, hrep'] at k2
  rw [abs_le] at k2 ⊢
  rw [abs_lt] at k4
  constructor <;> linarith [k2.1, k2.2, k4.1, k4.2]

/-- C128, whole calculations with norm-conserving pseudopotentials are not continuous in the cell, whatever plane waves are selected: where the Ewald cutoff
is a multiple of the squared length of the sum of the cell vectors, the total energies in all slightly smaller cells
are larger by a fixed amount, up to the accuracy of the optimiser and the entropy. -/
theorem ncRun_cell_total_jump (erfc : ℝ → ℝ) (herfc : Continuous erfc) (hp : ∀ x, 0 < erfc x) (cfg : NcConfig) {m : ℕ}
    (hm : 0 < m) (a : AseAtoms m) (hcell : a.cell.det ≠ 0) (hz : ∀ i, 0 < a.numbers i)
    (A : Matrix (Fin 3) (Fin 3) ℝ) (hA : A = (angstrom2bohr : ℝ) • a.cell)
    (hsep : Spec.Separated A fun i d => (angstrom2bohr : ℝ) * a.positions i d)
    (N : ℕ) (hN : 0 < N) (hstep : cfg.ewaldCutoff = N * Spec.dot (fun d => ∑ i, A i d) (fun d => ∑ i, A i d))
    (size : Fin 3 → ℤ) (hoff : ∀ n, Spec.LeastGrid size n → Spec.OffCutoff cfg.toRunConfig A n) (heps : 0 < cfg.eps)
    (he : 3 ≤ cfg.epoch) (hw : 2 ≤ cfg.window) (hq : cfg.threshold ≤ 0 ∨ cfg.smearing ≤ 0) :
    ∃ gap : ℝ, 0 < gap ∧ ∀ (L : NcLib) (ksize : Fin 3 → ℤ) (P : NcLists) (ne spin : ℤ), L.erfc = erfc →
      Spec.ContinuousPseudo L →
      Spec.AdmissibleRunNC L cfg a size ksize P ne spin →
      (∀ n kn, Spec.LeastGrid size n → Spec.LeastGrid ksize kn → Spec.Tabulated (gVectors A n) (flatRows (kVectors A kn))) →
      Spec.Triangular L.qrC → Spec.Triangular L.qrR →
      Spec.ContinuousXc L.xc cfg.xc →
      (cfg.occupation = "simplex-projector" → cfg.restricted = true → spin = 0) →
      (cfg.occupation = "gamma" → ∀ i, ksize i ≤ 1) →
      ∀ ε, (∀ opt, L.optimizer = .ok opt → Spec.NearOptimizer ε opt) →
      ∃ n rep, runAtomsNC L cfg a = .ok ⟨n, rep⟩ ∧ ∃ s₀ < (1 : ℝ), ∀ s, s₀ < s → s < 1 →
        ∃ rep', runAtomsNC L cfg { a with cell := s • a.cell } = .ok ⟨n, rep'⟩ ∧
          rep.total + gap ≤ rep'.total
            + 2 * max cfg.smearing 0 * ((ne.toNat + 1) / 2 + cfg.emptyBands : ℕ) * Real.log 2 + ε := by
  by_cases hn : ∃ n, Spec.LeastGrid size n
  swap
  · refine ⟨1, one_pos, fun L ksize P ne spin _ hps H ht hC hR hxc hspin hg ε hopt => ?_⟩
    obtain ⟨n, -, h, -⟩ := ncRun_cell_continuous_partial L hps cfg a size ksize P ne spin H hC hR hxc heps hspin
      hg ε hopt A hA hoff ht he hw hq 1 one_pos
    exact absurd ⟨n, h⟩ hn
  obtain ⟨n, hn⟩ := hn
  have hdet : A.det ≠ 0 := by
    rw [hA]
    exact fromAse_det a cfg.spin hcell
  obtain ⟨e, j1, gap, hgap, s₁, hs₁, j2⟩ := repulsion_cell_jump erfc herfc hp hm (fun i => (a.numbers i : ℝ))
    (fun i => by exact_mod_cast hz i) n cfg.ewaldEta A hdet (fun i d => (angstrom2bohr : ℝ) * a.positions i d) hsep N hN
    cfg.ewaldCutoff hstep
  refine ⟨gap / 2, by linarith, fun L ksize P ne spin hL hps H ht hC hR hxc hspin hg ε hopt => ?_⟩
  obtain ⟨n', rep, h1, h2, η, hη, h3⟩ := ncRun_cell_continuous_partial L hps cfg a size ksize P ne spin H hC hR hxc heps hspin
    hg ε hopt A hA hoff ht he hw hq (gap / 2) (by linarith)
  obtain rfl := leastGrid_unique hn h1
  have hrep : rep.repulsion = e := by
    have := ncRun_repulsion L cfg a H.cell H.ewald h2
    rw [runRepulsion_eq, hL] at this
    subst hA
    exact Except.ok.inj (this.symm.trans j1)
  have hcl : ContinuousAt (fun s : ℝ => fun i d => s * a.cell i d) 1 := Continuous.continuousAt (by fun_prop)
  obtain ⟨r, hr, hball⟩ := Metric.mem_nhds_iff.1 (hcl.eventually (Metric.ball_mem_nhds _ hη))
  refine ⟨_, rep, h2, max (max s₁ (1 - r)) 0, by simp [hs₁, hr], fun s g1 g2 => ?_⟩
  rw [max_lt_iff, max_lt_iff] at g1
  have hs : s ∈ Metric.ball (1 : ℝ) r := by
    rw [Metric.mem_ball, Real.dist_eq, abs_lt]
    constructor <;> linarith [g1.1.2]
  have hs' := hball hs
  have hs'' : (fun i d => s * a.cell i d) ∈ Metric.ball (fun i d => (1 : ℝ) * a.cell i d) η := hs'
  rw [Metric.mem_ball, dist_pi_lt_iff hη] at hs''
  obtain ⟨rep', k1, k2⟩ := h3 { a with cell := s • a.cell } rfl (fun i d => by
    have := (dist_pi_lt_iff hη).1 (hs'' i) d
    rw [Real.dist_eq, one_mul] at this
    exact this) (fun i d => by simpa using hη)
  obtain ⟨e', k3, k4⟩ := j2 s g1.1.1 g2
  have hcell' : (s • a.cell).det ≠ 0 := by
    rw [Matrix.det_smul]
    exact mul_ne_zero (pow_ne_zero _ g1.2.ne') hcell
  have hrep' : rep'.repulsion = e' := by
    have := ncRun_repulsion L cfg { a with cell := s • a.cell } hcell' H.ewald k1
    rw [runRepulsion_eq, hL] at this
    rw [hA, smul_comm] at k3
    exact Except.ok.inj (this.symm.trans k3)
  refine ⟨rep', k1, ?_⟩
  rw [hrep, hrep', abs_le] at k2
  linarith [k2.1, k2.2]

/-! ### Concrete cases -/

/-- C128: harmonics that satisfy the addition theorem are continuous away from zero, so that the contract of the
theorems above holds for the real spherical harmonics. -/
theorem harmonics_continuous (sph : SphHarm) (hc : sph.Conj) (l i : ℕ) (h : sph.Addition l) :
    ContinuousOn (sphericalRow sph l i) {v | v ≠ 0} := sphericalRow_continuous sph hc l i h

theorem lowHarmonics_continuous (l i : ℕ) : ContinuousOn (sphericalRow lowHarmonics l i) {v | v ≠ 0} := by
  obtain ⟨h, h0, h1⟩ := lowHarmonics_contracts
  match l with
  | 0 => exact harmonics_continuous _ h 0 i h0
  | 1 => exact harmonics_continuous _ h 1 i h1
  | l + 2 =>
    refine continuousOn_const (c := (0 : ℝ)) |>.congr fun v _ => ?_
    simp [sphericalRow, batchSphHarmReal, batchSphHarm, lowHarmonics]

/-- Interpolation by one polynomial through all knots. -/
noncomputable def lagrangeSpline : Spline := fun N x y t =>
  ∑ i ∈ Finset.range N, y i * ∏ j ∈ (Finset.range N).erase i, (t - x j) / (x i - x j)

theorem lagrangeSpline_continuous : Spec.ContinuousSpline lagrangeSpline := by
  intro N
  unfold lagrangeSpline
  have c1 : ∀ i, Continuous fun p : Samples × Samples × ℝ => p.1 i := fun i => (continuous_apply i).comp continuous_fst
  have c2 : ∀ i, Continuous fun p : Samples × Samples × ℝ => p.2.1 i := fun i =>
    (continuous_apply i).comp (continuous_fst.comp continuous_snd)
  have c3 : Continuous fun p : Samples × Samples × ℝ => p.2.2 := continuous_snd.comp continuous_snd
  refine continuousOn_finsetSum _ fun i hi => (c2 i).continuousOn.mul (continuousOn_finsetProd _ fun j hj => ?_)
  refine (c3.sub (c1 j)).continuousOn.div ((c1 i).sub (c1 j)).continuousOn fun p hp h => ?_
  rw [Finset.mem_erase, Finset.mem_range] at hj
  rcases lt_or_gt_of_ne hj.1 with h' | h'
  · exact absurd (sub_eq_zero.1 h) (hp j i h' (Finset.mem_range.1 hi)).ne'
  · exact absurd (sub_eq_zero.1 h) (hp i j h' hj.2).ne

/-- The contract holds for the silicon pair with `j₀` in place of all Bessel functions. -/
theorem silicon_continuous (xc : XcLib) (eigh : Eigh) :
    Spec.ContinuousPseudo (siliconLib xc eigh (fun _ => Real.sinc) lagrangeSpline lagrangeSpline) where
  bessel := fun _ => Real.continuous_sinc
  splineLoc := lagrangeSpline_continuous
  splineBeta := lagrangeSpline_continuous
  harmonics := lowHarmonics_continuous

theorem silicon_tabulated (n kn : Fin 3 → ℕ) (hn : Spec.LeastGrid (fun _ => 4) n) (hkn : Spec.LeastGrid (fun _ => 2) kn) :
    Spec.Tabulated (gVectors ((angstrom2bohr : ℝ) • (1 : Matrix (Fin 3) (Fin 3) ℝ)) n)
      (flatRows (kVectors ((angstrom2bohr : ℝ) • (1 : Matrix (Fin 3) (Fin 3) ℝ)) kn)) := by
  obtain rfl : n = fun _ => 4 := funext fun i => RunSetup.least_eq (k := 4) (hn i) RunSetup.smooth4
  obtain rfl : kn = fun _ => 2 := funext fun i => RunSetup.least_eq (k := 2) (hkn i) RunSetup.smooth2
  have hb : (0 : ℝ) < angstrom2bohr := by norm_num [angstrom2bohr]
  have hb2 : (angstrom2bohr : ℝ) < 2 := by norm_num [angstrom2bohr]
  have hr : ∀ i d, reciprocalVectors ((angstrom2bohr : ℝ) • (1 : Matrix (Fin 3) (Fin 3) ℝ)) i d
      = if i = d then 2 * Real.pi / angstrom2bohr else 0 := by
    intro i d
    unfold reciprocalVectors
    have := invertibleOfNonzero hb.ne'
    rw [Matrix.inv_smul (A := (1 : Matrix (Fin 3) (Fin 3) ℝ)) (angstrom2bohr : ℝ) (by simp), invOf_eq_inv]
    simp [Matrix.one_apply, div_eq_mul_inv]
  have hbig : (2 : ℝ) < 2 * Real.pi / angstrom2bohr := by
    rw [lt_div_iff₀ hb]
    have := Real.two_le_pi
    linarith
  have hlen : ∀ v : Fin 3 → ℝ, |v 0| ≤ Spec.length v := by
    intro v
    unfold Spec.length
    refine Real.abs_le_sqrt ?_
    exact Finset.single_le_sum (f := fun d => v d ^ 2) (fun d _ => sq_nonneg _) (Finset.mem_univ 0)
  refine ⟨⟨fun i => if i = 0 then 1 else 0, lt_of_lt_of_le ?_ (hlen _)⟩,
    ⟨0, by decide⟩, fun _ => 0, lt_of_lt_of_le ?_ (hlen _)⟩
  · rw [gVectors_apply]
    simp only [hr, Fin.sum_univ_three]
    simp [sfreq]
    rw [abs_of_pos (by linarith)]
    linarith
  · rw [gVectors_apply]
    unfold flatRows kVectors monkhorstPack
    simp only [hr, Fin.sum_univ_three]
    have e : ∀ q : Idx fun _ => 2, |(((q 0 : ℕ) : ℝ) + 0.5) / (2 : ℕ) - 0.5| = 1 / 4 := by
      intro q
      have : (q 0 : ℕ) = 0 ∨ (q 0 : ℕ) = 1 := by
        have h : (q 0 : ℕ) < 2 := (q 0).2
        omega
      rcases this with h | h <;> rw [h] <;> norm_num [abs_of_pos, abs_of_neg]
    have e2 := e ((idxList fun _ => 2).get ⟨0, by decide⟩)
    have e3 : sfreq 4 0 = 0 := by decide
    simp only [Fin.val_zero, e3, Int.cast_zero, zero_mul, if_true, mul_ite, mul_zero]
    rw [if_neg (by decide), if_neg (by decide), if_neg (by decide), if_neg (by decide)]
    simp only [add_zero]
    rw [abs_mul, e2, abs_of_pos (by linarith)]
    linarith

theorem silicon_separated : Spec.Separated ((angstrom2bohr : ℝ) • (1 : Matrix (Fin 3) (Fin 3) ℝ))
    (fun (i : Fin 2) d => (angstrom2bohr : ℝ) * siliconAtoms.positions i d) := by
  intro i j z h
  have hl : ∀ d, Spec.latticePoint ((angstrom2bohr : ℝ) • (1 : Matrix (Fin 3) (Fin 3) ℝ)) z d
      = (angstrom2bohr : ℝ) * z d := by
    intro d
    unfold Spec.latticePoint
    simp [Matrix.one_apply, mul_comm]
  have hb : (1 : ℝ) ≤ (angstrom2bohr : ℝ) := by
    have : (1 : ℚ) ≤ angstrom2bohr := by decide +kernel
    exact_mod_cast this
  have key : ∃ d, (1 / 16 : ℝ) ≤ (siliconAtoms.positions j d - siliconAtoms.positions i d - z d) ^ 2 := by
    have hp : ∀ (u : ℤ) (d : Fin 3), 4 * siliconAtoms.positions j d - 4 * siliconAtoms.positions i d = u → 4 * z d ≠ u →
        (1 / 16 : ℝ) ≤ (siliconAtoms.positions j d - siliconAtoms.positions i d - z d) ^ 2 := by
      intro u d h1 h2
      have h3 : (1 : ℤ) ≤ (u - 4 * z d) ^ 2 := by
        have := sq_pos_of_ne_zero (sub_ne_zero.2 (Ne.symm h2))
        omega
      have h4 : (1 : ℝ) ≤ ((u : ℝ) - 4 * z d) ^ 2 := by exact_mod_cast h3
      rw [← h1] at h4
      nlinarith
    have hv : ∀ d, siliconAtoms.positions 0 d = 0 ∧ siliconAtoms.positions 1 d = 1 / 4 := by
      intro d
      fin_cases d <;> simp [siliconAtoms]
    by_cases hij : i = j
    · obtain ⟨d, hd⟩ := Function.ne_iff.mp (h.resolve_left fun h => h hij)
      exact ⟨d, hp 0 d (by rw [hij]; simp) (by simpa using hd)⟩
    · refine ⟨0, ?_⟩
      obtain ⟨v0, v1⟩ := hv 0
      fin_cases i <;> fin_cases j
      · exact absurd rfl hij
      · exact hp 1 0 (by simp only [Fin.mk_one, Fin.zero_eta, v0, v1]; norm_num) (by omega)
      · exact hp (-1) 0 (by simp only [Fin.mk_one, Fin.zero_eta, v0, v1]; norm_num) (by omega)
      · exact absurd rfl hij
  obtain ⟨d, hd⟩ := key
  unfold Spec.dot
  simp_rw [hl]
  have h2 := Finset.single_le_sum (f := fun d => ((angstrom2bohr : ℝ) * siliconAtoms.positions j d
    - angstrom2bohr * siliconAtoms.positions i d - (angstrom2bohr : ℝ) * (z d : ℝ)) * ((angstrom2bohr : ℝ) * siliconAtoms.positions j d
    - angstrom2bohr * siliconAtoms.positions i d - (angstrom2bohr : ℝ) * (z d : ℝ)))
    (fun d _ => mul_self_nonneg _) (Finset.mem_univ d)
  refine lt_of_lt_of_le ?_ h2
  have : ((angstrom2bohr : ℝ) * siliconAtoms.positions j d
    - angstrom2bohr * siliconAtoms.positions i d - (angstrom2bohr : ℝ) * (z d : ℝ)) * ((angstrom2bohr : ℝ) * siliconAtoms.positions j d
    - angstrom2bohr * siliconAtoms.positions i d - (angstrom2bohr : ℝ) * (z d : ℝ))
    = (angstrom2bohr : ℝ) ^ 2 * (siliconAtoms.positions j d - siliconAtoms.positions i d - z d) ^ 2 := by ring
  rw [this]
  have h5 : (1 : ℝ) ≤ (angstrom2bohr : ℝ) ^ 2 := one_le_pow₀ hb
  norm_num
  nlinarith

/-- The hypotheses of `ncRun_cell_total_continuous_partial`, and with them those of `ncRun_cell_continuous_partial` and
`groundNC_cell_continuous`, hold for the silicon pair. -/
example {ε δ : ℝ} (hε : 0 < ε) (hδ : 0 < δ) (eigh : Eigh) :
    let L : NcLib := { siliconLib diracLib eigh (fun _ => Real.sinc) lagrangeSpline lagrangeSpline with
      erfc := Spec.erfc, qrC := gramSchmidtQR ℂ, qrR := gramSchmidtQR ℝ, optimizer := .ok (nearOptimizer ε) }
    ∃ n rep, runAtomsNC L siliconConfig siliconAtoms = .ok ⟨n, rep⟩ ∧ ∃ η, 0 < η ∧
      ∀ a' : AseAtoms 2, a'.numbers = (fun _ => 14) → (∀ i d, |a'.cell i d - (1 : Matrix (Fin 3) (Fin 3) ℝ) i d| < η) →
        (∀ i d, |a'.positions i d - siliconAtoms.positions i d| < η) →
      ∃ rep', runAtomsNC L siliconConfig a' = .ok ⟨n, rep'⟩ ∧ |rep.total - rep'.total| ≤ δ + ε := by
  intro L
  obtain ⟨P, H⟩ := silicon_admissible diracLib eigh (fun _ => Real.sinc) lagrangeSpline lagrangeSpline
  have hL : Spec.ContinuousPseudo L := { silicon_continuous diracLib eigh with }
  obtain ⟨n, rep, -, h1, η, hη, h2⟩ := ncRun_cell_total_continuous_partial L hL siliconConfig siliconAtoms
    (fun _ => 4) (fun _ => 2) P 4 0
    { H with optimizer := ⟨nearOptimizer ε, rfl, nearOptimizer_keeps ε⟩ }
    (gramSchmidtQR_triangular ℂ) (gramSchmidtQR_triangular ℝ) diracLib_continuous
    (by norm_num [siliconConfig, lithiumConfig]) (fun _ _ => rfl) (fun h => absurd h (by decide)) ε
    (fun o ho => by cases Except.ok.inj ho; exact nearOptimizer_near hε) _ rfl
    (fun _ _ h => absurd h (by decide)) silicon_tabulated (by decide) (by decide) (Or.inr le_rfl) erfc_continuous
    silicon_separated lithium_offStep δ hδ
  refine ⟨n, rep, h1, η, hη, fun a' e1 e2 e3 => ?_⟩
  obtain ⟨rep', h3, h4⟩ := h2 a' e1 e2 e3
  exact ⟨rep', h3, by simpa [siliconConfig, lithiumConfig] using h4⟩

/-- The hypotheses of `ncRun_cell_total_jump` hold for the silicon pair when the Ewald cutoff is the squared length of
the diagonal of its cell. -/
example (eigh : Eigh) : ∃ gap : ℝ, 0 < gap ∧ ∀ ε, 0 < ε →
    let L : NcLib := { siliconLib diracLib eigh (fun _ => Real.sinc) lagrangeSpline lagrangeSpline with
      erfc := Spec.erfc, qrC := gramSchmidtQR ℂ, qrR := gramSchmidtQR ℝ, optimizer := .ok (nearOptimizer ε) }
    let cfg : NcConfig := { siliconConfig with ewaldCutoff := 3 * (angstrom2bohr : ℝ) ^ 2 }
    ∃ n rep, runAtomsNC L cfg siliconAtoms = .ok ⟨n, rep⟩ ∧ ∃ s₀ < (1 : ℝ), ∀ s, s₀ < s → s < 1 →
      ∃ rep', runAtomsNC L cfg { siliconAtoms with cell := s • 1 } = .ok ⟨n, rep'⟩ ∧ rep.total + gap ≤ rep'.total + ε := by
  have hb : (0 : ℝ) < angstrom2bohr := by norm_num [angstrom2bohr]
  have hcube : Spec.dot (fun d => ∑ i, ((angstrom2bohr : ℝ) • (1 : Matrix (Fin 3) (Fin 3) ℝ)) i d)
    (fun d => ∑ i, ((angstrom2bohr : ℝ) • (1 : Matrix (Fin 3) (Fin 3) ℝ)) i d) = 3 * (angstrom2bohr : ℝ) ^ 2 := by
    unfold Spec.dot
    simp [Matrix.one_apply]
    ring
  obtain ⟨gap, hgap, h⟩ := ncRun_cell_total_jump Spec.erfc erfc_continuous erfc_pos
    { siliconConfig with ewaldCutoff := 3 * (angstrom2bohr : ℝ) ^ 2 } two_pos siliconAtoms (by simp [siliconAtoms])
    (fun _ => by norm_num [siliconAtoms]) _ rfl silicon_separated 1 one_pos
    (by
      show 3 * (angstrom2bohr : ℝ) ^ 2 = (1 : ℕ) * Spec.dot (fun d => ∑ i, ((angstrom2bohr : ℝ) • (1 : Matrix (Fin 3) (Fin 3) ℝ)) i d)
        (fun d => ∑ i, ((angstrom2bohr : ℝ) • (1 : Matrix (Fin 3) (Fin 3) ℝ)) i d)
      rw [hcube]; simp) (fun _ => 4)
    (fun _ _ h => absurd h (by decide)) (by norm_num [siliconConfig, lithiumConfig]) (by decide) (by decide) (Or.inr le_rfl)
  refine ⟨gap, hgap, fun ε hε => ?_⟩
  intro L cfg
  obtain ⟨P, H⟩ := silicon_admissible diracLib eigh (fun _ => Real.sinc) lagrangeSpline lagrangeSpline
  have H' : Spec.AdmissibleRunNC L cfg siliconAtoms (fun _ => 4) (fun _ => 2) P 4 0 :=
    { H with
      ewald := (by positivity : 0 < 3 * (angstrom2bohr : ℝ) ^ 2)
      optimizer := ⟨nearOptimizer ε, rfl, nearOptimizer_keeps ε⟩ }
  obtain ⟨n, rep, h1, s₀, hs, h2⟩ := h L (fun _ => 2) P 4 0 rfl { silicon_continuous diracLib eigh with } H' silicon_tabulated
    (gramSchmidtQR_triangular ℂ) (gramSchmidtQR_triangular ℝ) diracLib_continuous (fun _ _ => rfl)
    (fun h => absurd h (by decide)) ε
    (fun o ho => by cases Except.ok.inj ho; exact nearOptimizer_near hε)
  refine ⟨n, rep, h1, s₀, hs, fun s g1 g2 => ?_⟩
  obtain ⟨rep', h3, h4⟩ := h2 s g1 g2
  exact ⟨rep', h3, by simpa [siliconConfig, lithiumConfig] using h4⟩

end Jrystal
