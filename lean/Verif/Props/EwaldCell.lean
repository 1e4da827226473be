import Verif.Lemmas.EwaldCell
import Verif.Props.CellContinuity
import Verif.Props.EwaldRun

/- C111: the repulsion of the nuclei as a function of the cell. -/
namespace Jrystal
open scoped BigOperators
open Filter RunSetup

private theorem nearby {m : ℕ} {x : Geometry m} {P : Geometry m → Prop} (h : ∀ᶠ y in nhds x, P y) :
    ∃ η, 0 < η ∧ ∀ y : Geometry m, (∀ i d, |y.1 i d - x.1 i d| < η) → (∀ i d, |y.2 i d - x.2 i d| < η) → P y := by
  obtain ⟨η, hη, hball⟩ := Metric.mem_nhds_iff.1 h
  refine ⟨η, hη, fun y h1 h2 => hball ?_⟩
  rw [Metric.mem_ball, Prod.dist_eq, max_lt_iff]
  constructor
  · exact (dist_pi_lt_iff hη).2 fun i => (dist_pi_lt_iff hη).2 fun d => by rw [Real.dist_eq]; exact h1 i d
  · exact (dist_pi_lt_iff hη).2 fun i => (dist_pi_lt_iff hη).2 fun d => by rw [Real.dist_eq]; exact h2 i d

private theorem repulsion_count {erfc : ℝ → ℝ} {m : ℕ} {n : Fin 3 → ℕ} {pos : Fin m → Fin 3 → ℝ}
    {q : Fin m → ℝ} {A : Matrix (Fin 3) (Fin 3) ℝ} {g : Idx n → Fin 3 → ℝ} {vol eta cutoff : ℝ} {N : ℕ} (hN : 0 < N)
    (h : translationCount A cutoff = N) :
    nuclearRepulsion erfc pos q A g vol eta cutoff
      = .ok (ewald erfc pos q g vol eta (flatRows (vectorGrid A (fun _ => N) false))) := by
  unfold nuclearRepulsion
  rw [if_neg (by omega), if_neg (by omega)]
  unfold translationVectors
  have : (translationCount A cutoff).toNat = N := by omega
  rw [this]

/-- C111, the repulsion of the nuclei: off a step of the number of translations, the computed energy changes as little
as one likes when cell and positions change little enough. -/
theorem repulsion_cell_continuous (erfc : ℝ → ℝ) (herfc : Continuous erfc) {m : ℕ} (q : Fin m → ℝ) (n : Fin 3 → ℕ)
    (eta cutoff : ℝ) (h0 : 0 < cutoff) (A : Matrix (Fin 3) (Fin 3) ℝ) (hA : A.det ≠ 0) (pos : Fin m → Fin 3 → ℝ)
    (hsep : Spec.Separated A pos) (hoff : Spec.OffStep cutoff A) (δ : ℝ) (hδ : 0 < δ) :
    ∃ e, nuclearRepulsion erfc pos q A (gVectors A n) |A.det| eta cutoff = .ok e ∧ ∃ η, 0 < η ∧
      ∀ (A' : Matrix (Fin 3) (Fin 3) ℝ) (pos' : Fin m → Fin 3 → ℝ), (∀ i d, |A' i d - A i d| < η) →
        (∀ i d, |pos' i d - pos i d| < η) →
      ∃ e', nuclearRepulsion erfc pos' q A' (gVectors A' n) |A'.det| eta cutoff = .ok e' ∧ |e - e'| < δ := by
  have hpos := translationCount_pos A hA cutoff h0
  obtain ⟨N, hN⟩ := Int.eq_ofNat_of_zero_le hpos.le
  have hN0 : 0 < N := by omega
  have hc := ewald_continuous erfc herfc q n eta N (A, pos) hA hsep
  have h1 := hc.eventually (Metric.ball_mem_nhds _ hδ)
  have h2 : ∀ᶠ y in nhds ((A, pos) : Geometry m), translationCount (Matrix.of y.1) cutoff = translationCount (Matrix.of A) cutoff :=
    (continuous_fst.continuousAt (x := ((A, pos) : Geometry m))).eventually (translationCount_stable A hA cutoff hoff)
  obtain ⟨η, hη, hη'⟩ := nearby (h1.and h2)
  refine ⟨_, repulsion_count hN0 hN, η, hη, fun A' pos' g1 g2 => ?_⟩
  obtain ⟨g3, g4⟩ := hη' (A', pos') g1 g2
  refine ⟨_, repulsion_count hN0 (g4.trans hN), ?_⟩
  rw [dist_comm] at g3
  exact g3

/-- C111, the repulsion of the nuclei is not continuous: where the Ewald cutoff is a multiple of the squared length
of the sum of the cell vectors, every slightly smaller cell has a repulsion larger by a fixed amount, because the
number of translations jumps. -/
theorem repulsion_cell_jump (erfc : ℝ → ℝ) (herfc : Continuous erfc) (hp : ∀ x, 0 < erfc x) {m : ℕ} (hm : 0 < m)
    (q : Fin m → ℝ) (hq : ∀ i, 0 < q i) (n : Fin 3 → ℕ) (eta : ℝ) (A : Matrix (Fin 3) (Fin 3) ℝ) (hA : A.det ≠ 0)
    (pos : Fin m → Fin 3 → ℝ) (hsep : Spec.Separated A pos) (N : ℕ) (hN : 0 < N) (cutoff : ℝ)
    (hcut : cutoff = N * Spec.dot (fun d => ∑ i, A i d) (fun d => ∑ i, A i d)) :
    ∃ e, nuclearRepulsion erfc pos q A (gVectors A n) |A.det| eta cutoff = .ok e ∧ ∃ gap, 0 < gap ∧ ∃ s₀ < (1 : ℝ),
      ∀ s, s₀ < s → s < 1 → ∃ e', nuclearRepulsion erfc pos q (s • A) (gVectors (s • A) n) |(s • A).det| eta cutoff
        = .ok e' ∧ e + gap < e' := by
  have hw := rowSum_pos A hA
  rw [sqrt_normSq3] at hw
  have hdot : Spec.dot (fun d => ∑ i, A i d) (fun d => ∑ i, A i d) = normSq3 fun d => ∑ i, A i d := by
    simp only [normSq3, Spec.dot, sq]
  rw [hdot] at hcut
  have hcount : translationCount A cutoff = N := by
    unfold translationCount
    rw [sqrt_normSq3, hcut, mul_div_assoc, div_self hw.ne', mul_one, Int.ceil_natCast]
  refine ⟨_, repulsion_count hN hcount, ?_⟩
  set F : ℕ → Geometry m → ℝ := fun M y => ewald erfc y.2 q (gVectors (Matrix.of y.1) n) |(Matrix.of y.1).det| eta
      (flatRows (vectorGrid (Matrix.of y.1) (fun _ => M) false)) with hF
  have hgrow : F N (A, pos) < F (N + 1) (A, pos) := ewald_grow erfc hp pos q hq hm A _ _ _ N
  have hc := ewald_continuous erfc herfc q n eta (N + 1) (A, pos) hA hsep
  have hcs : ContinuousAt (fun s : ℝ => F (N + 1) (s • A, pos)) 1 := by
    refine ContinuousAt.comp (g := F (N + 1)) (f := fun s : ℝ => ((s • A, pos) : Geometry m)) ?_ ?_
    · simpa only [one_smul] using hc
    · exact Continuous.continuousAt (by fun_prop)
  have hmid : (F N (A, pos) + F (N + 1) (A, pos)) / 2 < F (N + 1) ((1 : ℝ) • A, pos) := by
    rw [one_smul]
    linarith
  have hev := hcs.eventually_const_lt hmid
  have hsq : ContinuousAt (fun s : ℝ => (N : ℝ) / s ^ 2) 1 :=
    ContinuousAt.div continuousAt_const (continuousAt_id.pow 2) (by norm_num)
  have hev2 := hsq.eventually_lt_const (u := (N : ℝ) + 1) (by simp)
  obtain ⟨r, hr, hball⟩ := Metric.mem_nhds_iff.1 (hev.and (hev2.and (lt_mem_nhds (zero_lt_one (α := ℝ)))))
  refine ⟨(F (N + 1) (A, pos) - F N (A, pos)) / 2, by linarith, 1 - r, by linarith, fun s h1 h2 => ?_⟩
  have hs : s ∈ Metric.ball (1 : ℝ) r := by
    rw [Metric.mem_ball, Real.dist_eq, abs_lt]
    constructor <;> linarith
  obtain ⟨h3, h4, h5⟩ := hball hs
  change 0 < s at h5
  have hcount' : translationCount (s • A) cutoff = (N + 1 : ℕ) := by
    unfold translationCount
    have : normSq3 (fun d => ∑ i, (s • A) i d) = s ^ 2 * normSq3 fun d => ∑ i, A i d := by
      simp only [normSq3, Matrix.smul_apply, smul_eq_mul, ← Finset.mul_sum, mul_pow]
    rw [sqrt_normSq3, this, hcut, mul_div_mul_right _ _ hw.ne', Int.ceil_eq_iff]
    push_cast
    refine ⟨?_, h4.le⟩
    rw [add_sub_cancel_right, lt_div_iff₀ (by positivity)]
    have : s ^ 2 < 1 := by nlinarith
    have hN' : (0 : ℝ) < N := by exact_mod_cast hN
    nlinarith
  refine ⟨_, repulsion_count (Nat.succ_pos N) hcount', ?_⟩
  change F N (A, pos) + _ < F (N + 1) (s • A, pos)
  linarith

/-- C111, whole calculations (part): off the cutoff of the plane waves and off a step of the Ewald sum, the total
energies of calculations for neighbouring geometries, the repulsion of the nuclei included, are as close as one likes,
up to the accuracy of the optimiser and, with smearing, `2 T log 2` per band.  Missing: the excluded cells, see
`sphericalMask_jump` and `repulsion_cell_jump`. -/
theorem run_cell_total_continuous_partial (L : RunLib) (cfg : RunConfig) {m : ℕ} (a : AseAtoms m)
    (size ksize : Fin 3 → ℤ) (ne spin : ℤ) (H : Spec.AdmissibleRun L cfg a size ksize ne spin)
    (hC : Spec.Triangular L.qrC) (hR : Spec.Triangular L.qrR) (hxc : Spec.ContinuousXc L.xc cfg.xc)
    (heps : 0 < cfg.eps) (hspin : cfg.occupation = "simplex-projector" → cfg.restricted = true → spin = 0)
    (hg : cfg.occupation = "gamma" → ∀ i, ksize i ≤ 1)
    (ε : ℝ) (hopt : ∀ opt, L.optimizer = .ok opt → Spec.NearOptimizer ε opt)
    (A : Matrix (Fin 3) (Fin 3) ℝ) (hA : A = (angstrom2bohr : ℝ) • a.cell)
    (hoff : ∀ n, Spec.LeastGrid size n → Spec.OffCutoff cfg A n)
    (he : 3 ≤ cfg.epoch) (hw : 2 ≤ cfg.window) (hq : cfg.threshold ≤ 0 ∨ cfg.smearing ≤ 0)
    (herfc : Continuous L.erfc) (hsep : Spec.Separated A fun i d => (angstrom2bohr : ℝ) * a.positions i d)
    (hstep : Spec.OffStep cfg.ewaldCutoff A) (δ : ℝ) (hδ : 0 < δ) :
    ∃ n rep, Spec.LeastGrid size n ∧ runAtoms L cfg a = .ok ⟨n, rep⟩ ∧ ∃ η, 0 < η ∧
      ∀ a' : AseAtoms m, a'.numbers = a.numbers → (∀ i d, |a'.cell i d - a.cell i d| < η) →
        (∀ i d, |a'.positions i d - a.positions i d| < η) →
      ∃ rep', runAtoms L cfg a' = .ok ⟨n, rep'⟩ ∧
        |rep.total - rep'.total|
          ≤ δ + 2 * max cfg.smearing 0 * ((ne.toNat + 1) / 2 + cfg.emptyBands : ℕ) * Real.log 2 + ε := by
  obtain ⟨n, rep, h1, h2, η₁, hη₁, h3⟩ := run_cell_continuous_partial L cfg a size ksize ne spin H hC hR hxc heps hspin
    hg ε hopt A hA hoff he hw hq (δ / 2) (by linarith)
  have hdet : A.det ≠ 0 := by
    rw [hA]
    exact fromAse_det a cfg.spin H.cell
  obtain ⟨e, h4, η₂, hη₂, h5⟩ := repulsion_cell_continuous L.erfc herfc (fun i => (a.numbers i : ℝ)) n cfg.ewaldEta
    cfg.ewaldCutoff H.ewald A hdet (fun i d => (angstrom2bohr : ℝ) * a.positions i d) hsep hstep (δ / 2) (by linarith)
  have hbohr : (0 : ℝ) < angstrom2bohr := by norm_num [angstrom2bohr]
  have hdetc : ContinuousAt (fun B : Fin 3 → Fin 3 → ℝ => (Matrix.of B).det) a.cell :=
    (Continuous.matrix_det (A := fun B : Fin 3 → Fin 3 → ℝ => Matrix.of B) continuous_id).continuousAt
  obtain ⟨η₃, hη₃, h6⟩ := Metric.mem_nhds_iff.1 (hdetc.eventually (isOpen_ne.mem_nhds H.cell))
  have hrep : rep.repulsion = e := by
    have := run_repulsion L cfg a H.cell H.ewald h2
    rw [runRepulsion_eq] at this
    subst hA
    exact Except.ok.inj (this.symm.trans h4)
  refine ⟨n, rep, h1, h2, min η₁ (min (η₂ / angstrom2bohr) η₃), lt_min hη₁ (lt_min (div_pos hη₂ hbohr) hη₃),
    fun a' hnum hcell hpos => ?_⟩
  have close : ∀ u v : ℝ, |u - v| < min η₁ (min (η₂ / angstrom2bohr) η₃) →
      |(angstrom2bohr : ℝ) * u - angstrom2bohr * v| < η₂ := by
    intro u v h
    rw [← mul_sub, abs_mul, abs_of_pos hbohr, mul_comm]
    exact (lt_div_iff₀ hbohr).1 (h.trans_le ((min_le_right _ _).trans (min_le_left _ _)))
  obtain ⟨rep', k1, k2⟩ := h3 a' hnum (fun i d => (hcell i d).trans_le (min_le_left _ _))
    (fun i d => (hpos i d).trans_le (min_le_left _ _))
  obtain ⟨e', k3, k4⟩ := h5 ((angstrom2bohr : ℝ) • a'.cell) (fun i d => (angstrom2bohr : ℝ) * a'.positions i d)
    (fun i d => by rw [hA]; exact close _ _ (hcell i d)) (fun i d => close _ _ (hpos i d))
  have hcell' : a'.cell.det ≠ 0 := h6 (a := a'.cell) ((dist_pi_lt_iff hη₃).2 fun i => (dist_pi_lt_iff hη₃).2 fun d => by
    rw [Real.dist_eq]
    exact (hcell i d).trans_le ((min_le_right _ _).trans (min_le_right _ _)))
  have hrep' : rep'.repulsion = e' := by
    have := run_repulsion L cfg a' hcell' H.ewald k1
    rw [runRepulsion_eq] at this
    rw [← hnum] at k3
    exact Except.ok.inj (this.symm.trans k3)
  refine ⟨rep', k1, ?_⟩
  rw [hrep, hrep'] at k2
  rw [abs_le] at k2 ⊢
  rw [abs_lt] at k4
  constructor <;> linarith [k2.1, k2.2, k4.1, k4.2]

/-- C111, whole calculations are not continuous in the cell, whatever plane waves are selected: where the Ewald cutoff
is a multiple of the squared length of the sum of the cell vectors, the total energies in all slightly smaller cells
are larger by a fixed amount, up to the accuracy of the optimiser and the entropy. -/
theorem run_cell_total_jump (erfc : ℝ → ℝ) (herfc : Continuous erfc) (hp : ∀ x, 0 < erfc x) (cfg : RunConfig) {m : ℕ}
    (hm : 0 < m) (a : AseAtoms m) (hcell : a.cell.det ≠ 0) (hz : ∀ i, 0 < a.numbers i)
    (A : Matrix (Fin 3) (Fin 3) ℝ) (hA : A = (angstrom2bohr : ℝ) • a.cell)
    (hsep : Spec.Separated A fun i d => (angstrom2bohr : ℝ) * a.positions i d)
    (N : ℕ) (hN : 0 < N) (hstep : cfg.ewaldCutoff = N * Spec.dot (fun d => ∑ i, A i d) (fun d => ∑ i, A i d))
    (size : Fin 3 → ℤ) (hoff : ∀ n, Spec.LeastGrid size n → Spec.OffCutoff cfg A n) (heps : 0 < cfg.eps)
    (he : 3 ≤ cfg.epoch) (hw : 2 ≤ cfg.window) (hq : cfg.threshold ≤ 0 ∨ cfg.smearing ≤ 0) :
    ∃ gap : ℝ, 0 < gap ∧ ∀ (L : RunLib) (ksize : Fin 3 → ℤ) (ne spin : ℤ), L.erfc = erfc →
      Spec.AdmissibleRun L cfg a size ksize ne spin → Spec.Triangular L.qrC → Spec.Triangular L.qrR →
      Spec.ContinuousXc L.xc cfg.xc →
      (cfg.occupation = "simplex-projector" → cfg.restricted = true → spin = 0) →
      (cfg.occupation = "gamma" → ∀ i, ksize i ≤ 1) →
      ∀ ε, (∀ opt, L.optimizer = .ok opt → Spec.NearOptimizer ε opt) →
      ∃ n rep, runAtoms L cfg a = .ok ⟨n, rep⟩ ∧ ∃ s₀ < (1 : ℝ), ∀ s, s₀ < s → s < 1 →
        ∃ rep', runAtoms L cfg { a with cell := s • a.cell } = .ok ⟨n, rep'⟩ ∧
          rep.total + gap ≤ rep'.total
            + 2 * max cfg.smearing 0 * ((ne.toNat + 1) / 2 + cfg.emptyBands : ℕ) * Real.log 2 + ε := by
  by_cases hn : ∃ n, Spec.LeastGrid size n
  swap
  · refine ⟨1, one_pos, fun L ksize ne spin _ H hC hR hxc hspin hg ε hopt => ?_⟩
    obtain ⟨n, -, h, -⟩ := run_cell_continuous_partial L cfg a size ksize ne spin H hC hR hxc heps hspin
      hg ε hopt A hA hoff he hw hq 1 one_pos
    exact absurd ⟨n, h⟩ hn
  obtain ⟨n, hn⟩ := hn
  have hdet : A.det ≠ 0 := by
    rw [hA]
    exact fromAse_det a cfg.spin hcell
  obtain ⟨e, j1, gap, hgap, s₁, hs₁, j2⟩ := repulsion_cell_jump erfc herfc hp hm (fun i => (a.numbers i : ℝ))
    (fun i => by exact_mod_cast hz i) n cfg.ewaldEta A hdet (fun i d => (angstrom2bohr : ℝ) * a.positions i d) hsep N hN
    cfg.ewaldCutoff hstep
  refine ⟨gap / 2, by linarith, fun L ksize ne spin hL H hC hR hxc hspin hg ε hopt => ?_⟩
  obtain ⟨n', rep, h1, h2, η, hη, h3⟩ := run_cell_continuous_partial L cfg a size ksize ne spin H hC hR hxc heps hspin
    hg ε hopt A hA hoff he hw hq (gap / 2) (by linarith)
  obtain rfl := leastGrid_unique hn h1
  have hrep : rep.repulsion = e := by
    have := run_repulsion L cfg a H.cell H.ewald h2
    rw [runRepulsion_eq, hL] at this
    subst hA
    exact Except.ok.inj (this.symm.trans j1)
  have hcl : ContinuousAt (fun s : ℝ => fun i d => s * a.cell i d) 1 := Continuous.continuousAt (by fun_prop)
  obtain ⟨r, hr, hball⟩ := Metric.mem_nhds_iff.1 (hcl.eventually (Metric.ball_mem_nhds _ hη))
  refine ⟨_, rep, h2, max (max s₁ (1 - r)) 0, by simp [hs₁, hr], fun s g1 g2 => ?_⟩
  rw [max_lt_iff, max_lt_iff] at g1
  have hs : s ∈ Metric.ball (1 : ℝ) r := by
    rw [Metric.mem_ball, Real.dist_eq, abs_lt]
    constructor <;> linarith [g1.1.2]
  have hs' := hball hs
  have hs'' : (fun i d => s * a.cell i d) ∈ Metric.ball (fun i d => (1 : ℝ) * a.cell i d) η := hs'
  rw [Metric.mem_ball, dist_pi_lt_iff hη] at hs''
  obtain ⟨rep', k1, k2⟩ := h3 { a with cell := s • a.cell } rfl (fun i d => by
    have := (dist_pi_lt_iff hη).1 (hs'' i) d
    rw [Real.dist_eq, one_mul] at this
    exact this) (fun i d => by simpa using hη)
  obtain ⟨e', k3, k4⟩ := j2 s g1.1.1 g2
  have hcell' : (s • a.cell).det ≠ 0 := by
    rw [Matrix.det_smul]
    exact mul_ne_zero (pow_ne_zero _ g1.2.ne') hcell
  have hrep' : rep'.repulsion = e' := by
    have := run_repulsion L cfg { a with cell := s • a.cell } hcell' H.ewald k1
    rw [runRepulsion_eq, hL] at this
    rw [hA, smul_comm] at k3
    exact Except.ok.inj (this.symm.trans k3)
  refine ⟨rep', k1, ?_⟩
  rw [hrep, hrep', abs_le] at k2
  linarith [k2.1, k2.2]

/-- The complementary error function is continuous. -/
theorem erfc_continuous : Continuous Spec.erfc := by
  have hint : MeasureTheory.Integrable fun t : ℝ => Real.exp (-t ^ 2) := by
    simpa using integrable_exp_neg_mul_sq (b := 1) one_pos
  have h : Spec.erfc = fun x => 2 / Real.sqrt Real.pi * ((∫ t in Set.Ioi (0 : ℝ), Real.exp (-t ^ 2))
      - ∫ t in (0 : ℝ)..x, Real.exp (-t ^ 2)) := by
    funext x
    unfold Spec.erfc
    congr 1
    rw [← intervalIntegral.integral_interval_add_Ioi (a := 0) (b := x) hint.integrableOn hint.integrableOn]
    ring
  rw [h]
  exact continuous_const.mul (continuous_const.sub (intervalIntegral.continuous_primitive
    (fun a b => hint.intervalIntegrable) 0))

/-- The complementary error function is positive. -/
theorem erfc_pos (x : ℝ) : 0 < Spec.erfc x := by
  have hint : MeasureTheory.Integrable fun t : ℝ => Real.exp (-t ^ 2) := by
    simpa using integrable_exp_neg_mul_sq (b := 1) one_pos
  unfold Spec.erfc
  refine mul_pos (by positivity) ?_
  rw [← intervalIntegral.integral_interval_add_Ioi (a := x) (b := x + 1) hint.integrableOn hint.integrableOn]
  refine add_pos_of_pos_of_nonneg ?_ (MeasureTheory.integral_nonneg fun t => (Real.exp_pos _).le)
  exact intervalIntegral.intervalIntegral_pos_of_pos hint.intervalIntegrable (fun t => Real.exp_pos _) (by linarith)

private theorem cube_sum : Spec.dot (fun d => ∑ i, ((angstrom2bohr : ℝ) • (1 : Matrix (Fin 3) (Fin 3) ℝ)) i d)
    (fun d => ∑ i, ((angstrom2bohr : ℝ) • (1 : Matrix (Fin 3) (Fin 3) ℝ)) i d)
    = 3 * (angstrom2bohr : ℝ) ^ 2 := by
  unfold Spec.dot
  simp [Matrix.one_apply, Fin.sum_univ_three]
  ring

/-- The lithium atom in a cell of one ångström is off a step of the Ewald sum. -/
theorem lithium_offStep : Spec.OffStep lithiumConfig.ewaldCutoff ((angstrom2bohr : ℝ) • (1 : Matrix (Fin 3) (Fin 3) ℝ)) := by
  intro k h
  rw [cube_sum] at h
  have hb : (angstrom2bohr : ℝ) = 18897259886 / 10000000000 := by norm_num [angstrom2bohr]
  rw [hb] at h
  have h' : (20 : ℝ) = k * (3 * (18897259886 / 10000000000) ^ 2) := h
  rcases le_or_gt k 1 with hk | hk
  · have : (k : ℝ) ≤ 1 := by exact_mod_cast hk
    norm_num at h'
    linarith
  · have : (2 : ℝ) ≤ k := by exact_mod_cast hk
    norm_num at h'
    linarith

/-- The hypotheses of `run_cell_total_continuous_partial`, and with them those of `repulsion_cell_continuous`, hold for
the lithium atom. -/
example {ε δ : ℝ} (hε : 0 < ε) (hδ : 0 < δ) :
    let L : RunLib := { lithiumLib diracLib with
      erfc := Spec.erfc, qrC := gramSchmidtQR ℂ, qrR := gramSchmidtQR ℝ, optimizer := .ok (nearOptimizer ε) }
    ∃ n rep, runAtoms L lithiumConfig (⟨fun _ => 3, 0, 1⟩ : AseAtoms 1) = .ok ⟨n, rep⟩ ∧ ∃ η, 0 < η ∧
      ∀ a' : AseAtoms 1, a'.numbers = (fun _ => 3) → (∀ i d, |a'.cell i d - (1 : Matrix (Fin 3) (Fin 3) ℝ) i d| < η) →
        (∀ i d, |a'.positions i d - 0| < η) →
      ∃ rep', runAtoms L lithiumConfig a' = .ok ⟨n, rep'⟩ ∧ |rep.total - rep'.total| ≤ δ + ε := by
  intro L
  obtain ⟨n, rep, -, h1, η, hη, h2⟩ := run_cell_total_continuous_partial L lithiumConfig (⟨fun _ => 3, 0, 1⟩ : AseAtoms 1)
    (fun _ => 4) (fun _ => 2) 3 1
    { lithium_admissible diracLib with optimizer := ⟨nearOptimizer ε, rfl, nearOptimizer_keeps ε⟩ }
    (gramSchmidtQR_triangular ℂ) (gramSchmidtQR_triangular ℝ) diracLib_continuous (by norm_num [lithiumConfig])
    (fun _ h => absurd h (by decide)) (fun h => absurd h (by decide)) ε
    (fun o ho => by cases Except.ok.inj ho; exact nearOptimizer_near hε) _ rfl
    (fun _ _ h => absurd h (by decide)) (by decide) (by decide) (Or.inr le_rfl) erfc_continuous lithium_separated
    lithium_offStep δ hδ
  refine ⟨n, rep, h1, η, hη, fun a' e1 e2 e3 => ?_⟩
  obtain ⟨rep', h3, h4⟩ := h2 a' e1 e2 e3
  exact ⟨rep', h3, by simpa [lithiumConfig] using h4⟩

/-- The hypotheses of `run_cell_total_jump`, and with them those of `repulsion_cell_jump`, hold for the lithium atom
when the Ewald cutoff is the squared length of the diagonal of its cell. -/
example : ∃ gap : ℝ, 0 < gap ∧ ∀ ε, 0 < ε →
    let L : RunLib := { lithiumLib diracLib with
      erfc := Spec.erfc, qrC := gramSchmidtQR ℂ, qrR := gramSchmidtQR ℝ, optimizer := .ok (nearOptimizer ε) }
    let cfg : RunConfig := { lithiumConfig with ewaldCutoff := 3 * (angstrom2bohr : ℝ) ^ 2 }
    ∃ n rep, runAtoms L cfg (⟨fun _ => 3, 0, 1⟩ : AseAtoms 1) = .ok ⟨n, rep⟩ ∧ ∃ s₀ < (1 : ℝ), ∀ s, s₀ < s → s < 1 →
      ∃ rep', runAtoms L cfg (⟨fun _ => 3, 0, s • 1⟩ : AseAtoms 1) = .ok ⟨n, rep'⟩ ∧ rep.total + gap ≤ rep'.total + ε := by
  have hb : (0 : ℝ) < angstrom2bohr := by norm_num [angstrom2bohr]
  obtain ⟨gap, hgap, h⟩ := run_cell_total_jump Spec.erfc erfc_continuous erfc_pos
    { lithiumConfig with ewaldCutoff := 3 * (angstrom2bohr : ℝ) ^ 2 } one_pos (⟨fun _ => 3, 0, 1⟩ : AseAtoms 1) (by simp)
    (fun _ => by norm_num) _ rfl lithium_separated 1 one_pos (by rw [cube_sum]; simp) (fun _ => 4)
    (fun _ _ h => absurd h (by decide)) (by norm_num [lithiumConfig]) (by decide) (by decide) (Or.inr le_rfl)
  refine ⟨gap, hgap, fun ε hε => ?_⟩
  intro L cfg
  have H := lithium_admissible diracLib
  have H' : Spec.AdmissibleRun L cfg (⟨fun _ => 3, 0, 1⟩ : AseAtoms 1) (fun _ => 4) (fun _ => 2) 3 1 :=
    ⟨H.cell, H.sizes, H.ksizes, H.electrons, H.unpaired, H.placeable, H.method, H.waves,
      (by positivity : 0 < 3 * (angstrom2bohr : ℝ) ^ 2), H.devices, ⟨nearOptimizer ε, rfl, nearOptimizer_keeps ε⟩, H.epochs, H.noFault⟩
  obtain ⟨n, rep, h1, s₀, hs, h2⟩ := h L (fun _ => 2) 3 1 rfl H' (gramSchmidtQR_triangular ℂ)
    (gramSchmidtQR_triangular ℝ) diracLib_continuous (fun _ h => absurd h (by decide)) (fun h => absurd h (by decide)) ε
    (fun o ho => by cases Except.ok.inj ho; exact nearOptimizer_near hε)
  refine ⟨n, rep, h1, s₀, hs, fun s g1 g2 => ?_⟩
  obtain ⟨rep', h3, h4⟩ := h2 s g1 g2
  exact ⟨rep', h3, by simpa [lithiumConfig] using h4⟩

end Jrystal
