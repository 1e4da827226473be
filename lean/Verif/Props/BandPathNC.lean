import Verif.Props.BandContinuityNC
import Verif.Props.CellContinuityNC
import Verif.Props.BandPeriodic

/- C106 with pseudopotentials: the saved energies are continuous along the path and in the largest `|k + G|`. -/
namespace Jrystal
open scoped BigOperators ComplexConjugate
open Matrix RunSetup

private theorem quad_self {N : ℕ} (v : Fin N → ℂ) : (star v ⬝ᵥ v).re = ∑ a, Complex.normSq (v a) := by
  rw [dotProduct, Complex.re_sum]
  refine Finset.sum_congr rfl fun a _ => ?_
  rw [Pi.star_apply, RCLike.star_def, ← Complex.normSq_eq_conj_mul_self, Complex.ofReal_re]

/-- Eigenvalues of matrices with near entries are near. -/
private theorem spectrum_entries {N : ℕ} {H H' : Matrix (Fin N) (Fin N) ℂ} {lam lam' : Fin N → ℝ}
    (h : Spec.IsSpectrum H lam) (h' : Spec.IsSpectrum H' lam') {t : ℝ} (ht : ∀ x y, ‖H x y - H' x y‖ ≤ t)
    (j : Fin N) : lam j ≤ lam' j + N * t := by
  refine spectrum_shift h h' _ (fun v => ?_) j
  have e : star v ⬝ᵥ (H *ᵥ v) - star v ⬝ᵥ (H' *ᵥ v) = ∑ x, ∑ y, conj (v x) * ((H x y - H' x y) * v y) := by
    rw [← dotProduct_sub, ← Matrix.sub_mulVec]
    simp only [dotProduct, mulVec, Pi.star_apply, RCLike.star_def, Finset.mul_sum, Matrix.sub_apply]
  have h1 : ‖star v ⬝ᵥ (H *ᵥ v) - star v ⬝ᵥ (H' *ᵥ v)‖ ≤ N * t * (star v ⬝ᵥ v).re := by
    rw [e, quad_self]
    refine (norm_sum_le _ _).trans ?_
    have h2 : ∀ x, ‖∑ y, conj (v x) * ((H x y - H' x y) * v y)‖
        ≤ ∑ y, t * ((Complex.normSq (v x) + Complex.normSq (v y)) / 2) := by
      intro x
      refine (norm_sum_le _ _).trans (Finset.sum_le_sum fun y _ => ?_)
      rw [norm_mul, norm_mul, Complex.norm_conj, Complex.normSq_eq_norm_sq, Complex.normSq_eq_norm_sq]
      have h3 := ht x y
      have h4 : 0 ≤ ‖v x‖ * ‖v y‖ := by positivity
      have h5 : ‖v x‖ * ‖v y‖ ≤ (‖v x‖ ^ 2 + ‖v y‖ ^ 2) / 2 := by nlinarith [sq_nonneg (‖v x‖ - ‖v y‖)]
      have h6 : 0 ≤ t := (norm_nonneg _).trans h3
      calc ‖v x‖ * (‖H x y - H' x y‖ * ‖v y‖) = ‖H x y - H' x y‖ * (‖v x‖ * ‖v y‖) := by ring
        _ ≤ t * (‖v x‖ * ‖v y‖) := mul_le_mul_of_nonneg_right h3 h4
        _ ≤ _ := mul_le_mul_of_nonneg_left h5 h6
    refine (Finset.sum_le_sum fun x _ => h2 x).trans (le_of_eq ?_)
    simp only [← Finset.mul_sum, ← Finset.sum_div, Finset.sum_add_distrib, Finset.sum_const, Finset.card_univ,
      Fintype.card_fin, nsmul_eq_mul]
    ring
  have h2 := (Complex.abs_re_le_norm _).trans h1
  rw [Complex.sub_re] at h2
  linarith [(abs_le.mp h2).2]

/-- The data of one atom, with the largest radius `R` of the tables given. -/
private noncomputable def tableSpecies (L : NcLib) (P : NcLists) {nk : ℕ} {n : Fin 3 → ℕ} (R : ℝ)
    (g : Idx n → Fin 3 → ℝ) (kpts : Fin nk → Fin 3 → ℝ) (a : ℕ) : NlSpecies nk n :=
  { nbeta := (P.betaGrid.getD a []).length
    ang := fun i => ((P.angular.getD a []).getD i 0).toNat
    dmat := Matrix.of fun i j => ((((P.dMatrix.getD a []).getD i []).getD j 0 : ℚ) : ℝ)
    beta := fun k b x =>
      let r := samplesOf (P.rGrid.getD a [])
      let drop : ℕ := if r 0 = 0 then 1 else 0
      let nr := (P.rGrid.getD a []).length - drop
      let r' : Samples := fun i => r (i + drop)
      L.csBeta (2 * nr) (gGrid nr R) (sbtNumerical L.jn nr r' R ((P.angular.getD a []).getD b 0)
        (fun i => samplesOf ((P.betaGrid.getD a []).getD b []) (i + drop)) (deltaR nr r'))
        (Real.sqrt (∑ d, (kpts k d + g x d) ^ 2)) }

/-- The nonlocal part between the waves `w` at the k point `κ`, with tables up to `R`. -/
private noncomputable def tableMatrix (L : NcLib) (P : NcLists) {N m : ℕ} {n : Fin 3 → ℕ} (pos : Fin m → Fin 3 → ℝ)
    (vol : ℝ) (g : Idx n → Fin 3 → ℝ) (w : Fin N → Idx n) (R : ℝ) (κ : Fin 3 → ℝ) : Matrix (Fin N) (Fin N) ℂ :=
  Spec.nonlocalMatrix (sphericalRow L.sph) (fun a : Fin m => tableSpecies L P R g (fun _ : Fin 1 => κ) a)
    (fun a => Matrix.diagonal fun j => |L.eigh.vals
      (symmetrize (tableSpecies L P R g (fun _ : Fin 1 => κ) a).dmat) j|) pos vol
    (2 * nlLMax (fun a : Fin m => tableSpecies L P R g (fun _ : Fin 1 => κ) a) + 1) g w (fun _ => κ) 0

/-- The nonlocal part of a path at one of its points. -/
private theorem nonlocal_table (L : NcLib) (cfg : NcConfig) {N m nk : ℕ} {n : Fin 3 → ℕ} (symbols : Fin m → Str)
    (P : NcLists) (hP : createPseudo L cfg (List.ofFn symbols) = .ok P) (pos : Fin m → Fin 3 → ℝ) (vol : ℝ)
    (g : Idx n → Fin 3 → ℝ) (w : Fin N → Idx n) (k : Fin nk → Fin 3 → ℝ) (i : Fin nk) {bs : List (BetaArr nk n)}
    (hbs : ncBetas L P g k = .ok bs) {R : ℝ}
    (hR : IsGreatest (Set.range fun p : Fin nk × Idx n => Spec.length fun d => k p.1 d + g p.2 d) R) :
    Spec.nonlocalMatrix (sphericalRow L.sph) (fun a : Fin m => ncSpecies P bs a)
        (fun a => Matrix.diagonal fun j => |L.eigh.vals (symmetrize (ncSpecies P bs a).dmat) j|) pos vol
        (2 * nlLMax (fun a : Fin m => ncSpecies P bs a) + 1) g w k i
      = tableMatrix L P pos vol g w R (k i) := by
  have h := species_all_written L cfg symbols P hP hbs
  have h1 : maxRadius (fun p : Fin nk × Idx n => Real.sqrt (∑ d, (k p.1 d + g p.2 d) ^ 2)) = R :=
    maxRadius_eq _ (fun _ => Real.sqrt_nonneg _) R hR
  have h2 : ∀ S : Fin m → NlSpecies nk n, S = (fun a : Fin m => pseudoSpecies L P g k a) →
    Spec.nonlocalMatrix (sphericalRow L.sph) S
        (fun a => Matrix.diagonal fun j => |L.eigh.vals (symmetrize (S a).dmat) j|) pos vol
        (2 * nlLMax S + 1) g w k i = tableMatrix L P pos vol g w R (k i) := by
    rintro _ rfl
    subst h1
    rfl
  exact h2 _ h

private theorem wave_continuous {N : ℕ} {n : Fin 3 → ℕ} (g : Idx n → Fin 3 → ℝ) (w : Fin N → Idx n) (z : Idx n)
    (d : Fin 3) : ContinuousOn (fun p : ℝ × (Fin 3 → ℝ) => p.2 d + g z d)
      {p | 0.0001 < p.1 ∧ ∀ x, (fun d => p.2 d + g (w x) d) ≠ 0} :=
  ((continuous_apply d).comp continuous_snd).continuousOn.add continuousOn_const

private theorem table_beta_continuous (L : NcLib) (hL : Spec.ContinuousPseudo L) (P : NcLists) {N : ℕ} {n : Fin 3 → ℕ}
    (g : Idx n → Fin 3 → ℝ) (w : Fin N → Idx n) (a : ℕ) (x : Fin N)
    (j : Fin (P.betaGrid.getD a []).length) :
    ContinuousOn (fun p : ℝ × (Fin 3 → ℝ) => (tableSpecies L P p.1 g (fun _ : Fin 1 => p.2) a).beta 0 j (w x))
      {p | 0.0001 < p.1 ∧ ∀ x, (fun d => p.2 d + g (w x) d) ≠ 0} := by
  have hr : ContinuousOn (fun p : ℝ × (Fin 3 → ℝ) => Real.sqrt (∑ d, (p.2 d + g (w x) d) ^ 2))
      {p | 0.0001 < p.1 ∧ ∀ x, (fun d => p.2 d + g (w x) d) ≠ 0} :=
    Real.continuous_sqrt.comp_continuousOn (continuousOn_finsetSum _ fun d _ => (wave_continuous g w (w x) d).pow 2)
  unfold tableSpecies
  dsimp only
  generalize (if samplesOf (P.rGrid.getD a []) 0 = 0 then 1 else 0) = drop
  exact joint_radial hL.bessel hL.splineBeta ((P.rGrid.getD a []).length - drop) _ _ _ _ (kmax := fun p => p.1)
    continuous_fst.continuousOn hr fun p hp => hp.1

private theorem table_projector_continuous (L : NcLib) (hL : Spec.ContinuousPseudo L) (P : NcLists) {N : ℕ} {n : Fin 3 → ℕ}
    (g : Idx n → Fin 3 → ℝ) (w : Fin N → Idx n) (a : ℕ) (τ : Fin 3 → ℝ)
    (x : Fin N) (j : Fin (P.betaGrid.getD a []).length) (μ : ℕ) :
    ContinuousOn (fun p : ℝ × (Fin 3 → ℝ) => conj (Spec.projector (((P.angular.getD a []).getD j 0).toNat)
        ((tableSpecies L P p.1 g (fun _ : Fin 1 => p.2) a).beta 0 j (w x))
        (sphericalRow L.sph (((P.angular.getD a []).getD j 0).toNat) μ fun e => p.2 e + g (w x) e)
        (fun e => p.2 e + g (w x) e) τ))
      {p | 0.0001 < p.1 ∧ ∀ x, (fun d => p.2 d + g (w x) d) ≠ 0} := by
  have hb := table_beta_continuous L hL P g w a x j
  have hY : ContinuousOn (fun p : ℝ × (Fin 3 → ℝ) => sphericalRow L.sph (((P.angular.getD a []).getD j 0).toNat) μ
      fun e => p.2 e + g (w x) e) {p | 0.0001 < p.1 ∧ ∀ x, (fun d => p.2 d + g (w x) d) ≠ 0} :=
    (hL.harmonics (((P.angular.getD a []).getD j 0).toNat) μ).comp
      (f := fun (p : ℝ × (Fin 3 → ℝ)) e => p.2 e + g (w x) e) (continuousOn_pi.2 fun d => wave_continuous g w (w x) d)
      fun p hp => hp.2 x
  unfold Spec.projector
  refine Complex.continuous_conj.comp_continuousOn (((continuousOn_const.mul
    (Complex.continuous_ofReal.comp_continuousOn hb)).mul (Complex.continuous_ofReal.comp_continuousOn hY)).mul
    (Complex.continuous_exp.comp_continuousOn (continuousOn_const.mul
      (Complex.continuous_ofReal.comp_continuousOn ?_)).neg))
  exact continuousOn_finsetSum _ fun d _ => (wave_continuous g w (w x) d).mul continuousOn_const

private noncomputable def tableProj (L : NcLib) (P : NcLists) {N : ℕ} {n : Fin 3 → ℕ} (g : Idx n → Fin 3 → ℝ)
    (w : Fin N → Idx n) (a : ℕ) (τ : Fin 3 → ℝ) (x : Fin N) (j : Fin (P.betaGrid.getD a []).length) (μ : ℕ) (R : ℝ)
    (κ : Fin 3 → ℝ) : ℂ :=
  conj (Spec.projector (((P.angular.getD a []).getD j 0).toNat)
    ((tableSpecies L P R g (fun _ : Fin 1 => κ) a).beta 0 j (w x))
    (sphericalRow L.sph (((P.angular.getD a []).getD j 0).toNat) μ fun e => κ e + g (w x) e)
    (fun e => κ e + g (w x) e) τ)

/-- The entries, written out. -/
private theorem table_entry (L : NcLib) (P : NcLists) {N m : ℕ} {n : Fin 3 → ℕ}
    (pos : Fin m → Fin 3 → ℝ) (vol : ℝ) (g : Idx n → Fin 3 → ℝ) (w : Fin N → Idx n) (x y : Fin N) :
    ∃ (M : ℕ) (D : ∀ a : Fin m, Matrix (Fin (P.betaGrid.getD a []).length) (Fin (P.betaGrid.getD a []).length) ℝ),
      ∀ R κ, tableMatrix L P pos vol g w R κ x y = ∑ a : Fin m, (∑ i, ∑ j, (D a i j : ℂ) * ∑ μ : Fin M,
        conj (tableProj L P g w a (pos a) x i μ R κ) * tableProj L P g w a (pos a) y j μ R κ) / (vol : ℂ) :=
  ⟨2 * (Finset.univ.sup fun a : Fin m => Finset.univ.sup fun i : Fin (P.betaGrid.getD a []).length =>
        ((P.angular.getD a []).getD i 0).toNat) + 1,
    fun a => Matrix.diagonal fun j => |L.eigh.vals (symmetrize (Matrix.of fun i j : Fin (P.betaGrid.getD a []).length =>
      ((((P.dMatrix.getD a []).getD i []).getD j 0 : ℚ) : ℝ))) j|, fun _ _ => rfl⟩

/-- Its entries are continuous in the largest radius and the k point together. -/
private theorem table_continuous (L : NcLib) (hL : Spec.ContinuousPseudo L) (P : NcLists) {N m : ℕ} {n : Fin 3 → ℕ}
    (pos : Fin m → Fin 3 → ℝ) (vol : ℝ) (g : Idx n → Fin 3 → ℝ) (w : Fin N → Idx n) (x y : Fin N) :
    ContinuousOn (fun p : ℝ × (Fin 3 → ℝ) => tableMatrix L P pos vol g w p.1 p.2 x y)
      {p | 0.0001 < p.1 ∧ ∀ x, (fun d => p.2 d + g (w x) d) ≠ 0} := by
  obtain ⟨M, D, h⟩ := table_entry L P pos vol g w x y
  simp only [h]
  refine continuousOn_finsetSum _ fun a _ => ContinuousOn.div_const (continuousOn_finsetSum _ fun i _ =>
    continuousOn_finsetSum _ fun j _ => continuousOn_const.mul (continuousOn_finsetSum _ fun μ _ => ?_)) _
  exact (Complex.continuous_conj.comp_continuousOn (table_projector_continuous L hL P g w a (pos a) x i μ)).mul
    (table_projector_continuous L hL P g w a (pos a) y j μ)

/-- The Hamiltonians at near points, with tables up to near radii, have near entries, whatever the potential. -/
private theorem table_near (L : NcLib) (hL : Spec.ContinuousPseudo L) (P : NcLists) {N m : ℕ} {n : Fin 3 → ℕ}
    (pos : Fin m → Fin 3 → ℝ) (vol : ℝ) (g r : Idx n → Fin 3 → ℝ) (w : Fin N → Idx n) (R₀ : ℝ) (hR₀ : 0.0001 < R₀)
    (κ₀ : Fin 3 → ℝ) (hκ₀ : ∀ x, (fun d => κ₀ d + g (w x) d) ≠ 0) {t : ℝ} (ht : 0 < t) :
    ∃ η, 0 < η ∧ ∀ R κ, |R - R₀| < η → (∀ d, |κ d - κ₀ d| < η) → ∀ V x y,
      ‖(Spec.planeWaveHamiltonian (fun x => g (w x)) r V κ + tableMatrix L P pos vol g w R κ) x y
        - (Spec.planeWaveHamiltonian (fun x => g (w x)) r V κ₀ + tableMatrix L P pos vol g w R₀ κ₀) x y‖ < t := by
  have hopen : {p : ℝ × (Fin 3 → ℝ) | 0.0001 < p.1 ∧ ∀ x, (fun d => p.2 d + g (w x) d) ≠ 0} ∈ nhds (R₀, κ₀) := by
    have h1 : IsOpen {p : ℝ × (Fin 3 → ℝ) | 0.0001 < p.1 ∧ ∀ x, (fun d => p.2 d + g (w x) d) ≠ 0} := by
      refine (isOpen_lt continuous_const continuous_fst).inter
        (t := {p : ℝ × (Fin 3 → ℝ) | ∀ x, (fun d => p.2 d + g (w x) d) ≠ 0}) ?_
      rw [Set.setOf_forall]
      exact isOpen_iInter_of_finite fun x => isOpen_ne_fun (by fun_prop) continuous_const
    exact h1.mem_nhds ⟨hR₀, hκ₀⟩
  have hent : ∀ x y, ContinuousAt (fun p : ℝ × (Fin 3 → ℝ) =>
      (if x = y then (Spec.kineticEnergy (fun e => g (w x) e + p.2 e) : ℂ) else 0)
        + tableMatrix L P pos vol g w p.1 p.2 x y) (R₀, κ₀) := by
    intro x y
    refine ContinuousAt.add ?_ ((table_continuous L hL P pos vol g w x y).continuousAt hopen)
    split
    · refine (Complex.continuous_ofReal.comp ?_).continuousAt
      unfold Spec.kineticEnergy Spec.dot
      fun_prop
    · exact continuousAt_const
  have hall : ∀ᶠ p in nhds (R₀, κ₀), ∀ x y, ‖((if x = y then (Spec.kineticEnergy (fun e => g (w x) e + p.2 e) : ℂ) else 0)
        + tableMatrix L P pos vol g w p.1 p.2 x y) - ((if x = y then (Spec.kineticEnergy (fun e => g (w x) e + κ₀ e) : ℂ)
          else 0) + tableMatrix L P pos vol g w R₀ κ₀ x y)‖ < t := by
    rw [Filter.eventually_all]
    intro x
    rw [Filter.eventually_all]
    intro y
    have := Metric.continuousAt_iff'.1 (hent x y) t ht
    simpa only [dist_eq_norm] using this
  obtain ⟨η, hη, hball⟩ := Metric.eventually_nhds_iff.1 hall
  refine ⟨η, hη, fun R κ hR hκ V x y => ?_⟩
  have h2 := hball (y := (R, κ)) (by
    rw [Prod.dist_eq, max_lt_iff]
    exact ⟨hR, (dist_pi_lt_iff hη).2 hκ⟩) x y
  refine lt_of_eq_of_lt (congrArg norm ?_) h2
  rw [Matrix.add_apply, Matrix.add_apply]
  unfold Spec.planeWaveHamiltonian
  ring

/-- C106, whole norm-conserving calculations (part): the saved energies are continuous in the point of the path and in
the largest `|k + G|` over the path.  For every point `κ₀` and radius `R₀ > 0.0001` and every tolerance `δ` there is an
`η` such that two spin-restricted band calculations of the same crystal with the same settings of the first stage save,
at points of their paths within `η` of `κ₀`, energies that differ by at most `δ` plus the larger of the accuracies of
the band optimisers, when the largest `|k + G|` of both paths is within `η` of `R₀`; `κ₀ + G` must not vanish for a
selected plane wave.  Missing: points where it does, for which the direction of the wave vector is not defined; paths
with far largest `|k + G|` (`beta_path_dependent`); spin-unrestricted calculations. -/
theorem bandRunNC_continuous_partial (L : NcLib) (hL : Spec.ContinuousPseudo L) (cfg : NcConfig) {m : ℕ}
    (a : AseAtoms m) (size ksize : Fin 3 → ℤ) (P : NcLists) (ne spin : ℤ) (hr : cfg.restricted = true)
    (hC : Spec.Triangular L.qrC) (A : Matrix (Fin 3) (Fin 3) ℝ) (hA : A = (angstrom2bohr : ℝ) • a.cell)
    {n : Fin 3 → ℕ} (hn : Spec.LeastGrid size n) (mask : Idx n → Bool)
    (hmask : createFreqMask cfg.toRunConfig A n = .ok mask) (R₀ : ℝ) (hR₀ : 0.0001 < R₀) (κ₀ : Fin 3 → ℝ)
    (hκ₀ : ∀ x, mask x = true → (fun d => κ₀ d + gVectors A n x d) ≠ 0) (δ : ℝ) (hδ : 0 < δ) :
    ∃ η, 0 < η ∧ ∀ (T T' : BandTools) (b b' : BandConfig) {num num' : ℕ} {frac : Matrix (Fin num) (Fin 3) ℝ}
      {frac' : Matrix (Fin num') (Fin 3) ℝ},
      Spec.AdmissibleBandNC L T cfg b a size ksize P ne spin num frac →
      Spec.AdmissibleBandNC L T' cfg b' a size ksize P ne spin num' frac' →
      ∀ ε ε', (∀ opt, T.optimizer = .ok opt → Spec.NearBandOptimizer ε opt) →
      (∀ opt, T'.optimizer = .ok opt → Spec.NearBandOptimizer ε' opt) →
      0 < b.epoch → 0 < b.fineEpoch → 0 < b'.epoch → 0 < b'.fineEpoch →
      ∀ k k', Spec.HasCoordinates A frac k → Spec.HasCoordinates A frac' k' →
      ∀ R R', IsGreatest (Set.range fun p : Fin num × Idx n => Spec.length fun d => k p.1 d + gVectors A n p.2 d) R →
        IsGreatest (Set.range fun p : Fin num' × Idx n => Spec.length fun d => k' p.1 d + gVectors A n p.2 d) R' →
        |R - R₀| < η → |R' - R₀| < η →
      ∃ file values file' values',
        bandAtomsNC L T cfg b false a = .ok ⟨file, num, (ne.toNat + 1) / 2 + b.emptyBands, values⟩ ∧
        bandAtomsNC L T' cfg b' false a = .ok ⟨file', num', (ne.toNat + 1) / 2 + b'.emptyBands, values'⟩ ∧
        ∀ q q' (j : Fin ((ne.toNat + 1) / 2 + b.emptyBands)) (j' : Fin ((ne.toNat + 1) / 2 + b'.emptyBands)),
          (j : ℕ) = j' → (∀ d, |k q d - κ₀ d| < η) → (∀ d, |k' q' d - κ₀ d| < η) →
          |values q j - values' q' j'| ≤ δ + max ε ε' := by
  have ht : 0 < δ / (2 * (maskCount mask + 1)) := by positivity
  obtain ⟨η, hη, hnear⟩ := table_near L hL P (-fun (i : Fin m) d => (angstrom2bohr : ℝ) * a.positions i d) |A.det|
    (gVectors A n) (rVectors A n) (maskPos mask) R₀ hR₀ κ₀ (fun x => hκ₀ _ (maskPos_mask mask x)) ht
  refine ⟨η, hη, fun T T' b b' num num' frac frac' H H' ε ε' hopt hopt' he hf he' hf' k k' hk hk' R R' hR hR' hRη hRη' =>
    ?_⟩
  obtain ⟨n₁, rep, mask₁, vloc, bs, dens, values, h1, h2, h3, h4, h7, h8, h5, hb, h6⟩ := bandRunNC_near_partial L T cfg b a
    size ksize P ne spin H hr hC ε hopt he hf A hA _ (fun _ _ => rfl) k hk
  obtain ⟨n', rep', mask', vloc', bs', dens', values', g1, g2, g3, g4, g7, g8, g5, hb', g6⟩ := bandRunNC_near_partial L T'
    cfg b' a size ksize P ne spin H' hr hC ε' hopt' he' hf' A hA _ (fun _ _ => rfl) k' hk'
  obtain rfl : n = n₁ := (leastGrid_unique hn h3).symm
  rw [h1] at g1
  obtain ⟨rfl, hrep⟩ := Sigma.mk.inj (Except.ok.inj g1)
  obtain rfl := eq_of_heq hrep
  obtain rfl := Except.ok.inj (hmask.symm.trans h4)
  obtain rfl := Except.ok.inj (hmask.symm.trans g4)
  obtain rfl := Except.ok.inj (h7.symm.trans g7)
  rw [h2] at g2
  obtain rfl := eq_of_heq (Sigma.mk.inj g2).2
  refine ⟨_, values, _, values', h5, g5, fun q q' j j' hj hq hq' => ?_⟩
  let V : Fin 1 → Idx n → ℝ := fun σ x => (ifftn vloc x + hartreeRealSpace dens (gVectors A n) true x
    + vxcDensity L.xc cfg.xc (gVectors A n) dens σ x).re
  have h6' := h6 V (fun _ _ => rfl) q
  have g6' := g6 V (fun _ _ => rfl) q'
  obtain ⟨lam, hl⟩ : ∃ lam, Spec.IsSpectrum (Spec.planeWaveHamiltonian (fun x => gVectors A n (maskPos mask x))
      (rVectors A n) (V 0) (k q) + Spec.nonlocalMatrix (sphericalRow L.sph) (fun a : Fin m => ncSpecies P bs a)
        (fun a => Matrix.diagonal fun j => |L.eigh.vals (symmetrize (ncSpecies P bs a).dmat) j|)
        (-fun i d => (angstrom2bohr : ℝ) * a.positions i d) |A.det|
        (2 * nlLMax (fun a : Fin m => ncSpecies P bs a) + 1) (gVectors A n) (maskPos mask) k q) lam := by
    refine exists_spectrum ((planeWaveHamiltonian_hermitian _ _ _ _).add ?_)
    rw [← nonlocalMatrix_actual]
    exact projectorMatrix_hermitian _ _
  obtain ⟨lam', hl'⟩ : ∃ lam, Spec.IsSpectrum (Spec.planeWaveHamiltonian (fun x => gVectors A n (maskPos mask x))
      (rVectors A n) (V 0) (k' q') + Spec.nonlocalMatrix (sphericalRow L.sph) (fun a : Fin m => ncSpecies P bs' a)
        (fun a => Matrix.diagonal fun j => |L.eigh.vals (symmetrize (ncSpecies P bs' a).dmat) j|)
        (-fun i d => (angstrom2bohr : ℝ) * a.positions i d) |A.det|
        (2 * nlLMax (fun a : Fin m => ncSpecies P bs' a) + 1) (gVectors A n) (maskPos mask) k' q') lam := by
    refine exists_spectrum ((planeWaveHamiltonian_hermitian _ _ _ _).add ?_)
    rw [← nonlocalMatrix_actual]
    exact projectorMatrix_hermitian _ _
  obtain ⟨a1, a2⟩ := h6' lam hl j
  obtain ⟨b1, b2⟩ := g6' lam' hl' j'
  rw [nonlocal_table L cfg _ P H.loaded _ _ _ _ k q h8 hR] at hl
  rw [nonlocal_table L cfg _ P H.loaded _ _ _ _ k' q' g8 hR'] at hl'
  have hd : ∀ x y, ‖(Spec.planeWaveHamiltonian (fun x => gVectors A n (maskPos mask x)) (rVectors A n) (V 0) (k q)
      + tableMatrix L P (-fun (i : Fin m) d => (angstrom2bohr : ℝ) * a.positions i d) |A.det| (gVectors A n)
        (maskPos mask) R (k q)) x y
      - (Spec.planeWaveHamiltonian (fun x => gVectors A n (maskPos mask x)) (rVectors A n) (V 0) (k' q')
      + tableMatrix L P (-fun (i : Fin m) d => (angstrom2bohr : ℝ) * a.positions i d) |A.det| (gVectors A n)
        (maskPos mask) R' (k' q')) x y‖ ≤ δ / (maskCount mask + 1) := fun x y => by
    have c1 := hnear R (k q) hRη hq (V 0) x y
    have c2 := hnear R' (k' q') hRη' hq' (V 0) x y
    have e : δ / ((maskCount mask : ℝ) + 1) = δ / (2 * (maskCount mask + 1)) + δ / (2 * (maskCount mask + 1)) := by
      field_simp
      ring
    rw [e]
    exact ((norm_sub_le_norm_sub_add_norm_sub _ _ _).trans_lt (add_lt_add c1 (by rwa [norm_sub_rev]))).le
  have hN : (maskCount mask : ℝ) * (δ / (maskCount mask + 1)) ≤ δ := by
    rw [mul_div_assoc', div_le_iff₀ (by positivity)]
    nlinarith
  have d1 := spectrum_entries hl hl' hd (Fin.castLE hb j)
  have d2 := spectrum_entries hl' hl (fun x y => by rw [norm_sub_rev]; exact hd x y) (Fin.castLE hb j)
  have hjj : Fin.castLE hb' j' = Fin.castLE hb j := Fin.ext hj.symm
  rw [hjj] at b1 b2
  have c1 := le_max_left ε ε'
  have c2 := le_max_right ε ε'
  exact abs_le.mpr ⟨by linarith, by linarith⟩

/-- Only the sums of k point and plane wave enter. -/
private theorem table_move (L : NcLib) (P : NcLists) {N M m : ℕ} {n : Fin 3 → ℕ} (pos : Fin m → Fin 3 → ℝ)
    (vol : ℝ) (g r : Idx n → Fin 3 → ℝ) (V : Idx n → ℝ) (w : Fin N → Idx n) (w' : Fin M → Idx n) (R : ℝ)
    (κ κ' : Fin 3 → ℝ) {ι : Fin M → Fin N} (hι : Function.Injective ι)
    (h : ∀ i e, κ e + g (w (ι i)) e = κ' e + g (w' i) e) :
    (Spec.planeWaveHamiltonian (fun x => g (w x)) r V κ + tableMatrix L P pos vol g w R κ).submatrix ι ι
      = Spec.planeWaveHamiltonian (fun x => g (w' x)) r V κ' + tableMatrix L P pos vol g w' R κ' := by
  have h' : ∀ i, (fun e => κ e + g (w (ι i)) e) = fun e => κ' e + g (w' i) e := fun i => funext (h i)
  ext x y
  rw [Matrix.submatrix_apply, Matrix.add_apply, Matrix.add_apply]
  refine congrArg₂ (· + ·) ?_ ?_
  · simp only [Spec.planeWaveHamiltonian, hι.eq_iff]
    have e1 : (fun e => g (w (ι x)) e + κ e) = fun e => g (w' x) e + κ' e := funext fun e => by linarith [h x e]
    have e2 : (fun e => g (w (ι x)) e - g (w (ι y)) e) = fun e => g (w' x) e - g (w' y) e :=
      funext fun e => by linarith [h x e, h y e]
    rw [e1, e2]
  · have hp : ∀ (a : Fin m) (i : Fin M) (j : Fin (P.betaGrid.getD a []).length) (μ : ℕ),
        tableProj L P g w a (pos a) (ι i) j μ R κ = tableProj L P g w' a (pos a) i j μ R κ' := by
      intro a i j μ
      unfold tableProj tableSpecies
      simp only [h']
      have e3 : ∀ e, κ e + g (w (ι i)) e = κ' e + g (w' i) e := h i
      simp only [e3]
    have q1 : tableMatrix L P pos vol g w R κ (ι x) (ι y) = ∑ a : Fin m, (∑ i, ∑ j,
        (((Matrix.diagonal fun j => |L.eigh.vals (symmetrize (Matrix.of fun i j : Fin (P.betaGrid.getD a []).length =>
          ((((P.dMatrix.getD a []).getD i []).getD j 0 : ℚ) : ℝ))) j|) i j : ℝ) : ℂ) * ∑ μ : Fin (2 * (Finset.univ.sup fun a : Fin m =>
            Finset.univ.sup fun i : Fin (P.betaGrid.getD a []).length => ((P.angular.getD a []).getD i 0).toNat) + 1),
        conj (tableProj L P g w a (pos a) (ι x) i μ R κ) * tableProj L P g w a (pos a) (ι y) j μ R κ) / (vol : ℂ) := rfl
    rw [q1]
    simp only [hp]
    rfl

private theorem table_larger (L : NcLib) (P : NcLists) {N M m : ℕ} {n : Fin 3 → ℕ} (pos : Fin m → Fin 3 → ℝ)
    (vol : ℝ) (g r : Idx n → Fin 3 → ℝ) (hg : Function.Injective g) (V : Idx n → ℝ) (w : Fin N → Idx n)
    (w' : Fin M → Idx n) (hw' : Function.Injective w') (R : ℝ) (κ κ' : Fin 3 → ℝ)
    (h : ∀ i, ∃ l, ∀ e, κ e + g (w l) e = κ' e + g (w' i) e) {lam : Fin N → ℝ} {mu : Fin M → ℝ}
    (hl : Spec.IsSpectrum (Spec.planeWaveHamiltonian (fun x => g (w x)) r V κ + tableMatrix L P pos vol g w R κ) lam)
    (hm : Spec.IsSpectrum (Spec.planeWaveHamiltonian (fun x => g (w' x)) r V κ' + tableMatrix L P pos vol g w' R κ') mu) :
    ∃ hle : M ≤ N, ∀ j, lam (Fin.castLE hle j) ≤ mu j := by
  choose ι hι using h
  have hinj : Function.Injective ι := by
    intro i i' e
    refine hw' (hg (funext fun d => ?_))
    have h1 := hι i d
    rw [e, hι i' d] at h1
    linarith
  have hle : M ≤ N := by simpa using Fintype.card_le_of_injective ι hinj
  refine ⟨hle, fun j => spectrum_submatrix hl hinj ?_ hle j⟩
  rw [table_move L P pos vol g r V w w' R κ κ' hinj hι]
  exact hm

/-- C110 with pseudopotentials (part): the k points number `q` and `q'` of a spin-restricted band calculation have
coordinates that differ by the integers `t`.  Then the energies saved for both are at least the eigenvalues, at the
first point and with the nonlocal part of the code, for every set `w` of grid vectors that contains the selected plane
waves and the selected ones moved by `t`; and they are, up to the accuracy of the optimiser, at most the eigenvalues for
every set `w` of selected plane waves that remain selected when moved back by `t`.  Missing: equality, see
`bandRun_equivalent_false`; sets of plane waves that leave the grid. -/
theorem bandRunNC_equivalent_partial (L : NcLib) (T : BandTools) (cfg : NcConfig) (b : BandConfig) {m : ℕ}
    (a : AseAtoms m) (size ksize : Fin 3 → ℤ) (P : NcLists) (ne spin : ℤ) {num : ℕ} {frac : Matrix (Fin num) (Fin 3) ℝ}
    (H : Spec.AdmissibleBandNC L T cfg b a size ksize P ne spin num frac) (hr : cfg.restricted = true)
    (hC : Spec.Triangular L.qrC) (δ : ℝ) (hopt : ∀ opt, T.optimizer = .ok opt → Spec.NearBandOptimizer δ opt)
    (he : 0 < b.epoch) (hf : 0 < b.fineEpoch)
    (A : Matrix (Fin 3) (Fin 3) ℝ) (hA : A = (angstrom2bohr : ℝ) • a.cell)
    (pos : Fin m → Fin 3 → ℝ) (hpos : ∀ i d, pos i d = angstrom2bohr * a.positions i d)
    (k : Fin num → Fin 3 → ℝ) (hk : Spec.HasCoordinates A frac k)
    (q q' : Fin num) (t : Fin 3 → ℤ) (ht : ∀ l, frac q' l = frac q l + t l) :
    ∃ n rep, ∃ mask : Idx n → Bool, ∃ vloc bs dens file values,
      runAtomsNC L cfg a = .ok ⟨n, rep⟩ ∧ rep.density = ⟨1, dens⟩ ∧
      Spec.LeastGrid size n ∧ createFreqMask cfg.toRunConfig A n = .ok mask ∧
      localReciprocal L.jn L.csLoc (ncLocalAtom P pos) (gVectors A n) |A.det| "sbt" = .ok vloc ∧
      ncBetas L P (gVectors A n) k = .ok bs ∧
      bandAtomsNC L T cfg b false a = .ok ⟨file, num, (ne.toNat + 1) / 2 + b.emptyBands, values⟩ ∧
      ∀ V : Fin 1 → Idx n → ℝ, Spec.KohnShamPotentialNC L.xc cfg.xc vloc (gVectors A n) dens V →
      ∀ (M : ℕ) (w : Fin M → Idx n) lam,
        Spec.IsSpectrum (Spec.planeWaveHamiltonian (fun x => gVectors A n (w x)) (rVectors A n) (V 0) (k q)
          + Spec.nonlocalMatrix (sphericalRow L.sph) (fun a : Fin m => ncSpecies P bs a)
            (fun a => Matrix.diagonal fun j => |L.eigh.vals (symmetrize (ncSpecies P bs a).dmat) j|) (-pos) |A.det|
            (2 * nlLMax (fun a : Fin m => ncSpecies P bs a) + 1) (gVectors A n) w k q) lam →
        ((∀ x, mask x = true → (∃ l, w l = x) ∧ ∃ l, ∀ i, sfreq (n i) (w l i) = sfreq (n i) (x i) + t i) →
          ∀ j : Fin ((ne.toNat + 1) / 2 + b.emptyBands), ∃ hj : (j : ℕ) < M,
            lam ⟨j, hj⟩ ≤ values q j ∧ lam ⟨j, hj⟩ ≤ values q' j) ∧
        (Function.Injective w →
          (∀ l, mask (w l) = true ∧ ∃ x, mask x = true ∧ ∀ i, sfreq (n i) (w l i) = sfreq (n i) (x i) + t i) →
          ∀ (j : Fin ((ne.toNat + 1) / 2 + b.emptyBands)) (hj : (j : ℕ) < M),
            values q j ≤ lam ⟨j, hj⟩ + δ ∧ values q' j ≤ lam ⟨j, hj⟩ + δ) := by
  obtain ⟨n, rep, mask, vloc, bs, dens, values, h1, h2, h3, h4, h7, h8, h5, hb, h6⟩ := bandRunNC_near_partial L T cfg b a
    size ksize P ne spin H hr hC δ hopt he hf A hA pos hpos k hk
  have hdet : A.det ≠ 0 := by
    rw [hA]
    exact fromAse_det a cfg.spin H.cell
  refine ⟨n, rep, mask, vloc, bs, dens, _, values, h1, h2, h3, h4, h7, h8, h5, fun V hV M w lam hl => ?_⟩
  have hinjm : Function.Injective (maskPos mask) := by
    intro i i' e
    rcases lt_trichotomy i i' with hlt | rfl | hlt
    · exact absurd (maskPos_lt mask _ _ hlt) (by rw [e]; exact lt_irrefl _)
    · rfl
    · exact absurd (maskPos_lt mask _ _ hlt) (by rw [e]; exact lt_irrefl _)
  have hg := gVectors_injective A hdet n
  obtain ⟨R, hR⟩ : ∃ R, IsGreatest (Set.range fun p : Fin num × Idx n => Spec.length fun d =>
      k p.1 d + gVectors A n p.2 d) R := by
    have : Nonempty (Fin num) := ⟨q⟩
    have : Nonempty (Idx n) := ⟨fun i => ⟨0, smooth_pos (h3 i).1⟩⟩
    obtain ⟨p, hp⟩ := Finite.exists_max fun p : Fin num × Idx n => Spec.length fun d => k p.1 d + gVectors A n p.2 d
    exact ⟨_, ⟨p, rfl⟩, fun _ ⟨p', h⟩ => h ▸ hp p'⟩
  have hsp : ∀ p, ∃ mu, Spec.IsSpectrum (Spec.planeWaveHamiltonian (fun x => gVectors A n (maskPos mask x))
      (rVectors A n) (V 0) (k p) + tableMatrix L P (-pos) |A.det| (gVectors A n) (maskPos mask) R (k p)) mu ∧
      ∀ j, mu (Fin.castLE hb j) ≤ values p j ∧ values p j ≤ mu (Fin.castLE hb j) + δ := by
    intro p
    obtain ⟨mu, hmu⟩ : ∃ mu, Spec.IsSpectrum (Spec.planeWaveHamiltonian (fun x => gVectors A n (maskPos mask x))
        (rVectors A n) (V 0) (k p) + Spec.nonlocalMatrix (sphericalRow L.sph) (fun a : Fin m => ncSpecies P bs a)
          (fun a => Matrix.diagonal fun j => |L.eigh.vals (symmetrize (ncSpecies P bs a).dmat) j|) (-pos) |A.det|
          (2 * nlLMax (fun a : Fin m => ncSpecies P bs a) + 1) (gVectors A n) (maskPos mask) k p) mu := by
      refine exists_spectrum ((planeWaveHamiltonian_hermitian _ _ _ _).add ?_)
      rw [← nonlocalMatrix_actual]
      exact projectorMatrix_hermitian _ _
    refine ⟨mu, ?_, h6 V hV p mu hmu⟩
    rwa [nonlocal_table L cfg _ P H.loaded _ _ _ _ k p h8 hR] at hmu
  rw [nonlocal_table L cfg _ P H.loaded _ _ _ _ k q h8 hR] at hl
  obtain ⟨mu, hmu, hv⟩ := hsp q
  obtain ⟨mu', hmu', hv'⟩ := hsp q'
  have e1 : ∀ {x y : Idx n}, (∀ i, sfreq (n i) (y i) = sfreq (n i) (x i) + t i) →
      ∀ e, k q e + gVectors A n y e = k q' e + gVectors A n x e := by
    intro x y hx e
    refine congrFun (coordinates_unique (u := fun e => k q e + gVectors A n y e)
      (v := fun e => k q' e + gVectors A n x e) hdet fun l' => ?_) e
    simp only [add_mul, Finset.sum_add_distrib, gVectors_coordinates hdet, hx, hk q l', hk q' l', ht l']
    push_cast
    ring
  constructor
  · intro hsel j
    obtain ⟨hle, hlow⟩ := table_larger L P (-pos) |A.det| (gVectors A n) (rVectors A n) hg (V 0) w (maskPos mask) hinjm R
      (k q) (k q) (fun i => by
        obtain ⟨⟨l, hl⟩, -⟩ := hsel _ (maskPos_mask mask i)
        exact ⟨l, fun e => by rw [hl]⟩) hl hmu
    obtain ⟨_, hlow'⟩ := table_larger L P (-pos) |A.det| (gVectors A n) (rVectors A n) hg (V 0) w (maskPos mask) hinjm R
      (k q) (k q') (fun i => by
        obtain ⟨-, ⟨l, hl⟩⟩ := hsel _ (maskPos_mask mask i)
        exact ⟨l, e1 hl⟩) hl hmu'
    exact ⟨lt_of_lt_of_le j.2 (hb.trans hle), (hlow (Fin.castLE hb j)).trans (hv j).1,
      (hlow' (Fin.castLE hb j)).trans (hv' j).1⟩
  · intro hw hsel j hj
    obtain ⟨hle, hup⟩ := table_larger L P (-pos) |A.det| (gVectors A n) (rVectors A n) hg (V 0) (maskPos mask) w hw R
      (k q) (k q) (fun l => by
        obtain ⟨i, hi⟩ := exists_maskPos mask (hsel l).1
        exact ⟨i, fun e => by rw [hi]⟩) hmu hl
    obtain ⟨_, hup'⟩ := table_larger L P (-pos) |A.det| (gVectors A n) (rVectors A n) hg (V 0) (maskPos mask) w hw R
      (k q') (k q) (fun l => by
        obtain ⟨-, x, hx, hl⟩ := hsel l
        obtain ⟨i, rfl⟩ := exists_maskPos mask hx
        exact ⟨i, fun e => (e1 hl e).symm⟩) hmu' hl
    exact ⟨(hv j).2.trans (add_le_add (hup ⟨j, hj⟩) le_rfl), (hv' j).2.trans (add_le_add (hup' ⟨j, hj⟩) le_rfl)⟩

/-- The hypotheses of `bandRunNC_equivalent_partial` hold for the pair of atoms and a path with equivalent points, and
there is a set of grid vectors as in its first part. -/
example {δ : ℝ} (hδ : 0 < δ) (eigh : Eigh) (jn : SphBessel) (csLoc csBeta : Spline) :
    ∃ file, ∃ values : Fin 16 → Fin 3 → ℝ,
      bandAtomsNC (pairLib 1 eigh jn csLoc csBeta)
        { lithiumTools δ with bandpath := fun _ _ _ => .ok ⟨16, fun i l => if l = 0 then (i : ℝ) else 0⟩ } pairConfig
        lithiumBands false pairAtoms = .ok ⟨file, 16, 3, values⟩ ∧
      ∃ n, ∃ mask : Idx n → Bool, ∃ (M : ℕ) (w : Fin M → Idx n) (lam : Fin M → ℝ),
        (∀ x, mask x = true → (∃ l, w l = x) ∧ ∃ l, ∀ i, sfreq (n i) (w l i) = sfreq (n i) (x i) + if i = 0 then 1 else 0) ∧
        ∀ j : Fin 3, ∃ hj : (j : ℕ) < M, lam ⟨j, hj⟩ ≤ values 0 j ∧ lam ⟨j, hj⟩ ≤ values 1 j := by
  obtain ⟨P, frac, -, H, -, hr, hC, -, -, -, -, -, hopt, -⟩ := pair_band (one_pos : (0 : ℝ) < 1) hδ eigh jn csLoc csBeta
  obtain ⟨k, hk⟩ := coordinates_exist (A := (angstrom2bohr : ℝ) • pairAtoms.cell)
    (fromAse_det pairAtoms none (by simp [pairAtoms])) (fun (i : Fin 16) l => if l = 0 then (i : ℝ) else 0)
  obtain ⟨n, rep, mask, vloc, bs, dens, file, values, -, -, hn, hmask, -, -, h5, h6⟩ := bandRunNC_equivalent_partial
    (pairLib 1 eigh jn csLoc csBeta)
    { lithiumTools δ with bandpath := fun _ _ _ => .ok ⟨16, fun i l => if l = 0 then (i : ℝ) else 0⟩ } pairConfig
    lithiumBands pairAtoms _ _ P 4 0 { H with path := rfl } hr hC δ hopt (by decide) (by decide) _ rfl _ (fun _ _ => rfl)
    k hk 0 1 (fun i => if i = 0 then 1 else 0) fun l => by split <;> simp
  refine ⟨file, values, h5, n, mask, ?_⟩
  obtain rfl : n = fun _ => 4 := funext fun i => RunSetup.least_eq (k := 4) (hn i) RunSetup.smooth4
  obtain rfl : cubicMask _ = mask := Except.ok.inj hmask
  let w : Fin (Fintype.card (Idx fun _ => 4)) → Idx fun _ => 4 := (Fintype.equivFin _).symm
  obtain ⟨lam, hl⟩ := exists_spectrum (H := Spec.planeWaveHamiltonian (fun x => gVectors ((angstrom2bohr : ℝ) • pairAtoms.cell)
      (fun _ => 4) (w x)) (rVectors ((angstrom2bohr : ℝ) • pairAtoms.cell) fun _ => 4)
      (fun x => (ifftn vloc x + hartreeRealSpace dens (gVectors ((angstrom2bohr : ℝ) • pairAtoms.cell) fun _ => 4) true x
        + vxcDensity diracLib pairConfig.xc (gVectors ((angstrom2bohr : ℝ) • pairAtoms.cell) fun _ => 4) dens 0 x).re) (k 0)
      + Spec.nonlocalMatrix (sphericalRow (pairLib 1 eigh jn csLoc csBeta).sph) (fun a : Fin 2 => ncSpecies P bs a)
        (fun a => Matrix.diagonal fun j => |(pairLib 1 eigh jn csLoc csBeta).eigh.vals (symmetrize (ncSpecies P bs a).dmat) j|)
        (-fun i d => (angstrom2bohr : ℝ) * pairAtoms.positions i d) |((angstrom2bohr : ℝ) • pairAtoms.cell).det|
        (2 * nlLMax (fun a : Fin 2 => ncSpecies P bs a) + 1) (gVectors ((angstrom2bohr : ℝ) • pairAtoms.cell) fun _ => 4) w k 0)
    ((planeWaveHamiltonian_hermitian _ _ _ _).add (by
      rw [← nonlocalMatrix_actual]
      exact projectorMatrix_hermitian _ _))
  have hsel : ∀ x : Idx fun _ => 4, cubicMask _ x = true → (∃ l, w l = x) ∧
      ∃ l, ∀ i, sfreq 4 (w l i) = sfreq 4 (x i) + if i = 0 then 1 else 0 := by
    intro x hx
    refine ⟨⟨Fintype.equivFin _ x, Equiv.symm_apply_apply _ _⟩, ?_⟩
    have : ∀ x : Idx fun _ => 4, cubicMask _ x = true → ∃ y : Idx fun _ => 4, ∀ i, sfreq 4 (y i)
        = sfreq 4 (x i) + if i = 0 then 1 else 0 := by decide +kernel
    obtain ⟨y, hy⟩ := this x hx
    exact ⟨Fintype.equivFin _ y, by rw [show w (Fintype.equivFin _ y) = y from Equiv.symm_apply_apply _ _]; exact hy⟩
  exact ⟨_, w, lam, hsel, (h6 (fun σ x => (ifftn vloc x + hartreeRealSpace dens (gVectors
    ((angstrom2bohr : ℝ) • pairAtoms.cell) fun _ => 4) true x + vxcDensity diracLib pairConfig.xc
    (gVectors ((angstrom2bohr : ℝ) • pairAtoms.cell) fun _ => 4) dens σ x).re) (fun _ _ => rfl) _ w lam hl).1 hsel⟩

private theorem length_triangle (u v : Fin 3 → ℝ) : Spec.length (fun d => u d + v d) ≤ Spec.length u + Spec.length v := by
  have e : ∀ w : Fin 3 → ℝ, Spec.length w = ‖WithLp.toLp 2 w‖ := fun w => by
    rw [EuclideanSpace.norm_eq]
    simp [Spec.length]
  rw [e, e, e]
  exact norm_add_le (WithLp.toLp 2 u) (WithLp.toLp 2 v)

/-- The path of the pair of atoms, moved by the fraction `s` of the first reciprocal vector. -/
noncomputable def movedPath (s : ℝ) : Matrix (Fin 16) (Fin 3) ℝ := fun i l => if l = 0 then (i : ℝ) / 32 + s else 0

/-- The hypotheses of `bandRunNC_continuous_partial` hold for the pair of atoms and two paths of which the second is
moved by a small fraction of a reciprocal vector: the energies saved for the ninth points are near. -/
example {δ : ℝ} (hδ : 0 < δ) (eigh : Eigh) :
    ∃ η, 0 < η ∧ ∀ s, |s| < η →
      ∃ file, ∃ values : Fin 16 → Fin 3 → ℝ, ∃ file', ∃ values' : Fin 16 → Fin 3 → ℝ,
        bandAtomsNC (pairLib 1 eigh (fun _ => Real.sinc) lagrangeSpline lagrangeSpline)
          { lithiumTools δ with bandpath := fun _ _ _ => .ok ⟨16, movedPath 0⟩ } pairConfig lithiumBands false pairAtoms
          = .ok ⟨file, 16, 3, values⟩ ∧
        bandAtomsNC (pairLib 1 eigh (fun _ => Real.sinc) lagrangeSpline lagrangeSpline)
          { lithiumTools δ with bandpath := fun _ _ _ => .ok ⟨16, movedPath s⟩ } pairConfig lithiumBands false pairAtoms
          = .ok ⟨file', 16, 3, values'⟩ ∧
        ∀ j, |values 8 j - values' 8 j| ≤ δ + δ := by
  obtain ⟨P, frac, k₁, H, -, hr, hC, -, -, -, -, -, hopt, -⟩ := pair_band (one_pos : (0 : ℝ) < 1) hδ eigh
    (fun _ => Real.sinc) lagrangeSpline lagrangeSpline
  have hL : Spec.ContinuousPseudo (pairLib 1 eigh (fun _ => Real.sinc) lagrangeSpline lagrangeSpline) :=
    { silicon_continuous diracLib eigh with }
  obtain ⟨n, kn, -, mask, -, -, -, hn, -, hmask, -⟩ := ncRun_complete_partial _ _ _ _ _ _ _ _ H.toAdmissibleRunNC _ rfl _
    (fun _ _ => rfl) _ fun _ => rfl
  have hb : (0 : ℝ) < angstrom2bohr := by norm_num [angstrom2bohr]
  have hb2 : (angstrom2bohr : ℝ) < 2 := by norm_num [angstrom2bohr]
  let A : Matrix (Fin 3) (Fin 3) ℝ := (angstrom2bohr : ℝ) • pairAtoms.cell
  let k : ℝ → Fin 16 → Fin 3 → ℝ := fun s i l => if l = 0 then 2 * Real.pi * ((i : ℝ) / 32 + s) / angstrom2bohr else 0
  have hk : ∀ s, Spec.HasCoordinates A (movedPath s) (k s) := by
    intro s i l
    fin_cases l <;> simp [A, k, movedPath, pairAtoms, Fin.sum_univ_three, Matrix.one_apply]
    field_simp
  have hdet : A.det ≠ 0 := fromAse_det pairAtoms none (by simp [pairAtoms])
  have hcomp : ∀ x : Idx n, 0.0001 < |k 0 8 0 + gVectors A n x 0| := by
    intro x
    have h1 := gVectors_coordinates hdet n x 0
    have h2 : gVectors A n x 0 * angstrom2bohr = 2 * Real.pi * (sfreq (n 0) (x 0) : ℝ) := by
      rw [← h1]
      simp [A, pairAtoms, Fin.sum_univ_three, Matrix.one_apply]
    have h3 : k 0 8 0 + gVectors A n x 0 = Real.pi / (2 * angstrom2bohr) * ((1 + 4 * sfreq (n 0) (x 0) : ℤ) : ℝ) := by
      have : gVectors A n x 0 = 2 * Real.pi * (sfreq (n 0) (x 0) : ℝ) / angstrom2bohr := by
        rw [eq_div_iff hb.ne', h2]
      rw [this]
      simp only [k, if_true]
      push_cast
      field_simp
      norm_num
      ring
    rw [h3, abs_mul, abs_of_pos (by positivity)]
    have h4 : (1 : ℝ) ≤ |((1 + 4 * sfreq (n 0) (x 0) : ℤ) : ℝ)| := by
      rw [← Int.cast_abs]
      exact_mod_cast Int.one_le_abs (by omega)
    have h5 : (1 / 2 : ℝ) < Real.pi / (2 * angstrom2bohr) := by
      rw [lt_div_iff₀ (by positivity)]
      linarith [Real.two_le_pi]
    nlinarith
  have : Nonempty (Idx n) := ⟨fun i => ⟨0, by
    have : (4 : ℤ) ≤ n i := (hn i).2.1
    omega⟩⟩
  have hmax : ∀ s, ∃ R, IsGreatest (Set.range fun p : Fin 16 × Idx n => Spec.length fun d => k s p.1 d + gVectors A n p.2 d) R := by
    intro s
    obtain ⟨p, hp⟩ := Finite.exists_max fun p : Fin 16 × Idx n => Spec.length fun d => k s p.1 d + gVectors A n p.2 d
    exact ⟨_, ⟨p, rfl⟩, fun _ ⟨p', h⟩ => h ▸ hp p'⟩
  obtain ⟨R₀, hR₀⟩ := hmax 0
  have hbig : 0.0001 < R₀ := by
    obtain ⟨x⟩ := ‹Nonempty (Idx n)›
    refine lt_of_lt_of_le ((hcomp x).trans_le ?_) (hR₀.2 ⟨(8, x), rfl⟩)
    unfold Spec.length
    exact Real.abs_le_sqrt (Finset.single_le_sum (f := fun d => (k 0 8 d + gVectors A n x d) ^ 2)
      (fun d _ => sq_nonneg _) (Finset.mem_univ 0))
  obtain ⟨η, hη, h⟩ := bandRunNC_continuous_partial _ hL _ _ _ _ P 4 0 hr hC A rfl hn mask hmask R₀ hbig (k 0 8)
    (fun x _ h0 => by
      have := congrFun h0 0
      have h1 := hcomp x
      simp only [Pi.zero_apply] at this
      rw [this, abs_zero] at h1
      norm_num at h1) δ hδ
  have hdiff : ∀ s s' i d, k s' i d = k s i d + if d = 0 then 2 * Real.pi * (s' - s) / angstrom2bohr else 0 := by
    intro s s' i d
    simp only [k]
    split
    · ring
    · ring
  have hshift : ∀ s s' : ℝ, Spec.length (fun d : Fin 3 => if d = 0 then 2 * Real.pi * (s' - s) / angstrom2bohr else 0)
      = 2 * Real.pi / angstrom2bohr * |s' - s| := by
    intro s s'
    unfold Spec.length
    rw [Fin.sum_univ_three]
    simp only [if_true, show (1 : Fin 3) ≠ 0 by decide, show (2 : Fin 3) ≠ 0 by decide, if_false]
    rw [show (2 * Real.pi * (s' - s) / angstrom2bohr) ^ 2 + 0 ^ 2 + 0 ^ 2
      = (2 * Real.pi / angstrom2bohr * (s' - s)) ^ 2 by ring, Real.sqrt_sq_eq_abs, abs_mul, abs_of_pos (by positivity)]
  have hle : ∀ s s' R R', IsGreatest (Set.range fun p : Fin 16 × Idx n => Spec.length fun d =>
      k s p.1 d + gVectors A n p.2 d) R → IsGreatest (Set.range fun p : Fin 16 × Idx n => Spec.length fun d =>
      k s' p.1 d + gVectors A n p.2 d) R' → R' ≤ R + 2 * Real.pi / angstrom2bohr * |s' - s| := by
    intro s s' R R' h1 h2
    obtain ⟨p, hp⟩ := h2.1
    rw [← hp, ← hshift]
    have e : (fun d => k s' p.1 d + gVectors A n p.2 d) = fun d => (k s p.1 d + gVectors A n p.2 d)
        + if d = 0 then 2 * Real.pi * (s' - s) / angstrom2bohr else 0 := funext fun d => by rw [hdiff s s']; ring
    beta_reduce
    rw [e]
    exact (length_triangle _ _).trans (by gcongr; exact h1.2 ⟨p, rfl⟩)
  refine ⟨η / (2 * Real.pi / angstrom2bohr), by positivity, fun s hs => ?_⟩
  rw [lt_div_iff₀ (by positivity), mul_comm] at hs
  obtain ⟨R', hR'⟩ := hmax s
  have b1 := hle 0 s _ _ hR₀ hR'
  have b2 := hle s 0 _ _ hR' hR₀
  rw [sub_zero] at b1
  rw [zero_sub, abs_neg] at b2
  obtain ⟨file, values, file', values', h1, h2, h3⟩ := h
    { lithiumTools δ with bandpath := fun _ _ _ => .ok ⟨16, movedPath 0⟩ }
    { lithiumTools δ with bandpath := fun _ _ _ => .ok ⟨16, movedPath s⟩ } lithiumBands lithiumBands
    { H with path := rfl } { H with path := rfl } δ δ hopt hopt (by decide) (by decide) (by decide) (by decide) (k 0) (k s)
    (hk 0) (hk s) R₀ R' hR₀ hR' (by simpa using hη) (abs_lt.2 ⟨by linarith, by linarith⟩)
  refine ⟨file, values, file', values', h1, h2, fun j => ?_⟩
  have h4 := h3 8 8 j j rfl (fun d => by simpa using hη) fun d => by
    rw [hdiff 0 s, add_sub_cancel_left]
    split
    · rw [sub_zero, mul_div_right_comm, abs_mul, abs_of_pos (by positivity)]
      exact hs
    · simpa using hη
  rwa [max_self] at h4

end Jrystal
