import Verif.Lemmas.ProjDeriv
import Verif.Lemmas.Occupation
import Verif.Lemmas.Reach2
import Mathlib.Analysis.Calculus.Rademacher
import Mathlib.MeasureTheory.Measure.Haar.OfBasis
import Mathlib.MeasureTheory.Measure.Lebesgue.Basic
import Mathlib.Analysis.Calculus.MeanValue
import Mathlib.Analysis.SpecialFunctions.Log.Deriv
import Mathlib.Analysis.SpecialFunctions.ExpDeriv

/- C121: the gradient that drives the occupations. -/
namespace Jrystal
open scoped BigOperators Topology
open Filter MeasureTheory

variable {n : ℕ}

/-- The projector never moves two vectors further apart. -/
theorem proj_nonexpansive {s : ℝ} (h0 : 0 < s) (hn : s < n) (x y : Fin n → ℝ) (hx : ∀ i, 0 ≤ x i ∧ x i ≤ 1)
    (hy : ∀ i, 0 ≤ y i ∧ y i ≤ 1) : Spec.dist2 (proj x s) (proj y s) ≤ Spec.dist2 x y := by
  obtain ⟨a, ha, hsa⟩ := proj_clip h0 hn x hx
  obtain ⟨b, hb, hsb⟩ := proj_clip h0 hn y hy
  rw [ha, hb]
  unfold Spec.dist2
  set p : Fin n → ℝ := fun i => clip01 (x i - a)
  set q : Fin n → ℝ := fun i => clip01 (y i - b)
  have hpt : ∀ i, (p i - q i) ^ 2 ≤ (p i - q i) * ((x i - a) - (y i - b)) := by
    intro i
    rcases le_total (x i - a) (y i - b) with h | h
    · have h1 : p i ≤ q i := clip01_mono h
      have h2 : q i - p i ≤ (y i - b) - (x i - a) := clip01_diff h
      nlinarith
    · have h1 : q i ≤ p i := clip01_mono h
      have h2 : p i - q i ≤ (x i - a) - (y i - b) := clip01_diff h
      nlinarith
  have hsum : ∑ i, (p i - q i) * ((x i - a) - (y i - b)) = ∑ i, (p i - q i) * (x i - y i) := by
    have : ∑ i, (p i - q i) * ((x i - a) - (y i - b))
        = ∑ i, (p i - q i) * (x i - y i) - (a - b) * (∑ i, p i - ∑ i, q i) := by
      rw [← Finset.sum_sub_distrib, Finset.mul_sum, ← Finset.sum_sub_distrib]
      exact Finset.sum_congr rfl fun i _ => by ring
    rw [this, hsa, hsb, sub_self, mul_zero, sub_zero]
  have h1 : ∑ i, (p i - q i) ^ 2 ≤ ∑ i, (p i - q i) * (x i - y i) := by
    rw [← hsum]
    exact Finset.sum_le_sum fun i _ => hpt i
  have h2 : ∀ i, 2 * ((p i - q i) * (x i - y i)) ≤ (p i - q i) ^ 2 + (x i - y i) ^ 2 := fun i => by
    nlinarith [sq_nonneg ((p i - q i) - (x i - y i))]
  have h3 : 2 * ∑ i, (p i - q i) * (x i - y i) ≤ ∑ i, (p i - q i) ^ 2 + ∑ i, (x i - y i) ^ 2 := by
    rw [Finset.mul_sum, ← Finset.sum_add_distrib]
    exact Finset.sum_le_sum fun i _ => h2 i
  linarith

/-- Wherever the projector has a derivative, automatic differentiation computes it. -/
theorem projJvp_derivative_partial {s : ℝ} (h0 : 0 < s) (hn : s < n) (x : Fin n → ℝ)
    (hx : ∀ i, 0 < x i ∧ x i < 1) (hd : DifferentiableAt ℝ (fun x : Fin n → ℝ => proj x s) x) (v : Fin n → ℝ) :
    fderiv ℝ (fun x : Fin n → ℝ => proj x s) x v = projJvp x v s := by
  obtain ⟨lam, -, hsum, hj⟩ := proj_closed s h0 hn x hx
  have hk := fun i => proj_no_kink h0 hn hx hsum hd i
  rw [(proj_hasFDerivAt h0 hn hx hsum hk).fderiv]
  funext i
  rw [activeMap_apply, hj]
  simp only [Finset.mem_filter, Finset.mem_univ, true_and]
  refine if_congr Iff.rfl rfl ?_
  rw [if_neg (fun h => h.elim (hk i).1 (hk i).2)]

/-- The gradient of the projector leaves the number of electrons unchanged wherever it is the derivative. -/
theorem projJvp_total_partial {s : ℝ} (h0 : 0 < s) (hn : s < n) (x : Fin n → ℝ)
    (hx : ∀ i, 0 < x i ∧ x i < 1) (hd : DifferentiableAt ℝ (fun x : Fin n → ℝ => proj x s) x) (v : Fin n → ℝ) :
    ∑ i, projJvp x v s i = 0 := by
  obtain ⟨lam, -, hsum, hj⟩ := proj_closed s h0 hn x hx
  have hk := fun i => proj_no_kink h0 hn hx hsum hd i
  rw [← projJvp_derivative_partial h0 hn x hx hd v, (proj_hasFDerivAt h0 hn hx hsum hk).fderiv]
  exact activeMap_sum _ v

private theorem proj_entry_lip {s : ℝ} (h0 : 0 < s) (hn : s < n) (x y : Fin n → ℝ) (hx : ∀ i, 0 ≤ x i ∧ x i ≤ 1)
    (hy : ∀ i, 0 ≤ y i ∧ y i ≤ 1) {D : ℝ} (hD : ∀ i, |x i - y i| ≤ D) (hD0 : 0 ≤ D) (i : Fin n) :
    |proj x s i - proj y s i| ≤ n * D := by
  have h := proj_nonexpansive h0 hn x y hx hy
  unfold Spec.dist2 at h
  have h1 : (proj x s i - proj y s i) ^ 2 ≤ ∑ i, (proj x s i - proj y s i) ^ 2 :=
    Finset.single_le_sum (f := fun i => (proj x s i - proj y s i) ^ 2) (fun _ _ => sq_nonneg _) (Finset.mem_univ i)
  have h2 : ∑ i, (x i - y i) ^ 2 ≤ ∑ _i : Fin n, D ^ 2 := by
    refine Finset.sum_le_sum fun j _ => ?_
    rw [← sq_abs]
    exact pow_le_pow_left₀ (abs_nonneg _) (hD j) 2
  rw [Finset.sum_const, Finset.card_univ, Fintype.card_fin, nsmul_eq_mul] at h2
  have hn1 : (1 : ℝ) ≤ n := by exact_mod_cast pos_of_target h0 hn
  refine abs_le_of_sq_le_sq ?_ (by positivity)
  calc (proj x s i - proj y s i) ^ 2 ≤ (n : ℝ) * D ^ 2 := by linarith
    _ ≤ ((n : ℝ) * D) ^ 2 := by
      nlinarith [mul_nonneg (sq_nonneg D) (mul_nonneg (by linarith : (0 : ℝ) ≤ n) (by linarith : (0 : ℝ) ≤ n - 1))]

/-- Automatic differentiation of the projector is right at almost every input. -/
theorem projJvp_derivative_ae {s : ℝ} (h0 : 0 < s) (hn : s < n) :
    ∀ᵐ x : Fin n → ℝ, (∀ i, 0 < x i ∧ x i < 1) →
      ∃ L : (Fin n → ℝ) →L[ℝ] (Fin n → ℝ), HasFDerivAt (fun x : Fin n → ℝ => proj x s) L x ∧ ∀ v, L v = projJvp x v s := by
  set U : Set (Fin n → ℝ) := {x | ∀ i, 0 < x i ∧ x i < 1} with hU
  have hopen : IsOpen U := by
    rw [hU, Set.setOf_forall]
    exact isOpen_iInter_of_finite fun i =>
      (isOpen_lt continuous_const (continuous_apply i)).inter (isOpen_lt (continuous_apply i) continuous_const)
  have hlip : LipschitzOnWith (n : NNReal) (fun x : Fin n → ℝ => proj x s) U := by
    refine LipschitzOnWith.of_dist_le_mul fun x hx y hy => ?_
    refine (dist_pi_le_iff (by positivity)).2 fun i => ?_
    rw [Real.dist_eq]
    exact proj_entry_lip h0 hn x y (fun i => ⟨(hx i).1.le, (hx i).2.le⟩) (fun i => ⟨(hy i).1.le, (hy i).2.le⟩)
      (fun i => by rw [← Real.dist_eq]; exact dist_le_pi_dist x y i) dist_nonneg i
  filter_upwards [hlip.ae_differentiableWithinAt_of_mem (μ := MeasureTheory.volume)] with x hx hxU
  have hd : DifferentiableAt ℝ (fun x : Fin n → ℝ => proj x s) x :=
    (hx hxU).differentiableAt (hopen.mem_nhds hxU)
  exact ⟨_, hd.hasFDerivAt, projJvp_derivative_partial h0 hn x hxU hd⟩


/-- Derivative of the sigmoid. -/
private theorem sigmoid_deriv (t : ℝ) : HasDerivAt sigmoid (sigmoid t * (1 - sigmoid t)) t := by
  have he := Real.exp_pos (-t)
  have h1 : HasDerivAt (fun t : ℝ => 1 + Real.exp (-t)) (-Real.exp (-t)) t := by
    have := ((hasDerivAt_neg t).exp).const_add 1
    simpa using this
  have h2 := h1.fun_inv (by positivity)
  have h3 : sigmoid = fun t : ℝ => (1 + Real.exp (-t))⁻¹ := by
    funext u
    unfold sigmoid
    rw [one_div]
  rw [h3]
  refine h2.congr_deriv ?_
  have : (1 + Real.exp (-t)) ≠ 0 := by positivity
  field_simp
  ring

private theorem logit_sigmoid (t : ℝ) : logit (sigmoid t) = t :=
  sigmoid_injective (sigmoid_logit (sigmoid_bounds t).1 (sigmoid_bounds t).2)

private theorem sigmoid_lip (a b : ℝ) : |sigmoid a - sigmoid b| ≤ |a - b| := by
  have h : LipschitzWith 1 sigmoid := by
    refine lipschitzWith_of_nnnorm_deriv_le (fun t => (sigmoid_deriv t).differentiableAt) fun t => ?_
    rw [(sigmoid_deriv t).deriv, ← NNReal.coe_le_coe, coe_nnnorm, Real.norm_eq_abs]
    obtain ⟨h1, h2⟩ := sigmoid_bounds t
    rw [abs_of_nonneg (mul_nonneg h1.le (by linarith))]
    push_cast
    nlinarith
  have := h.dist_le_mul a b
  rw [Real.dist_eq, Real.dist_eq] at this
  simpa using this

variable {nk nb : ℕ}

/-- One spin channel of the occupations. -/
noncomputable def occChan (nk nb : ℕ) (m : ℝ) (p : Fin nk → Fin nb → ℝ) : Fin nk → Fin nb → ℝ :=
  unravel fun i => proj (ravel fun k b => sigmoid (p k b)) m i / (nk : ℝ)

/-- The derivative of the entrywise sigmoid. -/
noncomputable def sigMap (p : Fin nk → Fin nb → ℝ) :
    (Fin nk → Fin nb → ℝ) →L[ℝ] (Fin (nk * nb) → ℝ) :=
  LinearMap.toContinuousLinearMap
    { toFun := fun d => ravel fun k b => sigmoidJvp (p k b) (d k b)
      map_add' := by intro v w; funext i; simp only [ravel, sigmoidJvp, Pi.add_apply]; ring
      map_smul' := by
        intro c v; funext i
        simp only [ravel, sigmoidJvp, Pi.smul_apply, smul_eq_mul, RingHom.id_apply]; ring }

theorem sig_hasFDerivAt (p : Fin nk → Fin nb → ℝ) :
    HasFDerivAt (fun p : Fin nk → Fin nb → ℝ => ravel fun k b => sigmoid (p k b)) (sigMap p) p := by
  rw [hasFDerivAt_pi']
  intro i
  set k := (finProdFinEquiv.symm i).1
  set b := (finProdFinEquiv.symm i).2
  have hev : HasFDerivAt (fun p : Fin nk → Fin nb → ℝ => p k b)
      ((ContinuousLinearMap.proj (R := ℝ) (φ := fun _ : Fin nb => ℝ) b).comp
        (ContinuousLinearMap.proj (R := ℝ) (φ := fun _ : Fin nk => Fin nb → ℝ) k)) p :=
    ((ContinuousLinearMap.proj (R := ℝ) (φ := fun _ : Fin nb => ℝ) b).comp
      (ContinuousLinearMap.proj (R := ℝ) (φ := fun _ : Fin nk => Fin nb → ℝ) k)).hasFDerivAt
  have h := (sigmoid_deriv (p k b)).comp_hasFDerivAt p hev
  refine h.congr_fderiv ?_
  ext d
  simp [sigMap, ravel, sigmoidJvp, k, b, mul_comm]

private theorem unsig_differentiable (z : Fin (nk * nb) → ℝ) (hz : ∀ i, 0 < z i ∧ z i < 1) :
    DifferentiableAt ℝ (fun z : Fin (nk * nb) → ℝ => (fun k b => logit (unravel z k b) : Fin nk → Fin nb → ℝ)) z := by
  refine differentiableAt_pi.2 fun k => differentiableAt_pi.2 fun b => ?_
  have h1 : DifferentiableAt ℝ (fun z : Fin (nk * nb) → ℝ => z (finProdFinEquiv (k, b))) z :=
    differentiableAt_apply _ _
  have hb := hz (finProdFinEquiv (k, b))
  have h2 : (1 - z (finProdFinEquiv (k, b))) ≠ 0 := by linarith
  have h3 : DifferentiableAt ℝ (fun z : Fin (nk * nb) → ℝ => 1 - z (finProdFinEquiv (k, b))) z := h1.const_sub 1
  have h4 : DifferentiableAt ℝ
      (fun z : Fin (nk * nb) → ℝ => z (finProdFinEquiv (k, b)) / (1 - z (finProdFinEquiv (k, b)))) z := by
    simp only [div_eq_mul_inv]
    exact h1.mul (h3.inv h2)
  exact h4.log (div_ne_zero hb.1.ne' h2)

theorem occChan_deriv (hk : 0 < nk) {m : ℝ} (h0 : 0 < m) (hm : m < ((nk * nb : ℕ) : ℝ))
    (p : Fin nk → Fin nb → ℝ) (hd : DifferentiableAt ℝ (occChan nk nb m) p) :
    DifferentiableAt ℝ (fun x : Fin (nk * nb) → ℝ => proj x m) (ravel fun k b => sigmoid (p k b)) ∧
    ∃ L : (Fin nk → Fin nb → ℝ) →L[ℝ] (Fin nk → Fin nb → ℝ), HasFDerivAt (occChan nk nb m) L p ∧
      ∀ d, L d = unravel fun i => projJvp (ravel fun k b => sigmoid (p k b))
        (ravel fun k b => sigmoidJvp (p k b) (d k b)) m i / (nk : ℝ) := by
  have hkR : (nk : ℝ) ≠ 0 := by exact_mod_cast hk.ne'
  set z : Fin (nk * nb) → ℝ := ravel fun k b => sigmoid (p k b) with hzdef
  have hz : ∀ i, 0 < z i ∧ z i < 1 := fun i => sigmoid_bounds _
  have hback : (fun k b => logit (unravel z k b)) = p := by
    funext k b
    rw [hzdef]
    unfold unravel ravel
    simp only [Equiv.symm_apply_apply]
    exact logit_sigmoid _
  have hproj : DifferentiableAt ℝ (fun x : Fin (nk * nb) → ℝ => proj x m) z := by
    have hc : DifferentiableAt ℝ (fun z : Fin (nk * nb) → ℝ => occChan nk nb m (fun k b => logit (unravel z k b))) z :=
      DifferentiableAt.comp (g := occChan nk nb m)
        (f := fun z : Fin (nk * nb) → ℝ => (fun k b => logit (unravel z k b) : Fin nk → Fin nb → ℝ)) z
        (by beta_reduce; rw [hback]; exact hd) (unsig_differentiable z hz)
    have hc' : DifferentiableAt ℝ (fun z : Fin (nk * nb) → ℝ => (fun i => ravel (occChan nk nb m (fun k b => logit (unravel z k b))) i
        * (nk : ℝ) : Fin (nk * nb) → ℝ)) z := by
      refine differentiableAt_pi.2 fun i => DifferentiableAt.mul_const ?_ _
      exact (differentiableAt_pi.1 ((differentiableAt_pi.1 hc) _)) _
    refine hc'.congr_of_eventuallyEq ?_
    have hev : ∀ᶠ w : Fin (nk * nb) → ℝ in 𝓝 z, ∀ i, 0 < w i ∧ w i < 1 := by
      rw [eventually_all]
      intro i
      have ha := (continuous_apply (A := fun _ : Fin (nk * nb) => ℝ) i).continuousAt (x := z)
      exact (ha.eventually (lt_mem_nhds (hz i).1)).and (ha.eventually (gt_mem_nhds (hz i).2))
    filter_upwards [hev] with w hw
    funext i
    have e : (ravel fun k b => sigmoid (logit (unravel w k b))) = w := by
      funext j
      unfold ravel unravel
      simp only [Prod.mk.eta, Equiv.apply_symm_apply]
      exact sigmoid_logit (hw j).1 (hw j).2
    unfold occChan
    rw [e]
    unfold ravel unravel
    simp only [Prod.mk.eta, Equiv.apply_symm_apply]
    field_simp
  refine ⟨hproj, _, hd.hasFDerivAt, fun d => ?_⟩
  have hcomp : HasFDerivAt (fun p : Fin nk → Fin nb → ℝ => proj (ravel fun k b => sigmoid (p k b)) m)
      ((fderiv ℝ (fun x : Fin (nk * nb) → ℝ => proj x m) z).comp (sigMap p)) p :=
    HasFDerivAt.comp (g := fun x : Fin (nk * nb) → ℝ => proj x m)
      (f := fun p : Fin nk → Fin nb → ℝ => ravel fun k b => sigmoid (p k b)) p hproj.hasFDerivAt (sig_hasFDerivAt p)
  funext k b
  have hent : HasFDerivAt (fun p : Fin nk → Fin nb → ℝ => occChan nk nb m p k b)
      ((nk : ℝ)⁻¹ • (ContinuousLinearMap.proj (R := ℝ) (φ := fun _ : Fin (nk * nb) => ℝ) (finProdFinEquiv (k, b))).comp
        ((fderiv ℝ (fun x : Fin (nk * nb) → ℝ => proj x m) z).comp (sigMap p))) p := by
    have h1 := ((hasFDerivAt_pi'.1 hcomp) (finProdFinEquiv (k, b))).const_mul ((nk : ℝ)⁻¹)
    refine h1.congr_of_eventuallyEq (Eventually.of_forall fun q => ?_)
    unfold occChan unravel
    beta_reduce
    rw [div_eq_inv_mul]
  have hent' : HasFDerivAt (fun p : Fin nk → Fin nb → ℝ => occChan nk nb m p k b)
      ((ContinuousLinearMap.proj (R := ℝ) (φ := fun _ : Fin nb => ℝ) b).comp
        ((ContinuousLinearMap.proj (R := ℝ) (φ := fun _ : Fin nk => Fin nb → ℝ) k).comp
          (fderiv ℝ (occChan nk nb m) p))) p :=
    hasFDerivAt_pi'.1 (hasFDerivAt_pi'.1 hd.hasFDerivAt k) b
  have heq := congrArg (fun L : (Fin nk → Fin nb → ℝ) →L[ℝ] ℝ => L d) (hent'.unique hent)
  have hj := projJvp_derivative_partial h0 hm z hz hproj (sigMap p d)
  have : (fderiv ℝ (occChan nk nb m) p) d k b
      = (nk : ℝ)⁻¹ * (fderiv ℝ (fun x : Fin (nk * nb) → ℝ => proj x m) z) (sigMap p d) (finProdFinEquiv (k, b)) := heq
  rw [this, hj]
  unfold unravel
  beta_reduce
  rw [div_eq_inv_mul]
  rfl

theorem occ_targets {ne spin : ℤ} (hk : 0 < nk) (hpar : ne % 2 = spin % 2) (h0 : |spin| < ne)
    (hb : ne + |spin| < 2 * nb) :
    (0 : ℝ) < (((ne + spin) / 2 * nk : ℤ) : ℝ) ∧ (((ne + spin) / 2 * nk : ℤ) : ℝ) < ((nk * nb : ℕ) : ℝ) ∧
    (0 : ℝ) < (((ne - spin) / 2 * nk : ℤ) : ℝ) ∧ (((ne - spin) / 2 * nk : ℤ) : ℝ) < ((nk * nb : ℕ) : ℝ) := by
  have hkZ : (0 : ℤ) < nk := by exact_mod_cast hk
  have a1 := abs_lt.1 h0
  have a2 := le_abs_self spin
  have a3 := neg_le_abs spin
  have u0 : 0 < (ne + spin) / 2 := by omega
  have u1 : (ne + spin) / 2 < nb := by omega
  have d0 : 0 < (ne - spin) / 2 := by omega
  have d1 : (ne - spin) / 2 < nb := by omega
  have key : ∀ m : ℤ, 0 < m → m < nb → (0 : ℝ) < ((m * nk : ℤ) : ℝ) ∧ ((m * nk : ℤ) : ℝ) < ((nk * nb : ℕ) : ℝ) := by
    intro m m0 m1
    refine ⟨by exact_mod_cast mul_pos m0 hkZ, ?_⟩
    have : m * nk < ((nk * nb : ℕ) : ℤ) := by
      push_cast
      rw [mul_comm (nk : ℤ) nb]
      exact mul_lt_mul_of_pos_right m1 hkZ
    exact_mod_cast this
  exact ⟨(key _ u0 u1).1, (key _ u0 u1).2, (key _ d0 d1).1, (key _ d0 d1).2⟩

/-- The occupations of spin channel `sp`, k point `k` and band `b` as a function of both parameter arrays. -/
noncomputable def Spec.occEntry {nk nb : ℕ} (ne spin : ℤ) (r : Bool) (sp : ℕ) (k : Fin nk) (b : Fin nb)
    (P : (Fin nk → Fin nb → ℝ) × (Fin nk → Fin nb → ℝ)) : ℝ :=
  (simplexProjector P.1 P.2 ne spin r).getD sp 0 k b

theorem occ_entries (ne spin : ℤ) (k : Fin nk) (b : Fin nb) (P : (Fin nk → Fin nb → ℝ) × (Fin nk → Fin nb → ℝ)) :
    Spec.occEntry ne spin false 0 k b P = occChan nk nb (((ne + spin) / 2 * nk : ℤ) : ℝ) P.1 k b ∧
    Spec.occEntry ne spin false 1 k b P = occChan nk nb (((ne - spin) / 2 * nk : ℤ) : ℝ) P.2 k b ∧
    Spec.occEntry ne spin true 0 k b P = occChan nk nb (((ne + spin) / 2 * nk : ℤ) : ℝ) P.1 k b
      + occChan nk nb (((ne - spin) / 2 * nk : ℤ) : ℝ) P.2 k b := by
  refine ⟨rfl, rfl, ?_⟩
  unfold Spec.occEntry simplexProjector sumSpin
  simp [occChan]

theorem occ_channels_differentiable (ne spin : ℤ) (r : Bool) (up down : Fin nk → Fin nb → ℝ)
    (hd : ∀ sp k b, DifferentiableAt ℝ (Spec.occEntry ne spin r sp k b) (up, down)) :
    DifferentiableAt ℝ (occChan nk nb (((ne + spin) / 2 * nk : ℤ) : ℝ)) up ∧
    DifferentiableAt ℝ (occChan nk nb (((ne - spin) / 2 * nk : ℤ) : ℝ)) down := by
  have i1 : DifferentiableAt ℝ (fun p : Fin nk → Fin nb → ℝ => (p, down)) up :=
    differentiableAt_id.prodMk (differentiableAt_const _)
  have i2 : DifferentiableAt ℝ (fun p : Fin nk → Fin nb → ℝ => (up, p)) down :=
    (differentiableAt_const _).prodMk differentiableAt_id
  have c1 : ∀ sp k b, DifferentiableAt ℝ (fun p => Spec.occEntry ne spin r sp k b (p, down)) up := fun sp k b =>
    DifferentiableAt.comp (g := Spec.occEntry ne spin r sp k b) (f := fun p => (p, down)) up (hd sp k b) i1
  have c2 : ∀ sp k b, DifferentiableAt ℝ (fun p => Spec.occEntry ne spin r sp k b (up, p)) down := fun sp k b =>
    DifferentiableAt.comp (g := Spec.occEntry ne spin r sp k b) (f := fun p => (up, p)) down (hd sp k b) i2
  cases r with
  | false =>
    exact ⟨differentiableAt_pi.2 fun k => differentiableAt_pi.2 fun b => c1 0 k b,
      differentiableAt_pi.2 fun k => differentiableAt_pi.2 fun b => c2 1 k b⟩
  | true =>
    refine ⟨differentiableAt_pi.2 fun k => differentiableAt_pi.2 fun b => ?_,
      differentiableAt_pi.2 fun k => differentiableAt_pi.2 fun b => ?_⟩
    · have h := (c1 0 k b).sub_const (occChan nk nb (((ne - spin) / 2 * nk : ℤ) : ℝ) down k b)
      refine h.congr_of_eventuallyEq (Eventually.of_forall fun p => ?_)
      beta_reduce
      rw [(occ_entries ne spin k b (p, down)).2.2]
      ring
    · have h := (c2 0 k b).sub_const (occChan nk nb (((ne + spin) / 2 * nk : ℤ) : ℝ) up k b)
      refine h.congr_of_eventuallyEq (Eventually.of_forall fun p => ?_)
      beta_reduce
      rw [(occ_entries ne spin k b (up, p)).2.2]
      ring

/-- Wherever the occupations have a derivative with respect to the parameters, automatic differentiation
computes it, for both spin treatments. -/
theorem simplexProjectorJvp_derivative_partial (hk : 0 < nk) (ne spin : ℤ) (hpar : ne % 2 = spin % 2)
    (h0 : |spin| < ne) (hb : ne + |spin| < 2 * nb) (r : Bool) (up down : Fin nk → Fin nb → ℝ)
    (hd : ∀ sp k b, DifferentiableAt ℝ (Spec.occEntry ne spin r sp k b) (up, down))
    (dUp dDown : Fin nk → Fin nb → ℝ) (sp : ℕ) (k : Fin nk) (b : Fin nb) :
    fderiv ℝ (Spec.occEntry ne spin r sp k b) (up, down) (dUp, dDown)
      = (simplexProjectorJvp up down dUp dDown ne spin r).getD sp 0 k b := by
  obtain ⟨u0, u1, d0, d1⟩ := occ_targets hk hpar h0 hb
  obtain ⟨cu, cd⟩ := occ_channels_differentiable ne spin r up down hd
  obtain ⟨-, Lu, hLu, eu⟩ := occChan_deriv hk u0 u1 up cu
  obtain ⟨-, Ld, hLd, ed⟩ := occChan_deriv hk d0 d1 down cd
  have fu : HasFDerivAt (fun P : (Fin nk → Fin nb → ℝ) × (Fin nk → Fin nb → ℝ) =>
      occChan nk nb (((ne + spin) / 2 * nk : ℤ) : ℝ) P.1) (Lu.comp (ContinuousLinearMap.fst ℝ _ _)) (up, down) :=
    HasFDerivAt.comp (g := occChan nk nb (((ne + spin) / 2 * nk : ℤ) : ℝ)) (f := Prod.fst) (up, down) hLu hasFDerivAt_fst
  have fd : HasFDerivAt (fun P : (Fin nk → Fin nb → ℝ) × (Fin nk → Fin nb → ℝ) =>
      occChan nk nb (((ne - spin) / 2 * nk : ℤ) : ℝ) P.2) (Ld.comp (ContinuousLinearMap.snd ℝ _ _)) (up, down) :=
    HasFDerivAt.comp (g := occChan nk nb (((ne - spin) / 2 * nk : ℤ) : ℝ)) (f := Prod.snd) (up, down) hLd hasFDerivAt_snd
  have gu := hasFDerivAt_pi'.1 (hasFDerivAt_pi'.1 fu k) b
  have gd := hasFDerivAt_pi'.1 (hasFDerivAt_pi'.1 fd k) b
  have vu : Lu dUp k b = projJvp (ravel fun k b => sigmoid (up k b))
      (ravel fun k b => sigmoidJvp (up k b) (dUp k b)) (((ne + spin) / 2 * nk : ℤ) : ℝ) (finProdFinEquiv (k, b))
        / (nk : ℝ) := by rw [eu]; rfl
  have vd : Ld dDown k b = projJvp (ravel fun k b => sigmoid (down k b))
      (ravel fun k b => sigmoidJvp (down k b) (dDown k b)) (((ne - spin) / 2 * nk : ℤ) : ℝ) (finProdFinEquiv (k, b))
        / (nk : ℝ) := by rw [ed]; rfl
  cases r with
  | false =>
    match sp with
    | 0 =>
      have : HasFDerivAt (Spec.occEntry ne spin false 0 k b) _ (up, down) := gu
      rw [this.fderiv]
      exact vu
    | 1 =>
      have : HasFDerivAt (Spec.occEntry ne spin false 1 k b) _ (up, down) := gd
      rw [this.fderiv]
      exact vd
    | sp + 2 =>
      have : HasFDerivAt (Spec.occEntry ne spin false (sp + 2) k b) 0 (up, down) :=
        hasFDerivAt_const (𝕜 := ℝ) (0 : ℝ) (up, down)
      rw [this.fderiv]
      rfl
  | true =>
    match sp with
    | 0 =>
      have hadd := gu.add gd
      have this := hadd.congr_of_eventuallyEq (f₁ := Spec.occEntry ne spin true 0 k b)
        (Eventually.of_forall fun P => (occ_entries ne spin k b P).2.2)
      rw [this.fderiv]
      have e : (simplexProjectorJvp up down dUp dDown ne spin true).getD 0 0 k b = Lu dUp k b + Ld dDown k b := by
        rw [vu, vd]
        unfold simplexProjectorJvp sumSpin
        simp [unravel]
      rw [e]
      rfl
    | sp + 1 =>
      have : HasFDerivAt (Spec.occEntry ne spin true (sp + 1) k b) 0 (up, down) :=
        hasFDerivAt_const (𝕜 := ℝ) (0 : ℝ) (up, down)
      rw [this.fderiv]
      rfl

/-- The gradient of the occupations leaves the number of electrons of each channel unchanged wherever it is the
derivative. -/
theorem simplexProjectorJvp_total_partial (hk : 0 < nk) (ne spin : ℤ) (hpar : ne % 2 = spin % 2)
    (h0 : |spin| < ne) (hb : ne + |spin| < 2 * nb) (r : Bool) (up down : Fin nk → Fin nb → ℝ)
    (hd : ∀ sp k b, DifferentiableAt ℝ (Spec.occEntry ne spin r sp k b) (up, down))
    (dUp dDown : Fin nk → Fin nb → ℝ) (sp : ℕ) :
    ∑ k, ∑ b, (simplexProjectorJvp up down dUp dDown ne spin r).getD sp 0 k b = 0 := by
  obtain ⟨u0, u1, d0, d1⟩ := occ_targets hk hpar h0 hb
  obtain ⟨cu, cd⟩ := occ_channels_differentiable ne spin r up down hd
  have hu := (occChan_deriv hk u0 u1 up cu).1
  have hdn := (occChan_deriv hk d0 d1 down cd).1
  have su : ∑ k : Fin nk, ∑ b : Fin nb, unravel (fun i => projJvp (ravel fun k b => sigmoid (up k b))
      (ravel fun k b => sigmoidJvp (up k b) (dUp k b)) (((ne + spin) / 2 * nk : ℤ) : ℝ) i / (nk : ℝ)) k b = 0 := by
    rw [sum_unravel, ← Finset.sum_div, projJvp_total_partial u0 u1 (ravel fun k b => sigmoid (up k b)) (fun i => sigmoid_bounds _) hu,
      zero_div]
  have sd : ∑ k : Fin nk, ∑ b : Fin nb, unravel (fun i => projJvp (ravel fun k b => sigmoid (down k b))
      (ravel fun k b => sigmoidJvp (down k b) (dDown k b)) (((ne - spin) / 2 * nk : ℤ) : ℝ) i / (nk : ℝ)) k b = 0 := by
    rw [sum_unravel, ← Finset.sum_div, projJvp_total_partial d0 d1 (ravel fun k b => sigmoid (down k b)) (fun i => sigmoid_bounds _) hdn,
      zero_div]
  cases r with
  | false =>
    match sp with
    | 0 => exact su
    | 1 => exact sd
    | sp + 2 => simp [simplexProjectorJvp]
  | true =>
    match sp with
    | 0 =>
      have e : ∀ k b, (simplexProjectorJvp up down dUp dDown ne spin true).getD 0 0 k b
          = unravel (fun i => projJvp (ravel fun k b => sigmoid (up k b))
            (ravel fun k b => sigmoidJvp (up k b) (dUp k b)) (((ne + spin) / 2 * nk : ℤ) : ℝ) i / (nk : ℝ)) k b
          + unravel (fun i => projJvp (ravel fun k b => sigmoid (down k b))
            (ravel fun k b => sigmoidJvp (down k b) (dDown k b)) (((ne - spin) / 2 * nk : ℤ) : ℝ) i / (nk : ℝ)) k b := by
        intro k b
        unfold simplexProjectorJvp sumSpin
        simp
      simp only [e, Finset.sum_add_distrib]
      rw [su, sd, add_zero]
    | sp + 1 => simp [simplexProjectorJvp, sumSpin]

private theorem occChan_lip (hk : 0 < nk) {m : ℝ} (h0 : 0 < m) (hm : m < ((nk * nb : ℕ) : ℝ)) (k : Fin nk) (b : Fin nb) :
    LipschitzWith ((nk * nb : ℕ) : NNReal) (fun p : Fin nk → Fin nb → ℝ => occChan nk nb m p k b) := by
  refine LipschitzWith.of_dist_le_mul fun p q => ?_
  rw [Real.dist_eq]
  unfold occChan unravel
  beta_reduce
  rw [← sub_div, abs_div, Nat.abs_cast]
  have hk1 : (1 : ℝ) ≤ nk := by exact_mod_cast hk
  have h := proj_entry_lip h0 hm (ravel fun k b => sigmoid (p k b)) (ravel fun k b => sigmoid (q k b))
    (fun i => ⟨(sigmoid_bounds _).1.le, (sigmoid_bounds _).2.le⟩)
    (fun i => ⟨(sigmoid_bounds _).1.le, (sigmoid_bounds _).2.le⟩) (D := dist p q)
    (fun i => (sigmoid_lip _ _).trans (by
      rw [← Real.dist_eq]
      exact (dist_le_pi_dist (p _) (q _) _).trans (dist_le_pi_dist p q _))) dist_nonneg (finProdFinEquiv (k, b))
  refine (div_le_self (abs_nonneg _) hk1).trans ?_
  simpa using h

/-- The occupations have a derivative at almost every value of the parameters. -/
theorem simplexProjector_differentiable_ae (hk : 0 < nk) (ne spin : ℤ) (hpar : ne % 2 = spin % 2)
    (h0 : |spin| < ne) (hb : ne + |spin| < 2 * nb) (r : Bool) :
    ∀ᵐ P : (Fin nk → Fin nb → ℝ) × (Fin nk → Fin nb → ℝ),
      ∀ sp k b, DifferentiableAt ℝ (Spec.occEntry ne spin r sp k b) P := by
  obtain ⟨u0, u1, d0, d1⟩ := occ_targets hk hpar h0 hb
  have m1 : (MeasureTheory.volume : Measure (Fin nb → ℝ)).IsAddHaarMeasure := isAddHaarMeasure_volume_pi _
  have m2 : (MeasureTheory.volume : Measure (Fin nk → Fin nb → ℝ)).IsAddHaarMeasure :=
    inferInstanceAs (Measure.pi fun _ : Fin nk => (MeasureTheory.volume : Measure (Fin nb → ℝ))).IsAddHaarMeasure
  have q1 : SFinite (MeasureTheory.volume : Measure (Fin nk → Fin nb → ℝ)) := inferInstance
  have q2 : MeasurableAdd (Fin nk → Fin nb → ℝ) := inferInstance
  have m3 : (MeasureTheory.volume : Measure ((Fin nk → Fin nb → ℝ) × (Fin nk → Fin nb → ℝ))).IsAddHaarMeasure :=
    Measure.prod.instIsAddHaarMeasure _ _
  rw [ae_all_iff]
  intro sp
  rw [ae_all_iff]
  intro k
  rw [ae_all_iff]
  intro b
  have lu := (occChan_lip hk u0 u1 k b).comp
    (LipschitzWith.prod_fst (α := Fin nk → Fin nb → ℝ) (β := Fin nk → Fin nb → ℝ))
  have ld := (occChan_lip hk d0 d1 k b).comp
    (LipschitzWith.prod_snd (α := Fin nk → Fin nb → ℝ) (β := Fin nk → Fin nb → ℝ))
  cases r with
  | false =>
    match sp with
    | 0 => exact lu.ae_differentiableAt
    | 1 => exact ld.ae_differentiableAt
    | sp + 2 => exact Eventually.of_forall fun P => differentiableAt_const (0 : ℝ)
  | true =>
    match sp with
    | 0 =>
      have e : Spec.occEntry ne spin true 0 k b = fun P => _ := funext fun P => (occ_entries ne spin k b P).2.2
      rw [e]
      exact (lu.add ld).ae_differentiableAt
    | sp + 1 => exact Eventually.of_forall fun P => differentiableAt_const (0 : ℝ)

/-- At a kink, where an entry is just about to be cut off, the computed gradient changes the number of electrons. -/
theorem projJvp_kink (c : ℝ) :
    ∑ i, projJvp (![3 / 4, 3 / 4, 1 / 4] : Fin 3 → ℝ) ![0, 0, c] 1 i = c / 2 := by
  have hx : ∀ i, 0 < (![3 / 4, 3 / 4, 1 / 4] : Fin 3 → ℝ) i ∧ (![3 / 4, 3 / 4, 1 / 4] : Fin 3 → ℝ) i < 1 := by
    intro i; fin_cases i <;> norm_num
  obtain ⟨lam, -, hsum, hj⟩ := proj_closed (n := 3) 1 (by norm_num) (by norm_num) _ hx
  rw [Fin.sum_univ_three] at hsum
  simp only [Matrix.cons_val_zero, Matrix.cons_val_one, Matrix.cons_val] at hsum
  have hlam : lam = 1 / 4 := by
    rcases lt_trichotomy lam (1 / 4) with h | h | h
    · exfalso
      have h1 : 1 / 2 < clip01 (3 / 4 - lam) :=
        lt_of_lt_of_le (lt_min (by linarith) (by norm_num)) (le_max_left _ _)
      linarith [(clip01_mem (1 / 4 - lam)).1]
    · exact h
    · exfalso
      have h1 : clip01 (3 / 4 - lam) < 1 / 2 :=
        max_lt (lt_of_le_of_lt (min_le_left _ _) (by linarith)) (by norm_num)
      rw [clip01_low (show 1 / 4 - lam ≤ 0 by linarith)] at hsum
      linarith
  subst hlam
  rw [Fin.sum_univ_three, hj, hj, hj]
  have hm : meanOn (Finset.univ.filter fun j => 0 < (![3 / 4, 3 / 4, 1 / 4] : Fin 3 → ℝ) j - 1 / 4
      ∧ (![3 / 4, 3 / 4, 1 / 4] : Fin 3 → ℝ) j - 1 / 4 < 1) ![0, 0, c] = 0 := by
    unfold meanOn
    rw [Finset.sum_filter, Fin.sum_univ_three]
    simp only [Matrix.cons_val_zero, Matrix.cons_val_one, Matrix.cons_val]
    norm_num
  rw [hm]
  simp only [Matrix.cons_val_zero, Matrix.cons_val_one, Matrix.cons_val]
  norm_num

/-- The computed gradient of the occupations does not always leave the number of electrons unchanged. -/
theorem simplexProjectorJvp_leak :
    ∃ up down dUp dDown : Fin 1 → Fin 3 → ℝ,
      ∑ k, ∑ b, (simplexProjectorJvp up down dUp dDown 2 0 false).getD 0 0 k b ≠ 0 := by
  have hs : ∀ y : ℝ, 0 < y → sigmoid (Real.log y) = y / (1 + y) := by
    intro y hy
    unfold sigmoid
    rw [Real.exp_neg, Real.exp_log hy]
    field_simp
    ring
  have h3 : sigmoid (Real.log 3) = 3 / 4 := by rw [hs 3 (by norm_num)]; norm_num
  have h1 : sigmoid (Real.log (1 / 3)) = 1 / 4 := by rw [hs _ (by norm_num)]; norm_num
  refine ⟨fun _ => ![Real.log 3, Real.log 3, Real.log (1 / 3)], 0, fun _ => ![0, 0, 1], 0, ?_⟩
  have e : ∑ k : Fin 1, ∑ b : Fin 3, (simplexProjectorJvp (fun _ => ![Real.log 3, Real.log 3, Real.log (1 / 3)]) 0
      (fun _ => ![0, 0, 1]) 0 2 0 false).getD 0 0 k b
      = ∑ i, projJvp (ravel fun (_ : Fin 1) (b : Fin 3) => sigmoid ((![Real.log 3, Real.log 3, Real.log (1 / 3)] : Fin 3 → ℝ) b))
        (ravel fun (_ : Fin 1) (b : Fin 3) => sigmoidJvp ((![Real.log 3, Real.log 3, Real.log (1 / 3)] : Fin 3 → ℝ) b)
          ((![0, 0, 1] : Fin 3 → ℝ) b)) 1 i := by
    have h := sum_unravel (nk := 1) (nb := 3) (fun i => projJvp
      (ravel fun (_ : Fin 1) (b : Fin 3) => sigmoid ((![Real.log 3, Real.log 3, Real.log (1 / 3)] : Fin 3 → ℝ) b))
      (ravel fun (_ : Fin 1) (b : Fin 3) => sigmoidJvp ((![Real.log 3, Real.log 3, Real.log (1 / 3)] : Fin 3 → ℝ) b)
          ((![0, 0, 1] : Fin 3 → ℝ) b)) 1 i)
    rw [← h]
    refine Finset.sum_congr rfl fun k _ => Finset.sum_congr rfl fun b _ => ?_
    unfold simplexProjectorJvp
    simp [unravel]
  rw [e]
  have e1 : (ravel fun (_ : Fin 1) (b : Fin 3) => sigmoid ((![Real.log 3, Real.log 3, Real.log (1 / 3)] : Fin 3 → ℝ) b))
      = (![3 / 4, 3 / 4, 1 / 4] : Fin 3 → ℝ) := by
    funext i
    fin_cases i
    · exact h3
    · exact h3
    · exact h1
  have e2 : (ravel fun (_ : Fin 1) (b : Fin 3) => sigmoidJvp ((![Real.log 3, Real.log 3, Real.log (1 / 3)] : Fin 3 → ℝ) b)
          ((![0, 0, 1] : Fin 3 → ℝ) b)) = (![0, 0, 3 / 16] : Fin 3 → ℝ) := by
    funext i
    fin_cases i
    · exact zero_mul _
    · exact zero_mul _
    · change 1 * (sigmoid (Real.log (1 / 3)) * (1 - sigmoid (Real.log (1 / 3)))) = 3 / 16
      rw [h1]
      norm_num
  rw [e1, e2]
  have := projJvp_kink (3 / 16)
  intro h
  have h' : ∑ i, projJvp (![3 / 4, 3 / 4, 1 / 4] : Fin 3 → ℝ) ![0, 0, 3 / 16] 1 i = 0 := h
  rw [this] at h'
  norm_num at h'

-- the projector is differentiable at three equal entries with total one
example : DifferentiableAt ℝ (fun x : Fin 3 → ℝ => proj x 1) (fun _ => 1 / 2) ∧
    ∀ v, ∑ i, projJvp (fun _ : Fin 3 => (1 / 2 : ℝ)) v 1 i = 0 := by
  have hx : ∀ i : Fin 3, 0 < (fun _ => 1 / 2 : Fin 3 → ℝ) i ∧ (fun _ => 1 / 2 : Fin 3 → ℝ) i < 1 := by
    intro i; norm_num
  have h := proj_hasFDerivAt (n := 3) (s := 1) (lam := 1 / 6) (by norm_num) (by norm_num)
    (x := fun _ => 1 / 2) hx
    (by rw [Fin.sum_univ_three, clip01_mid (by norm_num) (by norm_num)]; norm_num)
    (fun i => ⟨by norm_num, by norm_num⟩)
  exact ⟨h.differentiableAt, fun v =>
    projJvp_total_partial (n := 3) (by norm_num) (by norm_num) _ hx h.differentiableAt v⟩

-- two electrons, one k point, three bands: almost every parameter is covered
example : ∀ᵐ P : (Fin 1 → Fin 3 → ℝ) × (Fin 1 → Fin 3 → ℝ), ∀ dUp dDown sp,
    ∑ k, ∑ b, (simplexProjectorJvp P.1 P.2 dUp dDown 2 0 true).getD sp 0 k b = 0 := by
  filter_upwards [simplexProjector_differentiable_ae (nk := 1) (nb := 3) one_pos 2 0 (by norm_num) (by norm_num)
    (by norm_num) true] with P hP
  exact simplexProjectorJvp_total_partial one_pos 2 0 (by norm_num) (by norm_num) (by norm_num) true P.1 P.2 hP

end Jrystal
