import Verif.Props.Smearing
import Verif.Props.Limit
import Verif.Spec.Stability
import Mathlib.Analysis.BoundedVariation

/- C107: the energy depends on the positions of the atoms in a controlled way. -/
namespace Jrystal
open scoped BigOperators ComplexConjugate
open RunSetup

/-! ### The density of a physical state -/

private theorem orthonormal_integral {ns nk nb : ℕ} {n : Fin 3 → ℕ} (hn : ∀ i, 0 < n i) (c : Coef ns nk nb n)
    (vol : ℝ) (hv : 0 < vol) (occ : Occ ns nk nb)
    (ho : ∀ s k i j, ∑ x, conj (c s k i x) * c s k j x = if i = j then 1 else 0) (s : Fin ns) :
    ∑ j, densityGrid c vol occ s j = (gridCount n : ℝ) / vol * ∑ k, ∑ b, occ s k b := by
  have key : Spec.cellIntegral vol (densityGrid c vol occ s) = ∑ k, ∑ b, occ s k b := by
    unfold Spec.cellIntegral densityGrid
    rw [Finset.sum_comm, Finset.mul_sum]
    refine Finset.sum_congr rfl fun k _ => ?_
    rw [Finset.sum_comm, Finset.mul_sum]
    refine Finset.sum_congr rfl fun b _ => ?_
    rw [← Finset.sum_mul, ← mul_assoc]
    have h := waveGrid_isometry hn c c vol hv s k b b
    rw [ho, if_pos rfl] at h
    unfold Spec.cellInner at h
    simp_rw [← absoluteSquare_cast] at h
    rw [← Complex.ofReal_sum] at h
    have h' : (((vol / (∏ i, n i : ℕ) : ℝ) * ∑ x, absoluteSquare (waveGrid c vol s k b x) : ℝ) : ℂ) = (1 : ℝ) := by
      rw [Complex.ofReal_mul, h, Complex.ofReal_one]
    have h2 := Complex.ofReal_inj.mp h'
    unfold densityGridBands
    rw [h2, one_mul]
  rw [← key]
  unfold Spec.cellIntegral gridCount
  have hN : ((∏ i, n i : ℕ) : ℝ) ≠ 0 := by
    exact_mod_cast (Finset.prod_pos fun i _ => hn i).ne'
  field_simp

theorem density_fourier_bound {ns nk nb : ℕ} {n : Fin 3 → ℕ} (hn : ∀ i, 0 < n i) {c : Coef ns nk nb n}
    {vol : ℝ} (hv : 0 < vol) {occ : Occ ns nk nb} {mask : Idx n → Bool} {ne spin : ℤ} {r : Bool} {share : ℝ}
    (h : Spec.PhysicalState mask ne spin r share c occ) (k : Idx n) :
    ‖∑ s, densityGridReciprocal c vol occ s k‖ ≤ (gridCount n : ℝ) / vol * ne := by
  rw [← h.electrons, Finset.mul_sum]
  refine (norm_sum_le _ _).trans (Finset.sum_le_sum fun s _ => ?_)
  rw [← orthonormal_integral hn c vol hv occ h.orthonormal s]
  unfold densityGridReciprocal
  rw [fftn_eq]
  refine (norm_sum_le _ _).trans (Finset.sum_le_sum fun j _ => ?_)
  rw [norm_mul, RCLike.norm_conj, norm_omega, mul_one, Complex.norm_real, Real.norm_eq_abs,
    abs_of_nonneg (densityGrid_nonneg c vol occ h.nonneg s j)]

/-! ### The energy as a function of the positions -/

/-- The value of the external energy. -/
private noncomputable def extVal {ns na : ℕ} {n : Fin 3 → ℕ} (rho : Fin ns → Idx n → ℂ) (pos : Fin na → Fin 3 → ℝ)
    (z : Fin na → ℝ) (g : Idx n → Fin 3 → ℝ) (vol : ℝ) : ℝ :=
  vol / (gridCount n : ℝ) ^ 2 * ∑ k ∈ Finset.univ.filter (fun k : Idx n => ∃ i, (k i : ℕ) ≠ 0),
    (-(4 * Real.pi * (gridCount n : ℝ) / (vol * (Spec.dot (g k) (g k) + 1e-10)))) *
      (conj (structureFactor pos z g k) * ∑ s, rho s k).re

private theorem totalEnergy_pos (lib : XcLib) {ns nk nb na : ℕ} {n : Fin 3 → ℕ} (c : Coef ns nk nb n)
    (z : Fin na → ℝ) (g : Idx n → Fin 3 → ℝ) (kpts : Fin nk → Fin 3 → ℝ) (vol : ℝ) (occ : Occ ns nk nb) (xt : String) :
    ∃ E₀, ∀ pos : Fin na → Fin 3 → ℝ, totalEnergy lib c pos z g kpts vol (some occ) false xt
      = .ok (E₀ + extVal (densityGridReciprocal c vol occ) pos z g vol) := by
  obtain ⟨E, hE⟩ := totalEnergy_succeeds lib c (fun _ _ => 0 : Fin na → Fin 3 → ℝ) z g kpts vol (some occ) false xt
    (Or.inl rfl)
  refine ⟨E - extVal (densityGridReciprocal c vol occ) (fun _ _ => 0 : Fin na → Fin 3 → ℝ) z g vol, fun pos => ?_⟩
  obtain ⟨E', hE'⟩ := totalEnergy_succeeds lib c pos z g kpts vol (some occ) false xt (Or.inl rfl)
  cases h : totalEnergySplit lib c (fun _ _ => 0 : Fin na → Fin 3 → ℝ) z g kpts vol (some occ) false xt with
  | error e => rw [(totalEnergy_sum lib c _ z g kpts vol (some occ) false xt).2 e h] at hE; cases hE
  | ok p =>
    cases h' : totalEnergySplit lib c pos z g kpts vol (some occ) false xt with
    | error e => rw [(totalEnergy_sum lib c _ z g kpts vol (some occ) false xt).2 e h'] at hE'; cases hE'
    | ok p' =>
      have h1 := (totalEnergy_sum lib c _ z g kpts vol (some occ) false xt).1 p h
      have h2 := (totalEnergy_sum lib c _ z g kpts vol (some occ) false xt).1 p' h'
      obtain ⟨a1, a2, a3, a4⟩ := totalEnergy_parts lib c _ z g kpts vol (some occ) false xt p h
      obtain ⟨b1, b2, b3, b4⟩ := totalEnergy_parts lib c _ z g kpts vol (some occ) false xt p' h'
      rw [h2]
      rw [h1] at hE
      have hx := Except.ok.inj hE
      have e3 := Except.ok.inj (a3.symm.trans b3)
      have e4 := Except.ok.inj (a4.symm.trans b4)
      have c2 : extVal (densityGridReciprocal c vol occ) (fun _ _ => 0 : Fin na → Fin 3 → ℝ) z g vol = p.ext :=
        Except.ok.inj ((externalEnergy_eq _ _ _ _ _).symm.trans a2)
      have d2 : extVal (densityGridReciprocal c vol occ) pos z g vol = p'.ext :=
        Except.ok.inj ((externalEnergy_eq _ _ _ _ _).symm.trans b2)
      rw [c2, d2, ← hx, b1, a1, e3, e4]
      congr 1
      ring

theorem length_dot (u v : Fin 3 → ℝ) : |∑ d, u d * v d| ≤ Spec.length u * Spec.length v := by
  unfold Spec.length
  rw [← Real.sqrt_mul (Finset.sum_nonneg fun d _ => sq_nonneg _)]
  exact Real.abs_le_sqrt (Finset.sum_mul_sq_le_sq_mul_sq _ _ _)

theorem phase_sub (x y : ℝ) :
    ‖Complex.exp (-(Complex.I * (x : ℂ))) - Complex.exp (-(Complex.I * (y : ℂ)))‖ ≤ |x - y| := by
  have h : Complex.exp (-(Complex.I * (x : ℂ))) - Complex.exp (-(Complex.I * (y : ℂ)))
      = Complex.exp (-(Complex.I * (y : ℂ))) * (Complex.exp (Complex.I * ((y - x : ℝ) : ℂ)) - 1) := by
    rw [mul_sub, ← Complex.exp_add, mul_one]
    congr 2
    push_cast
    ring
  rw [h, norm_mul, show -(Complex.I * (y : ℂ)) = ((-y : ℝ) : ℂ) * Complex.I by push_cast; ring,
    Complex.norm_exp_ofReal_mul_I, one_mul]
  refine (Real.norm_exp_I_mul_ofReal_sub_one_le).trans ?_
  rw [Real.norm_eq_abs, abs_sub_comm]

private theorem structureFactor_sub {na : ℕ} {n : Fin 3 → ℕ} (pos pos' : Fin na → Fin 3 → ℝ) (z : Fin na → ℝ)
    (g : Idx n → Fin 3 → ℝ) (k : Idx n) :
    ‖structureFactor pos z g k - structureFactor pos' z g k‖
      ≤ Spec.length (g k) * ∑ a, |z a| * Spec.length (fun d => pos a d - pos' a d) := by
  unfold structureFactor
  rw [← Finset.sum_sub_distrib, Finset.mul_sum]
  refine (norm_sum_le _ _).trans (Finset.sum_le_sum fun a _ => ?_)
  rw [← mul_sub, norm_mul, Complex.norm_real, Real.norm_eq_abs, mul_left_comm]
  refine mul_le_mul_of_nonneg_left ?_ (abs_nonneg _)
  refine le_trans ?_ (length_dot (g k) fun d => pos a d - pos' a d)
  have e : ∑ d, g k d * (pos a d - pos' a d) = (∑ d, g k d * pos a d) - ∑ d, g k d * pos' a d := by
    rw [← Finset.sum_sub_distrib]
    exact Finset.sum_congr rfl fun d _ => by ring
  rw [e]
  exact phase_sub _ _

private theorem extVal_sub {ns nk nb na : ℕ} {n : Fin 3 → ℕ} (hn : ∀ i, 0 < n i) {c : Coef ns nk nb n}
    {vol : ℝ} (hv : 0 < vol) {occ : Occ ns nk nb} {mask : Idx n → Bool} {ne spin : ℤ} {r : Bool} {share : ℝ}
    (h : Spec.PhysicalState mask ne spin r share c occ) (pos pos' : Fin na → Fin 3 → ℝ) (z : Fin na → ℝ)
    (g : Idx n → Fin 3 → ℝ) :
    |extVal (densityGridReciprocal c vol occ) pos z g vol - extVal (densityGridReciprocal c vol occ) pos' z g vol|
      ≤ ne * Spec.forceBound g vol * ∑ a, |z a| * Spec.length (fun d => pos a d - pos' a d) := by
  have hN : (0 : ℝ) < gridCount n := by
    unfold gridCount
    exact_mod_cast Finset.prod_pos fun i _ => hn i
  unfold extVal Spec.forceBound
  rw [← mul_sub, ← Finset.sum_sub_distrib, abs_mul, abs_of_nonneg (by positivity)]
  generalize hD : ∑ a, |z a| * Spec.length (fun d => pos a d - pos' a d) = D
  have hle : |∑ k ∈ Finset.univ.filter (fun k : Idx n => ∃ i, (k i : ℕ) ≠ 0),
      (-(4 * Real.pi * (gridCount n : ℝ) / (vol * (Spec.dot (g k) (g k) + 1e-10)))
          * (conj (structureFactor pos z g k) * ∑ s, densityGridReciprocal c vol occ s k).re
        - -(4 * Real.pi * (gridCount n : ℝ) / (vol * (Spec.dot (g k) (g k) + 1e-10)))
          * (conj (structureFactor pos' z g k) * ∑ s, densityGridReciprocal c vol occ s k).re)|
      ≤ ∑ k ∈ Finset.univ.filter (fun k : Idx n => ∃ i, (k i : ℕ) ≠ 0),
        4 * Real.pi * (gridCount n : ℝ) / (vol * (∑ d, g k d ^ 2 + 1e-10)) *
          (Spec.length (g k) * D * ((gridCount n : ℝ) / vol * ne)) := by
    refine (Finset.abs_sum_le_sum_abs _ _).trans (Finset.sum_le_sum fun k _ => ?_)
    have hp : 0 < ∑ d, g k d ^ 2 + (1e-10 : ℝ) := by
      have : 0 ≤ ∑ d, g k d ^ 2 := Finset.sum_nonneg fun d _ => sq_nonneg _
      norm_num at this ⊢
      linarith
    rw [← mul_sub, abs_mul, abs_neg, ← sum_sq_eq_dot]
    rw [abs_of_nonneg (by positivity)]
    refine mul_le_mul_of_nonneg_left ?_ (by positivity)
    rw [← Complex.sub_re, ← sub_mul, ← map_sub]
    refine (Complex.abs_re_le_norm _).trans ?_
    rw [norm_mul, RCLike.norm_conj]
    refine mul_le_mul (hD ▸ structureFactor_sub pos pos' z g k) (density_fourier_bound hn hv h k) (norm_nonneg _) ?_
    rw [← hD]
    exact (norm_nonneg _).trans (structureFactor_sub pos pos' z g k)
  refine (mul_le_mul_of_nonneg_left hle (by positivity)).trans (le_of_eq ?_)
  rw [Finset.mul_sum, Finset.mul_sum, Finset.mul_sum, Finset.sum_mul]
  refine Finset.sum_congr rfl fun k _ => ?_
  generalize ∑ d, g k d ^ 2 + (1e-10 : ℝ) = w
  field_simp

/-- C107: the energies of one physical state for two arrangements of the nuclei differ by at most the number of
electrons times the bound of the forces times the charges and lengths of the displacements. -/
theorem totalEnergy_displaced (lib : XcLib) {ns nk nb na : ℕ} {n : Fin 3 → ℕ} (hn : ∀ i, 0 < n i)
    (mask : Idx n → Bool) (ne spin : ℤ) (r : Bool) (share : ℝ) (c : Coef ns nk nb n) (occ : Occ ns nk nb)
    (h : Spec.PhysicalState mask ne spin r share c occ) (pos pos' : Fin na → Fin 3 → ℝ) (z : Fin na → ℝ)
    (g : Idx n → Fin 3 → ℝ) (kpts : Fin nk → Fin 3 → ℝ) (vol : ℝ) (hv : 0 < vol) (xt : String) (e e' : ℝ)
    (he : totalEnergy lib c pos z g kpts vol (some occ) false xt = .ok e)
    (he' : totalEnergy lib c pos' z g kpts vol (some occ) false xt = .ok e') :
    |e - e'| ≤ ne * Spec.forceBound g vol * ∑ a, |z a| * Spec.length (fun d => pos a d - pos' a d) := by
  obtain ⟨E₀, hE⟩ := totalEnergy_pos lib c z g kpts vol occ xt
  rw [hE] at he he'
  rw [← Except.ok.inj he, ← Except.ok.inj he', add_sub_add_left_eq_sub]
  exact extVal_sub hn hv h pos pos' z g

private theorem extVal_deriv {ns na : ℕ} {n : Fin 3 → ℕ} (hn : ∀ i, 0 < n i) (rho : Fin ns → Idx n → ℂ)
    (pos v : Fin na → Fin 3 → ℝ) (z : Fin na → ℝ) (g : Idx n → Fin 3 → ℝ) (vol : ℝ) (hv : 0 < vol) (t : ℝ) :
    HasDerivAt (fun t => extVal rho (fun a d => pos a d + t * v a d) z g vol)
      (Spec.electrostaticSlope rho (fun a d => pos a d + t * v a d) v z g) t := by
  have hN : (gridCount n : ℝ) ≠ 0 := by
    unfold gridCount
    exact_mod_cast (Finset.prod_pos fun i _ => hn i).ne'
  unfold extVal
  have hS : ∀ k, HasDerivAt (fun t : ℝ => conj (structureFactor (fun a d => pos a d + t * v a d) z g k))
      (∑ a, (z a : ℂ) * (Complex.exp (Complex.I * ((∑ d, g k d * (pos a d + t * v a d) : ℝ) : ℂ)) *
        (Complex.I * ((∑ d, g k d * v a d : ℝ) : ℂ)))) t := by
    intro k
    have e : (fun t : ℝ => conj (structureFactor (fun a d => pos a d + t * v a d) z g k))
        = fun t : ℝ => ∑ a, (z a : ℂ) * Complex.exp (Complex.I * ((∑ d, g k d * (pos a d + t * v a d) : ℝ) : ℂ)) := by
      funext t
      unfold structureFactor
      rw [map_sum]
      refine Finset.sum_congr rfl fun a _ => ?_
      rw [map_mul, ← Complex.exp_conj, map_neg, map_mul, Complex.conj_I, Complex.conj_ofReal, Complex.conj_ofReal,
        neg_mul, neg_neg]
    rw [e]
    refine HasDerivAt.fun_sum fun a _ => HasDerivAt.const_mul _ (HasDerivAt.cexp (HasDerivAt.const_mul _ ?_))
    refine HasDerivAt.ofReal_comp (f := fun t : ℝ => ∑ d, g k d * (pos a d + t * v a d)) ?_
    refine HasDerivAt.fun_sum fun d _ => HasDerivAt.const_mul _ ?_
    exact ((hasDerivAt_id t).mul_const (v a d)).const_add (pos a d) |>.congr_deriv (one_mul _)
  have hR : ∀ k, HasDerivAt (fun t : ℝ => (conj (structureFactor (fun a d => pos a d + t * v a d) z g k) * ∑ s, rho s k).re)
      (-∑ a, z a * (∑ d, g k d * v a d) *
        (Complex.exp (Complex.I * ((∑ d, g k d * (pos a d + t * v a d) : ℝ) : ℂ)) * ∑ s, rho s k).im) t := by
    intro k
    have h1 := ((hS k).mul_const (∑ s, rho s k))
    have h2 := Complex.reCLM.hasFDerivAt.comp_hasDerivAt t h1
    refine h2.congr_deriv ?_
    show Complex.re _ = _
    rw [Finset.sum_mul, Complex.re_sum, ← Finset.sum_neg_distrib]
    refine Finset.sum_congr rfl fun a _ => ?_
    generalize Complex.exp (Complex.I * ((∑ d, g k d * (pos a d + t * v a d) : ℝ) : ℂ)) = E
    generalize ∑ s, rho s k = R
    generalize ∑ d, g k d * v a d = w
    simp [Complex.mul_re, Complex.mul_im]
    ring
  refine (HasDerivAt.const_mul _ (HasDerivAt.fun_sum fun k _ => HasDerivAt.const_mul _ (hR k))).congr_deriv ?_
  unfold Spec.electrostaticSlope
  rw [Finset.mul_sum, Finset.mul_sum]
  refine Finset.sum_congr rfl fun k _ => ?_
  rw [← sum_sq_eq_dot, show ((∏ i, n i : ℕ) : ℝ) = gridCount n from rfl]
  have hp : ∑ d, g k d ^ 2 + (1e-10 : ℝ) ≠ 0 := by
    have : 0 ≤ ∑ d, g k d ^ 2 := Finset.sum_nonneg fun d _ => sq_nonneg _
    norm_num at this ⊢
    linarith
  generalize ∑ d, g k d ^ 2 + (1e-10 : ℝ) = w at hp ⊢
  generalize (∑ a, z a * (∑ d, g k d * v a d) *
    (Complex.exp (Complex.I * ((∑ d, g k d * (pos a d + t * v a d) : ℝ) : ℂ)) * ∑ s, rho s k).im) = y
  field_simp

/-- C107: when the nuclei move with the velocities `v` the energy of a fixed state changes at the rate that the
electrostatic field of its density prescribes. -/
theorem totalEnergy_slope (lib : XcLib) {ns nk nb na : ℕ} {n : Fin 3 → ℕ} (hn : ∀ i, 0 < n i)
    (c : Coef ns nk nb n) (occ : Occ ns nk nb) (pos v : Fin na → Fin 3 → ℝ) (z : Fin na → ℝ)
    (g : Idx n → Fin 3 → ℝ) (kpts : Fin nk → Fin 3 → ℝ) (vol : ℝ) (hv : 0 < vol) (xt : String) :
    ∃ E : ℝ → ℝ,
      (∀ t, totalEnergy lib c (fun a d => pos a d + t * v a d) z g kpts vol (some occ) false xt = .ok (E t)) ∧
      ∀ t, HasDerivAt E (Spec.electrostaticSlope (densityGridReciprocal c vol occ) (fun a d => pos a d + t * v a d) v z g)
        t := by
  obtain ⟨E₀, hE⟩ := totalEnergy_pos lib c z g kpts vol occ xt
  exact ⟨_, fun t => hE _, fun t => (extVal_deriv hn _ pos v z g vol hv t).const_add E₀⟩

/-! ### Ground states -/

/-- C107: the free energies of (nearly) ground states for two arrangements of the nuclei differ by at most the bound of
the forces times the displacements, up to the accuracy with which the ground states are known. -/
theorem ground_displaced (lib : XcLib) {ns nk nb na : ℕ} {n : Fin 3 → ℕ} (hn : ∀ i, 0 < n i)
    (mask : Idx n → Bool) (ne spin : ℤ) (r : Bool) (method : String) (T eps ε ε' : ℝ)
    (pos pos' : Fin na → Fin 3 → ℝ) (z : Fin na → ℝ)
    (g : Idx n → Fin 3 → ℝ) (kpts : Fin nk → Fin 3 → ℝ) (vol : ℝ) (hv : 0 < vol) (xt : String)
    (c c' : Coef ns nk nb n) (occ occ' : Occ ns nk nb) (e e' : ℝ)
    (h : Spec.GroundWithin ε T eps mask ne spin r method
      (fun c occ e => totalEnergy lib c pos z g kpts vol (some occ) false xt = .ok e) c occ e)
    (h' : Spec.GroundWithin ε' T eps mask ne spin r method
      (fun c occ e => totalEnergy lib c pos' z g kpts vol (some occ) false xt = .ok e) c' occ' e') :
    |(e - T * Spec.smearingEntropy eps ((3 - (ns : ℝ)) / nk) occ)
        - (e' - T * Spec.smearingEntropy eps ((3 - (ns : ℝ)) / nk) occ')|
      ≤ ne * Spec.forceBound g vol * (∑ a, |z a| * Spec.length (fun d => pos a d - pos' a d)) + max ε ε' := by
  obtain ⟨e₁, h₁⟩ := totalEnergy_succeeds lib c pos' z g kpts vol (some occ) false xt (Or.inl rfl)
  obtain ⟨e₂, h₂⟩ := totalEnergy_succeeds lib c' pos z g kpts vol (some occ') false xt (Or.inl rfl)
  have a1 := totalEnergy_displaced lib hn mask ne spin r _ c occ h.physical pos pos' z g kpts vol hv xt e e₁ h.value h₁
  have a2 := totalEnergy_displaced lib hn mask ne spin r _ c' occ' h'.physical pos pos' z g kpts vol hv xt e₂ e' h₂
    h'.value
  have b1 := h.least c' occ' e₂ h'.physical (fun hm => (h'.given hm).trans (h.given hm).symm) h₂
  have b2 := h'.least c occ e₁ h.physical (fun hm => (h.given hm).trans (h'.given hm).symm) h₁
  rw [abs_le] at a1 a2 ⊢
  constructor <;> linarith [a1.1, a1.2, a2.1, a2.2, le_max_left ε ε', le_max_right ε ε']

/-- C107: the least free energy along a motion of the nuclei is Lipschitz continuous, and at almost every time its
derivative is the one that the electrostatic field of any ground state prescribes: the electrons need not be followed
(Hellmann and Feynman). -/
theorem ground_hellmannFeynman (lib : XcLib) {ns nk nb na : ℕ} {n : Fin 3 → ℕ} (hn : ∀ i, 0 < n i)
    (mask : Idx n → Bool) (ne spin : ℤ) (r : Bool) (method : String) (T eps : ℝ)
    (pos v : Fin na → Fin 3 → ℝ) (z : Fin na → ℝ)
    (g : Idx n → Fin 3 → ℝ) (kpts : Fin nk → Fin 3 → ℝ) (vol : ℝ) (hv : 0 < vol) (xt : String) (F : ℝ → ℝ)
    (hF : ∀ t, IsGLB (Spec.freeEnergies (ns := ns) (nk := nk) (nb := nb) T eps mask ne spin r method
      fun c occ e => totalEnergy lib c (fun a d => pos a d + t * v a d) z g kpts vol (some occ) false xt = .ok e) (F t)) :
    (∀ t t', |F t - F t'| ≤ ne * Spec.forceBound g vol * (∑ a, |z a| * Spec.length (v a)) * |t - t'|) ∧
    (∀ᵐ t, DifferentiableAt ℝ F t) ∧
    ∀ t, DifferentiableAt ℝ F t → ∀ (c : Coef ns nk nb n) (occ : Occ ns nk nb) e,
      Spec.GroundWithin 0 T eps mask ne spin r method
        (fun c occ e => totalEnergy lib c (fun a d => pos a d + t * v a d) z g kpts vol (some occ) false xt = .ok e)
        c occ e →
      HasDerivAt F (Spec.electrostaticSlope (densityGridReciprocal c vol occ) (fun a d => pos a d + t * v a d) v z g) t := by
  have hlen : ∀ t t' : ℝ, ∀ a, Spec.length (fun d => (pos a d + t * v a d) - (pos a d + t' * v a d))
      = |t - t'| * Spec.length (v a) := by
    intro t t' a
    unfold Spec.length
    rw [← Real.sqrt_sq_eq_abs, ← Real.sqrt_mul (sq_nonneg _), Finset.mul_sum]
    congr 1
    exact Finset.sum_congr rfl fun d _ => by ring
  have hone : ∀ t t', F t ≤ F t' + ne * Spec.forceBound g vol * (∑ a, |z a| * Spec.length (v a)) * |t - t'| := by
    intro t t'
    rw [← sub_le_iff_le_add]
    refine (hF t').2 ?_
    rintro f ⟨c, occ, e, hp, hgiven, he, rfl⟩
    obtain ⟨e₁, h₁⟩ := totalEnergy_succeeds lib c (fun a d => pos a d + t * v a d) z g kpts vol (some occ) false xt
      (Or.inl rfl)
    have a1 := totalEnergy_displaced lib hn mask ne spin r _ c occ hp _ _ z g kpts vol hv xt e₁ e h₁ he
    simp only [hlen] at a1
    have a2 := (hF t).1 ⟨c, occ, e₁, hp, hgiven, h₁, rfl⟩
    have a3 : ∑ a, |z a| * (|t - t'| * Spec.length (v a)) = (∑ a, |z a| * Spec.length (v a)) * |t - t'| := by
      rw [Finset.sum_mul]
      exact Finset.sum_congr rfl fun a _ => by ring
    rw [a3, ← mul_assoc] at a1
    linarith [(abs_le.mp a1).2]
  have hlip : ∀ t t', |F t - F t'| ≤ ne * Spec.forceBound g vol * (∑ a, |z a| * Spec.length (v a)) * |t - t'| := by
    intro t t'
    rw [abs_le]
    have h1 := hone t t'
    have h2 := hone t' t
    rw [abs_sub_comm] at h2
    constructor <;> linarith
  refine ⟨hlip, ?_, fun t ht c occ e hgr => ?_⟩
  · have hK : LipschitzWith (Real.toNNReal (ne * Spec.forceBound g vol * ∑ a, |z a| * Spec.length (v a))) F := by
      refine LipschitzWith.of_dist_le_mul fun t t' => ?_
      rw [Real.dist_eq, Real.dist_eq]
      refine (hlip t t').trans (mul_le_mul_of_nonneg_right ?_ (abs_nonneg _))
      exact Real.le_coe_toNNReal _
    exact hK.ae_differentiableAt_real
  · obtain ⟨E, hE, hd⟩ := totalEnergy_slope lib hn c occ pos v z g kpts vol hv xt
    have he : E t = e := Except.ok.inj ((hE t).symm.trans hgr.value)
    have hFt : F t = e - T * Spec.smearingEntropy eps ((3 - (ns : ℝ)) / nk) occ := by
      refine le_antisymm ((hF t).1 ⟨c, occ, e, hgr.physical, hgr.given, hgr.value, rfl⟩) ((hF t).2 ?_)
      rintro f ⟨c', occ', e', hp, hgiven, he', rfl⟩
      have := hgr.least c' occ' e' hp (fun hm => (hgiven hm).trans (hgr.given hm).symm) he'
      linarith
    have hmin : IsLocalMin (fun s => E s - F s) t := by
      refine Filter.Eventually.of_forall fun s => ?_
      have h1 := (hF s).1 ⟨c, occ, E s, hgr.physical, hgr.given, hE s, rfl⟩
      show E t - F t ≤ E s - F s
      rw [he, hFt]
      linarith
    have h0 := hmin.hasDerivAt_eq_zero ((hd t).sub ht.hasDerivAt)
    rw [sub_eq_zero] at h0
    rw [h0]
    exact ht.hasDerivAt

/-! ### Calculations -/

theorem entropy_gap {ns nk nb : ℕ} {n : Fin 3 → ℕ} {eps : ℝ} {mask : Idx n → Bool} {ne spin : ℤ} {r : Bool}
    {method : String} {c c' : Coef ns nk nb n} {occ occ' : Occ ns nk nb} (hk : 0 < nk) (hg : method = "gamma" → nk = 1)
    (heps : 0 < eps) (h : Spec.PhysicalState mask ne spin r (Spec.kShare method nk) c occ)
    (h' : Spec.PhysicalState mask ne spin r (Spec.kShare method nk) c' occ') :
    Spec.smearingEntropy eps ((3 - (ns : ℝ)) / nk) occ - Spec.smearingEntropy eps ((3 - (ns : ℝ)) / nk) occ'
      ≤ 2 * nb * Real.log 2 := by
  have hns := h.channels
  have htop := limit_eq_top (method := method) (nk := nk) hns hg
  have hk' : (0 : ℝ) < nk := by exact_mod_cast hk
  have hkn : (nk : ℝ) ≠ 0 := hk'.ne'
  have htop0 : 0 ≤ (3 - (ns : ℝ)) / nk := by
    refine div_nonneg ?_ hk'.le
    rw [hns]
    cases r <;> norm_num
  have h2 := entropy_range heps htop0 occ occ'
    (fun s k b => ⟨h.nonneg s k b, htop ▸ h.pauli s k b⟩)
    (fun s k b => ⟨h'.nonneg s k b, htop ▸ h'.pauli s k b⟩)
  have h3 : (ns : ℝ) * nk * nb * ((3 - (ns : ℝ)) / nk) = 2 * nb := by
    have : (ns : ℝ) * (3 - ns) = 2 := by
      rw [hns]
      cases r <;> norm_num
    field_simp
    linear_combination (nb : ℝ) * this
  rwa [h3] at h2

/-- The reported total energy belongs to a ground state at the requested temperature, without a convergence test or
without smearing. -/
theorem run_total_ground (L : RunLib) (cfg : RunConfig) {m : ℕ} (a : AseAtoms m) (size ksize : Fin 3 → ℤ)
    (ne spin : ℤ) (H : Spec.AdmissibleRun L cfg a size ksize ne spin)
    (hC : Spec.Triangular L.qrC) (hR : Spec.Triangular L.qrR) (hxc : Spec.ContinuousXc L.xc cfg.xc)
    (heps : 0 < cfg.eps) (hspin : cfg.occupation = "simplex-projector" → cfg.restricted = true → spin = 0)
    (hg : cfg.occupation = "gamma" → ∀ i, ksize i ≤ 1)
    (ε : ℝ) (hopt : ∀ opt, L.optimizer = .ok opt → Spec.NearOptimizer ε opt)
    (A : Matrix (Fin 3) (Fin 3) ℝ) (hA : A = (angstrom2bohr : ℝ) • a.cell)
    (pos : Fin m → Fin 3 → ℝ) (hpos : ∀ i d, pos i d = angstrom2bohr * a.positions i d)
    (z : Fin m → ℝ) (hz : ∀ i, z i = a.numbers i)
    (he : 3 ≤ cfg.epoch) (hw : 2 ≤ cfg.window) (hq : cfg.threshold ≤ 0 ∨ cfg.smearing ≤ 0)
    {n kn : Fin 3 → ℕ} (hn : Spec.LeastGrid size n) (hkn : Spec.LeastGrid ksize kn)
    (mask : Idx n → Bool) (hmask : createFreqMask cfg A n = .ok mask) :
    ∃ rep c occ, runAtoms L cfg a = .ok ⟨n, rep⟩ ∧
      Spec.GroundWithin (ns := if cfg.restricted then 1 else 2) (nk := (idxList kn).length)
        (nb := (ne.toNat + 1) / 2 + cfg.emptyBands) ε (max cfg.smearing 0) cfg.eps mask ne spin cfg.restricted
        cfg.occupation
        (fun c occ e => totalEnergy L.xc c pos z (gVectors A n) (flatRows (kVectors A kn)) |A.det| (some occ)
          false cfg.xc = .ok e) c occ (rep.total - rep.repulsion) := by
  have key : ∃ n' kn' rep, ∃ mask' : Idx n' → Bool, runAtoms L cfg a = .ok ⟨n', rep⟩ ∧ Spec.LeastGrid size n' ∧
      Spec.LeastGrid ksize kn' ∧ createFreqMask cfg A n' = .ok mask' ∧
      ∃ ns nb, nb = (ne.toNat + 1) / 2 + cfg.emptyBands ∧ ∃ c occ,
        Spec.GroundWithin (ns := ns) (nk := (idxList kn').length) (nb := nb) ε (max cfg.smearing 0) cfg.eps mask' ne spin
          cfg.restricted cfg.occupation
          (fun c occ e => totalEnergy L.xc c pos z (gVectors A n') (flatRows (kVectors A kn')) |A.det| (some occ)
            false cfg.xc = .ok e) c occ (rep.total - rep.repulsion) := by
    rcases hq with hq | hq
    · obtain ⟨n, kn, rep, mask, a1, a2, a3, a4, ns, nb, a5, h, -⟩ :=
        run_smearing L cfg a size ksize ne spin H hC hR hxc heps hspin hg ε hopt A hA pos hpos z hz he hw hq
      obtain ⟨c, occ, h⟩ := h.total
      exact ⟨n, kn, rep, mask, a1, a2, a3, a4, ns, nb, a5, c, occ, h⟩
    · obtain ⟨n, kn, rep, mask, a1, a2, a3, a4, ns, nb, a5, -, h⟩ :=
        run_ground_state L cfg a size ksize ne spin H hC hR hxc heps hspin hg ε hopt A hA pos hpos z hz
      obtain ⟨j, c, occ, -, h⟩ := h (by omega) hw
      rw [temperature_zero _ hq] at h
      rw [max_eq_right hq]
      exact ⟨n, kn, rep, mask, a1, a2, a3, a4, ns, nb, a5, c, occ, h⟩
  obtain ⟨n', kn', rep, mask', a1, a2, a3, a4, ns, nb, rfl, c, occ, h⟩ := key
  obtain rfl := leastGrid_unique hn a2
  obtain rfl := leastGrid_unique hkn a3
  obtain rfl := Except.ok.inj (hmask.symm.trans a4)
  obtain rfl := h.physical.channels
  exact ⟨rep, c, occ, a1, h⟩

/-- C107, whole calculations: when atoms are displaced the calculation succeeds as before, and its total energy without
the repulsion of the nuclei changes by at most the number of electrons times the bound of the forces times the charges
and lengths of the displacements, up to the accuracy of the optimiser and, with smearing, `2 T log 2` per band. -/
theorem run_displaced (L : RunLib) (cfg : RunConfig) {m : ℕ} (a : AseAtoms m) (p : Fin m → Fin 3 → ℝ)
    (size ksize : Fin 3 → ℤ) (ne spin : ℤ) (H : Spec.AdmissibleRun L cfg a size ksize ne spin)
    (hC : Spec.Triangular L.qrC) (hR : Spec.Triangular L.qrR) (hxc : Spec.ContinuousXc L.xc cfg.xc)
    (heps : 0 < cfg.eps) (hspin : cfg.occupation = "simplex-projector" → cfg.restricted = true → spin = 0)
    (hg : cfg.occupation = "gamma" → ∀ i, ksize i ≤ 1)
    (ε : ℝ) (hopt : ∀ opt, L.optimizer = .ok opt → Spec.NearOptimizer ε opt)
    (A : Matrix (Fin 3) (Fin 3) ℝ) (hA : A = (angstrom2bohr : ℝ) • a.cell)
    (he : 3 ≤ cfg.epoch) (hw : 2 ≤ cfg.window) (hq : cfg.threshold ≤ 0 ∨ cfg.smearing ≤ 0) :
    ∃ n rep rep', Spec.LeastGrid size n ∧ runAtoms L cfg a = .ok ⟨n, rep⟩ ∧
      runAtoms L cfg { a with positions := p } = .ok ⟨n, rep'⟩ ∧
      |(rep.total - rep.repulsion) - (rep'.total - rep'.repulsion)|
        ≤ ne * Spec.forceBound (gVectors A n) |A.det| *
            (∑ i, |(a.numbers i : ℝ)| * (angstrom2bohr * Spec.length (fun d => a.positions i d - p i d)))
          + 2 * max cfg.smearing 0 * ((ne.toNat + 1) / 2 + cfg.emptyBands : ℕ) * Real.log 2 + ε := by
  obtain ⟨n, kn, -, mask, -, a2, a3, a4, -⟩ :=
    run_history L cfg a size ksize ne spin H hC hR hxc heps hspin hg ε hopt A hA _ (fun _ _ => rfl) _ (fun _ => rfl)
  obtain ⟨rep, c, occ, h1, h2⟩ := run_total_ground L cfg a size ksize ne spin H hC hR hxc heps hspin hg ε hopt A hA
    (fun i d => angstrom2bohr * a.positions i d) (fun _ _ => rfl) (fun i => a.numbers i) (fun _ => rfl) he hw hq a2 a3
    mask a4
  obtain ⟨rep', c', occ', h1', h2'⟩ := run_total_ground L cfg { a with positions := p } size ksize ne spin
    { H with } hC hR hxc
    heps hspin hg ε hopt A hA (fun i d => angstrom2bohr * p i d) (fun _ _ => rfl) (fun i => a.numbers i)
    (fun _ => rfl) he hw hq a2 a3 mask a4
  refine ⟨n, rep, rep', a2, h1, h1', ?_⟩
  have hn : ∀ i, 0 < n i := fun i => smooth_pos (a2 i).1
  have hdet : 0 < |A.det| := by
    rw [hA, abs_pos]
    exact fromAse_det a cfg.spin H.cell
  have h3 := ground_displaced L.xc hn mask ne spin cfg.restricted cfg.occupation (max cfg.smearing 0) cfg.eps ε ε _ _ _
    (gVectors A n) (flatRows (kVectors A kn)) |A.det| hdet cfg.xc c c' occ occ' _ _ h2 h2'
  rw [max_self] at h3
  have hlen : ∀ i, Spec.length (fun d => angstrom2bohr * a.positions i d - angstrom2bohr * p i d)
      = angstrom2bohr * Spec.length (fun d => a.positions i d - p i d) := by
    intro i
    have hpos : (0 : ℝ) ≤ angstrom2bohr := by norm_num [angstrom2bohr]
    unfold Spec.length
    rw [show (angstrom2bohr : ℝ) = Real.sqrt ((angstrom2bohr : ℝ) ^ 2) by rw [Real.sqrt_sq hpos],
      ← Real.sqrt_mul (sq_nonneg _), Finset.mul_sum, Real.sqrt_sq hpos]
    congr 1
    exact Finset.sum_congr rfl fun d _ => by ring
  simp only [hlen] at h3
  have hkpos := idxList_length_pos fun i => smooth_pos (a3 i).1
  have ent := entropy_gap hkpos (fun h => one_kpoint a3 (hg h)) heps h2.physical h2'.physical
  have ent' := entropy_gap hkpos (fun h => one_kpoint a3 (hg h)) heps h2'.physical h2.physical
  have hT := le_max_right cfg.smearing 0
  have m1 := mul_le_mul_of_nonneg_left ent hT
  have m2 := mul_le_mul_of_nonneg_left ent' hT
  rw [abs_le] at h3 ⊢
  constructor <;> linarith [h3.1, h3.2]

/-! ### Concrete cases -/

/-- A state of least free energy attains the greatest lower bound of the free energies. -/
theorem ground_isGLB {ns nk nb : ℕ} {n : Fin 3 → ℕ} {t eps : ℝ} {mask : Idx n → Bool} {ne spin : ℤ} {r : Bool}
    {method : String} {energy : Coef ns nk nb n → Occ ns nk nb → ℝ → Prop} {c : Coef ns nk nb n} {occ : Occ ns nk nb}
    {e : ℝ} (h : Spec.GroundWithin 0 t eps mask ne spin r method energy c occ e) :
    IsGLB (Spec.freeEnergies t eps mask ne spin r method energy)
      (e - t * Spec.smearingEntropy eps ((3 - (ns : ℝ)) / nk) occ) := by
  refine ⟨?_, fun x hx => hx ⟨c, occ, e, h.physical, h.given, h.value, rfl⟩⟩
  rintro f ⟨c', occ', e', hp, hgiven, he', rfl⟩
  have := h.least c' occ' e' hp (fun hm => (hgiven hm).trans (h.given hm).symm) he'
  linarith

/-- The hypotheses of `run_displaced` hold for the lithium atom, moved to any place. -/
example {ε : ℝ} (hε : 0 < ε) (p : Fin 1 → Fin 3 → ℝ) :
    let L : RunLib := { lithiumLib diracLib with
      qrC := gramSchmidtQR ℂ, qrR := gramSchmidtQR ℝ, optimizer := .ok (nearOptimizer ε) }
    ∃ n rep rep', runAtoms L lithiumConfig (⟨fun _ => 3, 0, 1⟩ : AseAtoms 1) = .ok ⟨n, rep⟩ ∧
      runAtoms L lithiumConfig (⟨fun _ => 3, p, 1⟩ : AseAtoms 1) = .ok ⟨n, rep'⟩ ∧
      |(rep.total - rep.repulsion) - (rep'.total - rep'.repulsion)|
        ≤ 3 * Spec.forceBound (gVectors ((angstrom2bohr : ℝ) • 1) n)
            |((angstrom2bohr : ℝ) • (1 : Matrix (Fin 3) (Fin 3) ℝ)).det| *
            (3 * (angstrom2bohr * Spec.length (fun d => 0 - p 0 d))) + ε := by
  intro L
  obtain ⟨n, rep, rep', -, h1, h2, h3⟩ := run_displaced L lithiumConfig (⟨fun _ => 3, 0, 1⟩ : AseAtoms 1) p (fun _ => 4)
    (fun _ => 2) 3 1
    { lithium_admissible diracLib with optimizer := ⟨nearOptimizer ε, rfl, nearOptimizer_keeps ε⟩ }
    (gramSchmidtQR_triangular ℂ) (gramSchmidtQR_triangular ℝ) diracLib_continuous (by norm_num [lithiumConfig])
    (fun _ h => absurd h (by decide)) (fun h => absurd h (by decide)) ε
    (fun o ho => by cases Except.ok.inj ho; exact nearOptimizer_near hε) _ rfl (by decide) (by decide) (Or.inr le_rfl)
  refine ⟨n, rep, rep', h1, h2, ?_⟩
  simpa [lithiumConfig] using h3

/-- The hypotheses of `ground_displaced` and `ground_hellmannFeynman` hold for the lithium atom on its way along a
line: for every time there is a ground state, and the least free energies are a function of the time. -/
theorem lithium_moving (v : Fin 3 → ℝ) : ∃ (n kn : Fin 3 → ℕ) (mask : Idx n → Bool) (F : ℝ → ℝ), (∀ i, 0 < n i) ∧
    0 < |((angstrom2bohr : ℝ) • (1 : Matrix (Fin 3) (Fin 3) ℝ)).det| ∧ ∀ t,
    IsGLB (Spec.freeEnergies (ns := 2) (nk := (idxList kn).length) (nb := 4) 0 lithiumConfig.eps mask 3 1 false
      lithiumConfig.occupation fun c occ e => totalEnergy diracLib c (fun (_ : Fin 1) d => 0 + t * v d) (fun _ => 3)
        (gVectors ((angstrom2bohr : ℝ) • 1) n) (flatRows (kVectors ((angstrom2bohr : ℝ) • 1) kn))
        |((angstrom2bohr : ℝ) • (1 : Matrix (Fin 3) (Fin 3) ℝ)).det| (some occ) false lithiumConfig.xc = .ok e) (F t) ∧
    ∃ c occ e, Spec.GroundWithin (ns := 2) (nk := (idxList kn).length) (nb := 4) 0 0 lithiumConfig.eps mask 3 1 false
      lithiumConfig.occupation (fun c occ e => totalEnergy diracLib c (fun (_ : Fin 1) d => 0 + t * v d) (fun _ => 3)
        (gVectors ((angstrom2bohr : ℝ) • 1) n) (flatRows (kVectors ((angstrom2bohr : ℝ) • 1) kn))
        |((angstrom2bohr : ℝ) • (1 : Matrix (Fin 3) (Fin 3) ℝ)).det| (some occ) false lithiumConfig.xc = .ok e)
        c occ e := by
  let L : RunLib := { lithiumLib diracLib with
      qrC := gramSchmidtQR ℂ, qrR := gramSchmidtQR ℝ, optimizer := .ok (nearOptimizer 1) }
  have H : Spec.AdmissibleRun L lithiumConfig (⟨fun _ => 3, 0, 1⟩ : AseAtoms 1) (fun _ => 4) (fun _ => 2) 3 1 :=
    { lithium_admissible diracLib with optimizer := ⟨nearOptimizer 1, rfl, nearOptimizer_keeps 1⟩ }
  have hopt : ∀ o, L.optimizer = .ok o → Spec.NearOptimizer 1 o := fun o ho => by
    cases Except.ok.inj ho; exact nearOptimizer_near one_pos
  obtain ⟨n, kn, -, mask, -, hn, hkn, hmask, -⟩ := run_history L _ _ _ _ _ _ H (gramSchmidtQR_triangular ℂ)
    (gramSchmidtQR_triangular ℝ) diracLib_continuous (by norm_num [lithiumConfig])
    (fun _ h => absurd h (by decide)) (fun h => absurd h (by decide)) 1 hopt _ rfl _ (fun _ _ => rfl) _ (fun _ => rfl)
  obtain ⟨rep, c, occ, -, hgr⟩ := run_total_ground L _ _ _ _ _ _ H (gramSchmidtQR_triangular ℂ)
    (gramSchmidtQR_triangular ℝ) diracLib_continuous (by norm_num [lithiumConfig])
    (fun _ h => absurd h (by decide)) (fun h => absurd h (by decide)) 1 hopt _ rfl _ (fun _ _ => rfl) _ (fun _ => rfl)
    (by decide) (by decide) (Or.inr le_rfl) hn hkn mask hmask
  have hex := fun t : ℝ => ground_attained diracLib lithiumConfig.xc diracLib_continuous (ns := 2)
    (nk := (idxList kn).length) (nb := 4)
    (fun (_ : Fin 1) d => 0 + t * v d) (fun _ => 3) (gVectors ((angstrom2bohr : ℝ) • 1) n)
    (flatRows (kVectors ((angstrom2bohr : ℝ) • 1) kn)) |((angstrom2bohr : ℝ) • (1 : Matrix (Fin 3) (Fin 3) ℝ)).det|
    0 lithiumConfig.eps (by norm_num [lithiumConfig]) mask 3 1 false lithiumConfig.occupation
    ⟨c, occ, hgr.physical, hgr.given⟩
  choose c' occ' e' h' using hex
  exact ⟨n, kn, mask, _, fun i => smooth_pos (hn i).1, by
    rw [abs_pos]
    exact fromAse_det (⟨fun _ => 3, 0, 1⟩ : AseAtoms 1) none H.cell, fun t => ⟨ground_isGLB (h' t), c' t, occ' t, e' t, h' t⟩⟩

end Jrystal
