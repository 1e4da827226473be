import Verif.Props.ProjGrad
import Mathlib.Analysis.Convex.Deriv
import Mathlib.Analysis.Complex.ExponentialBounds

/- C122: what a vanishing gradient of the occupations means. -/
namespace Jrystal
open scoped BigOperators Topology
open Filter

variable {n nk nb : ℕ}

private theorem clip01_frac (t : ℝ) : (0 < clip01 t ∧ clip01 t < 1) ↔ (0 < t ∧ t < 1) := by
  constructor
  · rintro ⟨h1, h2⟩
    refine ⟨?_, ?_⟩
    · by_contra h
      rw [clip01_low (not_lt.1 h)] at h1
      exact lt_irrefl _ h1
    · by_contra h
      rw [clip01_high (not_lt.1 h)] at h2
      exact lt_irrefl _ h2
  · rintro ⟨h1, h2⟩
    rw [clip01_mid h1.le h2.le]
    exact ⟨h1, h2⟩

/-- The computed gradient of a sum of energies vanishes exactly if all fractional entries have the same energy. -/
theorem projJvp_stationary {s : ℝ} (h0 : 0 < s) (hn : s < n) (x : Fin n → ℝ) (hx : ∀ i, 0 < x i ∧ x i < 1)
    (hd : DifferentiableAt ℝ (fun x : Fin n → ℝ => proj x s) x) (e : Fin n → ℝ) :
    (∀ v, ∑ i, e i * projJvp x v s i = 0) ↔
      ∀ i j, 0 < proj x s i → proj x s i < 1 → 0 < proj x s j → proj x s j < 1 → e i = e j := by
  obtain ⟨lam, hp, hsum, hj⟩ := proj_closed s h0 hn x hx
  have hk := fun i => proj_no_kink h0 hn hx hsum hd i
  set A := Finset.univ.filter fun j => 0 < x j - lam ∧ x j - lam < 1 with hA
  have hmem : ∀ i, i ∈ A ↔ 0 < proj x s i ∧ proj x s i < 1 := by
    intro i
    rw [hp]
    beta_reduce
    rw [clip01_frac, hA]
    simp
  have hval : ∀ v i, projJvp x v s i = activeMap A v i := by
    intro v i
    rw [hj, activeMap_apply, hA]
    simp only [Finset.mem_filter, Finset.mem_univ, true_and]
    refine if_congr Iff.rfl rfl ?_
    rw [if_neg (fun h => h.elim (hk i).1 (hk i).2)]
  have hexp : ∀ v, ∑ i, e i * projJvp x v s i = ∑ i ∈ A, (e i - meanOn A e) * v i := by
    intro v
    simp only [hval, activeMap_apply]
    have h1 : ∀ i, e i * (if i ∈ A then v i - meanOn A v else 0) = if i ∈ A then e i * (v i - meanOn A v) else 0 := by
      intro i
      split_ifs
      · rfl
      · exact mul_zero _
    rw [Finset.sum_congr rfl fun i _ => h1 i, ← Finset.sum_filter, Finset.filter_mem_eq_inter, Finset.univ_inter]
    have h2 : ∑ i ∈ A, e i * (v i - meanOn A v) = ∑ i ∈ A, e i * v i - (∑ i ∈ A, e i) * meanOn A v := by
      rw [Finset.sum_mul, ← Finset.sum_sub_distrib]
      exact Finset.sum_congr rfl fun i _ => by ring
    have h3 : ∑ i ∈ A, (e i - meanOn A e) * v i = ∑ i ∈ A, e i * v i - meanOn A e * ∑ i ∈ A, v i := by
      rw [Finset.mul_sum, ← Finset.sum_sub_distrib]
      exact Finset.sum_congr rfl fun i _ => by ring
    rw [h2, h3]
    unfold meanOn
    ring
  constructor
  · intro h i j hi0 hi1 hj0 hj1
    have key : ∀ i, i ∈ A → e i = meanOn A e := by
      intro i hi
      have := h (Pi.single i 1)
      rw [hexp, Finset.sum_eq_single_of_mem i hi (fun j _ hne => by rw [Pi.single_eq_of_ne hne, mul_zero]),
        Pi.single_eq_same, mul_one] at this
      linarith
    rw [key i ((hmem i).2 ⟨hi0, hi1⟩), key j ((hmem j).2 ⟨hj0, hj1⟩)]
  · intro h v
    rw [hexp]
    refine Finset.sum_eq_zero fun i hi => ?_
    have hi' := (hmem i).1 hi
    have hm : meanOn A e = e i := by
      unfold meanOn
      have hc : (A.card : ℝ) ≠ 0 := by exact_mod_cast (Finset.card_pos.2 ⟨i, hi⟩).ne'
      rw [div_eq_iff hc, Finset.sum_congr rfl (fun j hj' => show e j = e i from
        h j i ((hmem j).1 hj').1 ((hmem j).1 hj').2 hi'.1 hi'.2), Finset.sum_const, nsmul_eq_mul, mul_comm]
    rw [hm, sub_self, zero_mul]

/-- An entry below the cut has no influence on the result, whatever its energy. -/
theorem projJvp_cut {s : ℝ} (h0 : 0 < s) (hn : s < n) (x : Fin n → ℝ) (hx : ∀ i, 0 < x i ∧ x i < 1) (i : Fin n)
    (hcut : ∀ mu, ∑ j, clip01 (x j - mu) = s → x i - mu < 0) (c : ℝ) (j : Fin n) :
    proj x s i = 0 ∧ projJvp x (Pi.single i c) s j = 0 := by
  obtain ⟨mu, hp, hsum, hj⟩ := proj_closed s h0 hn x hx
  have hi := hcut mu hsum
  refine ⟨by rw [hp]; exact clip01_low hi.le, ?_⟩
  have hm : meanOn (Finset.univ.filter fun j => 0 < x j - mu ∧ x j - mu < 1) (Pi.single i c) = 0 := by
    unfold meanOn
    rw [Finset.sum_eq_zero fun k hk => ?_, zero_div]
    have hk' := (Finset.mem_filter.1 hk).2
    exact Pi.single_eq_of_ne (M := fun _ => ℝ) (fun h : k = i => by rw [h] at hk'; linarith [hk'.1]) c
  rw [hj, hm]
  by_cases hji : j = i
  · subst hji
    rw [if_neg (by rintro ⟨h, -⟩; linarith), if_neg (by rintro (h | h) <;> linarith)]
  · rw [Pi.single_eq_of_ne hji]
    simp

private theorem chan_stationary (hk : 0 < nk) {m : ℝ} (h0 : 0 < m) (hm : m < ((nk * nb : ℕ) : ℝ))
    (p : Fin nk → Fin nb → ℝ) (hd : DifferentiableAt ℝ (occChan nk nb m) p) (e : Fin nk → Fin nb → ℝ) :
    (∀ d : Fin nk → Fin nb → ℝ, ∑ k, ∑ b, e k b * (unravel (fun i => projJvp (ravel fun k b => sigmoid (p k b))
        (ravel fun k b => sigmoidJvp (p k b) (d k b)) m i / (nk : ℝ)) : Fin nk → Fin nb → ℝ) k b = 0) ↔
      ∀ k b k' b', 0 < occChan nk nb m p k b → occChan nk nb m p k b < 1 / nk →
        0 < occChan nk nb m p k' b' → occChan nk nb m p k' b' < 1 / nk → e k b = e k' b' := by
  have hkR : (0 : ℝ) < nk := by exact_mod_cast hk
  have hpd := (occChan_deriv hk h0 hm p hd).1
  have hst := projJvp_stationary h0 hm (ravel fun k b => sigmoid (p k b)) (fun i => sigmoid_bounds _) hpd (ravel e)
  have hsum : ∀ d : Fin nk → Fin nb → ℝ, ∑ k, ∑ b, e k b * (unravel (fun i => projJvp (ravel fun k b => sigmoid (p k b))
        (ravel fun k b => sigmoidJvp (p k b) (d k b)) m i / (nk : ℝ)) : Fin nk → Fin nb → ℝ) k b
      = (∑ i, ravel e i * projJvp (ravel fun k b => sigmoid (p k b)) (ravel fun k b => sigmoidJvp (p k b) (d k b)) m i)
        / nk := by
    intro d
    rw [Finset.sum_div, ← sum_unravel (fun i => ravel e i * projJvp (ravel fun k b => sigmoid (p k b))
      (ravel fun k b => sigmoidJvp (p k b) (d k b)) m i / (nk : ℝ))]
    refine Finset.sum_congr rfl fun k _ => Finset.sum_congr rfl fun b _ => ?_
    unfold unravel
    beta_reduce
    rw [mul_div_assoc]
    congr 1
    unfold ravel
    simp
  have hall : (∀ d : Fin nk → Fin nb → ℝ, ∑ k, ∑ b, e k b * (unravel (fun i => projJvp (ravel fun k b => sigmoid (p k b))
        (ravel fun k b => sigmoidJvp (p k b) (d k b)) m i / (nk : ℝ)) : Fin nk → Fin nb → ℝ) k b = 0) ↔
      ∀ v, ∑ i, ravel e i * projJvp (ravel fun k b => sigmoid (p k b)) v m i = 0 := by
    constructor
    · intro h v
      have hv : (ravel fun k b => sigmoidJvp (p k b) (unravel v k b / (sigmoid (p k b) * (1 - sigmoid (p k b))))) = v := by
        funext i
        have hb := sigmoid_bounds (p (finProdFinEquiv.symm i).1 (finProdFinEquiv.symm i).2)
        unfold ravel sigmoidJvp unravel
        beta_reduce
        rw [div_mul_cancel₀ _ (mul_pos hb.1 (by linarith [hb.2])).ne']
        simp only [Prod.mk.eta, Equiv.apply_symm_apply]
      have := h fun k b => unravel v k b / (sigmoid (p k b) * (1 - sigmoid (p k b)))
      rw [hsum, hv, div_eq_zero_iff] at this
      exact this.resolve_right hkR.ne'
    · intro h d
      rw [hsum, h, zero_div]
  rw [hall, hst]
  have hocc : ∀ k b, (0 < occChan nk nb m p k b ↔ 0 < proj (ravel fun k b => sigmoid (p k b)) m (finProdFinEquiv (k, b)))
      ∧ (occChan nk nb m p k b < 1 / nk ↔ proj (ravel fun k b => sigmoid (p k b)) m (finProdFinEquiv (k, b)) < 1) := by
    intro k b
    have e1 : occChan nk nb m p k b = proj (ravel fun k b => sigmoid (p k b)) m (finProdFinEquiv (k, b)) / nk := rfl
    rw [e1]
    exact ⟨div_pos_iff_of_pos_right hkR, div_lt_div_iff_of_pos_right hkR⟩
  have hr : ∀ k b, ravel e (finProdFinEquiv (k, b)) = e k b := by
    intro k b
    unfold ravel
    simp
  constructor
  · intro h k b k' b' a1 a2 a3 a4
    rw [← hr k b, ← hr k' b']
    exact h _ _ ((hocc k b).1.1 a1) ((hocc k b).2.1 a2) ((hocc k' b').1.1 a3) ((hocc k' b').2.1 a4)
  · intro h i j a1 a2 a3 a4
    obtain ⟨⟨k, b⟩, rfl⟩ := finProdFinEquiv.surjective i
    obtain ⟨⟨k', b'⟩, rfl⟩ := finProdFinEquiv.surjective j
    rw [hr, hr]
    exact h k b k' b' ((hocc k b).1.2 a1) ((hocc k b).2.2 a2) ((hocc k' b').1.2 a3) ((hocc k' b').2.2 a4)

/-- The occupations of both spin channels (row 1 is zero in a restricted calculation). -/
noncomputable def Spec.occAll {nk nb : ℕ} (ne spin : ℤ) (r : Bool)
    (P : (Fin nk → Fin nb → ℝ) × (Fin nk → Fin nb → ℝ)) : Fin 2 → Fin nk → Fin nb → ℝ :=
  fun sp k b => Spec.occEntry ne spin r sp k b P

/-- The occupation of one spin channel is neither zero nor the largest possible one. -/
def Spec.Fractional {nk nb : ℕ} (ne spin : ℤ) (P : (Fin nk → Fin nb → ℝ) × (Fin nk → Fin nb → ℝ)) (sp : Fin 2)
    (k : Fin nk) (b : Fin nb) : Prop :=
  0 < Spec.occEntry ne spin false sp k b P ∧ Spec.occEntry ne spin false sp k b P < 1 / nk

/-- The row of the result that spin channel `sp` is part of. -/
def Spec.rowOf (r : Bool) (sp : Fin 2) : Fin 2 := if r then 0 else sp

/-- The gradient that reverse-mode differentiation returns for an energy with orbital energies `eps`: its product
with a change of the parameters. -/
noncomputable def Spec.energyJvp {nk nb : ℕ} (ne spin : ℤ) (r : Bool) (eps : Fin 2 → Fin nk → Fin nb → ℝ)
    (P D : (Fin nk → Fin nb → ℝ) × (Fin nk → Fin nb → ℝ)) : ℝ :=
  ∑ sp : Fin 2, ∑ k, ∑ b, eps sp k b * (simplexProjectorJvp P.1 P.2 D.1 D.2 ne spin r).getD sp 0 k b

/-- The gradient of an energy with respect to the parameters of the occupations is zero exactly if, in each spin
channel, all fractionally occupied bands have the same orbital energy.  Empty and full bands do not enter. -/
theorem occupation_stationary (hk : 0 < nk) (ne spin : ℤ) (hpar : ne % 2 = spin % 2) (h0 : |spin| < ne)
    (hb : ne + |spin| < 2 * nb) (r : Bool) (P : (Fin nk → Fin nb → ℝ) × (Fin nk → Fin nb → ℝ))
    (hd : ∀ sp k b, DifferentiableAt ℝ (Spec.occEntry ne spin r sp k b) P) (eps : Fin 2 → Fin nk → Fin nb → ℝ) :
    (∀ D, Spec.energyJvp ne spin r eps P D = 0) ↔
      ∀ sp k b k' b', Spec.Fractional ne spin P sp k b → Spec.Fractional ne spin P sp k' b' →
        eps (Spec.rowOf r sp) k b = eps (Spec.rowOf r sp) k' b' := by
  obtain ⟨up, down⟩ := P
  obtain ⟨u0, u1, d0, d1⟩ := occ_targets hk hpar h0 hb
  obtain ⟨cu, cd⟩ := occ_channels_differentiable ne spin r up down hd
  have su := chan_stationary hk u0 u1 up cu (eps (Spec.rowOf r 0))
  have sd := chan_stationary hk d0 d1 down cd (eps (Spec.rowOf r 1))
  have hz : ∀ (m : ℝ) (p : Fin nk → Fin nb → ℝ) (e : Fin nk → Fin nb → ℝ), 0 < m → m < ((nk * nb : ℕ) : ℝ) →
      DifferentiableAt ℝ (occChan nk nb m) p →
      ∑ k, ∑ b, e k b * (unravel (fun i => projJvp (ravel fun k b => sigmoid (p k b))
        (ravel fun k b => sigmoidJvp (p k b) ((0 : Fin nk → Fin nb → ℝ) k b)) m i / (nk : ℝ)) : Fin nk → Fin nb → ℝ) k b = 0 := by
    intro m p e m0 m1 hp
    obtain ⟨-, L, -, hL⟩ := occChan_deriv hk m0 m1 p hp
    rw [← hL 0, map_zero]
    simp
  have hsplit : ∀ D : (Fin nk → Fin nb → ℝ) × (Fin nk → Fin nb → ℝ), Spec.energyJvp ne spin r eps (up, down) D
      = ∑ k, ∑ b, eps (Spec.rowOf r 0) k b * (unravel (fun i => projJvp (ravel fun k b => sigmoid (up k b))
        (ravel fun k b => sigmoidJvp (up k b) (D.1 k b)) (((ne + spin) / 2 * nk : ℤ) : ℝ) i / (nk : ℝ)) : Fin nk → Fin nb → ℝ) k b
      + ∑ k, ∑ b, eps (Spec.rowOf r 1) k b * (unravel (fun i => projJvp (ravel fun k b => sigmoid (down k b))
        (ravel fun k b => sigmoidJvp (down k b) (D.2 k b)) (((ne - spin) / 2 * nk : ℤ) : ℝ) i / (nk : ℝ)) : Fin nk → Fin nb → ℝ) k b := by
    intro D
    unfold Spec.energyJvp
    rw [Fin.sum_univ_two]
    cases r with
    | false => rfl
    | true =>
      have h1 : ∀ k b, (simplexProjectorJvp up down D.1 D.2 ne spin true).getD ((1 : Fin 2) : ℕ) 0 k b = 0 := fun _ _ => rfl
      have h2 : ∀ k b, (simplexProjectorJvp up down D.1 D.2 ne spin true).getD ((0 : Fin 2) : ℕ) 0 k b
          = (unravel (fun i => projJvp (ravel fun k b => sigmoid (up k b))
            (ravel fun k b => sigmoidJvp (up k b) (D.1 k b)) (((ne + spin) / 2 * nk : ℤ) : ℝ) i / (nk : ℝ)) : Fin nk → Fin nb → ℝ) k b
          + (unravel (fun i => projJvp (ravel fun k b => sigmoid (down k b))
            (ravel fun k b => sigmoidJvp (down k b) (D.2 k b)) (((ne - spin) / 2 * nk : ℤ) : ℝ) i / (nk : ℝ)) : Fin nk → Fin nb → ℝ) k b := by
        intro k b
        unfold simplexProjectorJvp sumSpin
        simp
      simp only [h1, h2, mul_zero, Finset.sum_const_zero, add_zero, mul_add, Finset.sum_add_distrib, Spec.rowOf, if_true]
  have hboth : (∀ D, Spec.energyJvp ne spin r eps (up, down) D = 0) ↔
      (∀ d : Fin nk → Fin nb → ℝ, ∑ k, ∑ b, eps (Spec.rowOf r 0) k b * (unravel (fun i => projJvp (ravel fun k b => sigmoid (up k b))
        (ravel fun k b => sigmoidJvp (up k b) (d k b)) (((ne + spin) / 2 * nk : ℤ) : ℝ) i / (nk : ℝ)) : Fin nk → Fin nb → ℝ) k b = 0)
      ∧ (∀ d : Fin nk → Fin nb → ℝ, ∑ k, ∑ b, eps (Spec.rowOf r 1) k b * (unravel (fun i => projJvp (ravel fun k b => sigmoid (down k b))
        (ravel fun k b => sigmoidJvp (down k b) (d k b)) (((ne - spin) / 2 * nk : ℤ) : ℝ) i / (nk : ℝ)) : Fin nk → Fin nb → ℝ) k b = 0) := by
    constructor
    · intro h
      refine ⟨fun d => ?_, fun d => ?_⟩
      · have := h (d, 0)
        rw [hsplit, hz _ down _ d0 d1 cd, add_zero] at this
        exact this
      · have := h (0, d)
        rw [hsplit, hz _ up _ u0 u1 cu, zero_add] at this
        exact this
    · rintro ⟨h1, h2⟩ D
      rw [hsplit, h1, h2, add_zero]
  rw [hboth, su, sd]
  constructor
  · rintro ⟨h1, h2⟩ sp k b k' b' f1 f2
    fin_cases sp
    · exact h1 k b k' b' f1.1 f1.2 f2.1 f2.2
    · exact h2 k b k' b' f1.1 f1.2 f2.1 f2.2
  · intro h
    exact ⟨fun k b k' b' a1 a2 a3 a4 => h 0 k b k' b' ⟨a1, a2⟩ ⟨a3, a4⟩,
      fun k b k' b' a1 a2 a3 a4 => h 1 k b k' b' ⟨a1, a2⟩ ⟨a3, a4⟩⟩

/-- For an energy that is a differentiable function of the occupations with orbital energies `eps`, the gradient that
reverse-mode differentiation returns is the derivative of the energy with respect to the parameters. -/
theorem energyJvp_gradient_partial (hk : 0 < nk) (ne spin : ℤ) (hpar : ne % 2 = spin % 2) (h0 : |spin| < ne)
    (hb : ne + |spin| < 2 * nb) (r : Bool) (P : (Fin nk → Fin nb → ℝ) × (Fin nk → Fin nb → ℝ))
    (hd : ∀ sp k b, DifferentiableAt ℝ (Spec.occEntry ne spin r sp k b) P)
    (E : (Fin 2 → Fin nk → Fin nb → ℝ) → ℝ) (hE : DifferentiableAt ℝ E (Spec.occAll ne spin r P))
    (eps : Fin 2 → Fin nk → Fin nb → ℝ)
    (heps : ∀ v, fderiv ℝ E (Spec.occAll ne spin r P) v = ∑ sp, ∑ k, ∑ b, eps sp k b * v sp k b)
    (D : (Fin nk → Fin nb → ℝ) × (Fin nk → Fin nb → ℝ)) :
    fderiv ℝ (fun P => E (Spec.occAll ne spin r P)) P D = Spec.energyJvp ne spin r eps P D := by
  have hocc : HasFDerivAt (Spec.occAll ne spin r)
      (ContinuousLinearMap.pi fun sp : Fin 2 => ContinuousLinearMap.pi fun k : Fin nk => ContinuousLinearMap.pi fun b : Fin nb =>
        fderiv ℝ (Spec.occEntry ne spin r sp k b) P) P :=
    hasFDerivAt_pi.2 fun sp => hasFDerivAt_pi.2 fun k => hasFDerivAt_pi.2 fun b => (hd sp k b).hasFDerivAt
  have hc := HasFDerivAt.comp (g := E) (f := Spec.occAll ne spin r) P hE.hasFDerivAt hocc
  have hc' : HasFDerivAt (fun P => E (Spec.occAll ne spin r P)) _ P := hc
  rw [hc'.fderiv, ContinuousLinearMap.comp_apply, heps]
  unfold Spec.energyJvp
  refine Finset.sum_congr rfl fun sp _ => Finset.sum_congr rfl fun k _ => Finset.sum_congr rfl fun b _ => ?_
  congr 1
  exact simplexProjectorJvp_derivative_partial hk ne spin hpar h0 hb r P.1 P.2 hd D.1 D.2 sp k b

/-- If the gradient of a convex energy is zero and no band is empty or full, the occupations minimise the energy among
all arrays with the same number of electrons in each row.  Missing: the same with empty or full bands, which
`occupation_stuck` refutes. -/
theorem occupation_stationary_optimal_partial (hk : 0 < nk) (ne spin : ℤ) (hpar : ne % 2 = spin % 2) (h0 : |spin| < ne)
    (hb : ne + |spin| < 2 * nb) (r : Bool) (P : (Fin nk → Fin nb → ℝ) × (Fin nk → Fin nb → ℝ))
    (hd : ∀ sp k b, DifferentiableAt ℝ (Spec.occEntry ne spin r sp k b) P)
    (E : (Fin 2 → Fin nk → Fin nb → ℝ) → ℝ) (hE : DifferentiableAt ℝ E (Spec.occAll ne spin r P))
    (hconv : ConvexOn ℝ Set.univ E)
    (hgrad : fderiv ℝ (fun P => E (Spec.occAll ne spin r P)) P = 0)
    (hfrac : ∀ sp k b, Spec.Fractional ne spin P sp k b)
    (o : Fin 2 → Fin nk → Fin nb → ℝ) (ho : ∀ sp, ∑ k, ∑ b, o sp k b = ∑ k, ∑ b, Spec.occAll ne spin r P sp k b)
    (hrow : r = true → o 1 = 0) :
    E (Spec.occAll ne spin r P) ≤ E o := by
  set o₀ := Spec.occAll ne spin r P with ho₀
  set L := fderiv ℝ E o₀ with hL
  set eps : Fin 2 → Fin nk → Fin nb → ℝ := fun sp k b => L (Pi.single sp (Pi.single k (Pi.single b 1))) with heps
  have hLe : ∀ v, L v = ∑ sp, ∑ k, ∑ b, eps sp k b * v sp k b := by
    intro v
    have hv : v = ∑ sp, ∑ k, ∑ b, v sp k b • (Pi.single sp (Pi.single k (Pi.single b 1)) : Fin 2 → Fin nk → Fin nb → ℝ) := by
      funext sp k b
      simp only [Finset.sum_apply, Pi.smul_apply, smul_eq_mul, Pi.single_apply]
      rw [Finset.sum_eq_single sp (fun j _ hj => Finset.sum_eq_zero fun _ _ => Finset.sum_eq_zero fun _ _ => by
            rw [if_neg hj.symm]; simp) (fun h => absurd (Finset.mem_univ _) h),
        Finset.sum_eq_single k (fun j _ hj => Finset.sum_eq_zero fun _ _ => by
            rw [if_pos rfl, Pi.single_apply, if_neg hj.symm]; simp) (fun h => absurd (Finset.mem_univ _) h),
        Finset.sum_eq_single b (fun j _ hj => by
            rw [if_pos rfl, Pi.single_apply, if_pos rfl, Pi.single_apply, if_neg hj.symm]; simp)
            (fun h => absurd (Finset.mem_univ _) h)]
      simp
    conv_lhs => rw [hv]
    simp only [map_sum, map_smul, smul_eq_mul]
    exact Finset.sum_congr rfl fun _ _ => Finset.sum_congr rfl fun _ _ => Finset.sum_congr rfl fun _ _ => mul_comm _ _
  have hst := (occupation_stationary hk ne spin hpar h0 hb r P hd eps).1 fun D => by
    rw [← energyJvp_gradient_partial hk ne spin hpar h0 hb r P hd E hE eps hLe D, hgrad]
    rfl
  have hzero : L (o - o₀) = 0 := by
    rw [hLe]
    refine Finset.sum_eq_zero fun sp _ => ?_
    by_cases hcase : r = true ∧ sp = 1
    · obtain ⟨hr, rfl⟩ := hcase
      refine Finset.sum_eq_zero fun k _ => Finset.sum_eq_zero fun b _ => ?_
      have h1 : o₀ 1 k b = 0 := by
        rw [ho₀, hr]
        rfl
      rw [Pi.sub_apply, Pi.sub_apply, Pi.sub_apply, hrow hr, h1]
      simp
    · have hrowsp : Spec.rowOf r sp = sp := by
        unfold Spec.rowOf
        cases r with
        | false => rfl
        | true =>
          have : sp = 0 := by
            fin_cases sp
            · rfl
            · exact absurd ⟨rfl, rfl⟩ hcase
          rw [this]
          rfl
      have hnb : 0 < nb := by
        have := abs_nonneg spin
        omega
      have hc : ∀ k b, eps sp k b = eps sp ⟨0, hk⟩ ⟨0, hnb⟩ := by
        intro k b
        have := hst sp k b ⟨0, hk⟩ ⟨0, hnb⟩ (hfrac sp k b) (hfrac sp _ _)
        rwa [hrowsp] at this
      have : ∀ k b, eps sp k b * (o - o₀) sp k b = eps sp ⟨0, hk⟩ ⟨0, hnb⟩ * (o sp k b - o₀ sp k b) := by
        intro k b
        rw [hc]
        rfl
      simp only [this, ← Finset.mul_sum, Finset.sum_sub_distrib]
      rw [ho sp, sub_self, mul_zero]
  -- along the segment the energy is convex with slope zero at the start
  have hline : HasDerivAt (fun t : ℝ => E (o₀ + t • (o - o₀))) (L (o - o₀)) 0 := by
    have h1 : HasDerivAt (fun t : ℝ => o₀ + t • (o - o₀)) (o - o₀) 0 := by
      have := ((hasDerivAt_id (0 : ℝ)).smul_const (o - o₀)).const_add o₀
      simpa using this
    have h2 : HasFDerivAt E L (o₀ + (0 : ℝ) • (o - o₀)) := by
      rw [zero_smul, add_zero]
      exact hE.hasFDerivAt
    exact h2.comp_hasDerivAt (0 : ℝ) h1
  have hcv : ConvexOn ℝ Set.univ (fun t : ℝ => E (o₀ + t • (o - o₀))) := by
    refine ⟨convex_univ, fun a _ b _ s t hs ht hst => ?_⟩
    have := hconv.2 (Set.mem_univ (o₀ + a • (o - o₀))) (Set.mem_univ (o₀ + b • (o - o₀))) hs ht hst
    beta_reduce
    have e : o₀ + (s • a + t • b) • (o - o₀) = s • (o₀ + a • (o - o₀)) + t • (o₀ + b • (o - o₀)) := by
      have ht' : t = 1 - s := by linarith
      rw [ht', smul_eq_mul, smul_eq_mul]
      module
    rw [e]
    exact this
  have hs := hcv.le_slope_of_hasDerivAt (Set.mem_univ (0 : ℝ)) (Set.mem_univ (1 : ℝ)) one_pos hline
  rw [hzero, slope_def_field] at hs
  simp at hs
  exact hs

private theorem sigmoid_minus_three {t : ℝ} (ht : t ≤ -3) : sigmoid t < 1 / 20 := by
  unfold sigmoid
  have h1 : Real.exp 3 ≤ Real.exp (-t) := Real.exp_le_exp.2 (by linarith)
  have h2 : Real.exp 3 = Real.exp 1 ^ 3 := by rw [← Real.exp_nat_mul]; norm_num
  have h3 : (2.7182818283 : ℝ) < Real.exp 1 := Real.exp_one_gt_d9
  have h4 : (19 : ℝ) < Real.exp 1 ^ 3 :=
    lt_of_lt_of_le (by norm_num : (19 : ℝ) < 2.7182818283 ^ 3) (pow_le_pow_left₀ (by norm_num) h3.le 3)
  rw [div_lt_div_iff₀ (by positivity) (by norm_num)]
  linarith

private theorem sigmoid_three {t : ℝ} (ht : 3 ≤ t) : 19 / 20 < sigmoid t := by
  have h := sigmoid_minus_three (t := -t) (by linarith)
  have e : sigmoid (-t) = 1 - sigmoid t := by
    unfold sigmoid
    rw [neg_neg, Real.exp_neg]
    have := Real.exp_pos t
    field_simp
    ring
  linarith

/-- With the starting values, every entry in the first half of the list of all bands of all k points, but for the last
thirty before the middle, is empty and its parameter has no influence, if the other half can hold the electrons. -/
private theorem start_cut {m : ℝ} (h0 : 0 < m) (hm : 10 * m + 270 < 9 * ((nk * nb / 2 : ℕ) : ℝ)) (k : Fin nk) (b : Fin nb)
    (hkb : (k : ℕ) * nb + b + 30 ≤ nk * nb / 2) (c : ℝ) :
    occChan nk nb m (simplexProjectorInit nk nb) k b = 0 ∧
      ∀ j, projJvp (ravel fun k b => sigmoid (simplexProjectorInit nk nb k b)) (Pi.single (finProdFinEquiv (k, b)) c) m j = 0 := by
  have hhalf : ((nk * nb / 2 : ℕ) : ℝ) ≤ ((nk * nb : ℕ) : ℝ) := by exact_mod_cast Nat.div_le_self _ _
  have hmn : m < ((nk * nb : ℕ) : ℝ) := by linarith
  set x : Fin (nk * nb) → ℝ := ravel fun k b => sigmoid (simplexProjectorInit nk nb k b) with hx
  have hxv : ∀ i : Fin (nk * nb), x i = sigmoid ((((i : ℕ) : ℝ) - ((nk * nb / 2 : ℕ) : ℝ)) * 0.1) := by
    intro i
    have hc : nb * nk / 2 = nk * nb / 2 := by rw [mul_comm]
    rw [hx]
    unfold ravel simplexProjectorInit unravel
    simp only [Prod.mk.eta, Equiv.apply_symm_apply, hc]
  set i0 : Fin (nk * nb) := finProdFinEquiv (k, b) with hi0
  have hi0v : (i0 : ℕ) = (k : ℕ) * nb + b := by
    rw [hi0, finProdFinEquiv_apply_val]
    ring
  have hlow : x i0 < 1 / 20 := by
    rw [hxv]
    refine sigmoid_minus_three ?_
    have h1 : (i0 : ℕ) + 30 ≤ nk * nb / 2 := by rw [hi0v]; exact hkb
    have h2 : ((i0 : ℕ) : ℝ) + 30 ≤ ((nk * nb / 2 : ℕ) : ℝ) := by exact_mod_cast h1
    linarith
  have hcut : ∀ mu, ∑ j, clip01 (x j - mu) = m → x i0 - mu < 0 := by
    intro mu hsum
    by_contra hneg
    have hmu : mu ≤ x i0 := by linarith
    have ha : nk * nb / 2 + 30 < nk * nb := by
      have : 270 < 9 * ((nk * nb / 2 : ℕ) : ℝ) := by linarith
      have : (270 : ℕ) < 9 * (nk * nb / 2) := by exact_mod_cast this
      omega
    set a : Fin (nk * nb) := ⟨nk * nb / 2 + 30, ha⟩ with haa
    have hub : ∀ j ∈ Finset.Ici a, (9 / 10 : ℝ) ≤ clip01 (x j - mu) := by
      intro j hj
      have hj' : nk * nb / 2 + 30 ≤ (j : ℕ) := by
        have := Finset.mem_Ici.1 hj
        exact this
      have hh : 19 / 20 < x j := by
        rw [hxv]
        refine sigmoid_three ?_
        have : ((nk * nb / 2 : ℕ) : ℝ) + 30 ≤ ((j : ℕ) : ℝ) := by exact_mod_cast hj'
        linarith
      have h1 := clip01_mono (show (9 / 10 : ℝ) ≤ x j - mu by linarith)
      rwa [clip01_mid (by norm_num) (by norm_num)] at h1
    have hle : ∑ j ∈ Finset.Ici a, (9 / 10 : ℝ) ≤ m := by
      rw [← hsum]
      exact (Finset.sum_le_sum hub).trans (Finset.sum_le_univ_sum_of_nonneg fun j => (clip01_mem _).1)
    rw [Finset.sum_const, Fin.card_Ici, nsmul_eq_mul] at hle
    have hc2 : ((nk * nb / 2 : ℕ) : ℝ) ≤ ((nk * nb - (a : ℕ) : ℕ) : ℝ) + 30 := by
      have : nk * nb / 2 ≤ (nk * nb - (a : ℕ)) + 30 := by rw [haa]; dsimp only; omega
      exact_mod_cast this
    linarith
  refine ⟨?_, fun j => (projJvp_cut h0 hmn x (fun i => sigmoid_bounds _) i0 hcut c j).2⟩
  have : occChan nk nb m (simplexProjectorInit nk nb) k b = proj x m i0 / nk := rfl
  rw [this, (projJvp_cut h0 hmn x (fun i => sigmoid_bounds _) i0 hcut c i0).1, zero_div]

/-- The change of the parameters that moves only the one of band `b` at k point `k`, in both channels. -/
noncomputable def Spec.onlyBand {nk nb : ℕ} (k : Fin nk) (b : Fin nb) (cUp cDown : ℝ) :
    (Fin nk → Fin nb → ℝ) × (Fin nk → Fin nb → ℝ) :=
  (Pi.single k (Pi.single b cUp), Pi.single k (Pi.single b cDown))

/-- With the starting parameters and enough bands, almost all bands in the first half of the list of all bands of all
k points are empty, in both spin channels, and the gradient of any energy with respect to their parameters is zero. -/
theorem occupation_start_cut (hk : 0 < nk) (ne spin : ℤ) (hpar : ne % 2 = spin % 2) (h0 : |spin| < ne)
    (hm : 5 * (ne + |spin|) * nk + 270 < 9 * (nk * nb / 2 : ℕ)) (r : Bool) (k : Fin nk) (b : Fin nb)
    (hkb : (k : ℕ) * nb + b + 30 ≤ nk * nb / 2) :
    (∀ sp, Spec.occEntry ne spin r sp k b (simplexProjectorInit nk nb, simplexProjectorInit nk nb) = 0) ∧
      ∀ eps cUp cDown, Spec.energyJvp ne spin r eps (simplexProjectorInit nk nb, simplexProjectorInit nk nb)
        (Spec.onlyBand k b cUp cDown) = 0 := by
  have hkZ : (0 : ℤ) < nk := by exact_mod_cast hk
  have a1 := abs_lt.1 h0
  have a2 := le_abs_self spin
  have a3 := neg_le_abs spin
  have key : ∀ q : ℤ, 0 < q → 2 * q ≤ ne + |spin| →
      (0 : ℝ) < ((q * nk : ℤ) : ℝ) ∧ 10 * ((q * nk : ℤ) : ℝ) + 270 < 9 * ((nk * nb / 2 : ℕ) : ℝ) := by
    intro q q0 q1
    refine ⟨by exact_mod_cast mul_pos q0 hkZ, ?_⟩
    have : 10 * (q * nk) + 270 < 9 * ((nk * nb / 2 : ℕ) : ℤ) := by nlinarith
    generalize nk * nb / 2 = H at this
    have h' : ((10 * (q * nk) + 270 : ℤ) : ℝ) < ((9 * (H : ℤ) : ℤ) : ℝ) := Int.cast_lt.2 this
    push_cast at h' ⊢
    exact h'
  obtain ⟨u0, u1⟩ := key ((ne + spin) / 2) (by omega) (by omega)
  obtain ⟨d0, d1⟩ := key ((ne - spin) / 2) (by omega) (by omega)
  have cu := fun c => start_cut u0 u1 k b hkb c
  have cd := fun c => start_cut d0 d1 k b hkb c
  have hsingle : ∀ c : ℝ, (ravel fun k' b' => sigmoidJvp (simplexProjectorInit nk nb k' b')
      ((Pi.single k (Pi.single b c) : Fin nk → Fin nb → ℝ) k' b'))
      = Pi.single (finProdFinEquiv (k, b)) (sigmoidJvp (simplexProjectorInit nk nb k b) c) := by
    intro c
    funext i
    obtain ⟨⟨k', b'⟩, rfl⟩ := finProdFinEquiv.surjective i
    unfold ravel
    rw [Equiv.symm_apply_apply]
    dsimp only
    by_cases h : (k', b') = (k, b)
    · obtain ⟨rfl, rfl⟩ := Prod.mk.inj h
      rw [Pi.single_eq_same, Pi.single_eq_same, Pi.single_eq_same]
    · rw [Pi.single_eq_of_ne (M := fun _ => ℝ) (fun e => h (finProdFinEquiv.injective e))]
      have hz : (Pi.single k (Pi.single b c) : Fin nk → Fin nb → ℝ) k' b' = 0 := by
        by_cases hk' : k' = k
        · subst hk'
          rw [Pi.single_eq_same]
          exact Pi.single_eq_of_ne (M := fun _ => ℝ) (fun e => h (by rw [e])) c
        · rw [Pi.single_eq_of_ne hk']
          rfl
      rw [hz]
      unfold sigmoidJvp
      exact zero_mul _
  have hUp : ∀ c : ℝ, (unravel fun i => projJvp (ravel fun k b => sigmoid (simplexProjectorInit nk nb k b))
      (ravel fun k' b' => sigmoidJvp (simplexProjectorInit nk nb k' b')
        ((Pi.single k (Pi.single b c) : Fin nk → Fin nb → ℝ) k' b')) (((ne + spin) / 2 * nk : ℤ) : ℝ) i / (nk : ℝ))
      = (0 : Fin nk → Fin nb → ℝ) := by
    intro c
    funext k' b'
    unfold unravel
    beta_reduce
    rw [hsingle, (cu _).2, zero_div]
    rfl
  have hDown : ∀ c : ℝ, (unravel fun i => projJvp (ravel fun k b => sigmoid (simplexProjectorInit nk nb k b))
      (ravel fun k' b' => sigmoidJvp (simplexProjectorInit nk nb k' b')
        ((Pi.single k (Pi.single b c) : Fin nk → Fin nb → ℝ) k' b')) (((ne - spin) / 2 * nk : ℤ) : ℝ) i / (nk : ℝ))
      = (0 : Fin nk → Fin nb → ℝ) := by
    intro c
    funext k' b'
    unfold unravel
    beta_reduce
    rw [hsingle, (cd _).2, zero_div]
    rfl
  refine ⟨fun sp => ?_, fun eps cUp cDown => ?_⟩
  · have e := occ_entries ne spin k b (simplexProjectorInit nk nb, simplexProjectorInit nk nb)
    cases r with
    | false =>
      match sp with
      | 0 => rw [e.1]; exact (cu 0).1
      | 1 => rw [e.2.1]; exact (cd 0).1
      | sp + 2 => rfl
    | true =>
      match sp with
      | 0 => rw [e.2.2]; exact (by rw [(cu 0).1, (cd 0).1, add_zero])
      | sp + 1 => rfl
  · unfold Spec.energyJvp
    refine Finset.sum_eq_zero fun sp _ => Finset.sum_eq_zero fun k' _ => Finset.sum_eq_zero fun b' _ => ?_
    have hz : (simplexProjectorJvp (simplexProjectorInit nk nb) (simplexProjectorInit nk nb) (Spec.onlyBand k b cUp cDown).1
        (Spec.onlyBand k b cUp cDown).2 ne spin r).getD sp 0 k' b' = 0 := by
      have hj : simplexProjectorJvp (simplexProjectorInit nk nb) (simplexProjectorInit nk nb) (Spec.onlyBand k b cUp cDown).1
          (Spec.onlyBand k b cUp cDown).2 ne spin r = if r then sumSpin [0, 0] else [0, 0] := by
        unfold simplexProjectorJvp Spec.onlyBand
        dsimp only
        rw [hUp, hDown]
      rw [hj]
      cases r <;> fin_cases sp <;> simp [sumSpin]
    rw [hz, mul_zero]

private theorem occChan_differentiable {m : ℝ} (p : Fin nk → Fin nb → ℝ)
    (h : DifferentiableAt ℝ (fun x : Fin (nk * nb) → ℝ => proj x m) (ravel fun k b => sigmoid (p k b))) :
    DifferentiableAt ℝ (occChan nk nb m) p := by
  have hc : DifferentiableAt ℝ (fun p : Fin nk → Fin nb → ℝ => proj (ravel fun k b => sigmoid (p k b)) m) p :=
    DifferentiableAt.comp (g := fun x : Fin (nk * nb) → ℝ => proj x m)
      (f := fun p : Fin nk → Fin nb → ℝ => ravel fun k b => sigmoid (p k b)) p h (sig_hasFDerivAt p).differentiableAt
  refine differentiableAt_pi.2 fun k => differentiableAt_pi.2 fun b => ?_
  have := ((differentiableAt_pi.1 hc) (finProdFinEquiv (k, b))).mul_const ((nk : ℝ)⁻¹)
  simpa only [occChan, unravel, div_eq_mul_inv] using this

private theorem occEntry_differentiable (ne spin : ℤ) (r : Bool) (up down : Fin nk → Fin nb → ℝ)
    (hu : DifferentiableAt ℝ (occChan nk nb (((ne + spin) / 2 * nk : ℤ) : ℝ)) up)
    (hd : DifferentiableAt ℝ (occChan nk nb (((ne - spin) / 2 * nk : ℤ) : ℝ)) down) (sp : ℕ) (k : Fin nk) (b : Fin nb) :
    DifferentiableAt ℝ (Spec.occEntry ne spin r sp k b) (up, down) := by
  have fu : DifferentiableAt ℝ (fun P : (Fin nk → Fin nb → ℝ) × (Fin nk → Fin nb → ℝ) =>
      occChan nk nb (((ne + spin) / 2 * nk : ℤ) : ℝ) P.1) (up, down) :=
    DifferentiableAt.comp (g := occChan nk nb (((ne + spin) / 2 * nk : ℤ) : ℝ)) (f := Prod.fst) (up, down) hu differentiableAt_fst
  have fd : DifferentiableAt ℝ (fun P : (Fin nk → Fin nb → ℝ) × (Fin nk → Fin nb → ℝ) =>
      occChan nk nb (((ne - spin) / 2 * nk : ℤ) : ℝ) P.2) (up, down) :=
    DifferentiableAt.comp (g := occChan nk nb (((ne - spin) / 2 * nk : ℤ) : ℝ)) (f := Prod.snd) (up, down) hd differentiableAt_snd
  have gu := differentiableAt_pi.1 (differentiableAt_pi.1 fu k) b
  have gd := differentiableAt_pi.1 (differentiableAt_pi.1 fd k) b
  cases r with
  | false =>
    match sp with
    | 0 => exact gu
    | 1 => exact gd
    | sp + 2 => exact differentiableAt_const (0 : ℝ)
  | true =>
    match sp with
    | 0 => exact (gu.add gd).congr_of_eventuallyEq (Eventually.of_forall fun P => (occ_entries ne spin k b P).2.2)
    | sp + 1 => exact differentiableAt_const (0 : ℝ)

private theorem ravel_one (f : Fin 3 → ℝ) (g : ℝ → ℝ) :
    (ravel fun (_ : Fin 1) (b : Fin 3) => g (f b)) = (fun i : Fin (1 * 3) => g (f (Fin.cast (by norm_num) i))) := by
  funext i
  fin_cases i <;> rfl

private theorem three_chan (y : Fin 3 → ℝ) (hy : ∀ b, 0 < y b ∧ y b < 1) (lam : ℝ) (hs : ∑ b, clip01 (y b - lam) = 1)
    (hne : ∀ b, y b - lam ≠ 0 ∧ y b - lam ≠ 1) :
    DifferentiableAt ℝ (occChan 1 3 1) (fun _ b => logit (y b)) ∧
      ∀ k b, occChan 1 3 1 (fun _ b => logit (y b)) k b = clip01 (y b - lam) := by
  have hx : (ravel fun (_ : Fin 1) (b : Fin 3) => sigmoid (logit (y b)))
      = (fun i : Fin (1 * 3) => y (Fin.cast (by norm_num) i)) := by
    rw [ravel_one y fun t => sigmoid (logit t)]
    funext i
    exact sigmoid_logit (hy _).1 (hy _).2
  have hsum : ∑ i : Fin (1 * 3), clip01 (y (Fin.cast (by norm_num) i) - lam) = 1 := hs
  constructor
  · refine occChan_differentiable _ ?_
    rw [hx]
    exact (proj_hasFDerivAt (n := 1 * 3) (s := 1) (lam := lam) (by norm_num) (by norm_num) (fun i => hy _) hsum
      (fun i => hne _)).differentiableAt
  · intro k b
    have hp := proj_of_clip (n := 1 * 3) (s := 1) (lam := lam) (by norm_num) (by norm_num)
      (x := fun i : Fin (1 * 3) => y (Fin.cast (by norm_num) i)) (fun i => ⟨(hy _).1.le, (hy _).2.le⟩) hsum
    unfold occChan unravel
    beta_reduce
    rw [hx, hp]
    fin_cases k
    fin_cases b <;> simp <;> rfl

/-- A vanishing gradient does not mean that the occupations are optimal: with two electrons and three bands there are
parameters at which the gradient of a linear energy is zero, although other parameters have a lower energy, and the
band that should be filled is empty. -/
theorem occupation_stuck :
    ∃ (E : (Fin 2 → Fin 1 → Fin 3 → ℝ) → ℝ) (P P' : (Fin 1 → Fin 3 → ℝ) × (Fin 1 → Fin 3 → ℝ)),
      Differentiable ℝ E ∧ ConvexOn ℝ Set.univ E ∧
      (∀ sp k b, DifferentiableAt ℝ (Spec.occEntry 2 0 false sp k b) P) ∧
      fderiv ℝ (fun P => E (Spec.occAll 2 0 false P)) P = 0 ∧
      E (Spec.occAll 2 0 false P') < E (Spec.occAll 2 0 false P) := by
  set E : (Fin 2 → Fin 1 → Fin 3 → ℝ) → ℝ := fun o => -o 0 0 2 with hE
  set L : (Fin 2 → Fin 1 → Fin 3 → ℝ) →ₗ[ℝ] ℝ :=
    { toFun := fun o => -o 0 0 2
      map_add' := by intro a b; simp only [Pi.add_apply]; ring
      map_smul' := by intro c a; simp } with hL
  have hlin : E = fun o => L o := rfl
  have hdE : ∀ o, HasFDerivAt E (LinearMap.toContinuousLinearMap L) o := fun o => by
    rw [hlin]
    exact (LinearMap.toContinuousLinearMap L).hasFDerivAt
  set y : Fin 3 → ℝ := ![3 / 4, 3 / 4, 1 / 8] with hy
  obtain ⟨su, vu⟩ := three_chan y (by intro b; fin_cases b <;> norm_num [hy]) (1 / 4)
    (by
      rw [Fin.sum_univ_three]
      simp only [hy, Matrix.cons_val_zero, Matrix.cons_val_one, Matrix.cons_val]
      rw [clip01_mid (by norm_num) (by norm_num), clip01_low (by norm_num)]
      norm_num)
    (by intro b; fin_cases b <;> norm_num [hy])
  obtain ⟨se, ve⟩ := three_chan (fun _ => 1 / 2) (by intro b; norm_num) (1 / 6)
    (by rw [Fin.sum_univ_three, clip01_mid (by norm_num) (by norm_num)]; norm_num)
    (by intro b; norm_num)
  have hm1 : (((2 + 0) / 2 * ((1 : ℕ) : ℤ) : ℤ) : ℝ) = 1 := by norm_num
  have hm2 : (((2 - 0) / 2 * ((1 : ℕ) : ℤ) : ℤ) : ℝ) = 1 := by norm_num
  have hd : ∀ sp k b, DifferentiableAt ℝ (Spec.occEntry 2 0 false sp k b)
      ((fun _ b => logit (y b) : Fin 1 → Fin 3 → ℝ), (fun _ _ => logit (1 / 2) : Fin 1 → Fin 3 → ℝ)) :=
    occEntry_differentiable 2 0 false _ _ (by rw [hm1]; exact su) (by rw [hm2]; exact se)
  have v1 : ∀ k b, Spec.occEntry 2 0 false 0 k b
      ((fun _ b => logit (y b) : Fin 1 → Fin 3 → ℝ), (fun _ _ => logit (1 / 2) : Fin 1 → Fin 3 → ℝ)) = clip01 (y b - 1 / 4) := by
    intro k b
    rw [(occ_entries 2 0 k b _).1, hm1]
    exact vu k b
  have v2 : Spec.occEntry 2 0 false 0 (0 : Fin 1) (2 : Fin 3)
      ((fun _ _ => logit (1 / 2) : Fin 1 → Fin 3 → ℝ), (fun _ _ => logit (1 / 2) : Fin 1 → Fin 3 → ℝ)) = 1 / 3 := by
    rw [(occ_entries 2 0 _ _ _).1, hm1]
    have := ve 0 2
    rw [clip01_mid (by norm_num) (by norm_num)] at this
    rw [this]
    norm_num
  have hempty : clip01 (y 2 - 1 / 4) = 0 := clip01_low (by
    rw [hy]
    change (1 / 8 : ℝ) - 1 / 4 ≤ 0
    norm_num)
  refine ⟨E, ((fun _ b => logit (y b)), (fun _ _ => logit (1 / 2))), ((fun _ _ => logit (1 / 2)), (fun _ _ => logit (1 / 2))),
    fun o => (hdE o).differentiableAt, ?_, hd, ?_, ?_⟩
  · rw [hlin]
    exact L.convexOn convex_univ
  · set eps : Fin 2 → Fin 1 → Fin 3 → ℝ := fun sp _ b => if sp = 0 ∧ b = 2 then -1 else 0 with heps
    refine ContinuousLinearMap.ext fun D => ?_
    rw [energyJvp_gradient_partial one_pos 2 0 (by norm_num) (by norm_num) (by norm_num) false _ hd E (hdE _).differentiableAt
      eps ?_ D]
    · refine (occupation_stationary one_pos 2 0 (by norm_num) (by norm_num) (by norm_num) false _ hd eps).2 ?_ D
      intro sp k b k' b' f1 f2
      have hz : ∀ k b, Spec.Fractional 2 0 ((fun _ b => logit (y b) : Fin 1 → Fin 3 → ℝ),
          (fun _ _ => logit (1 / 2) : Fin 1 → Fin 3 → ℝ)) sp k b → eps sp k b = 0 := by
        intro k b hf
        rw [heps]
        beta_reduce
        refine if_neg ?_
        rintro ⟨rfl, rfl⟩
        have := hf.1
        rw [show ((0 : Fin 2) : ℕ) = 0 from rfl, v1, hempty] at this
        exact lt_irrefl _ this
      change eps sp k b = eps sp k' b'
      rw [hz k b f1, hz k' b' f2]
    · intro v
      rw [(hdE _).fderiv]
      change -v 0 0 2 = _
      rw [Fin.sum_univ_two]
      simp [heps, Fin.sum_univ_three]
  · change -Spec.occEntry 2 0 false 0 (0 : Fin 1) (2 : Fin 3) _ < -Spec.occEntry 2 0 false 0 (0 : Fin 1) (2 : Fin 3) _
    rw [v1, v2, hempty]
    norm_num

-- eight electrons, twelve bands and a 3 × 3 × 3 mesh of k points: at the start the first eleven k points have no electron
example (k : Fin 27) (hk : (k : ℕ) ≤ 10) :
    ∑ b, Spec.occEntry 8 0 true 0 k b (simplexProjectorInit 27 12, simplexProjectorInit 27 12) = 0 :=
  Finset.sum_eq_zero fun b _ => (occupation_start_cut (nk := 27) (nb := 12) (by norm_num) 8 0 (by norm_num) (by norm_num)
    (by norm_num) true k b (by have := b.isLt; omega)).1 0

-- equal parameters minimise the sum of the squares, and satisfy the hypotheses of the optimality theorem
example : ∃ (E : (Fin 2 → Fin 1 → Fin 3 → ℝ) → ℝ) (P : (Fin 1 → Fin 3 → ℝ) × (Fin 1 → Fin 3 → ℝ)),
    (∀ sp k b, DifferentiableAt ℝ (Spec.occEntry 2 0 false sp k b) P) ∧ Differentiable ℝ E ∧ ConvexOn ℝ Set.univ E ∧
    fderiv ℝ (fun P => E (Spec.occAll 2 0 false P)) P = 0 ∧ (∀ sp k b, Spec.Fractional 2 0 P sp k b) ∧
    ∃ o, E (Spec.occAll 2 0 false P) < E o := by
  obtain ⟨se, ve⟩ := three_chan (fun _ => 1 / 2) (by intro b; norm_num) (1 / 6)
    (by rw [Fin.sum_univ_three, clip01_mid (by norm_num) (by norm_num)]; norm_num)
    (by intro b; norm_num)
  have hm1 : (((2 + 0) / 2 * ((1 : ℕ) : ℤ) : ℤ) : ℝ) = 1 := by norm_num
  have hm2 : (((2 - 0) / 2 * ((1 : ℕ) : ℤ) : ℤ) : ℝ) = 1 := by norm_num
  have hc : clip01 (1 / 2 - 1 / 6) = 1 / 3 := by rw [clip01_mid (by norm_num) (by norm_num)]; norm_num
  set p : Fin 1 → Fin 3 → ℝ := fun _ _ => logit (1 / 2) with hp
  have v : ∀ (sp : Fin 2) k b, Spec.occEntry 2 0 false sp k b (p, p) = 1 / 3 := by
    intro sp k b
    fin_cases sp
    · exact ((occ_entries 2 0 k b (p, p)).1.trans (by rw [hm1]; exact ve k b)).trans hc
    · exact ((occ_entries 2 0 k b (p, p)).2.1.trans (by rw [hm2]; exact ve k b)).trans hc
  set E : (Fin 2 → Fin 1 → Fin 3 → ℝ) → ℝ := fun o => o 0 0 0 ^ 2 + o 0 0 1 ^ 2 + o 0 0 2 ^ 2 with hE
  have hdE : Differentiable ℝ E := by
    have : ∀ b : Fin 3, Differentiable ℝ (fun o : Fin 2 → Fin 1 → Fin 3 → ℝ => o 0 0 b ^ 2) := fun b =>
      Differentiable.pow (fun o => ((differentiableAt_pi.1 ((differentiableAt_pi.1 ((differentiableAt_pi.1
        (differentiableAt_id (𝕜 := ℝ) (x := o))) (0 : Fin 2))) (0 : Fin 1))) b)) 2
    exact ((this 0).add (this 1)).add (this 2)
  refine ⟨E, (p, p), occEntry_differentiable 2 0 false p p (by rw [hm1]; exact se) (by rw [hm2]; exact se), hdE, ?_, ?_, ?_, ?_⟩
  · refine ⟨convex_univ, fun a _ b _ s t hs ht hst => ?_⟩
    have ht' : t = 1 - s := by linarith
    have key : ∀ u w : ℝ, (s * u + t * w) ^ 2 ≤ s * u ^ 2 + t * w ^ 2 := by
      intro u w
      have := mul_nonneg (mul_nonneg hs ht) (sq_nonneg (u - w))
      rw [ht'] at this ⊢
      nlinarith
    have k0 := key (a 0 0 0) (b 0 0 0)
    have k1 := key (a 0 0 1) (b 0 0 1)
    have k2 := key (a 0 0 2) (b 0 0 2)
    simp only [hE, Pi.add_apply, Pi.smul_apply, smul_eq_mul]
    linarith
  · refine IsLocalMin.fderiv_eq_zero (Eventually.of_forall fun Q => ?_)
    have hsum : Spec.occEntry 2 0 false 0 (0 : Fin 1) (0 : Fin 3) Q + Spec.occEntry 2 0 false 0 (0 : Fin 1) (1 : Fin 3) Q
        + Spec.occEntry 2 0 false 0 (0 : Fin 1) (2 : Fin 3) Q = 1 := by
      obtain ⟨lam, e1, e2, -⟩ := proj_closed (n := 1 * 3) 1 (by norm_num) (by norm_num)
        (ravel fun k b => sigmoid (Q.1 k b)) (fun i => sigmoid_bounds _)
      have h1 : ∑ k : Fin 1, ∑ b : Fin 3, Spec.occEntry 2 0 false 0 k b Q = 1 := by
        simp only [(occ_entries 2 0 _ _ Q).1, hm1]
        unfold occChan
        rw [sum_unravel, ← Finset.sum_div, e1, e2]
        norm_num
      rw [Fin.sum_univ_one, Fin.sum_univ_three] at h1
      exact h1
    have v0 := v 0 0 0
    have v1 := v 0 0 1
    have v2 := v 0 0 2
    change Spec.occEntry 2 0 false 0 (0 : Fin 1) (0 : Fin 3) (p, p) ^ 2 + Spec.occEntry 2 0 false 0 (0 : Fin 1) (1 : Fin 3) (p, p) ^ 2
      + Spec.occEntry 2 0 false 0 (0 : Fin 1) (2 : Fin 3) (p, p) ^ 2 ≤ Spec.occEntry 2 0 false 0 (0 : Fin 1) (0 : Fin 3) Q ^ 2
      + Spec.occEntry 2 0 false 0 (0 : Fin 1) (1 : Fin 3) Q ^ 2 + Spec.occEntry 2 0 false 0 (0 : Fin 1) (2 : Fin 3) Q ^ 2
    have w0 : Spec.occEntry 2 0 false 0 (0 : Fin 1) (0 : Fin 3) (p, p) = 1 / 3 := v0
    have w1 : Spec.occEntry 2 0 false 0 (0 : Fin 1) (1 : Fin 3) (p, p) = 1 / 3 := v1
    have w2 : Spec.occEntry 2 0 false 0 (0 : Fin 1) (2 : Fin 3) (p, p) = 1 / 3 := v2
    rw [w0, w1, w2]
    set a := Spec.occEntry 2 0 false 0 (0 : Fin 1) (0 : Fin 3) Q
    set b := Spec.occEntry 2 0 false 0 (0 : Fin 1) (1 : Fin 3) Q
    set c := Spec.occEntry 2 0 false 0 (0 : Fin 1) (2 : Fin 3) Q
    nlinarith [sq_nonneg (a - b), sq_nonneg (b - c), sq_nonneg (a - c), sq_nonneg (a - 1 / 3), sq_nonneg (b - 1 / 3),
      sq_nonneg (c - 1 / 3)]
  · intro sp k b
    exact ⟨by rw [v]; norm_num, by rw [v]; norm_num⟩
  · refine ⟨fun _ _ _ => 1, ?_⟩
    have w0 : Spec.occAll 2 0 false (p, p) 0 0 0 = 1 / 3 := v 0 0 0
    have w1 : Spec.occAll 2 0 false (p, p) 0 0 1 = 1 / 3 := v 0 0 1
    have w2 : Spec.occAll 2 0 false (p, p) 0 0 2 = 1 / 3 := v 0 0 2
    simp only [hE]
    rw [w0, w1, w2]
    norm_num

end Jrystal
