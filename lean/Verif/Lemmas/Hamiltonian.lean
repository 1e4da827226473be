import Verif.Model.Hamiltonian
import Verif.Spec.Hamiltonian
import Verif.Lemmas.Hessian
import Verif.Lemmas.Energy

namespace Jrystal
open scoped BigOperators ComplexConjugate

/-- Real-space wave function of one band. -/
noncomputable def orbital {n : Fin 3 → ℕ} (c : Idx n → ℂ) (vol : ℝ) (j : Idx n) : ℂ :=
  ifftn c j * (((gridCount n : ℝ) / Real.sqrt vol : ℝ) : ℂ)

theorem orbital_eq {ns nk nb : ℕ} {n : Fin 3 → ℕ} (c : Coef ns nk nb n) (vol : ℝ) (s : Fin ns)
    (k : Fin nk) (b : Fin nb) : waveGrid c vol s k b = orbital (c s k b) vol := rfl

theorem orbital_sum {n : Fin 3 → ℕ} {ι : Type*} (S : Finset ι) (u : ι → ℂ) (c : ι → Idx n → ℂ)
    (vol : ℝ) (j : Idx n) :
    orbital (fun x => ∑ i ∈ S, u i * c i x) vol j = ∑ i ∈ S, u i * orbital (c i) vol j := by
  unfold orbital
  rw [ifftn_sum, Finset.sum_mul]
  refine Finset.sum_congr rfl fun i _ => ?_
  rw [ifftn_smul]; ring

theorem integralFactor_real (n : Fin 3 → ℕ) (vol : ℝ) :
    integralFactor n vol "real" = .ok (vol / (gridCount n : ℝ)) := by
  unfold integralFactor
  rw [if_neg (by decide), if_pos rfl]

theorem integralFactor_kinetic (n : Fin 3 → ℕ) (vol : ℝ) :
    integralFactor n vol "kinetic" = .ok 1 := by
  unfold integralFactor
  rw [if_neg (by decide), if_neg (by decide), if_pos rfl]

/-- Diagonal expectation values for one k point and an operator with `m` channels. -/
theorem expectationDiag_lead {ns nb m : ℕ} {n : Fin 3 → ℕ} (c : Coef ns 1 nb n)
    (v : Fin m → Idx n → ℂ) (vol f : ℝ) (mode : String) (hf : integralFactor n vol mode = .ok f) :
    expectationDiag c (.lead m v) vol none mode = .ok ⟨m, fun s σ b =>
      (∑ x, conj (c s 0 b x) * v σ x * c s 0 b x) * (f : ℂ)⟩ := by
  unfold expectationDiag
  dsimp only
  rw [hf]
  unfold operatorLen bcLen operatorAt
  by_cases hm : 1 = m
  · subst hm
    simp only [if_true, Option.getD_none, bcGet_one]
    congr 2
    funext s σ b
    rw [Subsingleton.elim σ 0]
  · simp only [if_neg hm, if_true, Option.getD_none, bcGet_self, bcGet_one]

/-- Diagonal expectation values for an operator with one channel. -/
theorem expectationDiag_single {ns nk nb : ℕ} {n : Fin 3 → ℕ} (c : Coef ns nk nb n)
    (v : Fin 1 → Idx n → ℂ) (vol f : ℝ) (mode : String) (hf : integralFactor n vol mode = .ok f) :
    expectationDiag c (.lead 1 v) vol none mode = .ok ⟨nk, fun s k b =>
      (∑ x, conj (c s k b x) * v 0 x * c s k b x) * (f : ℂ)⟩ := by
  unfold expectationDiag
  dsimp only
  rw [hf]
  unfold operatorLen bcLen operatorAt
  by_cases hm : nk = 1
  · subst hm
    simp only [if_true, Option.getD_none, bcGet_one]
    congr 2
    funext s k b
    rw [Subsingleton.elim k 0]
  · simp only [if_neg hm, if_true, Option.getD_none, bcGet_self, bcGet_one]

/-- Diagonal expectation values for an operator with a channel per k point. -/
theorem expectationDiag_kpt {ns nk nb : ℕ} {n : Fin 3 → ℕ} (c : Coef ns nk nb n)
    (v : Fin nk → Idx n → ℂ) (vol f : ℝ) (mode : String) (hf : integralFactor n vol mode = .ok f) :
    expectationDiag c (.lead nk v) vol none mode = .ok ⟨nk, fun s k b =>
      (∑ x, conj (c s k b x) * v k x * c s k b x) * (f : ℂ)⟩ := by
  unfold expectationDiag
  dsimp only
  rw [hf]
  unfold operatorLen bcLen operatorAt
  simp only [if_true, Option.getD_none, bcGet_self]

/-- Diagonal terms for one k point and a potential with `m` channels. -/
theorem hamiltonianTerms_one {ns nb m : ℕ} {n : Fin 3 → ℕ} (c : Coef ns 1 nb n)
    (v : Fin m → Idx n → ℂ) (g : Idx n → Fin 3 → ℝ) (kpts : Fin 1 → Fin 3 → ℝ) (vol : ℝ) :
    hamiltonianTerms c v g kpts vol = .ok ⟨m, fun s σ b =>
      ((∑ x, conj (orbital (c s 0 b) vol x) * v σ x * orbital (c s 0 b) vol x) *
        ((vol / (gridCount n : ℝ) : ℝ) : ℂ)).re +
      (∑ x, conj (c s 0 b x) * (kineticOperator g kpts 0 x : ℂ) * c s 0 b x).re⟩ := by
  unfold hamiltonianTerms
  rw [expectationDiag_lead _ v vol _ "real" (integralFactor_real n vol)]
  rw [expectationDiag_lead c _ vol _ "kinetic" (integralFactor_kinetic n vol)]
  dsimp only
  have hb : bcLen m 1 = .ok m := by
    unfold bcLen
    by_cases hm : m = 1
    · rw [if_pos hm]
    · rw [if_neg hm, if_neg hm, if_pos rfl]
  rw [hb]
  dsimp only
  congr 2
  funext s σ b
  rw [bcIdx_self]
  simp only [Complex.ofReal_one, mul_one]
  rfl

/-- Diagonal terms for one potential channel. -/
theorem hamiltonianTerms_single {ns nk nb : ℕ} {n : Fin 3 → ℕ} (c : Coef ns nk nb n)
    (v : Fin 1 → Idx n → ℂ) (g : Idx n → Fin 3 → ℝ) (kpts : Fin nk → Fin 3 → ℝ) (vol : ℝ) :
    hamiltonianTerms c v g kpts vol = .ok ⟨nk, fun s k b =>
      ((∑ x, conj (orbital (c s k b) vol x) * v 0 x * orbital (c s k b) vol x) *
        ((vol / (gridCount n : ℝ) : ℝ) : ℂ)).re +
      (∑ x, conj (c s k b x) * (kineticOperator g kpts k x : ℂ) * c s k b x).re⟩ := by
  unfold hamiltonianTerms
  rw [expectationDiag_single _ v vol _ "real" (integralFactor_real n vol)]
  rw [expectationDiag_kpt c _ vol _ "kinetic" (integralFactor_kinetic n vol)]
  dsimp only
  have hb : bcLen nk nk = .ok nk := by unfold bcLen; rw [if_pos rfl]
  rw [hb]
  dsimp only
  congr 2
  funext s k b
  rw [bcIdx_self]
  simp only [Complex.ofReal_one, mul_one]
  rfl

/-- The matrix whose quadratic form is the trace of the mixed bands. -/
noncomputable def formMatrix {nb m : ℕ} {n : Fin 3 → ℕ} (c : Fin nb → Idx n → ℂ)
    (v : Fin m → Idx n → ℂ) (g : Idx n → Fin 3 → ℝ) (k : Fin 3 → ℝ) (vol : ℝ) :
    Matrix (Fin nb) (Fin nb) ℂ :=
  fun i j => ∑ σ, ((∑ x, conj (orbital (c i) vol x) * v σ x * orbital (c j) vol x) *
      ((vol / (gridCount n : ℝ) : ℝ) : ℂ) +
    ∑ x, conj (c i x) * (kineticOperator g (fun _ : Fin 1 => k) 0 x : ℂ) * c j x)

theorem sesq_sum₂ {nb : ℕ} {n : Fin 3 → ℕ} (w : Fin nb → Idx n → ℂ) (v : Idx n → ℂ)
    (u u' : Fin nb → ℂ) :
    ∑ x, conj (∑ i, u i * w i x) * v x * (∑ i, u' i * w i x)
      = sesq (fun i j => ∑ x, conj (w i x) * v x * w j x) u u' := by
  unfold sesq
  have : ∀ i j, conj (u i) * (∑ x, conj (w i x) * v x * w j x) * u' j
      = ∑ x, conj (u i * w i x) * v x * (u' j * w j x) := by
    intro i j
    rw [Finset.mul_sum, Finset.sum_mul]
    refine Finset.sum_congr rfl fun x _ => ?_
    rw [map_mul]; ring
  simp_rw [this]
  rw [Finset.sum_congr rfl fun i _ => Finset.sum_comm, Finset.sum_comm]
  refine Finset.sum_congr rfl fun x _ => ?_
  rw [map_sum, Finset.sum_mul, Finset.sum_mul]
  refine Finset.sum_congr rfl fun i _ => ?_
  rw [Finset.mul_sum]

theorem sesq_sum {nb : ℕ} {n : Fin 3 → ℕ} (w : Fin nb → Idx n → ℂ) (v : Idx n → ℂ) (u : Fin nb → ℂ) :
    ∑ x, conj (∑ i, u i * w i x) * v x * (∑ i, u i * w i x)
      = sesq (fun i j => ∑ x, conj (w i x) * v x * w j x) u u := sesq_sum₂ w v u u

theorem sesq_linear {nb : ℕ} (A B : Matrix (Fin nb) (Fin nb) ℂ) (a : ℂ) (u w : Fin nb → ℂ) :
    sesq (fun i j => A i j * a + B i j) u w = sesq A u w * a + sesq B u w := by
  unfold sesq
  rw [Finset.sum_mul, ← Finset.sum_add_distrib]
  refine Finset.sum_congr rfl fun i _ => ?_
  rw [Finset.sum_mul, ← Finset.sum_add_distrib]
  exact Finset.sum_congr rfl fun j _ => by ring

theorem sesq_matrix_sum {nb : ℕ} {ι : Type*} (S : Finset ι) (A : ι → Matrix (Fin nb) (Fin nb) ℂ)
    (u w : Fin nb → ℂ) :
    sesq (fun i j => ∑ σ ∈ S, A σ i j) u w = ∑ σ ∈ S, sesq (A σ) u w := by
  unfold sesq
  rw [Finset.sum_comm (s := S)]
  refine Finset.sum_congr rfl fun i _ => ?_
  rw [Finset.sum_comm]
  refine Finset.sum_congr rfl fun j _ => ?_
  rw [Finset.mul_sum, Finset.sum_mul]

/-- The trace of the mixed bands as a quadratic form. -/
theorem trace_form {nb m : ℕ} {n : Fin 3 → ℕ} (c : Fin nb → Idx n → ℂ)
    (v : Fin m → Idx n → ℂ) (g : Idx n → Fin 3 → ℝ) (k : Fin 3 → ℝ) (vol : ℝ) (u : Fin nb → ℂ)
    (b : Coef 1 1 1 n) (hb : ∀ x, b 0 0 0 x = ∑ i, u i * c i x) :
    ∃ h : Fin 1 → Fin m → Fin 1 → ℝ,
      hamiltonianTerms b v g (fun _ : Fin 1 => k) vol = .ok ⟨m, h⟩ ∧
      (traceSum false h).total = (sesq (formMatrix c v g k vol) u u).re := by
  refine ⟨_, hamiltonianTerms_one b v g _ vol, ?_⟩
  have hb' : b 0 0 0 = fun x => ∑ i, u i * c i x := funext hb
  unfold traceSum TraceOut.total formMatrix
  simp only [Bool.false_eq_true, if_false, Finset.univ_unique, Finset.sum_singleton, Fin.default_eq_zero]
  rw [sesq_matrix_sum (A := fun σ i j => (∑ x, conj (orbital (c i) vol x) * v σ x * orbital (c j) vol x) *
      ((vol / (gridCount n : ℝ) : ℝ) : ℂ) +
    ∑ x, conj (c i x) * (kineticOperator g (fun _ : Fin 1 => k) 0 x : ℂ) * c j x)]
  refine Eq.trans ?_ (Complex.re_sum _ _).symm
  refine Finset.sum_congr rfl fun σ _ => ?_
  refine Eq.trans ?_ (congrArg Complex.re (sesq_linear
    (fun i j => ∑ x, conj (orbital (c i) vol x) * v σ x * orbital (c j) vol x)
    (fun i j => ∑ x, conj (c i x) * (kineticOperator g (fun _ : Fin 1 => k) 0 x : ℂ) * c j x)
    ((vol / (gridCount n : ℝ) : ℝ) : ℂ) u u)).symm
  rw [Complex.add_re]
  have h1 := sesq_sum (fun i => orbital (c i) vol) (v σ) u
  have h2 := sesq_sum c (fun x => (kineticOperator g (fun _ : Fin 1 => k) 0 x : ℂ)) u
  rw [← h1, ← h2, hb']
  simp only [orbital_sum]

/-- The form matrix of mixed bands. -/
theorem formMatrix_mix {nb nb' m : ℕ} {n : Fin 3 → ℕ} (c : Fin nb → Idx n → ℂ)
    (c' : Fin nb' → Idx n → ℂ) (U : Matrix (Fin nb') (Fin nb) ℂ)
    (hc : ∀ i x, c' i x = ∑ j, U i j * c j x) (v : Fin m → Idx n → ℂ) (g : Idx n → Fin 3 → ℝ)
    (k : Fin 3 → ℝ) (vol : ℝ) (i j : Fin nb') :
    formMatrix c' v g k vol i j = sesq (formMatrix c v g k vol) (U i) (U j) := by
  have hc' : ∀ i, c' i = fun x => ∑ j, U i j * c j x := fun i => funext (hc i)
  unfold formMatrix
  refine Eq.trans ?_ (sesq_matrix_sum Finset.univ
    (fun σ i j => (∑ x, conj (orbital (c i) vol x) * v σ x * orbital (c j) vol x) *
      ((vol / (gridCount n : ℝ) : ℝ) : ℂ) +
    ∑ x, conj (c i x) * (kineticOperator g (fun _ : Fin 1 => k) 0 x : ℂ) * c j x) (U i) (U j)).symm
  refine Finset.sum_congr rfl fun σ _ => ?_
  refine Eq.trans ?_ (sesq_linear
    (fun i j => ∑ x, conj (orbital (c i) vol x) * v σ x * orbital (c j) vol x)
    (fun i j => ∑ x, conj (c i x) * (kineticOperator g (fun _ : Fin 1 => k) 0 x : ℂ) * c j x)
    ((vol / (gridCount n : ℝ) : ℝ) : ℂ) (U i) (U j)).symm
  have h1 := sesq_sum₂ (fun i => orbital (c i) vol) (v σ) (U i) (U j)
  have h2 := sesq_sum₂ c (fun x => (kineticOperator g (fun _ : Fin 1 => k) 0 x : ℂ)) (U i) (U j)
  rw [← h1, ← h2, hc', hc']
  simp only [orbital_sum]

theorem conj_sesq {n : ℕ} (M : Matrix (Fin n) (Fin n) ℂ) (u w : Fin n → ℂ) :
    conj (sesq M u w) = sesq (fun i j => conj (M j i)) w u := by
  unfold sesq
  rw [map_sum, Finset.sum_comm]
  simp_rw [map_sum]
  rw [Finset.sum_comm]
  rw [Finset.sum_comm]
  refine Finset.sum_congr rfl fun i _ => Finset.sum_congr rfl fun j _ => ?_
  rw [map_mul, map_mul, Complex.conj_conj]
  ring

theorem hermPart_mix {nb nb' : ℕ} (M : Matrix (Fin nb) (Fin nb) ℂ) (M' : Matrix (Fin nb') (Fin nb') ℂ)
    (U : Matrix (Fin nb') (Fin nb) ℂ) (h : ∀ i j, M' i j = sesq M (U i) (U j)) (i j : Fin nb') :
    hermPart M' i j = sesq (hermPart M) (U i) (U j) := by
  unfold hermPart
  rw [h, h, conj_sesq]
  unfold sesq
  rw [← Finset.sum_add_distrib, Finset.sum_div]
  refine Finset.sum_congr rfl fun a _ => ?_
  rw [← Finset.sum_add_distrib, Finset.sum_div]
  refine Finset.sum_congr rfl fun b _ => ?_
  ring

theorem hermPart_diag {n : ℕ} (M : Matrix (Fin n) (Fin n) ℂ) (i : Fin n) :
    hermPart M i i = ((M i i).re : ℂ) := by
  unfold hermPart
  rw [Complex.re_eq_add_conj]

/-- Hermitian part of the form matrix: kinetic plus real part of the potential. -/
theorem hermPart_form {nb m : ℕ} {n : Fin 3 → ℕ} (c : Fin nb → Idx n → ℂ)
    (v : Fin m → Idx n → ℂ) (g : Idx n → Fin 3 → ℝ) (k : Fin 3 → ℝ) (vol : ℝ) (i j : Fin nb) :
    hermPart (formMatrix c v g k vol) i j = ∑ σ, (Spec.kineticElement g k (c i) (c j)
      + Spec.potentialElement vol (fun x => (v σ x).re) (orbital (c i) vol) (orbital (c j) vol)) := by
  unfold hermPart formMatrix
  rw [map_sum, ← Finset.sum_add_distrib, Finset.sum_div]
  refine Finset.sum_congr rfl fun σ _ => ?_
  rw [map_add, map_mul, Complex.conj_ofReal, map_sum, map_sum]
  unfold Spec.kineticElement Spec.potentialElement Spec.cellInner
  have h1 : ∑ x, conj (conj (c j x) * (kineticOperator g (fun _ : Fin 1 => k) 0 x : ℂ) * c i x)
      = ∑ x, conj (c i x) * (kineticOperator g (fun _ : Fin 1 => k) 0 x : ℂ) * c j x :=
    Finset.sum_congr rfl fun x _ => by
      rw [map_mul, map_mul, Complex.conj_conj, Complex.conj_ofReal]; ring
  have h2 : ∑ x, conj (c i x) * (kineticOperator g (fun _ : Fin 1 => k) 0 x : ℂ) * c j x
      = ∑ x, (Spec.kineticEnergy (fun d => g x d + k d) : ℂ) * (conj (c i x) * c j x) := by
    refine Finset.sum_congr rfl fun x _ => ?_
    unfold kineticOperator Spec.kineticEnergy
    rw [sum_sq_eq_dot fun d => g x d + k d]
    ring
  have h3 : (∑ x, conj (orbital (c i) vol x) * v σ x * orbital (c j) vol x)
      + ∑ x, conj (conj (orbital (c j) vol x) * v σ x * orbital (c i) vol x)
      = 2 * ∑ x, conj (orbital (c i) vol x) * (((v σ x).re : ℂ) * orbital (c j) vol x) := by
    rw [← Finset.sum_add_distrib, Finset.mul_sum]
    refine Finset.sum_congr rfl fun x _ => ?_
    rw [map_mul, map_mul, Complex.conj_conj, Complex.re_eq_add_conj]
    ring
  rw [h1, h2]
  have h4 : ((vol / (gridCount n : ℝ) : ℝ) : ℂ) = ((vol / (∏ i, n i : ℕ) : ℝ) : ℂ) := rfl
  rw [h4]
  linear_combination (((vol / (∏ i, n i : ℕ) : ℝ) : ℂ) / 2) * h3

end Jrystal
