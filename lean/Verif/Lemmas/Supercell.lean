import Verif.Spec.Supercell
import Verif.Lemmas.Energy
import Verif.Lemmas.Xc
import Verif.Lemmas.Planewave
import Verif.Props.Planewave
import Verif.Model.Run

/- Helper lemmas for C109: the arrays of a calculation with a larger cell. -/
namespace Jrystal
open scoped BigOperators ComplexConjugate

/-- Frequencies `q j + m - (q - 1)/2` modulo the number of points. -/
def axisFold {n q : ℕ} (p : Fin n × Fin q) : Fin (q * n) :=
  ⟨(q * p.1 + p.2 + (q * n - (q - 1) / 2)) % (q * n),
    Nat.mod_lt _ (Nat.mul_pos (by have := p.2.2; omega) (by have := p.1.2; omega))⟩

theorem axisFold_raw {n q : ℕ} (p : Fin n × Fin q) :
    ((axisFold p : ℕ) + (q - 1) / 2) % (q * n) = q * p.1 + p.2 := by
  have h1 := p.1.2
  have h2 := p.2.2
  have h3 : q * (p.1 : ℕ) + p.2 < q * n := by nlinarith
  have h4 : q ≤ q * n := Nat.le_mul_of_pos_right q (by omega)
  show ((q * (p.1 : ℕ) + p.2 + (q * n - (q - 1) / 2)) % (q * n) + (q - 1) / 2) % (q * n) = _
  rw [Nat.mod_add_mod, show q * (p.1 : ℕ) + p.2 + (q * n - (q - 1) / 2) + (q - 1) / 2
    = q * (p.1 : ℕ) + p.2 + q * n by omega, Nat.add_mod_right, Nat.mod_eq_of_lt h3]

theorem axisFold_injective {n q : ℕ} : Function.Injective (axisFold (n := n) (q := q)) := by
  intro p p' h
  have h1 := axisFold_raw p
  rw [h, axisFold_raw p'] at h1
  have hp := p.2.2
  have hp' := p'.2.2
  have e1 : (p'.1 : ℕ) = p.1 := by
    have := congrArg (· / q) h1
    simp only [Nat.mul_add_div (show 0 < q by omega), Nat.div_eq_of_lt hp, Nat.div_eq_of_lt hp', add_zero] at this
    exact this
  have e2 : (p'.2 : ℕ) = p.2 := by
    rw [e1] at h1
    omega
  exact Prod.ext (Fin.ext e1.symm) (Fin.ext e2.symm)

/-- The index differs from the frequency by a multiple of the number of points. -/
theorem axisFold_int {n q : ℕ} (p : Fin n × Fin q) :
    ∃ r : ℤ, ((axisFold p : ℕ) : ℤ) = q * (p.1 : ℕ) + (p.2 : ℕ) - (((q - 1) / 2 : ℕ) : ℤ) + r * (q * n) := by
  have h := axisFold_raw p
  have h2 := Nat.div_add_mod ((axisFold p : ℕ) + (q - 1) / 2) (q * n)
  rw [h] at h2
  refine ⟨(((axisFold p : ℕ) + (q - 1) / 2) / (q * n) : ℕ), ?_⟩
  generalize ((axisFold p : ℕ) + (q - 1) / 2) / (q * n) = r at h2 ⊢
  have h3 : ((q * n * r + (q * p.1 + p.2) : ℕ) : ℤ) = ((axisFold p : ℕ) + (q - 1) / 2 : ℕ) := by rw [h2]
  push_cast at h3 ⊢
  linarith

theorem sfreq_cases (n j : ℕ) (hj : j < n) :
    (2 * j < n ∧ sfreq n j = j) ∨ (n ≤ 2 * j ∧ sfreq n j = (j : ℤ) - n) := by
  unfold sfreq
  split
  · left; omega
  · right; omega

theorem sfreq_axisFold {n q : ℕ} (hq : Odd q) (p : Fin n × Fin q) (h : 2 * (p.1 : ℕ) ≠ n) :
    sfreq (q * n) (axisFold p) = q * sfreq n p.1 + ((p.2 : ℕ) - (((q - 1) / 2 : ℕ) : ℤ)) := by
  obtain ⟨h', rfl⟩ := hq
  obtain ⟨r, hr⟩ := axisFold_int p
  have hx := (axisFold p).2
  have hj := p.1.2
  have hm := p.2.2
  have e : (2 * h' + 1 - 1) / 2 = h' := by omega
  rw [e] at hr ⊢
  generalize (axisFold p : ℕ) = x at hr hx ⊢
  generalize (p.2 : ℕ) = m at hr hm ⊢
  generalize (p.1 : ℕ) = j at hr hj h ⊢
  push_cast at hr ⊢
  have hN : (x : ℤ) < (2 * h' + 1) * n := by exact_mod_cast hx
  rcases sfreq_cases n j hj with ⟨a1, a2⟩ | ⟨a1, a2⟩ <;>
    rcases sfreq_cases ((2 * h' + 1) * n) x hx with ⟨b1, b2⟩ | ⟨b1, b2⟩
  all_goals
    rw [a2, b2]
    have hN1 : (x : ℤ) < (2 * h' + 1) * n := by exact_mod_cast hx
    have hx0 : (0 : ℤ) ≤ x := by positivity
    have hh0 : (0 : ℤ) ≤ h' := by positivity
    have hjn : (j : ℤ) + 1 ≤ n := by exact_mod_cast hj
    have hmn : (m : ℤ) ≤ 2 * h' := by omega
    have hm0 : (0 : ℤ) ≤ m := by positivity
    have hj0 : (0 : ℤ) ≤ j := by positivity
    have hn0 : (1 : ℤ) ≤ n := by omega
    have hNp : (0 : ℤ) < (2 * h' + 1) * n := by positivity
  · have a1' : (2 : ℤ) * j + 1 ≤ n := by exact_mod_cast a1
    have b1' : (2 : ℤ) * x < (2 * h' + 1) * n := by exact_mod_cast b1
    have hr0 : r = 0 := by
      have u1 : r * ((2 * h' + 1) * n) < 1 * ((2 * h' + 1) * n) := by nlinarith
      have u2 : -1 * ((2 * h' + 1) * n) < r * ((2 * h' + 1) * n) := by nlinarith
      have := lt_of_mul_lt_mul_right u1 hNp.le
      have := lt_of_mul_lt_mul_right u2 hNp.le
      omega
    subst hr0
    linarith
  · have a1' : (2 : ℤ) * j + 1 ≤ n := by exact_mod_cast a1
    have b1' : ((2 * h' + 1) * n : ℤ) ≤ 2 * x := by exact_mod_cast b1
    have hr1 : r = 1 := by
      have u1 : r * ((2 * h' + 1) * n) < 2 * ((2 * h' + 1) * n) := by nlinarith
      have u2 : 0 * ((2 * h' + 1) * n) < r * ((2 * h' + 1) * n) := by nlinarith
      have := lt_of_mul_lt_mul_right u1 hNp.le
      have := lt_of_mul_lt_mul_right u2 hNp.le
      omega
    subst hr1
    push_cast
    linarith
  · have a1' : (n : ℤ) + 1 ≤ 2 * j := by omega
    have b1' : (2 : ℤ) * x < (2 * h' + 1) * n := by exact_mod_cast b1
    have hr1 : r = -1 := by
      have u1 : r * ((2 * h' + 1) * n) < 0 * ((2 * h' + 1) * n) := by nlinarith
      have u2 : -2 * ((2 * h' + 1) * n) < r * ((2 * h' + 1) * n) := by nlinarith
      have := lt_of_mul_lt_mul_right u1 hNp.le
      have := lt_of_mul_lt_mul_right u2 hNp.le
      omega
    subst hr1
    linarith
  · have a1' : (n : ℤ) + 1 ≤ 2 * j := by omega
    have b1' : ((2 * h' + 1) * n : ℤ) ≤ 2 * x := by exact_mod_cast b1
    have hr1 : r = 0 := by
      have u1 : r * ((2 * h' + 1) * n) < 1 * ((2 * h' + 1) * n) := by nlinarith
      have u2 : -1 * ((2 * h' + 1) * n) < r * ((2 * h' + 1) * n) := by nlinarith
      have := lt_of_mul_lt_mul_right u1 hNp.le
      have := lt_of_mul_lt_mul_right u2 hNp.le
      omega
    subst hr1
    push_cast
    linarith

theorem sfreq_mult {n q : ℕ} (hq : 0 < q) (j : ℕ) (hj : j < n) : sfreq (q * n) (q * j) = q * sfreq n j := by
  have hqj : q * j < q * n := Nat.mul_lt_mul_of_pos_left hj hq
  rcases sfreq_cases n j hj with ⟨a1, a2⟩ | ⟨a1, a2⟩ <;>
    rcases sfreq_cases (q * n) (q * j) hqj with ⟨b1, b2⟩ | ⟨b1, b2⟩
  · rw [a2, b2]; push_cast; ring
  · exfalso; nlinarith
  · exfalso; nlinarith
  · rw [a2, b2]; push_cast; ring

section Super
variable {n q : Fin 3 → ℕ}

/-- The sizes of the grid of the larger cell. -/
abbrev mulSizes (q n : Fin 3 → ℕ) : Fin 3 → ℕ := fun i => q i * n i

/-- The plane wave of the larger cell that a plane wave and a folded k point belong to. -/
def foldWave (p : Idx n × Idx q) : Idx (mulSizes q n) := fun i => axisFold (p.1 i, p.2 i)

theorem foldWave_injective : Function.Injective (foldWave (n := n) (q := q)) := by
  intro p p' h
  have h1 : ∀ i, (p.1 i, p.2 i) = (p'.1 i, p'.2 i) := fun i => axisFold_injective (congrFun h i)
  exact Prod.ext (funext fun i => congrArg Prod.fst (h1 i)) (funext fun i => congrArg Prod.snd (h1 i))

theorem card_mulSizes : Fintype.card (Idx n × Idx q) = Fintype.card (Idx (mulSizes q n)) := by
  rw [Fintype.card_prod]
  simp only [Fintype.card_pi, Fintype.card_fin]
  rw [Finset.prod_mul_distrib, mul_comm]

theorem foldWave_bijective : Function.Bijective (foldWave (n := n) (q := q)) :=
  (Fintype.bijective_iff_injective_and_card _).2 ⟨foldWave_injective, card_mulSizes⟩

noncomputable def foldEquiv : Idx n × Idx q ≃ Idx (mulSizes q n) := Equiv.ofBijective _ foldWave_bijective

/-- The point of the smaller cell that a point of the larger cell is a copy of. -/
def wrapPoint (x : Idx (mulSizes q n)) : Idx n := fun i =>
  ⟨(x i : ℕ) % n i, Nat.mod_lt _ (Nat.pos_of_ne_zero fun h => by
    have h2 : (x i : ℕ) < q i * n i := (x i).2
    rw [h, mul_zero] at h2
    exact Nat.not_lt_zero _ h2)⟩

/-- The frequency of the larger cell that a frequency of the smaller cell is. -/
def multFreq (hq : ∀ i, 0 < q i) (j : Idx n) : Idx (mulSizes q n) := fun i =>
  ⟨q i * j i, Nat.mul_lt_mul_of_pos_left (j i).2 (hq i)⟩

theorem multFreq_injective (hq : ∀ i, 0 < q i) : Function.Injective (multFreq (n := n) hq) := by
  intro j j' h
  funext i
  have := congrArg Fin.val (congrFun h i)
  exact Fin.ext (Nat.eq_of_mul_eq_mul_left (hq i) this)

/-- Each point of the smaller cell has as many copies as there are cells. -/
theorem sum_wrap {M : Type*} [AddCommMonoid M] (f : Idx n → M) :
    ∑ x : Idx (mulSizes q n), f (wrapPoint x) = (∏ i, q i) • ∑ y, f y := by
  let e : Idx q × Idx n ≃ Idx (mulSizes q n) :=
    { toFun := fun p i => finProdFinEquiv (p.1 i, p.2 i)
      invFun := fun x => (fun i => (finProdFinEquiv.symm (x i)).1, fun i => (finProdFinEquiv.symm (x i)).2)
      left_inv := fun p => by
        refine Prod.ext (funext fun i => ?_) (funext fun i => ?_)
        · show (finProdFinEquiv.symm (finProdFinEquiv (p.1 i, p.2 i))).1 = _
          rw [Equiv.symm_apply_apply]
        · show (finProdFinEquiv.symm (finProdFinEquiv (p.1 i, p.2 i))).2 = _
          rw [Equiv.symm_apply_apply]
      right_inv := fun x => funext fun i => by
        show finProdFinEquiv (finProdFinEquiv.symm (x i)) = _
        rw [Equiv.apply_symm_apply] }
  have he : ∀ p, wrapPoint (e p) = p.2 := by
    intro p
    funext i
    refine Fin.ext ?_
    show ((p.2 i : ℕ) + n i * (p.1 i : ℕ)) % n i = _
    rw [Nat.add_mul_mod_self_left, Nat.mod_eq_of_lt (p.2 i).2]
  rw [← e.sum_comp, Fintype.sum_prod_type]
  simp only [he, Finset.sum_const, Finset.card_univ, Fintype.card_pi, Fintype.card_fin]

/-- The extra phase of a folded wave. -/
noncomputable def foldPhase (m : Idx q) (x : Idx (mulSizes q n)) : ℂ :=
  ∏ i, Complex.exp (2 * Real.pi * Complex.I *
    (((((m i : ℕ) : ℂ) - ((q i - 1) / 2 : ℕ)) * ((x i : ℕ) : ℂ)) / ((q i : ℂ) * (n i : ℂ))))

theorem norm_foldPhase (m : Idx q) (x : Idx (mulSizes q n)) : ‖foldPhase m x‖ = 1 := by
  unfold foldPhase
  rw [norm_prod]
  refine Finset.prod_eq_one fun i _ => ?_
  rw [show (2 * (Real.pi : ℂ) * Complex.I *
    (((((m i : ℕ) : ℂ) - ((q i - 1) / 2 : ℕ)) * ((x i : ℕ) : ℂ)) / ((q i : ℂ) * (n i : ℂ))))
    = ((2 * Real.pi * ((((m i : ℕ) : ℝ) - ((q i - 1) / 2 : ℕ)) * ((x i : ℕ) : ℝ) / ((q i : ℝ) * (n i : ℝ))) : ℝ) : ℂ)
      * Complex.I by push_cast; ring]
  exact Complex.norm_exp_ofReal_mul_I _

theorem exp_wrap {n : ℕ} (hn : n ≠ 0) (j x : ℕ) :
    Complex.exp (2 * Real.pi * Complex.I * ((j : ℂ) * ((x % n : ℕ) : ℂ) / (n : ℂ)))
      = Complex.exp (2 * Real.pi * Complex.I * ((j : ℂ) * (x : ℂ) / (n : ℂ))) := by
  have hn' : (n : ℂ) ≠ 0 := by exact_mod_cast hn
  rw [Complex.exp_eq_exp_iff_exists_int]
  refine ⟨-((j * (x / n) : ℕ) : ℤ), ?_⟩
  have h : (x : ℂ) = (n : ℂ) * ((x / n : ℕ) : ℂ) + ((x % n : ℕ) : ℂ) := by exact_mod_cast (Nat.div_add_mod x n).symm
  rw [h]
  generalize x / n = y
  generalize x % n = w
  push_cast
  field_simp
  ring

theorem omega_foldWave (p : Idx n × Idx q) (x : Idx (mulSizes q n)) :
    omega (foldWave p) x = foldPhase p.2 x * omega p.1 (wrapPoint x) := by
  rw [omega_prod, omega_prod]
  unfold foldPhase
  rw [← Finset.prod_mul_distrib]
  refine Finset.prod_congr rfl fun i _ => ?_
  have hn : n i ≠ 0 := by have := (p.1 i).2; omega
  have hq : q i ≠ 0 := by have := (p.2 i).2; omega
  show _ = _ * Complex.exp (2 * Real.pi * Complex.I * (((p.1 i : ℕ) : ℂ) * (((x i : ℕ) % n i : ℕ) : ℂ) / (n i : ℂ)))
  rw [exp_wrap hn, ← Complex.exp_add, Complex.exp_eq_exp_iff_exists_int]
  obtain ⟨r, hr⟩ := axisFold_int (p.1 i, p.2 i)
  refine ⟨r * (x i : ℕ), ?_⟩
  have hr' : ((foldWave p i : ℕ) : ℂ) = (q i : ℂ) * ((p.1 i : ℕ) : ℂ) + ((p.2 i : ℕ) : ℂ) - (((q i - 1) / 2 : ℕ) : ℂ)
      + (r : ℂ) * ((q i : ℂ) * (n i : ℂ)) := by exact_mod_cast hr
  rw [hr']
  have hn' : (n i : ℂ) ≠ 0 := by exact_mod_cast hn
  have hq' : (q i : ℂ) ≠ 0 := by exact_mod_cast hq
  push_cast
  generalize (((q i - 1) / 2 : ℕ) : ℂ) = h
  field_simp
  ring

theorem omega_multFreq (hq : ∀ i, 0 < q i) (j : Idx n) (x : Idx (mulSizes q n)) :
    omega (multFreq hq j) x = omega j (wrapPoint x) := by
  rw [omega_prod, omega_prod]
  refine Finset.prod_congr rfl fun i _ => ?_
  have hn : n i ≠ 0 := by have := (j i).2; omega
  have hn' : (n i : ℂ) ≠ 0 := by exact_mod_cast hn
  have hq' : (q i : ℂ) ≠ 0 := by exact_mod_cast (hq i).ne'
  show Complex.exp (2 * Real.pi * Complex.I * (((q i * (j i : ℕ) : ℕ) : ℂ) * ((x i : ℕ) : ℂ) / ((q i * n i : ℕ) : ℂ)))
    = Complex.exp (2 * Real.pi * Complex.I * (((j i : ℕ) : ℂ) * (((x i : ℕ) % n i : ℕ) : ℂ) / (n i : ℂ)))
  rw [exp_wrap hn]
  congr 2
  push_cast
  field_simp

theorem gridCount_mulSizes : (gridCount (mulSizes q n)) = (∏ i, q i) * gridCount n := by
  unfold gridCount
  rw [Finset.prod_mul_distrib]

/-- The values at the frequencies of the smaller cell, zero elsewhere. -/
noncomputable def spreadFreq {M : Type*} [Zero M] (hq : ∀ i, 0 < q i) (F : Idx n → M) : Idx (mulSizes q n) → M :=
  Function.extend (multFreq hq) F 0

theorem spreadFreq_mult {M : Type*} [Zero M] (hq : ∀ i, 0 < q i) (F : Idx n → M) (j : Idx n) :
    spreadFreq hq F (multFreq hq j) = F j := (multFreq_injective hq).extend_apply _ _ _

theorem spreadFreq_zero {M : Type*} [Zero M] (hq : ∀ i, 0 < q i) (F : Idx n → M) (x : Idx (mulSizes q n))
    (hx : x ∉ Set.range (multFreq (n := n) hq)) : spreadFreq hq F x = 0 :=
  Function.extend_apply' _ _ _ hx

theorem ifftn_spread (hq : ∀ i, 0 < q i) (F : Idx n → ℂ) (x : Idx (mulSizes q n)) :
    ifftn (fun k => ((∏ i, q i : ℕ) : ℂ) * spreadFreq hq F k) x = ifftn F (wrapPoint x) := by
  have hN := gridCount_ne (wrapPoint x)
  have hQ : ((∏ i, q i : ℕ) : ℂ) ≠ 0 := by exact_mod_cast (Finset.prod_pos fun i _ => hq i).ne'
  rw [ifftn_eq, ifftn_eq, gridCount_mulSizes, ← Fintype.sum_of_injective (multFreq hq) (multFreq_injective hq)
    (fun j => ((∏ i, q i : ℕ) : ℂ) * F j * omega j (wrapPoint x))]
  · simp_rw [mul_assoc]
    rw [← Finset.mul_sum, Nat.cast_mul, mul_div_mul_left _ _ hQ]
  · intro k hk
    rw [spreadFreq_zero hq F k hk, mul_zero, zero_mul]
  · intro j
    rw [spreadFreq_mult, omega_multFreq]

/-- The transform of a periodic function. -/
theorem fftn_wrap (hq : ∀ i, 0 < q i) (f : Idx n → ℂ) :
    fftn (fun x : Idx (mulSizes q n) => f (wrapPoint x)) = fun k => ((∏ i, q i : ℕ) : ℂ) * spreadFreq hq (fftn f) k := by
  have h : (fun x : Idx (mulSizes q n) => f (wrapPoint x))
      = ifftn (fun k => ((∏ i, q i : ℕ) : ℂ) * spreadFreq hq (fftn f) k) := by
    funext x
    rw [ifftn_spread, ifftn_fftn']
  rw [h, fftn_ifftn']

theorem spreadFreq_mul (hq : ∀ i, 0 < q i) (F G : Idx n → ℂ) (G' : Idx (mulSizes q n) → ℂ)
    (hG : ∀ j, G' (multFreq hq j) = G j) (k : Idx (mulSizes q n)) :
    spreadFreq hq F k * G' k = spreadFreq hq (fun j => F j * G j) k := by
  by_cases hk : k ∈ Set.range (multFreq (n := n) hq)
  · obtain ⟨j, rfl⟩ := hk
    rw [spreadFreq_mult, spreadFreq_mult, hG]
  · rw [spreadFreq_zero hq _ k hk, spreadFreq_zero hq _ k hk, zero_mul]

theorem supercell_matrix {A A' : Matrix (Fin 3) (Fin 3) ℝ} (h : ∀ i d, A' i d = q i * A i d) :
    A' = Matrix.diagonal (fun i => (q i : ℝ)) * A := by
  ext i d
  rw [h, Matrix.diagonal_mul]

theorem supercell_det {A A' : Matrix (Fin 3) (Fin 3) ℝ} (h : ∀ i d, A' i d = q i * A i d) :
    A'.det = (∏ i, q i : ℕ) * A.det := by
  rw [supercell_matrix h, Matrix.det_mul, Matrix.det_diagonal]
  push_cast
  rfl

theorem supercell_volume {A A' : Matrix (Fin 3) (Fin 3) ℝ} (h : ∀ i d, A' i d = q i * A i d) :
    |A'.det| = (∏ i, q i : ℕ) * |A.det| := by
  rw [supercell_det h, abs_mul, abs_of_nonneg (Nat.cast_nonneg _)]

theorem supercell_reciprocal (hq : ∀ i, 0 < q i) {A A' : Matrix (Fin 3) (Fin 3) ℝ} (hA : A.det ≠ 0)
    (h : ∀ i d, A' i d = q i * A i d) (i d : Fin 3) :
    reciprocalVectors A' i d = reciprocalVectors A i d / q i := by
  have hinv : A'⁻¹ = A⁻¹ * Matrix.diagonal (fun i => (q i : ℝ)⁻¹) := by
    refine Matrix.inv_eq_right_inv ?_
    rw [supercell_matrix h, Matrix.mul_assoc, ← Matrix.mul_assoc A, Matrix.mul_nonsing_inv _ (Ne.isUnit hA),
      Matrix.one_mul, Matrix.diagonal_mul_diagonal, ← Matrix.diagonal_one]
    congr 1
    funext i
    exact mul_inv_cancel₀ (by exact_mod_cast (hq i).ne')
  unfold reciprocalVectors
  rw [hinv]
  simp only [Matrix.smul_apply, Matrix.transpose_apply, Matrix.mul_diagonal, smul_eq_mul]
  ring

theorem gVectors_multFreq (hq : ∀ i, 0 < q i) {A A' : Matrix (Fin 3) (Fin 3) ℝ} (hA : A.det ≠ 0)
    (h : ∀ i d, A' i d = q i * A i d) (j : Idx n) : gVectors A' (mulSizes q n) (multFreq hq j) = gVectors A n j := by
  funext d
  rw [gVectors_apply, gVectors_apply]
  refine Finset.sum_congr rfl fun i _ => ?_
  have hqi : (q i : ℝ) ≠ 0 := by exact_mod_cast (hq i).ne'
  show (sfreq (q i * n i) (q i * j i) : ℝ) * _ = _
  rw [sfreq_mult (hq i) _ (j i).2, supercell_reciprocal hq hA h]
  push_cast
  field_simp

/-- The k point of the larger cell and the folded plane wave add up to the k point of the smaller cell and its plane
wave. -/
theorem foldWave_vector (hq : ∀ i, Odd (q i)) {A A' : Matrix (Fin 3) (Fin 3) ℝ} (hA : A.det ≠ 0)
    (h : ∀ i d, A' i d = q i * A i d) {kn : Fin 3 → ℕ} (j : Idx n) (hj : ∀ i, 2 * (j i : ℕ) ≠ n i) (s : Idx kn)
    (m : Idx q) (r : Idx (mulSizes q kn)) (hr : ∀ i, (r i : ℕ) = s i + kn i * m i) (d : Fin 3) :
    gVectors A' (mulSizes q n) (foldWave (j, m)) d + kVectors A' kn s d
      = gVectors A n j d + kVectors A (mulSizes q kn) r d := by
  have hq0 : ∀ i, 0 < q i := fun i => (hq i).pos
  rw [gVectors_apply, gVectors_apply]
  unfold kVectors
  rw [← Finset.sum_add_distrib, ← Finset.sum_add_distrib]
  refine Finset.sum_congr rfl fun i _ => ?_
  have hqi : (q i : ℝ) ≠ 0 := by exact_mod_cast (hq0 i).ne'
  have hki : (kn i : ℝ) ≠ 0 := by
    have := (s i).2
    exact_mod_cast (show kn i ≠ 0 by omega)
  show (sfreq (q i * n i) (axisFold (j i, m i)) : ℝ) * _ + ((((s i : ℕ) : ℝ) + 0.5) / (kn i : ℝ) - 0.5) * _
    = _ + ((((r i : ℕ) : ℝ) + 0.5) / ((q i * kn i : ℕ) : ℝ) - 0.5) * _
  rw [sfreq_axisFold (hq i) _ (hj i), supercell_reciprocal hq0 hA h, hr i]
  obtain ⟨t, ht⟩ := hq i
  have ht' : (q i : ℝ) = 2 * t + 1 := by exact_mod_cast ht
  have e : (((q i - 1) / 2 : ℕ) : ℝ) = (q i - 1) / 2 := by
    rw [ht', show (q i - 1) / 2 = t by omega]
    ring
  generalize (q i - 1) / 2 = w at e ⊢
  push_cast
  rw [e]
  field_simp
  ring

/-- The k points of the smaller cell by folded k points and shifts. -/
def kSplit {kn : Fin 3 → ℕ} : Idx kn × Idx q ≃ Idx (mulSizes q kn) where
  toFun p i := finProdFinEquiv (p.2 i, p.1 i)
  invFun x := (fun i => (finProdFinEquiv.symm (x i)).2, fun i => (finProdFinEquiv.symm (x i)).1)
  left_inv p := by
    refine Prod.ext (funext fun i => ?_) (funext fun i => ?_)
    · show (finProdFinEquiv.symm (finProdFinEquiv (p.2 i, p.1 i))).2 = _
      rw [Equiv.symm_apply_apply]
    · show (finProdFinEquiv.symm (finProdFinEquiv (p.2 i, p.1 i))).1 = _
      rw [Equiv.symm_apply_apply]
  right_inv x := funext fun i => by
    show finProdFinEquiv (finProdFinEquiv.symm (x i)) = _
    rw [Equiv.apply_symm_apply]

theorem idxList_nodup (n : Fin 3 → ℕ) : (idxList n).Nodup :=
  (idxList_sorted n).imp fun h e => by subst e; exact lt_irrefl _ h

/-- Positions in the list of k points. -/
def idxEquiv (n : Fin 3 → ℕ) : Fin (idxList n).length ≃ Idx n :=
  (idxList_nodup n).getEquivOfForallMemList _ mem_idxList

theorem idxEquiv_apply (n : Fin 3 → ℕ) (k : Fin (idxList n).length) : idxEquiv n k = (idxList n).get k := rfl

section State
variable {ns nk nk' nb nb' : ℕ}

/-- The orbitals of the larger cell. -/
noncomputable def foldCoef (eK : Fin nk' × Idx q ≃ Fin nk) (eB : Fin nb' ≃ Fin nb × Idx q) (c : Coef ns nk nb n) :
    Coef ns nk' nb' (mulSizes q n) :=
  fun s k b x => if (foldEquiv.symm x).2 = (eB b).2 then c s (eK (k, (eB b).2)) (eB b).1 (foldEquiv.symm x).1 else 0

/-- Their occupations. -/
noncomputable def foldOcc (eK : Fin nk' × Idx q ≃ Fin nk) (eB : Fin nb' ≃ Fin nb × Idx q) (occ : Occ ns nk nb) :
    Occ ns nk' nb' :=
  fun s k b => ((∏ i, q i : ℕ) : ℝ) * occ s (eK (k, (eB b).2)) (eB b).1

theorem foldCoef_fold (eK : Fin nk' × Idx q ≃ Fin nk) (eB : Fin nb' ≃ Fin nb × Idx q) (c : Coef ns nk nb n)
    (s : Fin ns) (k : Fin nk') (b : Fin nb') (j : Idx n) (m : Idx q) :
    foldCoef eK eB c s k b (foldWave (j, m)) = if m = (eB b).2 then c s (eK (k, (eB b).2)) (eB b).1 j else 0 := by
  have h : foldEquiv.symm (foldWave (j, m)) = (j, m) := foldEquiv.symm_apply_apply (j, m)
  unfold foldCoef
  rw [h]

/-- Sums over the plane waves of an orbital of the larger cell. -/
theorem sum_foldCoef {M : Type*} [AddCommMonoid M] (eK : Fin nk' × Idx q ≃ Fin nk) (eB : Fin nb' ≃ Fin nb × Idx q)
    (c : Coef ns nk nb n) (s : Fin ns) (k : Fin nk') (b : Fin nb') (F : Idx (mulSizes q n) → ℂ → M)
    (hF : ∀ x, F x 0 = 0) :
    ∑ x, F x (foldCoef eK eB c s k b x)
      = ∑ j, F (foldWave (j, (eB b).2)) (c s (eK (k, (eB b).2)) (eB b).1 j) := by
  rw [← foldEquiv.sum_comp, Fintype.sum_prod_type]
  refine Finset.sum_congr rfl fun j _ => ?_
  show ∑ m, F (foldWave (j, m)) (foldCoef eK eB c s k b (foldWave (j, m))) = _
  simp only [foldCoef_fold]
  rw [Finset.sum_eq_single (eB b).2 (fun m _ hm => by rw [if_neg hm, hF]) (fun h => absurd (Finset.mem_univ _) h),
    if_pos rfl]

theorem sum_bands (eK : Fin nk' × Idx q ≃ Fin nk) (eB : Fin nb' ≃ Fin nb × Idx q) (f : Fin nk → Fin nb → ℝ) :
    ∑ k, ∑ b, f (eK (k, (eB b).2)) (eB b).1 = ∑ k, ∑ b, f k b := by
  have h1 : ∀ k, ∑ b, f (eK (k, (eB b).2)) (eB b).1 = ∑ m, ∑ b, f (eK (k, m)) b := by
    intro k
    rw [eB.sum_comp (fun p => f (eK (k, p.2)) p.1), Fintype.sum_prod_type, Finset.sum_comm]
  simp only [h1]
  rw [← eK.sum_comp, Fintype.sum_prod_type]

theorem wave_fold (eK : Fin nk' × Idx q ≃ Fin nk) (eB : Fin nb' ≃ Fin nb × Idx q)
    (c : Coef ns nk nb n) (vol vol' : ℝ) (hv : 0 < vol) (hv' : vol' = (∏ i, q i : ℕ) * vol) (hq : ∀ i, 0 < q i)
    (s : Fin ns) (k : Fin nk') (b : Fin nb') (x : Idx (mulSizes q n)) :
    ((∏ i, q i : ℕ) : ℝ) * absoluteSquare (waveGrid (foldCoef eK eB c) vol' s k b x)
      = absoluteSquare (waveGrid c vol s (eK (k, (eB b).2)) (eB b).1 (wrapPoint x)) := by
  have hQ : (0 : ℝ) < (∏ i, q i : ℕ) := by exact_mod_cast Finset.prod_pos fun i _ => hq i
  have e : ∀ {n₁ : Fin 3 → ℕ} (F : Idx n₁ → ℂ) (x : Idx n₁) (v : ℝ), 0 < v →
      ‖ifftn F x * (((gridCount n₁ : ℝ) / Real.sqrt v : ℝ) : ℂ)‖ ^ 2 = ‖∑ y, F y * omega y x‖ ^ 2 / v := by
    intro n₁ F x v hv
    have hN : (gridCount n₁ : ℝ) ≠ 0 := gridCount_ne_real x
    have hN' : (0 : ℝ) ≤ gridCount n₁ := Nat.cast_nonneg _
    rw [ifftn_eq, norm_mul, norm_div, mul_pow, div_pow, Complex.norm_real, Real.norm_eq_abs, sq_abs, div_pow,
      Real.sq_sqrt hv.le, Complex.norm_natCast]
    field_simp
  rw [absoluteSquare_eq, absoluteSquare_eq]
  unfold waveGrid
  rw [e _ _ _ (by rw [hv']; positivity), e _ _ _ hv, sum_foldCoef eK eB c s k b (fun y v => v * omega y x) (by simp)]
  simp only [omega_foldWave]
  simp_rw [mul_left_comm _ (foldPhase _ _)]
  rw [← Finset.mul_sum, norm_mul, norm_foldPhase, one_mul, hv']
  field_simp

/-- The density of the larger cell is the density of the smaller one, repeated. -/
theorem density_fold (eK : Fin nk' × Idx q ≃ Fin nk) (eB : Fin nb' ≃ Fin nb × Idx q)
    (c : Coef ns nk nb n) (occ : Occ ns nk nb) (vol vol' : ℝ) (hv : 0 < vol)
    (hv' : vol' = (∏ i, q i : ℕ) * vol) (hq : ∀ i, 0 < q i) :
    densityGrid (foldCoef eK eB c) vol' (foldOcc eK eB occ)
      = fun s (x : Idx (mulSizes q n)) => densityGrid c vol occ s (wrapPoint x) := by
  funext s x
  unfold densityGrid densityGridBands foldOcc
  have e : ∀ k b, absoluteSquare (waveGrid (foldCoef eK eB c) vol' s k b x) *
      (((∏ i, q i : ℕ) : ℝ) * occ s (eK (k, (eB b).2)) (eB b).1)
      = absoluteSquare (waveGrid c vol s (eK (k, (eB b).2)) (eB b).1 (wrapPoint x)) *
        occ s (eK (k, (eB b).2)) (eB b).1 := by
    intro k b
    rw [← wave_fold eK eB c vol vol' hv hv' hq]
    ring
  simp only [e]
  exact sum_bands eK eB (fun k b => absoluteSquare (waveGrid c vol s k b (wrapPoint x)) * occ s k b)

theorem reciprocal_fold (eK : Fin nk' × Idx q ≃ Fin nk) (eB : Fin nb' ≃ Fin nb × Idx q)
    (c : Coef ns nk nb n) (occ : Occ ns nk nb) (vol vol' : ℝ) (hv : 0 < vol)
    (hv' : vol' = (∏ i, q i : ℕ) * vol) (hq : ∀ i, 0 < q i) :
    densityGridReciprocal (foldCoef eK eB c) vol' (foldOcc eK eB occ)
      = fun s k => ((∏ i, q i : ℕ) : ℂ) * spreadFreq hq (densityGridReciprocal c vol occ s) k := by
  funext s k
  unfold densityGridReciprocal
  rw [density_fold eK eB c occ vol vol' hv hv' hq]
  exact congrFun (fftn_wrap hq (fun j => (densityGrid c vol occ s j : ℂ))) k

theorem kinetic_fold (hqo : ∀ i, Odd (q i)) {A A' : Matrix (Fin 3) (Fin 3) ℝ} (hA : A.det ≠ 0)
    (h : ∀ i d, A' i d = q i * A i d) {kn : Fin 3 → ℕ}
    (eB : Fin nb' ≃ Fin nb × Idx q) (c : Coef ns (idxList (mulSizes q kn)).length nb n)
    (hc : ∀ s k b j, (∃ i, 2 * (j i : ℕ) = n i) → c s k b j = 0)
    (occ : Occ ns (idxList (mulSizes q kn)).length nb) :
    kineticEnergyOcc (gVectors A' (mulSizes q n)) (flatRows (kVectors A' kn))
        (foldCoef (((idxEquiv kn).prodCongr (Equiv.refl _)).trans (kSplit.trans (idxEquiv (mulSizes q kn)).symm)) eB c)
        (foldOcc (((idxEquiv kn).prodCongr (Equiv.refl _)).trans (kSplit.trans (idxEquiv (mulSizes q kn)).symm)) eB occ)
      = (∏ i, q i : ℕ) * kineticEnergyOcc (gVectors A n) (flatRows (kVectors A (mulSizes q kn))) c occ := by
  set eK : Fin (idxList kn).length × Idx q ≃ Fin (idxList (mulSizes q kn)).length :=
    ((idxEquiv kn).prodCongr (Equiv.refl _)).trans (kSplit.trans (idxEquiv (mulSizes q kn)).symm) with heK
  have hE : ∀ k m, (idxList (mulSizes q kn)).get (eK (k, m)) = kSplit ((idxList kn).get k, m) := by
    intro k m
    rw [← idxEquiv_apply]
    show idxEquiv _ ((idxEquiv (mulSizes q kn)).symm (kSplit (idxEquiv kn k, m))) = _
    rw [Equiv.apply_symm_apply, idxEquiv_apply]
  unfold kineticEnergyOcc
  rw [← mul_div_assoc, Finset.mul_sum]
  congr 1
  refine Finset.sum_congr rfl fun s _ => ?_
  rw [← sum_bands eK eB, Finset.mul_sum]
  refine Finset.sum_congr rfl fun k _ => ?_
  rw [Finset.mul_sum]
  refine Finset.sum_congr rfl fun b _ => ?_
  rw [sum_foldCoef eK eB c s k b (fun x v => (∑ d, (gVectors A' (mulSizes q n) x d +
    flatRows (kVectors A' kn) k d) ^ 2) * absoluteSquare v) (by simp [absoluteSquare])]
  unfold foldOcc
  rw [mul_left_comm]
  congr 2
  refine Finset.sum_congr rfl fun j _ => ?_
  by_cases hj : ∃ i, 2 * (j i : ℕ) = n i
  · rw [hc _ _ _ _ hj]
    simp [absoluteSquare]
  · push Not at hj
    congr 1
    refine Finset.sum_congr rfl fun d _ => ?_
    congr 1
    unfold flatRows
    rw [hE, foldWave_vector hqo hA h j hj _ _ (kSplit (_, _)) (fun i => rfl)]

end State

section Energy
variable {ns : ℕ} (hq : ∀ i, 0 < q i) {g : Idx n → Fin 3 → ℝ} {g' : Idx (mulSizes q n) → Fin 3 → ℝ}
  (hg : ∀ j, g' (multFreq hq j) = g j)

include hg

theorem gradRho_fold (a : Idx n → ℝ) (d : Fin 3) (x : Idx (mulSizes q n)) :
    gradRho g' (fun y => a (wrapPoint y)) d x = gradRho g a d (wrapPoint x) := by
  unfold gradRho
  rw [← ifftn_spread hq]
  congr 1
  funext k
  have h := congrFun (fftn_wrap hq (fun j => (a j : ℂ))) k
  rw [show fftn (fun y : Idx (mulSizes q n) => ((a (wrapPoint y) : ℝ) : ℂ)) k = _ from h, mul_assoc, mul_assoc]
  congr 1
  rw [spreadFreq_mul hq (fftn fun j => (a j : ℂ)) (fun j => Complex.I * (g j d : ℂ))
    (fun k => Complex.I * (g' k d : ℂ)) (fun j => by rw [hg])]
  congr 1
  funext j
  ring

theorem sigmaPair_fold (a b : Idx n → ℝ) (x : Idx (mulSizes q n)) :
    sigmaPair g' (fun y => a (wrapPoint y)) (fun y => b (wrapPoint y)) x = sigmaPair g a b (wrapPoint x) := by
  unfold sigmaPair
  simp only [gradRho_fold hq hg]

theorem excDensity_fold (lib : XcLib) (xt : String) (rho : Fin ns → Idx n → ℝ) (x : Idx (mulSizes q n)) :
    excDensity lib xt g' (fun s y => rho s (wrapPoint y)) x = excDensity lib xt g rho (wrapPoint x) := by
  have hch : ∀ i, chan (fun s (y : Idx (mulSizes q n)) => rho s (wrapPoint y)) i = fun y => chan rho i (wrapPoint y) := by
    intro i
    unfold chan
    split_ifs <;> rfl
  have h1 : ∀ a : Idx n → ℝ, sigma1 g' (fun y => a (wrapPoint y)) x = sigma1 g a (wrapPoint x) := by
    intro a
    unfold sigma1
    simp only [gradRho_fold hq hg]
  unfold excDensity
  simp only [hch, sigma2, sigmaPair_fold hq hg, h1]

theorem xcEnergy_fold (lib : XcLib) (xt : String) (rho : Fin ns → Idx n → ℝ) (vol vol' : ℝ)
    (hv' : vol' = (∏ i, q i : ℕ) * vol) (e : ℝ) (h : xcEnergy lib xt false rho g vol = .ok e) :
    xcEnergy lib xt false (fun s (y : Idx (mulSizes q n)) => rho s (wrapPoint y)) g' vol'
      = .ok ((∏ i, q i : ℕ) * e) := by
  have hQ : ((∏ i, q i : ℕ) : ℝ) ≠ 0 := by exact_mod_cast (Finset.prod_pos fun i _ => hq i).ne'
  rw [xcEnergy_value] at h ⊢
  rw [← Except.ok.inj h]
  congr 1
  simp only [excDensity_fold hq hg]
  rw [sum_wrap (fun y => excDensity lib xt g rho y * ∑ s, rho s y), gridCount_mulSizes, hv', nsmul_eq_mul, Nat.cast_mul,
    mul_div_mul_left _ _ hQ]
  ring

omit hg in
theorem sum_spread (f : Idx n → ℝ) (f' : Idx (mulSizes q n) → ℝ) (h0 : ∀ j, f' (multFreq hq j) = f j)
    (h1 : ∀ k, k ∉ Set.range (multFreq (n := n) hq) → f' k = 0) :
    ∑ k ∈ Finset.univ.filter (fun k : Idx (mulSizes q n) => ∃ i, (k i : ℕ) ≠ 0), f' k
      = ∑ k ∈ Finset.univ.filter (fun k : Idx n => ∃ i, (k i : ℕ) ≠ 0), f k := by
  rw [Finset.sum_filter, Finset.sum_filter]
  symm
  refine Fintype.sum_of_injective (multFreq hq) (multFreq_injective hq) _ _ (fun k hk => ?_) fun j => ?_
  · rw [h1 k hk, ite_self]
  · rw [h0]
    refine if_congr ?_ rfl rfl
    constructor
    · rintro ⟨i, hi⟩
      exact ⟨i, Nat.mul_ne_zero (hq i).ne' hi⟩
    · rintro ⟨i, hi⟩
      exact ⟨i, fun h => hi (by show q i * (j i : ℕ) = 0; rw [h, mul_zero])⟩

theorem hartree_fold (rho : Fin ns → Idx n → ℂ) (vol vol' : ℝ) (hv' : vol' = (∏ i, q i : ℕ) * vol) (e : ℝ)
    (h : hartreeEnergy rho g vol false = .ok e) :
    hartreeEnergy (fun s k => ((∏ i, q i : ℕ) : ℂ) * spreadFreq hq (rho s) k) g' vol' false
      = .ok ((∏ i, q i : ℕ) * e) := by
  have hQ : ((∏ i, q i : ℕ) : ℝ) ≠ 0 := by exact_mod_cast (Finset.prod_pos fun i _ => hq i).ne'
  rw [hartreeEnergy_eq] at h ⊢
  rw [← Except.ok.inj h]
  congr 1
  rw [sum_spread hq (fun k => ((∏ i, q i : ℕ) : ℝ) ^ 2 * (‖∑ s, rho s k‖ ^ 2 / Spec.dot (g k) (g k)))]
  · rw [← Finset.mul_sum, gridCount_mulSizes, hv', Nat.cast_mul]
    generalize ((∏ i, q i : ℕ) : ℝ) = Q at hQ ⊢
    by_cases hN : (gridCount n : ℝ) = 0
    · rw [hN]; simp
    field_simp
  · intro j
    simp only [spreadFreq_mult, hg]
    rw [← Finset.mul_sum, norm_mul, mul_pow, Complex.norm_natCast]
    ring
  · intro k hk
    simp only [spreadFreq_zero hq _ k hk]
    simp

theorem external_fold {na na' : ℕ} (rho : Fin ns → Idx n → ℂ) (vol vol' : ℝ) (hv' : vol' = (∏ i, q i : ℕ) * vol)
    (pos : Fin na → Fin 3 → ℝ) (pos' : Fin na' → Fin 3 → ℝ) (z : Fin na → ℝ) (z' : Fin na' → ℝ)
    (hs : ∀ j, structureFactor pos' z' g' (multFreq hq j) = ((∏ i, q i : ℕ) : ℂ) * structureFactor pos z g j)
    (e : ℝ) (h : externalEnergy rho pos z g vol = .ok e) :
    externalEnergy (fun s k => ((∏ i, q i : ℕ) : ℂ) * spreadFreq hq (rho s) k) pos' z' g' vol'
      = .ok ((∏ i, q i : ℕ) * e) := by
  have hQ : ((∏ i, q i : ℕ) : ℝ) ≠ 0 := by exact_mod_cast (Finset.prod_pos fun i _ => hq i).ne'
  rw [externalEnergy_eq] at h ⊢
  rw [← Except.ok.inj h]
  congr 1
  rw [sum_spread hq (fun k => ((∏ i, q i : ℕ) : ℝ) ^ 2 *
    ((-(4 * Real.pi * (gridCount n : ℝ) / (vol * (Spec.dot (g k) (g k) + 1e-10)))) *
          (conj (structureFactor pos z g k) * ∑ s, rho s k).re))]
  · rw [← Finset.mul_sum, gridCount_mulSizes, hv', Nat.cast_mul]
    generalize ((∏ i, q i : ℕ) : ℝ) = Q at hQ ⊢
    by_cases hN : (gridCount n : ℝ) = 0
    · rw [hN]; simp
    field_simp
  · intro j
    simp only [spreadFreq_mult, hg, hs]
    rw [← Finset.mul_sum, map_mul, Complex.conj_natCast, mul_mul_mul_comm, gridCount_mulSizes, hv', Nat.cast_mul]
    have hre : ∀ w : ℂ, (((∏ i, q i : ℕ) : ℂ) * ((∏ i, q i : ℕ) : ℂ) * w).re = ((∏ i, q i : ℕ) : ℝ) ^ 2 * w.re := by
      intro w
      rw [← Complex.ofReal_natCast, ← Complex.ofReal_mul, Complex.re_ofReal_mul, sq]
    rw [hre, mul_left_comm (4 * Real.pi), mul_assoc ((∏ i, q i : ℕ) : ℝ) vol, mul_div_mul_left _ _ hQ]
    ring
  · intro k hk
    simp only [spreadFreq_zero hq _ k hk]
    simp

omit hg

theorem structureFactor_fold {na na' : ℕ} {A A' : Matrix (Fin 3) (Fin 3) ℝ} (hA : A.det ≠ 0)
    (pos : Fin na → Fin 3 → ℝ) (pos' : Fin na' → Fin 3 → ℝ) (z : Fin na → ℝ) (z' : Fin na' → ℝ)
    (h : Spec.Supercell q A A' pos pos' z z') (j : Idx n) :
    structureFactor pos' z' (gVectors A' (mulSizes q n)) (multFreq hq j)
      = ((∏ i, q i : ℕ) : ℂ) * structureFactor pos z (gVectors A n) j := by
  obtain ⟨σ, hσ⟩ := h.atoms
  unfold structureFactor
  rw [gVectors_multFreq hq hA h.cell]
  have e : ∀ a, (z' a : ℂ) * Complex.exp (-(Complex.I * ((∑ d, gVectors A n j d * pos' a d : ℝ) : ℂ)))
      = (z (σ a).1 : ℂ) * Complex.exp (-(Complex.I * ((∑ d, gVectors A n j d * pos (σ a).1 d : ℝ) : ℂ))) := by
    intro a
    have e1 : ∑ d, gVectors A n j d * pos' a d = ∑ d, gVectors A n j d * pos (σ a).1 d
        + ∑ d, gVectors A n j d * ∑ i, ((((σ a).2 i : ℕ) : ℤ) : ℝ) * A i d := by
      rw [← Finset.sum_add_distrib]
      refine Finset.sum_congr rfl fun d _ => ?_
      rw [(hσ a).2 d, mul_add]
      push_cast
      rfl
    rw [(hσ a).1, e1, Complex.ofReal_add, mul_add, neg_add, Complex.exp_add,
      exp_lattice A hA n j _ ⟨fun i => (((σ a).2 i : ℕ) : ℤ), fun d => rfl⟩, mul_one]
  simp only [e]
  rw [σ.sum_comp (fun p => (z p.1 : ℂ) * Complex.exp (-(Complex.I * ((∑ d, gVectors A n j d * pos p.1 d : ℝ) : ℂ)))),
    Fintype.sum_prod_type]
  simp only [Finset.sum_const, Finset.card_univ, Fintype.card_pi, Fintype.card_fin, nsmul_eq_mul]
  rw [← Finset.mul_sum]

end Energy
end Super
end Jrystal
