import Verif.Model.Hessian
import Mathlib.Analysis.Calculus.FDeriv.Mul
import Mathlib.Analysis.Calculus.FDeriv.Pi
import Mathlib.Analysis.Calculus.FDeriv.Linear
import Mathlib.Analysis.Calculus.FDeriv.Add
import Mathlib.Analysis.Calculus.FDeriv.Bilinear
import Mathlib.LinearAlgebra.Matrix.ConjTranspose
import Mathlib.Algebra.BigOperators.Field
import Mathlib.Topology.Algebra.Module.FiniteDimension
import Mathlib.Topology.Algebra.Module.FiniteDimensionBilinear
import Mathlib.LinearAlgebra.Complex.FiniteDimensional
import Mathlib.Analysis.Complex.Basic

namespace Jrystal
open scoped BigOperators ComplexConjugate

/-- `u† M w`. -/
noncomputable def sesq {n : ℕ} (M : Matrix (Fin n) (Fin n) ℂ) (u w : Fin n → ℂ) : ℂ :=
  ∑ i, ∑ j, conj (u i) * M i j * w j

theorem sesq_add_left {n : ℕ} (M : Matrix (Fin n) (Fin n) ℂ) (u u' w : Fin n → ℂ) :
    sesq M (u + u') w = sesq M u w + sesq M u' w := by
  unfold sesq
  rw [← Finset.sum_add_distrib]
  refine Finset.sum_congr rfl fun i _ => ?_
  rw [← Finset.sum_add_distrib]
  refine Finset.sum_congr rfl fun j _ => ?_
  rw [Pi.add_apply, map_add]; ring

theorem sesq_add_right {n : ℕ} (M : Matrix (Fin n) (Fin n) ℂ) (u w w' : Fin n → ℂ) :
    sesq M u (w + w') = sesq M u w + sesq M u w' := by
  unfold sesq
  rw [← Finset.sum_add_distrib]
  refine Finset.sum_congr rfl fun i _ => ?_
  rw [← Finset.sum_add_distrib]
  refine Finset.sum_congr rfl fun j _ => ?_
  rw [Pi.add_apply]; ring

theorem sesq_smul_left {n : ℕ} (M : Matrix (Fin n) (Fin n) ℂ) (c : ℝ) (u w : Fin n → ℂ) :
    sesq M (c • u) w = c • sesq M u w := by
  unfold sesq
  rw [Finset.smul_sum]
  refine Finset.sum_congr rfl fun i _ => ?_
  rw [Finset.smul_sum]
  refine Finset.sum_congr rfl fun j _ => ?_
  simp only [Pi.smul_apply, Complex.real_smul, map_mul, Complex.conj_ofReal]
  ring

theorem sesq_smul_right {n : ℕ} (M : Matrix (Fin n) (Fin n) ℂ) (c : ℝ) (u w : Fin n → ℂ) :
    sesq M u (c • w) = c • sesq M u w := by
  unfold sesq
  rw [Finset.smul_sum]
  refine Finset.sum_congr rfl fun i _ => ?_
  rw [Finset.smul_sum]
  refine Finset.sum_congr rfl fun j _ => ?_
  simp only [Pi.smul_apply, Complex.real_smul]
  ring

/-- The form as a real-bilinear map. -/
noncomputable def sesqBilin {n : ℕ} (M : Matrix (Fin n) (Fin n) ℂ) :
    (Fin n → ℂ) →ₗ[ℝ] (Fin n → ℂ) →ₗ[ℝ] ℂ :=
  LinearMap.mk₂ ℝ (sesq M) (sesq_add_left M) (sesq_smul_left M) (sesq_add_right M) (sesq_smul_right M)

/-- The derivative of `u ↦ u† M u` at `x` in direction `w`. -/
noncomputable def sesqDeriv {n : ℕ} (M : Matrix (Fin n) (Fin n) ℂ) (x : Fin n → ℂ) :
    (Fin n → ℂ) →L[ℝ] ℂ :=
  LinearMap.toContinuousLinearMap ((sesqBilin M x) + (sesqBilin M).flip x)

theorem hasFDerivAt_sesq {n : ℕ} (M : Matrix (Fin n) (Fin n) ℂ) (x : Fin n → ℂ) :
    HasFDerivAt (𝕜 := ℝ) (fun u => sesq M u u) (sesqDeriv M x) x := by
  have hb := (LinearMap.toContinuousBilinearMap (𝕜 := ℝ) (sesqBilin M)).isBoundedBilinearMap
  have h := HasFDerivAt.comp (g := fun p : (Fin n → ℂ) × (Fin n → ℂ) =>
    LinearMap.toContinuousBilinearMap (𝕜 := ℝ) (sesqBilin M) p.1 p.2) (f := fun u => (u, u)) x
    (hb.hasFDerivAt (x, x)) ((hasFDerivAt_id x).prodMk (hasFDerivAt_id x))
  exact h

theorem sesqDeriv_apply {n : ℕ} (M : Matrix (Fin n) (Fin n) ℂ) (x w : Fin n → ℂ) :
    sesqDeriv M x w = sesq M x w + sesq M w x := rfl

theorem sesq_single_right {n : ℕ} (M : Matrix (Fin n) (Fin n) ℂ) (x : Fin n → ℂ) (j : Fin n) (c : ℂ) :
    sesq M x (Pi.single j c) = c * ∑ i, conj (x i) * M i j := by
  unfold sesq
  rw [Finset.mul_sum]
  refine Finset.sum_congr rfl fun i _ => ?_
  rw [Finset.sum_eq_single j]
  · rw [Pi.single_eq_same]; ring
  · intro b _ hb; rw [Pi.single_eq_of_ne hb, mul_zero]
  · intro h; exact absurd (Finset.mem_univ j) h

theorem sesq_single_left {n : ℕ} (M : Matrix (Fin n) (Fin n) ℂ) (x : Fin n → ℂ) (j : Fin n) (c : ℂ) :
    sesq M (Pi.single j c) x = conj c * ∑ i, M j i * x i := by
  unfold sesq
  rw [Finset.sum_eq_single j, Finset.mul_sum]
  · refine Finset.sum_congr rfl fun i _ => ?_
    rw [Pi.single_eq_same]; ring
  · intro b _ hb
    exact Finset.sum_eq_zero fun i _ => by rw [Pi.single_eq_of_ne hb, map_zero, zero_mul, zero_mul]
  · intro h; exact absurd (Finset.mem_univ j) h

/-- The Hermitian part of a matrix. -/
noncomputable def hermPart {n : ℕ} (M : Matrix (Fin n) (Fin n) ℂ) : Matrix (Fin n) (Fin n) ℂ :=
  fun i j => (M i j + conj (M j i)) / 2

theorem hermPart_conj {n : ℕ} (M : Matrix (Fin n) (Fin n) ℂ) (i j : Fin n) :
    conj (hermPart M j i) = hermPart M i j := by
  unfold hermPart
  rw [map_div₀, map_add, Complex.conj_conj, add_comm]
  congr 1
  exact Complex.conj_eq_iff_real.mpr ⟨2, by norm_num⟩

/-- The real-linear map computed by the gradient of a quadratic form. -/
noncomputable def gradLin {n : ℕ} (H : Matrix (Fin n) (Fin n) ℂ) : (Fin n → ℂ) →ₗ[ℝ] (Fin n → ℂ) where
  toFun x := fun j => ∑ i, conj (x i) * H i j
  map_add' x y := by
    funext j
    rw [Pi.add_apply, ← Finset.sum_add_distrib]
    exact Finset.sum_congr rfl fun i _ => by rw [Pi.add_apply, map_add]; ring
  map_smul' c x := by
    funext j
    rw [Pi.smul_apply, Finset.smul_sum]
    refine Finset.sum_congr rfl fun i _ => ?_
    simp only [Pi.smul_apply, Complex.real_smul, map_mul, Complex.conj_ofReal, RingHom.id_apply]
    ring

theorem gradF_quadratic {n : ℕ} (M : Matrix (Fin n) (Fin n) ℂ) (x : Fin n → ℂ) :
    gradF (fun u => ((1 / 2 * (sesq M u u).re : ℝ) : ℂ)) x = gradLin (hermPart M) x := by
  have hd : HasFDerivAt (𝕜 := ℝ) (fun (u : Fin n → ℂ) (_ : Fin 1) => ((1 / 2 * (sesq M u u).re : ℝ) : ℂ))
      (ContinuousLinearMap.pi fun _ : Fin 1 =>
        Complex.ofRealCLM.comp ((1 / 2 : ℝ) • Complex.reCLM.comp (sesqDeriv M x))) x := by
    rw [hasFDerivAt_pi]
    intro _
    refine Complex.ofRealCLM.hasFDerivAt.comp x ?_
    exact (Complex.reCLM.hasFDerivAt.comp x (hasFDerivAt_sesq M x)).const_mul (1 / 2 : ℝ)
  funext j
  unfold gradF vjp
  rw [hd.fderiv]
  simp only [ContinuousLinearMap.coe_pi', ContinuousLinearMap.coe_comp, Function.comp_apply,
    _root_.smul_apply, Complex.reCLM_apply, Complex.ofRealCLM_apply, one_mul,
    Finset.univ_unique, Finset.sum_const, Finset.card_singleton, one_smul, Complex.ofReal_re,
    sesqDeriv_apply, sesq_single_right, sesq_single_left]
  have hg : gradLin (hermPart M) x j
      = ((∑ i, conj (x i) * M i j) + conj (∑ i, M j i * x i)) / 2 := by
    change ∑ i, conj (x i) * ((M i j + conj (M j i)) / 2) = _
    rw [map_sum, ← Finset.sum_add_distrib, Finset.sum_div]
    refine Finset.sum_congr rfl fun i _ => ?_
    rw [map_mul]; ring
  rw [hg]
  generalize (∑ i, conj (x i) * M i j) = a
  generalize (∑ i, M j i * x i) = b
  apply Complex.ext <;> simp <;> ring

theorem vjp_gradLin {n : ℕ} (H : Matrix (Fin n) (Fin n) ℂ) (x : Fin n → ℂ) (i j : Fin n) :
    vjp (fun u => gradLin H u) x (Pi.single i 1) j = conj (H j i) := by
  have hd : fderiv ℝ (fun u => gradLin H u) x = LinearMap.toContinuousLinearMap (gradLin H) :=
    (LinearMap.toContinuousLinearMap (gradLin H)).hasFDerivAt.fderiv
  unfold vjp
  rw [hd]
  have key : ∀ c : ℂ, ∑ k, (Pi.single i (1 : ℂ) : Fin n → ℂ) k *
      LinearMap.toContinuousLinearMap (gradLin H) (Pi.single j c) k = conj c * H j i := by
    intro c
    rw [Finset.sum_eq_single i]
    · rw [Pi.single_eq_same, one_mul]
      change ∑ k, conj ((Pi.single j c : Fin n → ℂ) k) * H k i = _
      rw [Finset.sum_eq_single j]
      · rw [Pi.single_eq_same]
      · intro b _ hb; rw [Pi.single_eq_of_ne hb, map_zero, zero_mul]
      · intro h; exact absurd (Finset.mem_univ j) h
    · intro b _ hb; rw [Pi.single_eq_of_ne hb, zero_mul]
    · intro h; exact absurd (Finset.mem_univ i) h
  rw [key, key]
  apply Complex.ext <;> simp

theorem complexHessian_quadratic {n : ℕ} (M : Matrix (Fin n) (Fin n) ℂ) (x : Fin n → ℂ) :
    complexHessian (fun u => ((1 / 2 * (sesq M u u).re : ℝ) : ℂ)) x = hermPart M := by
  funext i j
  unfold complexHessian
  have : gradF (fun u => ((1 / 2 * (sesq M u u).re : ℝ) : ℂ)) = fun u => gradLin (hermPart M) u :=
    funext fun u => gradF_quadratic M u
  rw [this, vjp_gradLin, hermPart_conj]

end Jrystal
