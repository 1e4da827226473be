import Mathlib.Analysis.Complex.Basic
import Mathlib.Analysis.Complex.Order
import Mathlib.Analysis.RCLike.Basic
import Mathlib.Data.Matrix.Mul
import Mathlib.LinearAlgebra.Matrix.DotProduct

/- A unitary map that takes one unit vector to a multiple of another and leaves what is orthogonal to both. -/
namespace Jrystal
open scoped BigOperators ComplexConjugate ComplexOrder

private theorem star_dot {ι : Type*} [Fintype ι] (x y : ι → ℂ) : star (star x ⬝ᵥ y) = star y ⬝ᵥ x := by
  rw [Matrix.star_dotProduct, star_star]

theorem exists_reflection {ι : Type*} [Fintype ι] (a v : ι → ℂ) (ha : star a ⬝ᵥ a = 1) (hv : star v ⬝ᵥ v = 1) :
    ∃ U : (ι → ℂ) → ι → ℂ, (∀ x y, star (U x) ⬝ᵥ U y = star x ⬝ᵥ y) ∧
      (∀ x, star a ⬝ᵥ x = 0 → star v ⬝ᵥ x = 0 → U x = x) ∧
      (∃ z : ℂ, conj z * z = 1 ∧ U a = z • v) ∧ ∀ x i, a i = 0 → v i = 0 → U x i = x i := by
  set α := star a ⬝ᵥ v with hα
  obtain ⟨z, hz, hzα⟩ : ∃ z : ℂ, conj z * z = 1 ∧ conj (z * α) = z * α := by
    by_cases h : α = 0
    · exact ⟨1, by simp, by simp [h]⟩
    · have hn : (‖α‖ : ℂ) ≠ 0 := by exact_mod_cast (norm_pos_iff.mpr h).ne'
      have h2 : conj α * α = (‖α‖ : ℂ) ^ 2 := by rw [mul_comm, Complex.mul_conj']
      refine ⟨conj α / ‖α‖, ?_, ?_⟩
      · rw [map_div₀, Complex.conj_conj, Complex.conj_ofReal]
        field_simp
        rw [mul_comm, h2]
      · rw [div_mul_eq_mul_div, h2, map_div₀, map_pow, Complex.conj_ofReal]
  set w := a - z • v with hw
  by_cases hw0 : w = 0
  · exact ⟨id, fun _ _ => rfl, fun _ _ _ => rfl, ⟨z, hz, sub_eq_zero.mp hw0⟩, fun _ _ _ _ => rfl⟩
  have hva : star v ⬝ᵥ a = conj α := by rw [hα]; exact (star_dot a v).symm
  have hN : star w ⬝ᵥ w = 2 - 2 * (z * α) := by
    rw [hw, star_sub, star_smul, sub_dotProduct, dotProduct_sub, dotProduct_sub, smul_dotProduct, smul_dotProduct,
      dotProduct_smul, dotProduct_smul, ha, hv, hva, ← hα]
    simp only [smul_eq_mul]
    rw [map_mul] at hzα
    change conj z * conj α = z * α at hzα
    change 1 - z * α - (conj z * conj α - conj z * (z * 1)) = _
    rw [hzα, mul_one, hz]
    ring
  have hwa : star w ⬝ᵥ a = 1 - z * α := by
    rw [hw, star_sub, star_smul, sub_dotProduct, smul_dotProduct, ha, hva]
    simp only [smul_eq_mul]
    rw [map_mul] at hzα
    change 1 - conj z * conj α = _
    rw [hzα]
  have hN0 : star w ⬝ᵥ w ≠ 0 := fun h => hw0 (dotProduct_star_self_eq_zero.mp h)
  have hNr : conj (star w ⬝ᵥ w) = star w ⬝ᵥ w := star_dot w w
  refine ⟨fun x => x - (2 * (star w ⬝ᵥ x) / (star w ⬝ᵥ w)) • w, fun x y => ?_, fun x hx1 hx2 => ?_,
    ⟨z, hz, ?_⟩, fun x i h1 h2 => ?_⟩
  · have hxw : star x ⬝ᵥ w = conj (star w ⬝ᵥ x) := (star_dot w x).symm
    beta_reduce
    have : star (2 * (star w ⬝ᵥ x) / (star w ⬝ᵥ w)) = 2 * conj (star w ⬝ᵥ x) / (star w ⬝ᵥ w) := by
      change conj _ = _
      rw [map_div₀, map_mul, hNr, Complex.conj_ofNat]
    rw [star_sub, star_smul, this]
    clear_value w
    rw [sub_dotProduct, dotProduct_sub, dotProduct_sub, smul_dotProduct, smul_dotProduct,
      dotProduct_smul, dotProduct_smul, hxw]
    simp only [smul_eq_mul]
    generalize star w ⬝ᵥ w = N at hN0 ⊢
    field_simp
    ring
  · have : star w ⬝ᵥ x = 0 := by
      rw [hw, star_sub, star_smul, sub_dotProduct, smul_dotProduct, hx1, hx2, smul_zero, sub_zero]
    beta_reduce
    rw [this]
    simp
  · have : 2 * (star w ⬝ᵥ a) / (star w ⬝ᵥ w) = 1 := by
      rw [div_eq_one_iff_eq hN0, hN, hwa]
      ring
    beta_reduce
    rw [this, one_smul, hw]
    abel
  · have : w i = 0 := by simp [hw, h1, h2]
    simp [this]

end Jrystal
