import Verif.Spec.EwaldForces
import Verif.Props.EwaldCell

/- Lemmas for C129: derivatives of the Ewald energy. -/
namespace Jrystal
open scoped BigOperators
open Filter

/-- The derivative of the complementary error function. -/
theorem erfc_deriv (x : ℝ) : HasDerivAt Spec.erfc (-(2 / Real.sqrt Real.pi * Real.exp (-x ^ 2))) x := by
  have hint : MeasureTheory.Integrable fun t : ℝ => Real.exp (-t ^ 2) := by
    simpa using integrable_exp_neg_mul_sq (b := 1) one_pos
  have hcont : Continuous fun t : ℝ => Real.exp (-t ^ 2) := by fun_prop
  have h : Spec.erfc = fun x => 2 / Real.sqrt Real.pi * ((∫ t in Set.Ioi (0 : ℝ), Real.exp (-t ^ 2))
      - ∫ t in (0 : ℝ)..x, Real.exp (-t ^ 2)) := by
    funext x
    unfold Spec.erfc
    congr 1
    rw [← intervalIntegral.integral_interval_add_Ioi (a := 0) (b := x) hint.integrableOn hint.integrableOn]
    ring
  rw [h]
  have h1 := intervalIntegral.integral_hasDerivAt_right (hcont.intervalIntegrable 0 x)
    hcont.aestronglyMeasurable.stronglyMeasurableAtFilter hcont.continuousAt
  have h2 := (h1.const_sub (∫ t in Set.Ioi (0 : ℝ), Real.exp (-t ^ 2))).const_mul (2 / Real.sqrt Real.pi)
  refine h2.congr_deriv ?_
  ring

theorem dot_line (x w T : Fin 3 → ℝ) (t : ℝ) :
    HasDerivAt (fun s => Spec.dot (fun d => x d + s * w d - T d) (fun d => x d + s * w d - T d))
      (2 * ∑ d, w d * (x d + t * w d - T d)) t := by
  unfold Spec.dot
  have h : ∀ d ∈ (Finset.univ : Finset (Fin 3)), HasDerivAt (fun s : ℝ => (x d + s * w d - T d) * (x d + s * w d - T d))
      (w d * (x d + t * w d - T d) + (x d + t * w d - T d) * w d) t := by
    intro d _
    have h1 : HasDerivAt (fun s : ℝ => x d + s * w d - T d) (w d) t := by
      have := (((hasDerivAt_id t).mul_const (w d)).const_add (x d)).sub_const (T d)
      simpa using this
    exact h1.mul h1
  refine (HasDerivAt.fun_sum h).congr_deriv ?_
  rw [Finset.mul_sum]
  exact Finset.sum_congr rfl fun d _ => by ring

/-- The screened interaction at a distance at which the regularised distance is smooth. -/
theorem screened_line (eta : ℝ) (x w T : Fin 3 → ℝ) (t : ℝ)
    (h : w = 0 ∨ 99e-20 < Spec.dot (fun d => x d + t * w d - T d) (fun d => x d + t * w d - T d)) :
    HasDerivAt (fun s => Spec.erfc (eta * Spec.ewaldDistance (fun d => x d + s * w d) T)
        / Spec.ewaldDistance (fun d => x d + s * w d) T)
      (-∑ d, (let r := Real.sqrt (Spec.dot (fun d => x d + t * w d - T d) (fun d => x d + t * w d - T d) + 1e-20)
        (Spec.erfc (eta * r) / r ^ 2 + 2 * eta / Real.sqrt Real.pi * Real.exp (-(eta * r) ^ 2) / r)
          * ((x d + t * w d - T d) / r)) * w d) t := by
  rcases h with rfl | h
  · simp only [Pi.zero_apply, mul_zero, add_zero, Finset.sum_const_zero, neg_zero]
    exact hasDerivAt_const _ _
  dsimp only
  set f : ℝ → ℝ := fun s => Spec.dot (fun d => x d + s * w d - T d) (fun d => x d + s * w d - T d) with hf
  have hd : HasDerivAt f (2 * ∑ d, w d * (x d + t * w d - T d)) t := dot_line x w T t
  have hev : ∀ᶠ s in nhds t, 99e-20 < f s := hd.continuousAt.eventually (lt_mem_nhds h)
  have hpos : 0 < f t + 1e-20 := by
    have : (0 : ℝ) < 99e-20 := by norm_num
    have h' : 99e-20 < f t := h
    have h2 : (0 : ℝ) < 1e-20 := by norm_num
    linarith
  set r : ℝ := Real.sqrt (f t + 1e-20) with hr
  have hr0 : 0 < r := Real.sqrt_pos.2 hpos
  have hr1 : HasDerivAt (fun s => Real.sqrt (f s + 1e-20)) ((∑ d, w d * (x d + t * w d - T d)) / r) t := by
    refine ((hd.add_const (1e-20 : ℝ)).sqrt hpos.ne').congr_deriv ?_
    rw [← hr, mul_div_mul_left _ _ two_ne_zero]
  have h0 : HasDerivAt (fun s => Spec.erfc (eta * Real.sqrt (f s + 1e-20)))
      (-(2 / Real.sqrt Real.pi * Real.exp (-(eta * r) ^ 2)) * (eta * ((∑ d, w d * (x d + t * w d - T d)) / r))) t :=
    HasDerivAt.comp (h₂ := Spec.erfc) t (erfc_deriv (eta * r)) (hr1.const_mul eta)
  have h1 := h0.fun_div hr1 hr0.ne'
  refine (h1.congr_of_eventuallyEq ?_).congr_deriv ?_
  · filter_upwards [hev] with s hs
    have : Spec.ewaldDistance (fun d => x d + s * w d) T = Real.sqrt (f s + 1e-20) := by
      unfold Spec.ewaldDistance
      rw [if_neg (not_le.2 hs)]
    rw [this]
  · have hsum : ∑ d, (Spec.erfc (eta * r) / r ^ 2 + 2 * eta / Real.sqrt Real.pi * Real.exp (-(eta * r) ^ 2) / r)
        * ((x d + t * w d - T d) / r) * w d
        = (Spec.erfc (eta * r) / r ^ 2 + 2 * eta / Real.sqrt Real.pi * Real.exp (-(eta * r) ^ 2) / r)
          * ((∑ d, w d * (x d + t * w d - T d)) / r) := by
      rw [Finset.sum_div, Finset.mul_sum]
      exact Finset.sum_congr rfl fun d _ => by ring
    rw [hsum]
    simp only [← hr]
    generalize ∑ d, w d * (x d + t * w d - T d) = S
    have hp : Real.sqrt Real.pi ≠ 0 := (Real.sqrt_pos.2 Real.pi_pos).ne'
    field_simp
    ring

/-- The energy of a pair, the nuclei of which move. -/
theorem pair_line {nt : ℕ} {ι : Type} (T : Fin nt → Fin 3 → ℝ) (G : Finset ι) (g : ι → Fin 3 → ℝ) (V eta : ℝ)
    (x w : Fin 3 → ℝ) (t : ℝ)
    (h : ∀ u, w = 0 ∨ 99e-20 < Spec.dot (fun d => x d + t * w d - T u d) (fun d => x d + t * w d - T u d)) :
    HasDerivAt (fun s => Spec.screenedSum Spec.erfc eta T (fun d => x d + s * w d) + 4 * Real.pi / V *
        ∑ k ∈ G,
          Real.exp (-(Spec.dot (g k) (g k)) / (4 * eta ^ 2)) / Spec.dot (g k) (g k) *
            Real.cos (Spec.dot (g k) fun d => x d + s * w d))
      (-∑ d, Spec.pairForce T G g V eta (fun d => x d + t * w d) d * w d) t := by
  have h1 : HasDerivAt (fun s => Spec.screenedSum Spec.erfc eta T (fun d => x d + s * w d)) _ t :=
    HasDerivAt.fun_sum fun u _ => screened_line eta x w (T u) t (h u)
  have hline : ∀ k, HasDerivAt (fun s => Spec.dot (g k) fun d => x d + s * w d) (∑ d, g k d * w d) t := by
    intro k
    unfold Spec.dot
    refine HasDerivAt.fun_sum fun d _ => ?_
    have := (((hasDerivAt_id t).mul_const (w d)).const_add (x d)).const_mul (g k d)
    simpa using this
  have h2 := (HasDerivAt.fun_sum (u := G) fun k _ =>
    ((hline k).cos).const_mul (Real.exp (-(Spec.dot (g k) (g k)) / (4 * eta ^ 2)) / Spec.dot (g k) (g k))).const_mul
      (4 * Real.pi / V)
  refine (h1.add h2).congr_deriv ?_
  have hsplit : ∀ d, Spec.pairForce T G g V eta (fun d => x d + t * w d) d * w d
      = (∑ u, (let r := Real.sqrt (Spec.dot (fun d => x d + t * w d - T u d) (fun d => x d + t * w d - T u d) + 1e-20)
        (Spec.erfc (eta * r) / r ^ 2 + 2 * eta / Real.sqrt Real.pi * Real.exp (-(eta * r) ^ 2) / r)
          * ((x d + t * w d - T u d) / r)) * w d)
        + (4 * Real.pi / V * ∑ k ∈ G, Real.exp (-(Spec.dot (g k) (g k)) / (4 * eta ^ 2)) / Spec.dot (g k) (g k)
          * (g k d * Real.sin (Spec.dot (g k) fun d => x d + t * w d))) * w d := by
    intro d
    unfold Spec.pairForce
    rw [add_mul, Finset.sum_mul]
  rw [Finset.sum_congr rfl fun d _ => hsplit d, Finset.sum_add_distrib, neg_add, Finset.sum_neg_distrib]
  congr 1
  · rw [Finset.sum_comm]
  · rw [← Finset.sum_neg_distrib, Finset.mul_sum]
    simp only [Finset.mul_sum, Finset.sum_mul]
    rw [Finset.sum_comm]
    simp only [← Finset.sum_neg_distrib]
    refine Finset.sum_congr rfl fun d _ => Finset.sum_congr rfl fun k _ => ?_
    ring

end Jrystal
