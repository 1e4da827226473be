import Verif.Model.SbtHankel
import Verif.Props.SbtFft
import Mathlib.MeasureTheory.Integral.Bochner.Set
import Mathlib.MeasureTheory.Measure.Lebesgue.Basic

/-
C105: the spherical Bessel transform by way of the fast Hankel transform.
-/
namespace Jrystal
open MeasureTheory

/-- The output points scipy documents for `fht`: on the logarithmic mesh `r i = r 0 * exp (i * dln)` with
centre `r_c`, the `j`-th result belongs to `k_c * exp ((j - j_c) * dln)` where `log (k_c * r_c) = offset` and
`j_c = (n - 1) / 2`. -/
noncomputable def Spec.fhtPoint (n : ℕ) (r0 dln offset : ℝ) (j : ℕ) : ℝ :=
  Real.exp offset / (r0 * Real.exp (((n : ℝ) - 1) / 2 * dln)) * Real.exp (((j : ℝ) - ((n : ℝ) - 1) / 2) * dln)

private theorem step_log (n : ℕ) (hn : 2 ≤ n) (r0 h : ℝ) (h0 : 0 < r0) :
    hankelStep n (fun i => r0 * Real.exp (i * h)) = h := by
  unfold hankelStep
  have : ∀ i ∈ Finset.range (n - 1),
      Real.log (r0 * Real.exp (((i + 1 : ℕ) : ℝ) * h)) - Real.log (r0 * Real.exp ((i : ℝ) * h)) = h := by
    intro i _
    rw [Real.log_mul h0.ne' (Real.exp_ne_zero _), Real.log_mul h0.ne' (Real.exp_ne_zero _), Real.log_exp,
      Real.log_exp]
    push_cast; ring
  rw [Finset.sum_congr rfl this, Finset.sum_const, Finset.card_range, nsmul_eq_mul]
  have : ((n - 1 : ℕ) : ℝ) ≠ 0 := by
    rw [Nat.cast_ne_zero]; omega
  field_simp

/-- C105: on every logarithmic mesh the returned grid is the one to which scipy's results belong, for every
offset scipy proposes, and it has the step of the mesh. -/
theorem sbtHankel_grid (fht : Fht) (fhtoffset : ℝ → ℝ → ℝ → ℝ) (n : ℕ) (hn : 2 ≤ n) (r0 h : ℝ) (h0 : 0 < r0)
    (f : Samples) (l : ℤ) (kmax : ℝ) (j : ℕ) :
    let r : Samples := fun i => r0 * Real.exp (i * h)
    (sbtHankel fht fhtoffset n r f l kmax).2 j
      = Spec.fhtPoint n r0 h (hankelOffset fhtoffset n r l kmax + Real.log (r (n - 1))) j := by
  intro r
  show Real.exp (hankelOffset fhtoffset n r l kmax) * Real.exp (j * hankelStep n r) = _
  rw [step_log n hn r0 h h0]
  unfold Spec.fhtPoint
  generalize hankelOffset fhtoffset n r l kmax = o
  have hr : 0 < r (n - 1) := mul_pos h0 (Real.exp_pos _)
  rw [Real.exp_add, Real.exp_log hr]
  show _ = _ * (r0 * Real.exp (((n - 1 : ℕ) : ℝ) * h)) / _ * _
  rw [Nat.cast_sub (by omega), Nat.cast_one]
  have e1 : ((n : ℝ) - 1) * h = ((n : ℝ) - 1) / 2 * h + ((n : ℝ) - 1) / 2 * h := by ring
  have e2 : ((j : ℝ) - ((n : ℝ) - 1) / 2) * h = j * h - ((n : ℝ) - 1) / 2 * h := by ring
  rw [e1, e2, Real.exp_add, Real.exp_sub]
  have := Real.exp_ne_zero (((n : ℝ) - 1) / 2 * h)
  field_simp

/-- C105: where scipy keeps the proposed offset, the grid ends at `kmax`. -/
theorem sbtHankel_kmax (fht : Fht) (n : ℕ) (hn : 2 ≤ n) (r0 h : ℝ) (h0 : 0 < r0) (f : Samples) (l : ℤ)
    (kmax : ℝ) (hk : 0 < kmax) :
    (sbtHankel fht (fun _ _ initial => initial) n (fun i => r0 * Real.exp (i * h)) f l kmax).2 (n - 1)
      = kmax := by
  show Real.exp (Real.log kmax - (Real.log (r0 * Real.exp (((n - 1 : ℕ) : ℝ) * h))
    - Real.log (r0 * Real.exp (((0 : ℕ) : ℝ) * h))))
    * Real.exp (((n - 1 : ℕ) : ℝ) * hankelStep n (fun i => r0 * Real.exp (i * h))) = kmax
  rw [step_log n hn r0 h h0, Real.log_mul h0.ne' (Real.exp_ne_zero _), Real.log_mul h0.ne' (Real.exp_ne_zero _),
    Real.log_exp, Real.log_exp, ← Real.exp_add]
  have : Real.log kmax - (Real.log r0 + ((n - 1 : ℕ) : ℝ) * h - (Real.log r0 + ((0 : ℕ) : ℝ) * h))
      + ((n - 1 : ℕ) : ℝ) * h = Real.log kmax := by push_cast; ring
  rw [this, Real.exp_log hk]

/-- C105: if scipy's result is the Hankel transform `∫ f(r) r^{3/2} J_{l+1/2}(k r) k dr` at every point of the
grid, then the first component is the normalised spherical Bessel transform,
`√(2/π) ∫ f(r) j_l(k r) r² dr`: what `sbt(..., norm=True)` computes, not the default of `sbt`. -/
theorem sbtHankel_value (jn : SphBessel) (J : ℝ → ℝ → ℝ) (l : ℤ)
    (hJ : ∀ x, 0 < x → J ((l : ℝ) + 0.5) x = Real.sqrt (2 * x / Real.pi) * jn l x)
    (fht : Fht) (fhtoffset : ℝ → ℝ → ℝ → ℝ) (n : ℕ) (r : Samples) (F : ℝ → ℝ) (kmax : ℝ)
    (hF : ∀ j, j < n →
      fht n (fun i => F (r i) * r i ^ (1.5 : ℝ)) (hankelStep n r) ((l : ℝ) + 0.5)
          (hankelOffset fhtoffset n r l kmax + Real.log (r (n - 1))) j
        = ∫ t in Set.Ioi (0 : ℝ), F t * t ^ (1.5 : ℝ)
            * J ((l : ℝ) + 0.5) ((sbtHankel fht fhtoffset n r (fun i => F (r i)) l kmax).2 j * t)
            * (sbtHankel fht fhtoffset n r (fun i => F (r i)) l kmax).2 j)
    (j : ℕ) (hj : j < n) :
    (sbtHankel fht fhtoffset n r (fun i => F (r i)) l kmax).1 j
      = Real.sqrt (2 / Real.pi) * ∫ t in Set.Ioi (0 : ℝ),
          F t * jn l ((sbtHankel fht fhtoffset n r (fun i => F (r i)) l kmax).2 j * t) * t ^ 2 := by
  set k := (sbtHankel fht fhtoffset n r (fun i => F (r i)) l kmax).2 j with hkdef
  have hk : 0 < k := mul_pos (Real.exp_pos _) (Real.exp_pos _)
  have h1 : (sbtHankel fht fhtoffset n r (fun i => F (r i)) l kmax).1 j
      = fht n (fun i => F (r i) * r i ^ (1.5 : ℝ)) (hankelStep n r) ((l : ℝ) + 0.5)
          (hankelOffset fhtoffset n r l kmax + Real.log (r (n - 1))) j / k ^ (1.5 : ℝ) := rfl
  rw [h1, hF j hj, ← hkdef]
  have hint : ∀ t ∈ Set.Ioi (0 : ℝ), F t * t ^ (1.5 : ℝ) * J ((l : ℝ) + 0.5) (k * t) * k
      = k ^ (1.5 : ℝ) * Real.sqrt (2 / Real.pi) * (F t * jn l (k * t) * t ^ 2) := by
    intro t ht
    have ht : 0 < t := ht
    rw [hJ _ (mul_pos hk ht)]
    have e : (2 * (k * t) / Real.pi) = 2 / Real.pi * k * t := by ring
    rw [e, Real.sqrt_mul (by positivity), Real.sqrt_mul (by positivity)]
    have p : ∀ s : ℝ, 0 < s → s ^ (1.5 : ℝ) = s * Real.sqrt s := by
      intro s hs
      rw [Real.sqrt_eq_rpow, show (1.5 : ℝ) = 1 + 1 / 2 by norm_num, Real.rpow_add hs, Real.rpow_one]
    rw [p k hk, p t ht]
    have ss : Real.sqrt t * Real.sqrt t = t := Real.mul_self_sqrt ht.le
    calc _ = F t * jn l (k * t) * (Real.sqrt (2 / Real.pi)) * k * Real.sqrt k * t
          * (Real.sqrt t * Real.sqrt t) := by ring
      _ = _ := by rw [ss]; ring
  rw [setIntegral_congr_fun measurableSet_Ioi hint, integral_const_mul]
  have : k ^ (1.5 : ℝ) ≠ 0 := (Real.rpow_pos_of_pos hk _).ne'
  field_simp

/-- The premises are met, with any function `F`, Bessel function and mesh, by the transform that integrates
exactly and knows the function. -/
example (F : ℝ → ℝ) (J : ℝ → ℝ → ℝ) (fhtoffset : ℝ → ℝ → ℝ → ℝ) (n : ℕ) (r : Samples) (kmax : ℝ) (l : ℤ) :
    let k : Samples := fun j => Real.exp (hankelOffset fhtoffset n r l kmax) * Real.exp (j * hankelStep n r)
    let fht : Fht := fun _ _ _ mu _ j => ∫ t in Set.Ioi (0 : ℝ), F t * t ^ (1.5 : ℝ) * J mu (k j * t) * k j
    ∀ j, j < n →
      fht n (fun i => F (r i) * r i ^ (1.5 : ℝ)) (hankelStep n r) ((l : ℝ) + 0.5)
          (hankelOffset fhtoffset n r l kmax + Real.log (r (n - 1))) j
        = ∫ t in Set.Ioi (0 : ℝ), F t * t ^ (1.5 : ℝ)
            * J ((l : ℝ) + 0.5) ((sbtHankel fht fhtoffset n r (fun i => F (r i)) l kmax).2 j * t)
            * (sbtHankel fht fhtoffset n r (fun i => F (r i)) l kmax).2 j := fun _ _ => rfl

end Jrystal
