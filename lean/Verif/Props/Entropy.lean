import Verif.Model.Entropy
import Mathlib.Analysis.Convex.SpecificFunctions.Basic
import Mathlib.Analysis.SpecialFunctions.Log.NegMulLog
import Mathlib.Tactic.Linarith
import Mathlib.Tactic.Positivity
import Mathlib.Tactic.FieldSimp

/- C22: smearing entropy. -/
namespace Jrystal
open scoped BigOperators

/-- Occupation arrays with entries between 0 and `m`. -/
def Spec.OccRange (ns nk nb : ℕ) (m : ℝ) : Set (Fin ns → Fin nk → Fin nb → ℝ) :=
  {o | ∀ s k b, 0 ≤ o s k b ∧ o s k b ≤ m}

/-- The largest occupation of a band: 2 per k weight in one channel, 1 in two channels. -/
noncomputable def Spec.occMax (ns nk : ℕ) : ℝ := (3 - (ns : ℝ)) / nk

private noncomputable def g (eps x : ℝ) : ℝ := x * Real.log (eps + x)

private theorem g_strictConvex {eps : ℝ} (he : 0 < eps) : StrictConvexOn ℝ (Set.Ici 0) (g eps) := by
  have h1 : StrictConvexOn ℝ (Set.Ici (0 : ℝ)) fun x => (eps + x) * Real.log (eps + x) := by
    have := (Real.strictConvexOn_mul_log).translate_right eps
    refine StrictConvexOn.subset this ?_ (convex_Ici 0)
    intro x hx
    simp only [Set.mem_preimage, Set.mem_Ici] at hx ⊢
    linarith
  have h2 : ConcaveOn ℝ (Set.Ici (0 : ℝ)) fun x => Real.log (eps + x) := by
    have := strictConcaveOn_log_Ioi.concaveOn.translate_right eps
    refine ConcaveOn.subset this ?_ (convex_Ici 0)
    intro x hx
    simp only [Set.mem_preimage, Set.mem_Ioi, Set.mem_Ici] at hx ⊢
    linarith
  have h3 : ConvexOn ℝ (Set.Ici (0 : ℝ)) fun x => -(eps * Real.log (eps + x)) := by
    exact (h2.smul he.le).neg
  have h4 := h1.add_convexOn h3
  refine h4.congr ?_
  intro x hx
  simp only [Pi.add_apply, g]
  ring

/-- The contribution of one entry. -/
private noncomputable def cell (eps m x : ℝ) : ℝ := g eps x + g eps (m - x)

private theorem cell_strict {eps : ℝ} (he : 0 < eps) (m : ℝ) :
    StrictConvexOn ℝ (Set.Icc 0 m) (cell eps m) := by
  have hg := g_strictConvex he
  refine ⟨convex_Icc 0 m, ?_⟩
  intro x hx y hy hxy a b ha hb hab
  have h1 := hg.2 hx.1 hy.1 hxy ha hb hab
  have h2 := hg.2 (x := m - x) (y := m - y) (by simpa using hx.2) (by simpa using hy.2)
    (fun h => hxy (by linarith)) ha hb hab
  simp only [smul_eq_mul, cell] at h1 h2 ⊢
  have e : a * (m - x) + b * (m - y) = m - (a * x + b * y) := by
    have : b = 1 - a := by linarith
    rw [this]; ring
  rw [e] at h2
  linarith

private theorem entropy_eq {ns nk nb : ℕ} (o : Fin ns → Fin nk → Fin nb → ℝ) (eps : ℝ) :
    fermiDirac o eps = -∑ s, ∑ k, ∑ b, cell eps (Spec.occMax ns nk) (o s k b) := by
  unfold fermiDirac cell g Spec.occMax
  simp only [add_sub_assoc]

private theorem cell_half {eps : ℝ} (he : 0 < eps) {m x : ℝ} (h0 : 0 ≤ x) (h1 : x ≤ m) :
    cell eps m (m / 2) ≤ cell eps m x := by
  have h := (cell_strict he m).convexOn.2 (show x ∈ Set.Icc 0 m from ⟨h0, h1⟩)
    (show m - x ∈ Set.Icc 0 m from ⟨by linarith, by linarith⟩) (show (0 : ℝ) ≤ 1 / 2 by norm_num)
    (show (0 : ℝ) ≤ 1 / 2 by norm_num) (by norm_num)
  have e1 : (1 / 2 : ℝ) • x + (1 / 2 : ℝ) • (m - x) = m / 2 := by simp only [smul_eq_mul]; ring
  have e2 : cell eps m (m - x) = cell eps m x := by
    unfold cell; rw [sub_sub_cancel, add_comm]
  rw [e1, e2] at h
  simp only [smul_eq_mul] at h
  linarith

private theorem cell_half_lt {eps : ℝ} (he : 0 < eps) {m x : ℝ} (h0 : 0 ≤ x) (h1 : x ≤ m)
    (hne : x ≠ m / 2) : cell eps m (m / 2) < cell eps m x := by
  have h := (cell_strict he m).2 (show x ∈ Set.Icc 0 m from ⟨h0, h1⟩)
    (show m - x ∈ Set.Icc 0 m from ⟨by linarith, by linarith⟩) (fun h => hne (by linarith))
    (show (0 : ℝ) < 1 / 2 by norm_num) (show (0 : ℝ) < 1 / 2 by norm_num) (by norm_num)
  have e1 : (1 / 2 : ℝ) • x + (1 / 2 : ℝ) • (m - x) = m / 2 := by simp only [smul_eq_mul]; ring
  have e2 : cell eps m (m - x) = cell eps m x := by
    unfold cell; rw [sub_sub_cancel, add_comm]
  rw [e1, e2] at h
  simp only [smul_eq_mul] at h
  linarith

/-- C22: electron–hole symmetry. -/
theorem entropy_symmetric {ns nk nb : ℕ} (o : Fin ns → Fin nk → Fin nb → ℝ) (eps : ℝ) :
    fermiDirac (fun s k b => Spec.occMax ns nk - o s k b) eps = fermiDirac o eps := by
  rw [entropy_eq, entropy_eq]
  congr 1
  refine Finset.sum_congr rfl fun s _ => Finset.sum_congr rfl fun k _ =>
    Finset.sum_congr rfl fun b _ => ?_
  unfold cell
  rw [sub_sub_cancel, add_comm]

/-- C22: concavity on the admissible occupations. -/
theorem entropy_concave (ns nk nb : ℕ) (eps : ℝ) (he : 0 < eps) :
    ConcaveOn ℝ (Spec.OccRange ns nk nb (Spec.occMax ns nk))
      fun o : Fin ns → Fin nk → Fin nb → ℝ => fermiDirac o eps := by
  have hc := (cell_strict he (Spec.occMax ns nk)).convexOn
  refine ⟨?_, ?_⟩
  · intro x hx y hy a b ha hb hab s k c
    have := (convex_Icc (0 : ℝ) (Spec.occMax ns nk)) (hx s k c) (hy s k c) ha hb hab
    exact this
  · intro x hx y hy a b ha hb hab
    simp only [entropy_eq, smul_eq_mul, Pi.add_apply, Pi.smul_apply]
    have : ∑ s, ∑ k, ∑ c, cell eps (Spec.occMax ns nk) (a * x s k c + b * y s k c)
        ≤ ∑ s, ∑ k, ∑ c, (a * cell eps (Spec.occMax ns nk) (x s k c)
          + b * cell eps (Spec.occMax ns nk) (y s k c)) :=
      Finset.sum_le_sum fun s _ => Finset.sum_le_sum fun k _ => Finset.sum_le_sum fun c _ => by
        have := hc.2 (hx s k c) (hy s k c) ha hb hab
        simpa [smul_eq_mul] using this
    simp only [Finset.sum_add_distrib, ← Finset.mul_sum] at this
    linarith

/-- C22: the entropy is largest when every band is half filled. -/
theorem entropy_max {ns nk nb : ℕ} (o : Fin ns → Fin nk → Fin nb → ℝ) (eps : ℝ) (he : 0 < eps)
    (ho : o ∈ Spec.OccRange ns nk nb (Spec.occMax ns nk)) :
    fermiDirac o eps ≤ fermiDirac (ns := ns) (nk := nk) (nb := nb)
      (fun _ _ _ => Spec.occMax ns nk / 2) eps := by
  rw [entropy_eq, entropy_eq]
  refine neg_le_neg ?_
  exact Finset.sum_le_sum fun s _ => Finset.sum_le_sum fun k _ => Finset.sum_le_sum fun b _ =>
    cell_half he (ho s k b).1 (ho s k b).2

/-- C22: half filling is the only maximum. -/
theorem entropy_max_unique {ns nk nb : ℕ} (o : Fin ns → Fin nk → Fin nb → ℝ) (eps : ℝ) (he : 0 < eps)
    (ho : o ∈ Spec.OccRange ns nk nb (Spec.occMax ns nk))
    (h : fermiDirac o eps = fermiDirac (ns := ns) (nk := nk) (nb := nb)
      (fun _ _ _ => Spec.occMax ns nk / 2) eps) : ∀ s k b, o s k b = Spec.occMax ns nk / 2 := by
  rw [entropy_eq, entropy_eq] at h
  have h' := neg_injective h
  have hle : ∀ s k b, cell eps (Spec.occMax ns nk) (Spec.occMax ns nk / 2)
      ≤ cell eps (Spec.occMax ns nk) (o s k b) := fun s k b => cell_half he (ho s k b).1 (ho s k b).2
  have e1 := (Finset.sum_eq_sum_iff_of_le (fun s _ => Finset.sum_le_sum fun k _ =>
    Finset.sum_le_sum fun b _ => hle s k b)).1 h'.symm
  intro s k b
  have e2 := (Finset.sum_eq_sum_iff_of_le (fun k _ => Finset.sum_le_sum fun b _ => hle s k b)).1
    (e1 s (Finset.mem_univ s))
  have e3 := (Finset.sum_eq_sum_iff_of_le (fun b _ => hle s k b)).1 (e2 k (Finset.mem_univ k))
  have e4 := e3 b (Finset.mem_univ b)
  by_contra hne
  exact absurd e4 (cell_half_lt he (ho s k b).1 (ho s k b).2 hne).ne

/-- C22: the order of spins, k points and of the bands at each k point does not matter. -/
theorem entropy_reorder {ns nk nb : ℕ} (o : Fin ns → Fin nk → Fin nb → ℝ) (eps : ℝ)
    (ps : Equiv.Perm (Fin ns)) (pk : Fin ns → Equiv.Perm (Fin nk))
    (pb : Fin ns → Fin nk → Equiv.Perm (Fin nb)) :
    fermiDirac (fun s k b => o (ps s) (pk s k) (pb s k b)) eps = fermiDirac o eps := by
  rw [entropy_eq, entropy_eq]
  congr 1
  rw [← Equiv.sum_comp ps (fun s => ∑ k, ∑ b, cell eps (Spec.occMax ns nk) (o s k b))]
  refine Finset.sum_congr rfl fun s _ => ?_
  rw [← Equiv.sum_comp (pk s) (fun k => ∑ b, cell eps (Spec.occMax ns nk) (o (ps s) k b))]
  refine Finset.sum_congr rfl fun k _ => ?_
  exact Equiv.sum_comp (pb s k) (fun b => cell eps (Spec.occMax ns nk) (o (ps s) (pk s k) b))

/-- C22, a consequence users should know: with one spin channel and one k point a full band does not
have zero entropy (it is `-2 log(2 + eps)`), although the documented formula with `1 - o` and a
half-normalised occupation gives (almost) zero. -/
theorem entropy_full_band (eps : ℝ) (he : 0 < eps) :
    fermiDirac (ns := 1) (nk := 1) (nb := 1) (fun _ _ _ => 2) eps = -(2 * Real.log (eps + 2)) ∧
    fermiDirac (ns := 1) (nk := 1) (nb := 1) (fun _ _ _ => 2) eps < 0 := by
  have e : fermiDirac (ns := 1) (nk := 1) (nb := 1) (fun _ _ _ => 2) eps
      = -(2 * Real.log (eps + 2)) := by
    unfold fermiDirac; simp; left; norm_num
  refine ⟨e, ?_⟩
  rw [e]
  have := Real.log_pos (show 1 < eps + 2 by linarith)
  linarith

/-- Witness: a non-trivial admissible array (two spins, two k points, one band). -/
example : (fun s k _ => if s = 0 then 1 / 2 else if k = 0 then 1 / 4 else 0 :
    Fin 2 → Fin 2 → Fin 1 → ℝ) ∈ Spec.OccRange 2 2 1 (Spec.occMax 2 2) := by
  intro s k b
  simp only [Spec.occMax]
  split_ifs <;> norm_num

end Jrystal
