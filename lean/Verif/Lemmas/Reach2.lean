import Verif.Lemmas.Reach
import Verif.Props.Proj
import Verif.Props.Driver

/- Lemmas for C88: the occupations that the driver's parametrisations reach. -/
namespace Jrystal
open scoped BigOperators ComplexConjugate
open Matrix

/-- An admissible vector shifted by a constant projects back onto it. -/
theorem proj_shift {n : ℕ} (x y : Fin n → ℝ) (s δ : ℝ) (h0 : 0 < s) (hn : s < n) (hy : Spec.Admissible s y)
    (hx : ∀ i, x i = y i + δ) (hx01 : ∀ i, 0 ≤ x i ∧ x i ≤ 1) : proj x s = y := by
  obtain ⟨ha, hnear⟩ := proj_nearest_partial x s hx01 h0 hn
  by_contra hne
  have h1 := hnear y hy (Ne.symm hne)
  unfold Spec.dist2 at h1
  have h2 : ∑ i, (x i - proj x s i) ^ 2 = ∑ i, (x i - y i) ^ 2 + ∑ i, (y i - proj x s i) ^ 2 := by
    have h3 : ∑ i, (y i - proj x s i) = 0 := by rw [Finset.sum_sub_distrib, hy.2, ha.2, sub_self]
    have h4 : ∑ i, (x i - proj x s i) ^ 2
        = ∑ i, ((x i - y i) ^ 2 + (y i - proj x s i) ^ 2 + 2 * δ * (y i - proj x s i)) := by
      refine Finset.sum_congr rfl fun i _ => ?_
      rw [hx i]; ring
    rw [h4, Finset.sum_add_distrib, Finset.sum_add_distrib, ← Finset.mul_sum, h3, mul_zero, add_zero]
  have h5 : 0 ≤ ∑ i, (y i - proj x s i) ^ 2 := Finset.sum_nonneg fun i _ => sq_nonneg _
  linarith

/-- The inverse of the sigmoid. -/
noncomputable def logit (x : ℝ) : ℝ := Real.log (x / (1 - x))

theorem sigmoid_logit {x : ℝ} (h0 : 0 < x) (h1 : x < 1) : sigmoid (logit x) = x := by
  unfold sigmoid logit
  have h2 : 0 < 1 - x := by linarith
  rw [← Real.log_inv, Real.exp_log (by positivity)]
  field_simp
  ring

/-- One channel of the simplex parametrisation, before the division by the number of k points. -/
theorem simplex_channel_reach {nk nb : ℕ} (y : Fin nk → Fin nb → ℝ) (s : ℝ) (h0 : 0 < s)
    (hn : s < (nk * nb : ℕ)) (h01 : ∀ k b, 0 ≤ y k b ∧ y k b ≤ 1) (hs : ∑ k, ∑ b, y k b = s)
    (hnb : (∀ k b, y k b ≠ 0) ∨ ∀ k b, y k b ≠ 1) :
    ∃ x : Fin nk → Fin nb → ℝ, proj (ravel fun k b => sigmoid (x k b)) s = ravel y := by
  have hadm : Spec.Admissible s (ravel y) := ⟨fun i => h01 _ _, (sum_ravel y).trans hs⟩
  suffices h : ∃ δ : ℝ, ∀ k b, 0 < y k b + δ ∧ y k b + δ < 1 by
    obtain ⟨δ, hδ⟩ := h
    refine ⟨fun k b => logit (y k b + δ), ?_⟩
    refine proj_shift _ _ s δ h0 hn hadm (fun i => ?_) fun i => ?_
    · exact sigmoid_logit (hδ _ _).1 (hδ _ _).2
    · exact ⟨(sigmoid_bounds _).1.le, (sigmoid_bounds _).2.le⟩
  have hne : 0 < nk * nb := by
    by_contra hc
    have : (nk * nb : ℕ) = 0 := by omega
    rw [this] at hn
    push_cast at hn
    linarith
  have hk : 0 < nk := Nat.pos_of_mul_pos_right hne
  have hb : 0 < nb := Nat.pos_of_mul_pos_left hne
  have : Nonempty (Fin nk × Fin nb) := ⟨(⟨0, hk⟩, ⟨0, hb⟩)⟩
  rcases hnb with hz | ho
  · obtain ⟨p, hp⟩ := Finite.exists_min fun q : Fin nk × Fin nb => y q.1 q.2
    have hpos : 0 < y p.1 p.2 := lt_of_le_of_ne (h01 _ _).1 (Ne.symm (hz _ _))
    refine ⟨-(y p.1 p.2 / 2), fun k b => ?_⟩
    have h1 : y p.1 p.2 ≤ y k b := hp (k, b)
    have h2 := (h01 k b).2
    constructor <;> linarith
  · obtain ⟨p, hp⟩ := Finite.exists_max fun q : Fin nk × Fin nb => y q.1 q.2
    have hlt : y p.1 p.2 < 1 := lt_of_le_of_ne (h01 _ _).2 (ho _ _)
    refine ⟨(1 - y p.1 p.2) / 2, fun k b => ?_⟩
    have h1 : y k b ≤ y p.1 p.2 := hp (k, b)
    have h2 := (h01 k b).1
    constructor <;> linarith

/-- The projected values are never 0 in one place and 1 in another. -/
theorem proj_not_both {n : ℕ} (x : Fin n → ℝ) (s : ℝ) (hx : ∀ i, 0 < x i ∧ x i < 1) (i j : Fin n)
    (hi : proj x s i = 0) : proj x s j ≠ 1 := by
  intro hj
  unfold proj at hi hj
  split_ifs at hi hj with h
  · unfold pushup at hi hj
    simp only at hi hj
    set lam := if (argmaxBool n fun i => Ext.subLt ((sortAsc x).reverse.getD i 0)
      (Ext.div (∑ i, x i - s + (↑i + 1 - cumsum (sortAsc x).reverse i)) (↑n - ↑i - 1)) 1) = 0 then _ else _
      with hlam
    have h1 : x i + lam = 0 := by
      rcases min_choice (x i + lam) 1 with h | h
      · rw [← h]; exact hi
      · rw [h] at hi; exact absurd hi one_ne_zero
    have h2 : (1 : ℝ) ≤ x j + lam := by
      rw [← hj]; exact min_le_left _ _
    linarith [(hx i).1, (hx j).2]
  · unfold pushdown at hi hj
    simp only at hi hj
    set lam := if (argmaxBool n fun i => (Ext.div (∑ i, x i - s - cumsum (sortAsc x) i) (↑n - ↑i - 1)).ltFin
      ((sortAsc x).getD i 0)) = 0 then _ else _ with hlam
    have h1 : x i - lam ≤ 0 := by rw [← hi]; exact le_max_left _ _
    have h2 : x j - lam = 1 := by
      rcases max_choice (x j - lam) 0 with h | h
      · rw [← h]; exact hj
      · rw [h] at hj; exact absurd hj zero_ne_one
    linarith [(hx i).1, (hx j).2]

/-- The numbers of electrons in the two channels of the simplex parametrisation are proper. -/
theorem simplex_counts {nk empty : ℕ} (hk : 0 < nk) {ne spin : ℤ}
    (hp : Spec.Placeable "simplex-projector" ne spin empty) (m : ℤ) (hm : 2 * m = ne + spin ∨ 2 * m = ne - spin) :
    (0 : ℝ) < ((m * nk : ℤ) : ℝ) ∧ ((m * nk : ℤ) : ℝ) < (nk * driverBands ne.toNat empty : ℕ) := by
  obtain ⟨-, hp⟩ := hp
  have hp' : |spin| < ne ∧ |spin| < 2 * empty + ne % 2 := by
    rcases hp with ⟨h | h, -⟩ | ⟨-, h⟩ | ⟨h, -⟩
    · exact absurd h (by decide)
    · exact absurd h (by decide)
    · exact h
    · exact absurd h (by decide)
  have ha := abs_lt.1 hp'.1
  have ha2 := abs_lt.1 hp'.2
  have h1 : 0 < m := by omega
  have h2 : m < (driverBands ne.toNat empty : ℕ) := by unfold driverBands; push_cast; omega
  constructor
  · exact_mod_cast mul_pos h1 (by exact_mod_cast hk)
  · have : m * nk < (nk * driverBands ne.toNat empty : ℕ) := by
      push_cast
      rw [mul_comm (nk : ℤ)]
      exact mul_lt_mul_of_pos_right (by exact_mod_cast h2) (by exact_mod_cast hk)
    exact_mod_cast this

/-- The occupations reached by the two trainable parametrisations. -/
theorem occ_reached (qr : QR ℝ) (ht : Spec.Triangular qr) (draw : ∀ n m : ℕ, Matrix (Fin n) (Fin m) ℝ)
    {nk ns empty : ℕ} (hk : 0 < nk) (ne spin : ℤ) (method : String) (r : Bool)
    (hp : Spec.Placeable method ne spin empty) (q0 : OccParams nk (driverBands ne.toNat empty))
    (h0 : occParamInit draw (driverBands ne.toNat empty) ne nk spin method r = .ok q0)
    (hns : ns = if r then 1 else 2) (y : Occ ns nk (driverBands ne.toNat empty))
    (hnn : ∀ s k b, 0 ≤ y s k b) (hle : ∀ s k b, y s k b ≤ Spec.kShare method nk * Spec.pauli r)
    (hsum : ∀ s, ∑ k, ∑ b, y s k b
      = if r then (ne : ℝ) else if (s : ℕ) = 0 then ((ne : ℝ) + spin) / 2 else ((ne : ℝ) - spin) / 2)
    (hmeth : method = "idempotent" ∨ method = "simplex-projector" ∧ (r = true → spin = 0) ∧
      ∀ s, (∀ k b, y s k b ≠ 0) ∨ ∀ k b, y s k b ≠ Spec.kShare method nk * Spec.pauli r) :
    ∃ q, Spec.KeepsShape q0 q ∧ ∃ o, occupation qr q ne spin method r = .ok o ∧ ∃ hl : o.length = ns,
      ∀ s k b, y s k b = o.get (Fin.cast hl.symm s) k b := by
  have hkR : (0 : ℝ) < nk := by exact_mod_cast hk
  obtain ⟨hpar, hp⟩ := hp
  rcases hmeth with rfl | ⟨rfl, hr0, hnb⟩
  · have hp' : spin = 0 ∧ 0 ≤ ne := by
      rcases hp with ⟨h | h, -⟩ | ⟨h, -⟩ | ⟨-, h⟩
      · exact absurd h (by decide)
      · exact absurd h (by decide)
      · exact absurd h (by decide)
      · exact h
    obtain ⟨rfl, hne⟩ := hp'
    have hshare : Spec.kShare "idempotent" nk = 1 / nk := by simp [Spec.kShare]
    have h3 : ¬ ((ne + 0) / 2 < 0) := by omega
    have hin : occParamInit draw (driverBands ne.toNat empty) ne nk 0 "idempotent" r
        = (idempotentParamInit draw nk (driverBands ne.toNat empty) ne 0 true).map .idem := by
      simp [occParamInit]
    rw [hin] at h0
    unfold idempotentParamInit checkSpinNumber at h0
    simp only [bind, Except.bind, hpar, h3, ne_eq, not_true, if_false, if_true, pure, Except.pure,
      Except.map] at h0
    injection h0 with h0
    subst h0
    have hm : ∀ m : ℕ, m = ((ne + 0) / 2 * nk).toNat → (m : ℝ) = (ne : ℝ) / 2 * nk := by
      intro m hm
      have hmn : 0 ≤ (ne + 0) / 2 * (nk : ℤ) := mul_nonneg (by omega) (by positivity)
      have e1 : (m : ℤ) = (ne + 0) / 2 * nk := by rw [hm, Int.toNat_of_nonneg hmn]
      have e2 : (ne : ℝ) = 2 * (((ne + 0) / 2 : ℤ) : ℝ) := by
        have : ne = 2 * ((ne + 0) / 2) := by omega
        exact_mod_cast this
      have e3 : (m : ℝ) = (((ne + 0) / 2 * nk : ℤ) : ℝ) := by exact_mod_cast e1
      rw [e3, e2]; push_cast; ring
    cases r
    · obtain rfl : ns = 2 := hns
      have key : ∀ s, ∀ m : ℕ, m = ((ne + 0) / 2 * nk).toNat →
          ∃ w : Matrix (Fin (nk * driverBands ne.toNat empty)) (Fin m) ℝ,
          idemChannel qr w = fun k b => y s k b * nk := by
        intro s m hm'
        refine idemChannel_reach qr ht _ (fun k b => ⟨mul_nonneg (hnn s k b) hkR.le, ?_⟩) ?_
        · have := hle s k b
          rw [hshare, Spec.pauli, if_neg (by decide), mul_one, le_div_iff₀ hkR] at this
          exact this
        · simp only [← Finset.sum_mul]
          rw [hsum s, hm m hm']
          simp only [Bool.false_eq_true, if_false, Int.cast_zero, add_zero, sub_zero, ite_self]
      obtain ⟨w0, hw0⟩ := key 0 _ rfl
      obtain ⟨w1, hw1⟩ := key 1 _ rfl
      refine ⟨.idem ⟨_, _, w0, w1⟩, ⟨rfl, rfl⟩, _, by simp [occupation]; rfl, by simp [idempotentOcc], ?_⟩
      intro s k b
      fin_cases s
      · show _ = idemChannel qr w0 k b / (nk : ℝ)
        rw [hw0]
        field_simp
        rfl
      · show _ = idemChannel qr w1 k b / (nk : ℝ)
        rw [hw1]
        field_simp
        rfl
    · obtain rfl : ns = 1 := hns
      have key : ∀ m : ℕ, m = ((ne + 0) / 2 * nk).toNat →
          ∃ w : Matrix (Fin (nk * driverBands ne.toNat empty)) (Fin m) ℝ,
          idemChannel qr w = fun k b => y 0 k b * (nk / 2) := by
        intro m hm'
        refine idemChannel_reach qr ht _ (fun k b => ⟨mul_nonneg (hnn 0 k b) (by positivity), ?_⟩) ?_
        · have := hle 0 k b
          rw [hshare, Spec.pauli, if_pos rfl, div_mul_eq_mul_div, one_mul, le_div_iff₀ hkR] at this
          linarith
        · simp only [← Finset.sum_mul]
          rw [hsum 0, hm m hm', if_pos rfl]
          ring
      obtain ⟨w, hw⟩ := key _ rfl
      refine ⟨.idem ⟨_, _, w, w⟩, ⟨rfl, rfl⟩, _, by simp [occupation]; rfl, by simp [idempotentOcc], ?_⟩
      intro s k b
      obtain rfl : s = 0 := Subsingleton.elim _ _
      show _ = (idemChannel qr w k b + idemChannel qr w k b) / (nk : ℝ)
      rw [hw]
      field_simp
      ring
  · have hub := simplex_counts hk (⟨hpar, hp⟩ : Spec.Placeable _ _ _ _)
    have hshare : Spec.kShare "simplex-projector" nk = 1 / nk := by simp [Spec.kShare]
    have e : q0 = .simplex (simplexProjectorInit nk (driverBands ne.toNat empty))
        (simplexProjectorInit nk (driverBands ne.toNat empty)) := by
      simpa [occParamInit, eq_comm] using h0
    subst e
    have h2u : 2 * ((ne + spin) / 2) = ne + spin := by omega
    have h2d : 2 * ((ne - spin) / 2) = ne - spin := by omega
    have hup := hub ((ne + spin) / 2) (Or.inl h2u)
    have hdn := hub ((ne - spin) / 2) (Or.inr h2d)
    have eu : (((ne + spin) / 2 : ℤ) : ℝ) = ((ne : ℝ) + spin) / 2 := by
      have : (2 : ℝ) * (((ne + spin) / 2 : ℤ) : ℝ) = (ne : ℝ) + spin := by exact_mod_cast h2u
      linarith
    have ed : (((ne - spin) / 2 : ℤ) : ℝ) = ((ne : ℝ) - spin) / 2 := by
      have : (2 : ℝ) * (((ne - spin) / 2 : ℤ) : ℝ) = (ne : ℝ) - spin := by exact_mod_cast h2d
      linarith
    cases r
    · obtain rfl : ns = 2 := hns
      have hlim : Spec.kShare "simplex-projector" nk * Spec.pauli false = 1 / nk := by
        rw [hshare, Spec.pauli, if_neg (by decide), mul_one]
      have h01 : ∀ s k b, 0 ≤ y s k b * nk ∧ y s k b * nk ≤ 1 := by
        intro s k b
        refine ⟨mul_nonneg (hnn s k b) hkR.le, ?_⟩
        have := hle s k b
        rwa [hlim, le_div_iff₀ hkR] at this
      have hnb' : ∀ s, (∀ k b, y s k b * nk ≠ 0) ∨ ∀ k b, y s k b * nk ≠ 1 := by
        intro s
        rcases hnb s with h | h
        · exact Or.inl fun k b => mul_ne_zero (h k b) hkR.ne'
        · refine Or.inr fun k b hc => h k b ?_
          rw [hlim, eq_div_iff hkR.ne', hc]
      obtain ⟨x0, hx0⟩ := simplex_channel_reach (fun k b => y 0 k b * nk) _ hup.1 hup.2 (h01 0) (by
        simp only [← Finset.sum_mul]
        rw [hsum 0]
        push_cast
        rw [eu]
        simp) (hnb' 0)
      obtain ⟨x1, hx1⟩ := simplex_channel_reach (fun k b => y 1 k b * nk) _ hdn.1 hdn.2 (h01 1) (by
        simp only [← Finset.sum_mul]
        rw [hsum 1]
        push_cast
        rw [ed]
        simp) (hnb' 1)
      refine ⟨.simplex x0 x1, trivial, _, by simp [occupation]; rfl, by simp [simplexProjector], ?_⟩
      intro s k b
      fin_cases s
      · show _ = proj (ravel fun k b => sigmoid (x0 k b)) _ (finProdFinEquiv (k, b)) / (nk : ℝ)
        rw [hx0]
        simp [ravel]
        field_simp
      · show _ = proj (ravel fun k b => sigmoid (x1 k b)) _ (finProdFinEquiv (k, b)) / (nk : ℝ)
        rw [hx1]
        simp [ravel]
        field_simp
    · obtain rfl : ns = 1 := hns
      obtain rfl := hr0 rfl
      have hlim : Spec.kShare "simplex-projector" nk * Spec.pauli true = 2 / nk := by
        rw [hshare, Spec.pauli, if_pos rfl]; ring
      have h01 : ∀ k b, 0 ≤ y 0 k b * (nk / 2) ∧ y 0 k b * (nk / 2) ≤ 1 := by
        intro k b
        refine ⟨mul_nonneg (hnn 0 k b) (by positivity), ?_⟩
        have := hle 0 k b
        rw [hlim, le_div_iff₀ hkR] at this
        linarith
      have hnb' : (∀ k b, y 0 k b * (nk / 2) ≠ 0) ∨ ∀ k b, y 0 k b * (nk / 2) ≠ 1 := by
        rcases hnb 0 with h | h
        · exact Or.inl fun k b => mul_ne_zero (h k b) (by positivity)
        · refine Or.inr fun k b hc => h k b ?_
          rw [hlim, eq_div_iff hkR.ne']
          linarith
      obtain ⟨x0, hx0⟩ := simplex_channel_reach (fun k b => y 0 k b * (nk / 2)) _ hup.1 hup.2 h01 (by
        simp only [← Finset.sum_mul]
        rw [hsum 0, if_pos rfl]
        push_cast
        rw [eu]
        push_cast
        ring) hnb'
      have hsame : ((ne - 0) / 2 * nk : ℤ) = (ne + 0) / 2 * nk := by simp
      refine ⟨.simplex x0 x0, trivial, _, by simp [occupation]; rfl, by simp [simplexProjector, sumSpin], ?_⟩
      intro s k b
      obtain rfl : s = 0 := Subsingleton.elim _ _
      show _ = proj (ravel fun k b => sigmoid (x0 k b)) (((ne + 0) / 2 * nk : ℤ) : ℝ) (finProdFinEquiv (k, b)) / (nk : ℝ)
        + (proj (ravel fun k b => sigmoid (x0 k b)) (((ne - 0) / 2 * nk : ℤ) : ℝ) (finProdFinEquiv (k, b)) / (nk : ℝ) + 0)
      rw [hsame, hx0]
      simp only [ravel, Equiv.symm_apply_apply]
      field_simp
      ring

end Jrystal
