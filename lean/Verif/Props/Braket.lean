import Verif.Lemmas.Braket
import Verif.Lemmas.Planewave

/- C15 and C33. -/
namespace Jrystal
open scoped BigOperators ComplexConjugate

/-! ### C15 -/

/-- C15: `ifftn3d` inverts `fftn3d` on every grid. -/
theorem ifftn_fftn {n : Fin 3 → ℕ} (f : Idx n → ℂ) : ifftn (fftn f) = f := ifftn_fftn' f

/-- C15: `fftn3d` inverts `ifftn3d` on every grid. -/
theorem fftn_ifftn {n : Fin 3 → ℕ} (f : Idx n → ℂ) : fftn (ifftn f) = f := fftn_ifftn' f

/-- C15: the reciprocal-space inner product of transforms is the real part of the inner product of
the cell. -/
theorem reciprocalBraket_parseval {n : Fin 3 → ℕ} (hn : ∀ i, 0 < n i) (f g : Idx n → ℂ) (vol : ℝ) :
    reciprocalBraket0 (fftn f) (fftn g) vol = (Spec.cellInner vol f g).re := by
  have hN : (gridCount n : ℂ) ≠ 0 := gridCount_ne (zeroIdx hn)
  unfold reciprocalBraket0 Spec.cellInner
  rw [fftn_parseval]
  congr 1
  change _ = ((vol / (gridCount n : ℝ) : ℝ) : ℂ) * _
  push_cast
  field_simp

/-- C15: for a real left argument `real_braket` is the inner product of the cell, so the two
brakets agree. -/
theorem realBraket_partial {n : Fin 3 → ℕ} (hn : ∀ i, 0 < n i) (f : Idx n → ℝ) (g : Idx n → ℂ)
    (vol : ℝ) :
    realBraket0 (fun j => (f j : ℂ)) g vol = Spec.cellInner vol (fun j => (f j : ℂ)) g ∧
    (realBraket0 (fun j => (f j : ℂ)) g vol).re
      = reciprocalBraket0 (fftn fun j => (f j : ℂ)) (fftn g) vol := by
  have h : realBraket0 (fun j => (f j : ℂ)) g vol = Spec.cellInner vol (fun j => (f j : ℂ)) g := by
    unfold realBraket0 Spec.cellInner
    simp_rw [Complex.conj_ofReal]
    rw [mul_comm]
    rfl
  exact ⟨h, by rw [reciprocalBraket_parseval hn, h]⟩

/-- C15 fails for complex left arguments: `real_braket` does not conjugate, although its
documentation gives `Σ conj(f) g vol/N`. -/
theorem realBraket_no_conj : ∃ (n : Fin 3 → ℕ) (f : Idx n → ℂ),
    realBraket0 f f 1 ≠ Spec.cellInner 1 f f := by
  refine ⟨fun _ => 1, fun _ => Complex.I, fun h => ?_⟩
  have h1 := congrArg Complex.re h
  unfold realBraket0 Spec.cellInner gridCount at h1
  norm_num at h1

/-- C15 for `real_braket` of arrays with a leading axis of length `a` (real left argument): the result is
the mean of the inner products over that axis, not their sum. -/
theorem realBraket_leading {a : ℕ} {n : Fin 3 → ℕ} (f : Fin a → Idx n → ℝ) (g : Fin a → Idx n → ℂ)
    (vol : ℝ) :
    realBraket (fun s j => (f s j : ℂ)) g vol
      = (∑ s, Spec.cellInner vol (fun j => (f s j : ℂ)) (g s)) / (a : ℂ) := by
  unfold realBraket Spec.cellInner
  simp_rw [Complex.conj_ofReal]
  rw [← Finset.mul_sum]
  change _ = ((vol / (gridCount n : ℝ) : ℝ) : ℂ) * _ / _
  push_cast
  rw [mul_comm (a : ℂ), ← div_div]
  ring

/-- C15 for arrays with a leading axis of length `a`: the result is the sum of the inner products
divided by `a ^ 2`, because the leading axis is counted as grid points. -/
theorem reciprocalBraket_leading {a : ℕ} (ha : 0 < a) {n : Fin 3 → ℕ} (hn : ∀ i, 0 < n i)
    (f g : Fin a → Idx n → ℂ) (vol : ℝ) :
    reciprocalBraket (fun s => fftn (f s)) (fun s => fftn (g s)) vol
      = .ok ((∑ s, Spec.cellInner vol (f s) (g s)).re / (a : ℝ) ^ 2) := by
  have hN : (gridCount n : ℂ) ≠ 0 := gridCount_ne (zeroIdx hn)
  have ha' : (a : ℂ) ≠ 0 := by exact_mod_cast ha.ne'
  unfold reciprocalBraket broadcastPairs
  rw [dif_pos rfl]
  simp only [List.map_map, Function.comp_def]
  congr 1
  have h1 : ((List.finRange a).map fun x => ∑ k, conj (fftn (f x) k) * fftn (g x) k).sum
      = (gridCount n : ℂ) * ∑ s, ∑ j, conj (f s j) * g s j := by
    rw [← Fin.sum_univ_def, Finset.mul_sum]
    exact Finset.sum_congr rfl fun s _ => fftn_parseval _ _
  rw [h1]
  have h2 : (∑ s, Spec.cellInner vol (f s) (g s)).re / (a : ℝ) ^ 2
      = ((∑ s, Spec.cellInner vol (f s) (g s)) / ((a : ℝ) ^ 2 : ℝ)).re := by
    rw [Complex.div_ofReal_re]
  rw [h2]
  congr 1
  unfold Spec.cellInner
  rw [← Finset.mul_sum]
  change _ = ((vol / (gridCount n : ℝ) : ℝ) : ℂ) * _ / _
  push_cast
  field_simp

/-- C15 fails for leading axes longer than one: two copies of a constant on one grid point. -/
theorem reciprocalBraket_leading_wrong : ∃ (f : Fin 2 → Idx (fun _ => 1) → ℂ) (v : ℝ),
    reciprocalBraket (fun s => fftn (f s)) (fun s => fftn (f s)) 1 = .ok v ∧
      v ≠ (∑ s, Spec.cellInner 1 (f s) (f s)).re := by
  refine ⟨fun _ _ => 1, _, reciprocalBraket_leading (by norm_num) (by simp) _ _ _, ?_⟩
  have : (∑ s : Fin 2, Spec.cellInner (n := fun _ => 1) 1 (fun _ => (1 : ℂ)) (fun _ => 1)).re = 2 := by
    unfold Spec.cellInner
    norm_num
  rw [this]
  norm_num

/-- C15: with a constant operator, `expectation` in mode `real` on the inverse transforms equals
mode `reciprocal` on the transforms themselves, for all arrays and volumes. -/
theorem expectation_modes {ns nk nb : ℕ} {n : Fin 3 → ℕ} (hn : ∀ i, 0 < n i) (c : Coef ns nk nb n)
    (w : ℂ) (vol : ℝ) :
    expectationFull (fun s k b => ifftn (c s k b)) (.grid fun _ => w) vol none "real"
      = expectationFull c (.grid fun _ => w) vol none "reciprocal" := by
  have hN : (gridCount n : ℂ) ≠ 0 := gridCount_ne (zeroIdx hn)
  unfold expectationFull integralFactor operatorLen operatorAt
  simp only [Option.getD_none]
  simp only [if_neg (by decide : ¬ ("real" = "reciprocal")), if_true]
  congr 2
  funext s k i j
  unfold bcGet bcIdx
  have key : ∀ a b : Idx n → ℂ, (∑ x, conj (ifftn a x) * w * ifftn b x) * ((vol / (gridCount n : ℝ) : ℝ) : ℂ)
      = (∑ x, conj (a x) * w * b x) * ((vol / (gridCount n : ℝ) * (1 / (gridCount n : ℝ)) : ℝ) : ℂ) := by
    intro a b
    have h1 : ∀ u v : Idx n → ℂ, ∑ x, conj (u x) * w * v x = w * ∑ x, conj (u x) * v x := by
      intro u v
      rw [Finset.mul_sum]
      exact Finset.sum_congr rfl fun x _ => by ring
    rw [h1, h1, ← ifftn_parseval a b]
    push_cast
    field_simp
  by_cases h1 : nk = 1
  · simp only [dif_pos h1]; exact key _ _
  · simp only [dif_neg h1, dif_pos k.2]; exact key _ _

/-! ### C33 -/

/-- C33: `diagonal=True` returns the diagonal of `diagonal=False` for all wave functions, operators,
kets and modes, and both fail on the same inputs. -/
theorem expectation_diag {ns nk nb : ℕ} {n : Fin 3 → ℕ} (bra : Coef ns nk nb n) (h : Operator n)
    (vol : ℝ) (ket : Option (Coef ns nk nb n)) (mode : String) :
    (∀ e, expectationFull bra h vol ket mode = .error e ↔
      expectationDiag bra h vol ket mode = .error e) ∧
    (∀ K M, expectationFull bra h vol ket mode = .ok ⟨K, M⟩ →
      expectationDiag bra h vol ket mode = .ok ⟨K, fun s k i => M s k i i⟩) := by
  unfold expectationFull expectationDiag
  cases integralFactor n vol mode with
  | error e => exact ⟨fun e' => by simp, fun K M hM => by simp at hM⟩
  | ok f =>
    cases operatorLen nk h with
    | error e => exact ⟨fun e' => by simp, fun K M hM => by simp at hM⟩
    | ok K =>
      refine ⟨fun e' => by simp, fun K' M hM => ?_⟩
      simp only [Except.ok.injEq, Sigma.mk.injEq] at hM
      obtain ⟨rfl, hM⟩ := hM
      rw [← eq_of_heq hM]

/-- An operator with real values. -/
def Operator.IsReal {n : Fin 3 → ℕ} : Operator n → Prop
  | .grid h => ∀ x, conj (h x) = h x
  | .lead m h => ∀ (k : Fin m) x, conj (h k x) = h k x

private theorem operatorAt_real {n : Fin 3 → ℕ} (h : Operator n) (hr : h.IsReal) (k : ℕ) (x : Idx n) :
    conj (operatorAt h k x) = operatorAt h k x := by
  cases h with
  | grid h => exact hr x
  | lead m h =>
    unfold operatorAt bcGet
    dsimp only
    cases bcIdx m k with
    | none => simp
    | some i => exact hr i x

/-- C33: with `ket=None` and a real operator the matrix is Hermitian, so its diagonal is real. -/
theorem expectation_hermitian {ns nk nb : ℕ} {n : Fin 3 → ℕ} (bra : Coef ns nk nb n) (h : Operator n)
    (hr : h.IsReal) (vol : ℝ) (mode : String) (K : ℕ) (M : Fin ns → Fin K → Fin nb → Fin nb → ℂ)
    (hM : expectationFull bra h vol none mode = .ok ⟨K, M⟩) (s : Fin ns) (k : Fin K) (i j : Fin nb) :
    M s k j i = conj (M s k i j) ∧ (M s k i i).im = 0 := by
  have key : ∀ i j, M s k j i = conj (M s k i j) := by
    unfold expectationFull at hM
    cases hf : integralFactor n vol mode with
    | error e => rw [hf] at hM; simp at hM
    | ok f =>
      rw [hf] at hM
      cases ho : operatorLen nk h with
      | error e => rw [ho] at hM; simp at hM
      | ok K' =>
        rw [ho] at hM
        simp only [Except.ok.injEq, Sigma.mk.injEq] at hM
        obtain ⟨rfl, hM⟩ := hM
        rw [← eq_of_heq hM]
        intro i j
        simp only [Option.getD_none, map_mul, map_sum, Complex.conj_ofReal, Complex.conj_conj]
        congr 1
        refine Finset.sum_congr rfl fun x _ => ?_
        rw [operatorAt_real h hr]
        ring
  exact ⟨key i j, Complex.conj_eq_iff_im.mp (key i i).symm⟩

/-- Hypotheses met: the kinetic-type operator 1 on one band. -/
example : ∃ M, expectationFull (fun _ _ _ _ => 1 : Coef 1 1 1 (fun _ => 2)) (.grid fun _ => 1) 1 none
    "kinetic" = .ok ⟨1, M⟩ := ⟨_, rfl⟩

/-- C33: unknown modes raise `ValueError`. -/
theorem expectation_bad_mode {ns nk nb : ℕ} {n : Fin 3 → ℕ} (bra : Coef ns nk nb n) (h : Operator n)
    (vol : ℝ) (ket : Option (Coef ns nk nb n)) (mode : String)
    (hm : mode ∉ ["real", "reciprocal", "kinetic"]) :
    expectationFull bra h vol ket mode = .error .valueError := by
  simp only [List.mem_cons, List.not_mem_nil, or_false, not_or] at hm
  unfold expectationFull integralFactor
  simp [hm]

/-- C33: an operator with a leading axis as long as the k axis acts on the k point of that number,
whatever the spin. -/
theorem expectation_lead_kpt {ns nk nb : ℕ} {n : Fin 3 → ℕ} (bra : Coef ns nk nb n)
    (h : Fin nk → Idx n → ℂ) (vol : ℝ) :
    expectationFull bra (.lead nk h) vol none "real" = .ok ⟨nk, fun s k i j =>
      Spec.cellInner vol (bra s k i) (fun x => h k x * bra s k j x)⟩ := by
  unfold expectationFull integralFactor operatorLen bcLen
  simp only [if_neg (by decide : ¬ ("real" = "reciprocal")), if_true, Option.getD_none]
  congr 2
  funext s k i j
  unfold operatorAt Spec.cellInner
  simp only [bcGet_self]
  rw [mul_comm]
  congr 1
  exact Finset.sum_congr rfl fun x _ => by ring

/-- C33: a potential without spin axis, or with a spin axis of length one, acts on every spin and
k point. -/
theorem expectation_unpolarised_partial {ns nk nb : ℕ} {n : Fin 3 → ℕ} (bra : Coef ns nk nb n)
    (v : Idx n → ℂ) (vol : ℝ) :
    expectationFull bra (.lead 1 fun _ => v) vol none "real" = .ok ⟨nk, fun s k i j =>
      Spec.cellInner vol (bra s k i) (fun x => v x * bra s k j x)⟩ ∧
    expectationFull bra (.grid v) vol none "real" = .ok ⟨nk, fun s k i j =>
      Spec.cellInner vol (bra s k i) (fun x => v x * bra s k j x)⟩ := by
  have hlen : bcLen nk 1 = .ok nk := by
    unfold bcLen
    split
    · rfl
    · rfl
  have hcore : ∀ (s : Fin ns) (k : Fin nk) (i j : Fin nb),
      (∑ x, conj (bra s k i x) * v x * bra s k j x) * ((vol / (gridCount n : ℝ) : ℝ) : ℂ)
        = Spec.cellInner vol (bra s k i) (fun x => v x * bra s k j x) := by
    intro s k i j
    unfold Spec.cellInner
    rw [mul_comm]
    congr 1
    exact Finset.sum_congr rfl fun x _ => by ring
  constructor
  · unfold expectationFull integralFactor operatorLen operatorAt
    simp only [if_neg (by decide : ¬ ("real" = "reciprocal")), if_true, Option.getD_none, hlen, bcGet_self]
    congr 2
    funext s k i j
    rw [← hcore]
    rfl
  · unfold expectationFull integralFactor operatorLen operatorAt
    simp only [if_neg (by decide : ¬ ("real" = "reciprocal")), if_true, Option.getD_none, bcGet_self]
    congr 2
    funext s k i j
    rw [← hcore]

/-- C33 fails for two spin channels: a potential of shape `2 x y z` makes `expectation` fail when
there are more than two k points, and otherwise is matched with k points.  With two spins, two k
points, potential 0 for spin 0 and 1 for spin 1, spin 0 at the second k point sees potential 1. -/
theorem expectation_spin_axis_wrong :
    (∀ {ns nk nb : ℕ} {n : Fin 3 → ℕ} (bra : Coef ns nk nb n) (v : Fin 2 → Idx n → ℂ) (vol : ℝ),
      2 < nk → expectationFull bra (.lead 2 v) vol none "real" = .error .valueError) ∧
    (∃ (bra : Coef 2 2 1 (fun _ => 1)) (v : Fin 2 → Idx (fun _ => 1) → ℂ)
      (M : Fin 2 → Fin 2 → Fin 1 → Fin 1 → ℂ),
      expectationFull bra (.lead 2 v) 1 none "real" = .ok ⟨2, M⟩ ∧
      M 0 1 0 0 ≠ Spec.cellInner 1 (bra 0 1 0) (fun x => v 0 x * bra 0 1 0 x)) ∧
    (∃ (bra : Coef 2 1 1 (fun _ => 1)) (v : Fin 2 → Idx (fun _ => 1) → ℂ)
      (M : Fin 2 → Fin 2 → Fin 1 → Fin 1 → ℂ),
      expectationFull bra (.lead 2 v) 1 none "real" = .ok ⟨2, M⟩) := by
  refine ⟨?_, ?_, ?_⟩
  · intro ns nk nb n bra v vol hk
    unfold expectationFull integralFactor operatorLen bcLen
    simp only [if_neg (by decide : ¬ ("real" = "reciprocal")), if_true]
    rw [if_neg (by omega), if_neg (by omega), if_neg (by omega)]
  · refine ⟨fun _ _ _ _ => 1, fun s _ => if s = 0 then 0 else 1, _,
      expectation_lead_kpt _ _ _, ?_⟩
    unfold Spec.cellInner
    norm_num
  · exact ⟨fun _ _ _ _ => 1, fun _ _ => 1, _, rfl⟩

end Jrystal
