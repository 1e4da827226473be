import Verif.Model.Spmd
import Verif.Lemmas.Fft
import Mathlib.Analysis.Calculus.FDeriv.Linear
import Mathlib.Topology.Algebra.Module.FiniteDimension
import Mathlib.Analysis.Normed.Module.FiniteDimension

/- C43, C44: the sharded FFT. -/
namespace Jrystal
open scoped BigOperators ComplexConjugate

/-! ### C43: transpose and tangent -/

/-- C43: the registered transpose of `fftn3d` is its linear transpose. -/
theorem fftn_transpose {m : ℕ} {n : Fin 3 → ℕ} (ct x : Fin m → Idx n → ℂ) :
    ∑ a, ∑ k, ct a k * fftn (x a) k = ∑ a, ∑ j, fftnTranspose ct a j * x a j := by
  refine Finset.sum_congr rfl fun a _ => ?_
  unfold fftnTranspose
  simp_rw [fftn_eq, Finset.mul_sum, Finset.sum_mul]
  rw [Finset.sum_comm]
  refine Finset.sum_congr rfl fun j _ => Finset.sum_congr rfl fun k _ => ?_
  rw [omega_symm]
  ring

/-- C43: the registered transpose of `ifftn3d` is its linear transpose. -/
theorem ifftn_transpose {m : ℕ} {n : Fin 3 → ℕ} (ct x : Fin m → Idx n → ℂ) :
    ∑ a, ∑ k, ct a k * ifftn (x a) k = ∑ a, ∑ j, ifftnTranspose ct a j * x a j := by
  refine Finset.sum_congr rfl fun a _ => ?_
  unfold ifftnTranspose
  simp_rw [ifftn_eq, Finset.sum_div, Finset.mul_sum, Finset.sum_mul]
  rw [Finset.sum_comm]
  refine Finset.sum_congr rfl fun j _ => Finset.sum_congr rfl fun k _ => ?_
  rw [omega_symm]
  ring

/-- C43: the transpose is determined by that identity, so no other rule would be correct. -/
theorem transpose_unique {m : ℕ} {n : Fin 3 → ℕ} (T : (Fin m → Idx n → ℂ) → Fin m → Idx n → ℂ)
    (u v : Fin m → Idx n → ℂ) (ct : Fin m → Idx n → ℂ)
    (hu : ∀ x, ∑ a, ∑ k, ct a k * T x a k = ∑ a, ∑ j, u a j * x a j)
    (hv : ∀ x, ∑ a, ∑ k, ct a k * T x a k = ∑ a, ∑ j, v a j * x a j) : u = v := by
  funext a j
  have h := (hu fun a' j' => if a' = a ∧ j' = j then 1 else 0).symm.trans
    (hv fun a' j' => if a' = a ∧ j' = j then 1 else 0)
  have e : ∀ w : Fin m → Idx n → ℂ,
      ∑ a', ∑ j', w a' j' * (if a' = a ∧ j' = j then 1 else 0) = w a j := by
    intro w
    rw [Finset.sum_eq_single a, Finset.sum_eq_single j]
    · simp
    · intro b _ hb; simp [hb]
    · intro h; exact absurd (Finset.mem_univ _) h
    · intro b _ hb; simp [hb]
    · intro h; exact absurd (Finset.mem_univ _) h
  rwa [e u, e v] at h

private theorem deriv_of_linear {E : Type*} [NormedAddCommGroup E] [NormedSpace ℂ E]
    [FiniteDimensional ℂ E] (f : E → E) (ha : ∀ x y, f (x + y) = f x + f y)
    (hs : ∀ (c : ℂ) x, f (c • x) = c • f x) (x : E) :
    ∃ L : E →L[ℂ] E, HasFDerivAt f L x ∧ ∀ t, L t = f t := by
  let l : E →ₗ[ℂ] E := { toFun := f, map_add' := ha, map_smul' := hs }
  refine ⟨LinearMap.toContinuousLinearMap l, ?_, fun t => rfl⟩
  have := (LinearMap.toContinuousLinearMap l).hasFDerivAt (x := x)
  exact this

/-- C43: the tangent rule of `fftn3d` returns the value and the derivative applied to the tangent. -/
theorem fftn_jvp {m : ℕ} {n : Fin 3 → ℕ} (x : Fin m → Idx n → ℂ) :
    ∃ L : (Fin m → Idx n → ℂ) →L[ℂ] (Fin m → Idx n → ℂ),
      HasFDerivAt (fun (y : Fin m → Idx n → ℂ) a => fftn (y a)) L x ∧
      ∀ t, fftnJvp x t = (fun a => fftn (x a), L t) := by
  obtain ⟨L, hL, h⟩ := deriv_of_linear (fun (y : Fin m → Idx n → ℂ) a => fftn (y a))
    (fun y z => by funext a k; exact fftn_add (y a) (z a) k)
    (fun c y => by funext a k; exact fftn_smul c (y a) k) x
  exact ⟨L, hL, fun t => by rw [h t]; rfl⟩

/-- C43: the tangent rule of `ifftn3d` returns the value and the derivative applied to the tangent. -/
theorem ifftn_jvp {m : ℕ} {n : Fin 3 → ℕ} (x : Fin m → Idx n → ℂ) :
    ∃ L : (Fin m → Idx n → ℂ) →L[ℂ] (Fin m → Idx n → ℂ),
      HasFDerivAt (fun (y : Fin m → Idx n → ℂ) a => ifftn (y a)) L x ∧
      ∀ t, ifftnJvp x t = (fun a => ifftn (x a), L t) := by
  obtain ⟨L, hL, h⟩ := deriv_of_linear (fun (y : Fin m → Idx n → ℂ) a => ifftn (y a))
    (fun y z => by funext a k; exact ifftn_add (y a) (z a) k)
    (fun c y => by funext a k; exact ifftn_smul c (y a) k) x
  exact ⟨L, hL, fun t => by rw [h t]; rfl⟩

/-! ### C43: batching -/

private theorem onLast_cons (tr : Transform3) (d : ℕ) (n : List ℕ) (x : List ℕ → ℂ) (i : ℕ)
    (rest : List ℕ) (hn : 3 ≤ n.length) (hr : 3 ≤ rest.length) :
    onLast tr (d :: n) x (i :: rest) = onLast tr n (fun r => x (i :: r)) rest := by
  unfold onLast
  have h1 : (d :: n).drop ((d :: n).length - 3) = n.drop (n.length - 3) := by
    rw [List.length_cons, show n.length + 1 - 3 = (n.length - 3) + 1 by omega, List.drop_succ_cons]
  have h2 : (i :: rest).drop ((i :: rest).length - 3) = rest.drop (rest.length - 3) := by
    rw [List.length_cons, show rest.length + 1 - 3 = (rest.length - 3) + 1 by omega,
      List.drop_succ_cons]
  have h3 : (i :: rest).take ((i :: rest).length - 3) = i :: rest.take (rest.length - 3) := by
    rw [List.length_cons, show rest.length + 1 - 3 = (rest.length - 3) + 1 by omega,
      List.take_succ_cons]
  rw [h1, h2, h3]
  rfl

/-- C43: for every batch axis `bd` the batching rule returns, at position `i` of axis 0, the transform
of the `i`-th slice along `bd`. -/
theorem fftn_batching (bd : ℕ) (n : List ℕ) (x : List ℕ → ℂ) (hbd : bd < n.length)
    (hn : 4 ≤ n.length) :
    ∃ y, fftnBatch bd n x = .ok (y, 0) ∧ ∀ i rest, rest.length + 1 = n.length →
      ∃ z, fftn3d (n.eraseIdx bd) (fun r => x (r.insertIdx bd i)) = .ok z ∧ y (i :: rest) = z rest := by
  have hl : (n.eraseIdx bd).length + 1 = n.length := by
    rw [List.length_eraseIdx_of_lt hbd]; omega
  refine ⟨onLast (fun _ => fftn) (moveShape bd n) (moveFront bd x), ?_, ?_⟩
  · unfold fftnBatch fftn3d
    rw [if_neg (by unfold moveShape; rw [List.length_cons]; omega)]
  · intro i rest hr
    refine ⟨_, by unfold fftn3d; rw [if_neg (by omega)], ?_⟩
    exact onLast_cons _ _ _ _ _ _ (by omega) (by omega)

/-- C43: the same for the inverse transform. -/
theorem ifftn_batching (bd : ℕ) (n : List ℕ) (x : List ℕ → ℂ) (hbd : bd < n.length)
    (hn : 4 ≤ n.length) :
    ∃ y, ifftnBatch bd n x = .ok (y, 0) ∧ ∀ i rest, rest.length + 1 = n.length →
      ∃ z, ifftn3d (n.eraseIdx bd) (fun r => x (r.insertIdx bd i)) = .ok z ∧ y (i :: rest) = z rest := by
  have hl : (n.eraseIdx bd).length + 1 = n.length := by
    rw [List.length_eraseIdx_of_lt hbd]; omega
  refine ⟨onLast (fun _ => ifftn) (moveShape bd n) (moveFront bd x), ?_, ?_⟩
  · unfold ifftnBatch ifftn3d
    rw [if_neg (by unfold moveShape; rw [List.length_cons]; omega)]
  · intro i rest hr
    refine ⟨_, by unfold ifftn3d; rw [if_neg (by omega)], ?_⟩
    exact onLast_cons _ _ _ _ _ _ (by omega) (by omega)

/-- C43: the array that the batching rules transform has the shape of the input with the batch axis in front: an index
lies in it exactly when the index with the batch position put back lies in the input. -/
theorem batching_shape (bd : ℕ) (n : List ℕ) (i : ℕ) (rest : List ℕ) (hbd : bd < n.length)
    (hr : rest.length + 1 = n.length) :
    List.Forall₂ (· < ·) (i :: rest) (moveShape bd n) ↔ List.Forall₂ (· < ·) (rest.insertIdx bd i) n := by
  induction bd generalizing n rest with
  | zero =>
    cases n with
    | nil => simp at hbd
    | cons d n => rfl
  | succ bd ih =>
    cases n with
    | nil => simp at hbd
    | cons d n =>
      cases rest with
      | nil =>
        simp only [List.length_cons, List.length_nil] at hbd hr
        omega
      | cons r rest =>
        have := ih n rest (by simpa using hbd) (by simpa using hr)
        unfold moveShape at this ⊢
        simp only [List.getD_cons_succ, List.eraseIdx_cons_succ, List.forall₂_cons, List.insertIdx_succ_cons] at this ⊢
        rw [← this]
        tauto

/-- C43: the value of `fftn3d` at an index: the three-dimensional transform of the block with these
leading indices. -/
theorem fftn3d_value (lead pre : List ℕ) (a b c : ℕ) (x : List ℕ → ℂ) (k : Idx (vec3 a b c)) :
    ∃ y, fftn3d (lead ++ [a, b, c]) x = .ok y ∧
      y (pre ++ [(k 0 : ℕ), (k 1 : ℕ), (k 2 : ℕ)])
        = fftn (fun j : Idx (vec3 a b c) => x (pre ++ [(j 0 : ℕ), (j 1 : ℕ), (j 2 : ℕ)])) k := by
  refine ⟨_, by unfold fftn3d; rw [if_neg (by simp)], ?_⟩
  unfold onLast
  have h1 : (lead ++ [a, b, c]).drop ((lead ++ [a, b, c]).length - 3) = [a, b, c] := by simp
  have h2 : (pre ++ [(k 0 : ℕ), (k 1 : ℕ), (k 2 : ℕ)]).drop
      ((pre ++ [(k 0 : ℕ), (k 1 : ℕ), (k 2 : ℕ)]).length - 3) = [(k 0 : ℕ), (k 1 : ℕ), (k 2 : ℕ)] := by
    simp
  have h3 : (pre ++ [(k 0 : ℕ), (k 1 : ℕ), (k 2 : ℕ)]).take
      ((pre ++ [(k 0 : ℕ), (k 1 : ℕ), (k 2 : ℕ)]).length - 3) = pre := by simp
  rw [h1, h2, h3]
  show coreTransform _ a b c _ _ _ _ = _
  unfold coreTransform
  rw [dif_pos ⟨(k 0).2, (k 1).2, (k 2).2⟩]
  congr 1
  funext i
  fin_cases i <;> rfl

/-- C43: fewer than three axes are rejected. -/
theorem fftn3d_rank (n : List ℕ) (x : List ℕ → ℂ) (h : n.length < 3) :
    fftn3d n x = .error .valueError ∧ ifftn3d n x = .error .valueError := by
  unfold fftn3d ifftn3d
  rw [if_pos h, if_pos h]
  exact ⟨rfl, rfl⟩

/-- C43: the announced shape is right; the announced data type is that of the result exactly for
complex input. -/
theorem fftAbstract_dtype (shape : List ℕ) (d : FDtype) :
    (fftAbstract shape d).1 = shape ∧
    ((fftAbstract shape d).2 = fftDtype d ↔ d = .c64 ∨ d = .c128) := by
  cases d <;> simp [fftAbstract, fftDtype]

/-- Batching along the last axis of a rank-4 array meets the hypotheses. -/
example (x : List ℕ → ℂ) : ∃ y, fftnBatch 3 [2, 3, 4, 5] x = .ok (y, 0) :=
  (fftn_batching 3 [2, 3, 4, 5] x (by decide) (by decide)).imp fun _ h => h.1

/-- The hypotheses of `batching_shape` hold for the third axis of a rank-4 array. -/
example : List.Forall₂ (· < ·) [3, 1, 2, 4] (moveShape 2 [2, 3, 4, 5])
    ↔ List.Forall₂ (· < ·) [1, 2, 3, 4] [2, 3, 4, 5] :=
  batching_shape 2 [2, 3, 4, 5] 3 [1, 2, 4] (by decide) rfl

/-! ### C44: partitioning -/

/-- C44: the partition rule keeps the leading entries of the operand's spec, gives one entry per axis
and never shards the last axis; argument and result have the same sharding. -/
theorem supportedSharding_spec {α : Type} (spec : List (Option α)) (rank : ℕ) (h : 0 < rank) :
    (supportedSharding spec rank).length = rank ∧
    (∀ i, i + 1 < rank → (supportedSharding spec rank)[i]?.getD none = spec[i]?.getD none) ∧
    (supportedSharding spec rank)[rank - 1]? = some none ∧
    (partitionRule spec rank).1 = (partitionRule spec rank).2 := by
  have hm : min spec.length (rank - 1) ≤ rank - 1 := Nat.min_le_right _ _
  have hl : (spec.take (min spec.length (rank - 1))).length = min spec.length (rank - 1) := by
    rw [List.length_take]; omega
  unfold supportedSharding
  refine ⟨?_, ?_, ?_, rfl⟩
  · simp only [List.length_append, hl, List.length_replicate]; omega
  · intro i hi
    simp only
    rw [List.getElem?_append, hl]
    split
    · rw [List.getElem?_take_of_lt (by assumption)]
    · rename_i hlt
      rw [List.getElem?_replicate, List.getElem?_eq_none (l := spec) (by omega)]
      split <;> rfl
  · simp only
    rw [List.getElem?_append_right (by rw [hl]; omega), hl, List.getElem?_replicate,
      if_pos (by omega)]

/-- C44: the rule is stable: applying it to its own result changes nothing. -/
theorem supportedSharding_idem {α : Type} (spec : List (Option α)) (rank : ℕ) (h : 0 < rank) :
    supportedSharding (supportedSharding spec rank) rank = supportedSharding spec rank := by
  obtain ⟨hl, hk, hlast, _⟩ := supportedSharding_spec spec rank h
  obtain ⟨hl', hk', hlast', _⟩ := supportedSharding_spec (supportedSharding spec rank) rank h
  apply List.ext_getElem?
  intro i
  by_cases hi : i + 1 < rank
  · have e := hk' i hi
    rw [List.getElem?_eq_getElem (by omega), List.getElem?_eq_getElem (by omega)] at e ⊢
    simpa using e
  · by_cases hi' : i = rank - 1
    · rw [hi', hlast, hlast']
    · rw [List.getElem?_eq_none (by omega), List.getElem?_eq_none (by omega)]

/-- C44: on an array with at least three axes, the three transformed axes are all unsharded exactly if
the operand's spec already leaves the axes `-3` and `-2` unsharded. -/
theorem supportedSharding_complete_iff {α : Type} (spec : List (Option α)) (rank : ℕ) (h : 3 ≤ rank) :
    (∀ i, rank - 3 ≤ i → i < rank → (supportedSharding spec rank)[i]? = some none) ↔
      spec[rank - 3]?.getD none = none ∧ spec[rank - 2]?.getD none = none := by
  obtain ⟨hl, hk, hlast, _⟩ := supportedSharding_spec spec rank (by omega)
  have key : ∀ i, i + 1 < rank →
      ((supportedSharding spec rank)[i]? = some none ↔ spec[i]?.getD none = none) := by
    intro i hi
    rw [← hk i hi, List.getElem?_eq_getElem (by omega)]
    simp
  constructor
  · intro hc
    exact ⟨(key _ (by omega)).1 (hc _ le_rfl (by omega)), (key _ (by omega)).1 (hc _ (by omega) (by omega))⟩
  · rintro ⟨h1, h2⟩ i hi hi'
    rcases (by omega : i = rank - 3 ∨ i = rank - 2 ∨ i = rank - 1) with rfl | rfl | rfl
    · exact (key _ (by omega)).2 h1
    · exact (key _ (by omega)).2 h2
    · exact hlast

private theorem onLast_append (tr : Transform3) (q pre : List ℕ) (a b c i j k : ℕ) (x : List ℕ → ℂ) :
    onLast tr (q ++ [a, b, c]) x (pre ++ [i, j, k])
      = coreTransform tr a b c (fun i j k => x (pre ++ [i, j, k])) i j k := by
  unfold onLast
  have h1 : (q ++ [a, b, c]).drop ((q ++ [a, b, c]).length - 3) = [a, b, c] := by simp
  have h2 : (pre ++ [i, j, k]).drop ((pre ++ [i, j, k]).length - 3) = [i, j, k] := by simp
  have h3 : (pre ++ [i, j, k]).take ((pre ++ [i, j, k]).length - 3) = pre := by simp
  rw [h1, h2, h3]

private theorem coreTransform_congr (tr : Transform3) (a b c i j k : ℕ) (f g : ℕ → ℕ → ℕ → ℂ)
    (h : ∀ i j k, i < a → j < b → k < c → f i j k = g i j k) :
    coreTransform tr a b c f i j k = coreTransform tr a b c g i j k := by
  unfold coreTransform
  split
  · congr 1
    funext t
    exact h _ _ _ (t 0).2 (t 1).2 (t 2).2
  · rfl

private theorem globalIdx_self (m idx tl tl' tl'' : List ℕ) (h : idx.length = m.length) :
    globalIdx (m ++ tl) (List.zipWith (· / ·) idx m ++ tl') (List.zipWith (· % ·) idx m ++ tl'')
      = idx ++ globalIdx tl tl' tl'' := by
  induction m generalizing idx with
  | nil => have : idx = [] := List.length_eq_zero_iff.mp h
           subst this; rfl
  | cons d m ih =>
    cases idx with
    | nil => simp at h
    | cons i idx =>
      simp only [List.zipWith_cons_cons, List.cons_append, globalIdx]
      rw [ih idx (by simpa using h), Nat.mul_comm, Nat.div_add_mod]

/-- C44 (partial): whenever the three transformed axes are not divided, the local transforms of the
shards, put together, are the transform of the whole array, for every number of leading axes and every
division of them.  This holds for both transforms (and any other transform of three-dimensional blocks).
Missing: `supportedSharding` also lets divided axes `-3` and `-2` through, see `shardedFft_wrong`. -/
theorem shardedFft_partial (tr : Transform3) (p q : List ℕ) (hpq : p.length = q.length) (a b c : ℕ)
    (x : List ℕ → ℂ) (pre : List ℕ) (hpre : pre.length = q.length) (i j k : ℕ)
    (hi : i < a) (hj : j < b) (hk : k < c) :
    runSharded (p ++ [1, 1, 1]) (q ++ [a, b, c]) (onLast tr) x (pre ++ [i, j, k])
      = onLast tr (q ++ [a, b, c]) x (pre ++ [i, j, k]) := by
  unfold runSharded localShape
  have hm : List.zipWith (· / ·) (q ++ [a, b, c]) (p ++ [1, 1, 1])
      = List.zipWith (· / ·) q p ++ [a, b, c] := by
    rw [List.zipWith_append (by omega)]; simp
  have hml : (List.zipWith (· / ·) q p).length = q.length := by
    rw [List.length_zipWith]; omega
  have hb : List.zipWith (· / ·) (pre ++ [i, j, k]) (List.zipWith (· / ·) q p ++ [a, b, c])
      = List.zipWith (· / ·) pre (List.zipWith (· / ·) q p) ++ [0, 0, 0] := by
    rw [List.zipWith_append (by omega)]
    simp [Nat.div_eq_of_lt hi, Nat.div_eq_of_lt hj, Nat.div_eq_of_lt hk]
  have hlo : List.zipWith (· % ·) (pre ++ [i, j, k]) (List.zipWith (· / ·) q p ++ [a, b, c])
      = List.zipWith (· % ·) pre (List.zipWith (· / ·) q p) ++ [i, j, k] := by
    rw [List.zipWith_append (by omega)]
    simp [Nat.mod_eq_of_lt hi, Nat.mod_eq_of_lt hj, Nat.mod_eq_of_lt hk]
  simp only [hm, hb, hlo]
  rw [onLast_append, onLast_append]
  apply coreTransform_congr
  intro i' j' k' _ _ _
  rw [globalIdx_self _ _ _ _ _ (by omega)]
  simp [globalIdx]

private theorem last3 {β : Type*} (l : List β) (r : ℕ) (hl : l.length = r) (h : 3 ≤ r) (u v w : β)
    (h1 : l[r - 3]? = some u) (h2 : l[r - 2]? = some v) (h3 : l[r - 1]? = some w) :
    l = l.take (r - 3) ++ [u, v, w] := by
  apply List.ext_getElem?
  intro i
  by_cases hi : i < r - 3
  · rw [List.getElem?_append_left (by rw [List.length_take]; omega), List.getElem?_take_of_lt hi]
  · have e : (l.take (r - 3)).length = r - 3 := by rw [List.length_take]; omega
    rw [List.getElem?_append_right (by omega), e]
    by_cases hir : i < r
    · rcases (by omega : i = r - 3 ∨ i = r - 2 ∨ i = r - 1) with rfl | rfl | rfl
      · rw [h1]; simp
      · rw [h2, show r - 2 - (r - 3) = 1 by omega]; rfl
      · rw [h3, show r - 1 - (r - 3) = 2 by omega]; rfl
    · rw [List.getElem?_eq_none (by omega), List.getElem?_eq_none (by simp; omega)]

/-- C44 (partial): the statement in terms of the partition rule itself: with a spec that leaves the axes
`-3` and `-2` unsharded the partitioned transform equals the whole transform at every index, on every
mesh. -/
theorem partitionRule_correct_partial {α : Type} (tr : Transform3) (mesh : α → ℕ)
    (spec : List (Option α)) (lead : List ℕ) (a b c : ℕ)
    (h1 : spec[lead.length]?.getD none = none) (h2 : spec[lead.length + 1]?.getD none = none)
    (x : List ℕ → ℂ) (pre : List ℕ) (hpre : pre.length = lead.length) (i j k : ℕ)
    (hi : i < a) (hj : j < b) (hk : k < c) :
    runSharded (partsOf mesh (partitionRule spec (lead ++ [a, b, c]).length).1) (lead ++ [a, b, c])
        (onLast tr) x (pre ++ [i, j, k])
      = onLast tr (lead ++ [a, b, c]) x (pre ++ [i, j, k]) := by
  have hr : (lead ++ [a, b, c]).length = lead.length + 3 := by simp
  rw [hr]
  have hc := (supportedSharding_complete_iff spec (lead.length + 3) (by omega)).2
    ⟨by rw [show lead.length + 3 - 3 = lead.length by omega]; exact h1,
     by rw [show lead.length + 3 - 2 = lead.length + 1 by omega]; exact h2⟩
  have hl := (supportedSharding_spec spec (lead.length + 3) (by omega)).1
  have e := last3 _ _ hl (by omega) none none none (hc _ le_rfl (by omega))
    (hc _ (by omega) (by omega)) (hc _ (by omega) (by omega))
  show runSharded (partsOf mesh (supportedSharding spec (lead.length + 3))) _ _ _ _ = _
  rw [e]
  unfold partsOf
  rw [List.map_append]
  exact shardedFft_partial tr _ lead (by rw [List.length_map, List.length_take, hl]; omega) a b c x pre
    hpre i j k hi hj hk

/-- C44: the sharding used by the ground-state drivers, `P('s', 'k')` on a rank-6 array
`spin kpt band x y z`, is handled correctly for every mesh and every array. -/
theorem driverSharding_correct (mesh : String → ℕ) (ns nk nb a b c : ℕ) (x : List ℕ → ℂ)
    (s k bd i j l : ℕ) (hi : i < a) (hj : j < b) (hl : l < c) :
    runSharded (partsOf mesh (partitionRule [some "s", some "k"] 6).1) [ns, nk, nb, a, b, c]
        (onLast fun _ => fftn) x [s, k, bd, i, j, l]
      = onLast (fun _ => fftn) [ns, nk, nb, a, b, c] x [s, k, bd, i, j, l] :=
  partitionRule_correct_partial (fun _ => fftn) mesh [some "s", some "k"] [ns, nk, nb] a b c rfl rfl x
    [s, k, bd] rfl i j l hi hj hl

/-- The array of ones of shape `2 × 1 × 1`: transformed in two halves its first entry is 1, transformed as a
whole it is 2. -/
theorem halves_transform :
    runSharded [2, 1, 1] [2, 1, 1] (onLast fun _ => fftn) (fun _ => 1) [0, 0, 0] = 1 ∧
    onLast (fun _ => fftn) [2, 1, 1] (fun _ => 1) [0, 0, 0] = 2 := by
  have hone : ∀ a b c (ha : 0 < a) (hb : 0 < b) (hc : 0 < c),
      coreTransform (fun _ => fftn) a b c (fun _ _ _ => (1 : ℂ)) 0 0 0 = a * b * c := by
    intro a b c ha hb hc
    unfold coreTransform
    rw [dif_pos ⟨ha, hb, hc⟩]
    beta_reduce
    rw [fftn_eq]
    have h0 : ∀ j : Idx (vec3 a b c), conj (omega (vec3Idx ⟨ha, hb, hc⟩) j) = 1 := by
      intro j
      have : vec3Idx (a := a) (b := b) (c := c) ⟨ha, hb, hc⟩ = fun i => ⟨0, by fin_cases i <;> assumption⟩ := by
        funext i; fin_cases i <;> rfl
      rw [this]
      simp [omega]
    simp only [h0, mul_one, Finset.sum_const, Finset.card_univ, nsmul_eq_mul]
    rw [Fintype.card_pi, Fin.prod_univ_three]
    simp only [Nat.cast_mul]
    show ((Fintype.card (Fin a) : ℕ) : ℂ) * (Fintype.card (Fin b) : ℕ) * (Fintype.card (Fin c) : ℕ) = _
    rw [Fintype.card_fin, Fintype.card_fin, Fintype.card_fin]
  have hr : onLast (fun _ => fftn) [2, 1, 1] (fun _ => 1) [0, 0, 0] = 2 := by
    refine (onLast_append _ [] [] 2 1 1 0 0 0 _).trans ?_
    rw [hone 2 1 1 (by decide) (by decide) (by decide)]
    norm_num
  have hl : runSharded [2, 1, 1] [2, 1, 1]
      (onLast fun _ => fftn) (fun _ => 1) [0, 0, 0] = 1 := by
    show onLast (fun _ => fftn) ([] ++ [1, 1, 1]) (fun _ => 1) ([] ++ [0, 0, 0]) = 1
    rw [onLast_append, hone 1 1 1 (by decide) (by decide) (by decide)]
    norm_num
  exact ⟨hl, hr⟩

/-- C44, refuted: the rule accepts a sharding of the first transformed axis of a `2 × 1 × 1` array over
two devices; each device transforms its own half and the result is not the transform of the array. -/
theorem shardedFft_wrong :
    ∃ (spec : List (Option String)) (mesh : String → ℕ) (n : List ℕ) (x : List ℕ → ℂ) (idx : List ℕ),
      n.length = 3 ∧ (supportedSharding spec n.length) = spec ∧
      (∀ t ∈ List.zip n (partsOf mesh spec), t.2 ∣ t.1) ∧
      (∀ t ∈ List.zip idx n, t.1 < t.2) ∧
      runSharded (partsOf mesh (partitionRule spec n.length).1) n (onLast fun _ => fftn) x idx
        ≠ onLast (fun _ => fftn) n x idx := by
  refine ⟨[some "d", none, none], fun _ => 2, [2, 1, 1], fun _ => 1, [0, 0, 0], rfl, rfl, ?_, ?_, ?_⟩
  · intro t ht
    have : t ∈ [(2, 2), (1, 1), (1, 1)] := ht
    simp only [List.mem_cons, List.not_mem_nil, or_false] at this
    rcases this with rfl | rfl | rfl <;> decide
  · intro t ht
    have : t ∈ [(0, 2), (0, 1), (0, 1)] := ht
    simp only [List.mem_cons, List.not_mem_nil, or_false] at this
    rcases this with rfl | rfl | rfl <;> decide
  · show runSharded [2, 1, 1] [2, 1, 1] (onLast fun _ => fftn) (fun _ => 1) [0, 0, 0] ≠ _
    rw [halves_transform.1, halves_transform.2]
    norm_num

/-! ### C59: sharded initialisation -/

private theorem shard_agree (mesh : List (String × ℕ)) (shape : List ℕ)
    (hl : mesh.length ≤ shape.length) :
    (∀ i (h : i < mesh.length), (mesh[i]).2 ∣ shape[i]) →
    ∃ r, uniformShardShape shape (mesh.map Prod.snd) = .ok r ∧
      shardShape shape (mesh.map Prod.snd) = .ok r := by
  induction mesh generalizing shape with
  | nil => intro _; exact ⟨shape, by cases shape <;> rfl, by cases shape <;> rfl⟩
  | cons a mesh ih =>
    intro hd
    cases shape with
    | nil => simp at hl
    | cons d ds =>
      obtain ⟨r, h1, h2⟩ := ih ds (by simpa using hl) (fun i h => by
        have := hd (i + 1) (by simpa using h)
        simpa using this)
      have h0 : a.2 ∣ d := by have := hd 0 (by simp); simpa using this
      refine ⟨d / a.2 :: r, ?_, ?_⟩
      · simp only [List.map_cons, uniformShardShape, h1]
      · simp only [List.map_cons, shardShape, h2, if_pos h0]

private theorem shard_fail (mesh : List ℕ) (shape : List ℕ) (r : List ℕ)
    (h : shardShape shape mesh = .ok r) :
    mesh.length ≤ shape.length ∧ ∀ i (h : i < mesh.length) (h' : i < shape.length), mesh[i] ∣ shape[i] := by
  induction mesh generalizing shape r with
  | nil => exact ⟨by simp, fun i h => by simp at h⟩
  | cons a mesh ih =>
    cases shape with
    | nil => simp [shardShape] at h
    | cons d ds =>
      unfold shardShape at h
      split at h
      · rename_i hd
        split at h
        · exact absurd h (by simp)
        · rename_i r' hr'
          obtain ⟨h1, h2⟩ := ih ds r' hr'
          refine ⟨by simpa using h1, fun i hi hi' => ?_⟩
          cases i with
          | zero => simpa using hd
          | succ i => simpa using h2 i (by simpa using hi) (by simpa using hi')
      · exact absurd h (by simp)

private theorem parts_mesh (mesh : List (String × ℕ)) (hn : (mesh.map Prod.fst).Nodup) :
    partsOf (fun a => ((mesh.find? fun p => p.1 == a).map Prod.snd).getD 1)
      (mesh.map fun p => some p.1) = mesh.map Prod.snd := by
  unfold partsOf
  rw [List.map_map]
  apply List.map_congr_left
  intro p hp
  simp only [Function.comp]
  have : mesh.find? (fun q => q.1 == p.1) = some p := by
    induction mesh with
    | nil => simp at hp
    | cons a m ih =>
      simp only [List.map_cons, List.nodup_cons] at hn
      rcases List.mem_cons.mp hp with rfl | hp
      · simp
      · have : a.1 ≠ p.1 := fun e => hn.1 (e ▸ List.mem_map_of_mem hp)
        rw [List.find?_cons_of_neg (by simpa using this)]
        exact ih hn.2 hp
  rw [this]
  rfl

/-- C59: with the mesh axes themselves as partition spec, the sharded initialisation returns an array of
the requested shape exactly if every mesh axis has an array axis whose length it divides; otherwise it
raises. -/
theorem uniformSharded_iff (shape : List ℕ) (mesh : List (String × ℕ))
    (hn : (mesh.map Prod.fst).Nodup) :
    (uniformSharded shape mesh (mesh.map fun p => some p.1) = .ok shape ↔
      ∃ hl : mesh.length ≤ shape.length, ∀ i (h : i < mesh.length), (mesh[i]).2 ∣ shape[i]) ∧
    (∀ r, uniformSharded shape mesh (mesh.map fun p => some p.1) = .ok r → r = shape) := by
  refine ⟨⟨fun h => ?_, fun ⟨hl, hd⟩ => ?_⟩, fun r h => ?_⟩
  · unfold uniformSharded at h
    rw [parts_mesh mesh hn] at h
    split at h
    · exact absurd h (by simp)
    · split at h
      · exact absurd h (by simp)
      · rename_i w hw
        obtain ⟨h1, h2⟩ := shard_fail _ _ _ hw
        refine ⟨by simpa using h1, fun i hi => ?_⟩
        have := h2 i (by simpa using hi) (by simp at h1; omega)
        simpa using this
  · obtain ⟨r, h1, h2⟩ := shard_agree mesh shape hl hd
    unfold uniformSharded
    rw [parts_mesh mesh hn, h1, h2]
    simp
  · unfold uniformSharded at h
    split at h
    · exact absurd h (by simp)
    · split at h
      · exact absurd h (by simp)
      · split at h
        · exact (Except.ok.inj h).symm
        · exact absurd h (by simp)

/-- C59: the parameters of the parallel ground-state calculation (`spin kpt gpt band` on the mesh
`s = 1, k = devices`) can be made exactly if the number of devices divides the number of k points. -/
theorem driverInit_iff (ns nk g nb devices : ℕ) :
    uniformSharded [ns, nk, g, nb] [("s", 1), ("k", devices)] [some "s", some "k"] = .ok [ns, nk, g, nb]
      ↔ devices ∣ nk := by
  have h := (uniformSharded_iff [ns, nk, g, nb] [("s", 1), ("k", devices)] (by simp)).1
  refine h.trans ⟨fun ⟨_, hd⟩ => hd 1 (by simp), fun hd => ⟨by simp, fun i hi => ?_⟩⟩
  rcases (by simp at hi; omega : i = 0 ∨ i = 1) with rfl | rfl
  · exact one_dvd _
  · exact hd

/-- C59, refuted in general: two devices and one k point (the default mesh) cannot be initialised. -/
theorem driverInit_fails : uniformSharded [1, 1, 5, 4] [("s", 1), ("k", 2)] [some "s", some "k"]
    ≠ .ok [1, 1, 5, 4] := fun h => absurd ((driverInit_iff 1 1 5 4 2).1 h) (by decide)

/-- C59, refuted: a valid sharding whose spec does not list the mesh axes in order is rejected, although
every length is divisible. -/
theorem uniformSharded_order :
    shardShape [4, 4] (partsOf (fun _ => 2) [none, some "s"]) = .ok [4, 2] ∧
    uniformSharded [4, 4] [("s", 2)] [none, some "s"] = .error .valueError :=
  ⟨by decide +kernel, by decide +kernel⟩

/-- Four devices, eight k points: the hypotheses of `driverInit_iff` can be met. -/
example : uniformSharded [2, 8, 5, 4] [("s", 1), ("k", 4)] [some "s", some "k"] = .ok [2, 8, 5, 4] :=
  (driverInit_iff 2 8 5 4 4).2 (by decide)

end Jrystal
