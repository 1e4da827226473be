import Verif.Model.Utils
import Mathlib.Tactic.Linarith
import Mathlib.Tactic.NormNum

/- C42, C45, C54: utilities. -/
namespace Jrystal

/-! ### C45 -/

/-- C45: real input is returned unchanged, whatever its values. -/
theorem safeReal_real (xs : List (Ext ℝ)) (tol : ℝ) : safeReal (.real xs) tol = .ok (.real xs) := rfl

/-- C45: for complex input the real parts are returned exactly when every imaginary part is a finite
number of modulus at most `tol`; otherwise `ValueError` is raised. -/
theorem safeReal_complex (zs : List CExt) (tol : ℝ) :
    ((∀ z ∈ zs, ∃ y : ℝ, z.2 = .fin y ∧ |y| ≤ tol) →
      safeReal (.complex zs) tol = .ok (.real (zs.map Prod.fst))) ∧
    ((∃ z ∈ zs, ∀ y : ℝ, z.2 = .fin y → tol < |y|) →
      safeReal (.complex zs) tol = .error .valueError) := by
  have hiff : ∀ z : CExt, isCloseZero z.2 tol = true ↔ ∃ y : ℝ, z.2 = .fin y ∧ |y| ≤ tol := by
    intro z
    cases h : z.2 <;> simp [isCloseZero]
  unfold safeReal
  simp only [List.all_map]
  constructor
  · intro h
    rw [if_pos]
    rw [List.all_eq_true]
    intro z hz
    exact (hiff z).2 (h z hz)
  · rintro ⟨z, hz, h⟩
    rw [if_neg]
    intro hall
    rw [List.all_eq_true] at hall
    obtain ⟨y, hy, hle⟩ := (hiff z).1 (hall z hz)
    exact absurd (h y hy) (not_lt.2 hle)

/-- C45: a nan or infinite imaginary part always raises. -/
theorem safeReal_nonfinite (zs : List CExt) (tol : ℝ) (z : CExt) (hz : z ∈ zs)
    (h : z.2 = .nan ∨ z.2 = .posInf ∨ z.2 = .negInf) :
    safeReal (.complex zs) tol = .error .valueError :=
  (safeReal_complex zs tol).2 ⟨z, hz, fun y hy => by rcases h with h | h | h <;> rw [h] at hy <;> cases hy⟩

/-- Witness: `1 + 1e-10 i` passes with the default tolerance, `1 + i` does not. -/
example : safeReal (.complex [(.fin 1, .fin (1 / 10 ^ 10))]) (1 / 10 ^ 8) = .ok (.real [.fin 1]) ∧
    safeReal (.complex [(.fin 1, .fin 1)]) (1 / 10 ^ 8) = .error .valueError := by
  constructor
  · refine (safeReal_complex _ _).1 ?_
    intro z hz
    rw [List.mem_singleton.1 hz]
    exact ⟨_, rfl, by rw [abs_of_pos] <;> norm_num⟩
  · refine (safeReal_complex _ _).2 ⟨_, List.mem_singleton.2 rfl, ?_⟩
    intro y hy
    have : (1 : ℝ) = y := by injection hy
    rw [← this]; norm_num

/-! ### C54 -/

private theorem vmapLoop_apply {α β : Type*} (n : ℕ) : ∀ (f : NdArr α → NdArr β) (x : NdArr α)
    (pre rest : List ℕ), pre.length = n →
    vmapLoop n f x (pre ++ rest) = f (fun j => x (pre ++ j)) rest := by
  induction n with
  | zero =>
    intro f x pre rest h
    have : pre = [] := List.length_eq_zero_iff.1 h
    subst this; rfl
  | succ n ih =>
    intro f x pre rest h
    have hne : pre ≠ [] := by intro hh; rw [hh] at h; cases h
    obtain ⟨q, b, rfl⟩ : ∃ q b, pre = q ++ [b] :=
      ⟨pre.dropLast, pre.getLast hne, (List.dropLast_append_getLast hne).symm⟩
    have hq : q.length = n := by simpa using h
    rw [List.append_assoc]
    show vmapLoop n (vmap1 0 0 f) x (q ++ ([b] ++ rest)) = _
    rw [ih _ _ _ _ hq]
    show f (fun j => x (q ++ List.insertIdx j 0 b)) rest = _
    simp

/-- C54: `vmapstack(n)(f)` maps over exactly the `n` leading axes: entry `pre ++ rest` of the result
is entry `rest` of `f` applied to the slice of the input at batch index `pre`. -/
theorem vmapstack_apply {α β : Type*} (n : ℕ) (f : NdArr α → NdArr β) :
    ∃ g, vmapstack n none f = .ok g ∧ ∀ (x : NdArr α) (pre rest : List ℕ), pre.length = n →
      g x (pre ++ rest) = f (fun j => x (pre ++ j)) rest :=
  ⟨_, rfl, fun x pre rest h => vmapLoop_apply n f x pre rest h⟩

/-- C54 (part): a non-empty `args` of the wrong length raises `ValueError`.  Missing: the empty list,
which is accepted for every `times` (`vmapstack_empty_args`). -/
theorem vmapstack_args_length_partial {α β : Type*} (n : ℕ) (as : List (ℕ × ℕ)) (hne : as ≠ [])
    (f : NdArr α → NdArr β) :
    (as.length ≠ n → vmapstack n (some as) f = .error .valueError) ∧
    (as.length = n → ∃ g, vmapstack n (some as) f = .ok g) := by
  cases as with
  | nil => exact absurd rfl hne
  | cons a as =>
    constructor
    · intro h; unfold vmapstack; simp only [if_pos h]
    · intro h; unfold vmapstack; simp only [h, ne_eq, not_true, if_false]; exact ⟨_, rfl⟩

/-- C54 is false for `args=[]`: it has not exactly `n` entries for `n ≠ 0`, yet nothing is raised. -/
theorem vmapstack_empty_args {α β : Type*} (n : ℕ) (f : NdArr α → NdArr β) :
    vmapstack n (some []) f = vmapstack n none f := rfl

/-- C54: with all axes zero, `args` makes no difference. -/
theorem vmapstack_args_zero {α β : Type*} (n : ℕ) (hn : 0 < n) (f : NdArr α → NdArr β) :
    vmapstack n (some (List.replicate n (0, 0))) f = vmapstack n none f := by
  obtain ⟨m, rfl⟩ : ∃ m, n = m + 1 := ⟨n - 1, by omega⟩
  have h : ∀ (k : ℕ) (f : NdArr α → NdArr β),
      vmapLoopArgs (List.replicate k (0, 0)) f = vmapLoop k f := by
    intro k
    induction k with
    | zero => intro f; rfl
    | succ k ih => intro f; rw [List.replicate_succ]; exact ih _
  unfold vmapstack
  rw [List.replicate_succ]
  simp only [List.length_cons, List.length_replicate, ne_eq, not_true, if_false]
  rw [← List.replicate_succ, h]

/-- C54: with `args`, the first entry describes the innermost map: for two entries the mapped axes
are taken and put back as requested. -/
theorem vmapstack_two {α β : Type*} (a o a' o' : ℕ) (f : NdArr α → NdArr β) (x : NdArr α)
    (idx : List ℕ) :
    ∃ g, vmapstack 2 (some [(a, o), (a', o')]) f = .ok g ∧
      g x idx = f (fun j => x ((j.insertIdx a ((idx.eraseIdx o').getD o 0)).insertIdx a' (idx.getD o' 0)))
        ((idx.eraseIdx o').eraseIdx o) := ⟨_, rfl, rfl⟩

/-- Witness: summing the last axis of a `[2,3,4]` array over 2 batch axes. -/
example : ∃ g, vmapstack 2 none (fun (x : NdArr ℕ) _ => x [0] + x [1]) = .ok g ∧
    g (fun i => 100 * i.getD 0 0 + 10 * i.getD 1 0 + i.getD 2 0) [1, 2] = 241 := ⟨_, rfl, rfl⟩

/-! ### C42 -/

private theorem tryMap_ok {α β : Type*} (f : α → Except PyErr β) (l : List α) (bs : List β) :
    tryMap f l = .ok bs ↔ List.Forall₂ (fun a b => f a = .ok b) l bs := by
  induction l generalizing bs with
  | nil => cases bs <;> simp [tryMap]
  | cons a l ih =>
    rw [List.forall₂_cons_left_iff]
    unfold tryMap
    cases hf : f a with
    | error e =>
      simp only [reduceCtorEq, false_iff]
      rintro ⟨b, u, h, -, -⟩; exact h
    | ok b =>
      cases ht : tryMap f l with
      | error e =>
        simp only [reduceCtorEq, false_iff]
        rintro ⟨b', u, -, h, -⟩
        rw [(ih u).2 h] at ht; cases ht
      | ok u =>
        simp only [Except.ok.injEq]
        constructor
        · rintro rfl; exact ⟨b, u, rfl, (ih u).1 ht, rfl⟩
        · rintro ⟨b', u', h1, h2, rfl⟩
          have e1 : b = b' := h1
          have e2 : u = u' := by
            have := (ih u').2 h2; rw [ht] at this; injection this
          rw [e1, e2]

private theorem tryMap_error_of {α β : Type*} (f : α → Except PyErr β) (l : List α) (a : α) (e : PyErr)
    (ha : a ∈ l) (h : f a = .error e) : ∃ e', tryMap f l = .error e' := by
  cases ht : tryMap f l with
  | error e' => exact ⟨e', rfl⟩
  | ok bs =>
    exfalso
    have h2 := (tryMap_ok f l bs).1 ht
    have : ∀ (l : List α) (bs : List β), List.Forall₂ (fun a b => f a = .ok b) l bs → a ∈ l → False := by
      intro l bs hf
      induction hf with
      | nil => intro h; cases h
      | cons hab _ ih =>
        intro hm
        rcases List.mem_cons.1 hm with rfl | hm
        · rw [h] at hab; cases hab
        · exact ih hm
    exact this l bs h2 ha

/-- C42: `map_over_atoms(f)(a₁, a₂, …)` with lists of equal length returns, in atom order, `f` applied
to the entries of each atom. -/
theorem mapOverAtoms_spec {α β : Type*} (f : List α → Except PyErr β) (arrays : List (List α))
    (n : ℕ) (hne : arrays ≠ []) (hlen : ∀ a ∈ arrays, a.length = n) (bs : List β) :
    mapOverAtoms f arrays = .ok bs ↔
      bs.length = n ∧ ∀ i < n, ∃ (row : List α) (b : β), bs[i]? = some b ∧ f row = .ok b ∧
        row.length = arrays.length ∧ ∀ (j : ℕ) (a : List α), arrays[j]? = some a → row[j]? = a[i]? := by
  cases arrays with
  | nil => exact absurd rfl hne
  | cons a as =>
    have ha : a.length = n := hlen a List.mem_cons_self
    have hrow : ∀ i < n, ∃ row : List α, tryMap (fun arr => listIndex arr i) (a :: as) = .ok row ∧
        row.length = (a :: as).length ∧
        ∀ (j : ℕ) (c : List α), (a :: as)[j]? = some c → row[j]? = c[i]? := by
      intro i hi
      have hex : ∀ l : List (List α), (∀ c ∈ l, c.length = n) →
          ∃ row : List α, tryMap (fun arr => listIndex arr i) l = .ok row ∧ row.length = l.length ∧
            ∀ (j : ℕ) (c : List α), l[j]? = some c → row[j]? = c[i]? := by
        intro l
        induction l with
        | nil => intro _; exact ⟨[], rfl, rfl, fun j c h => by simp at h⟩
        | cons c l ih =>
          intro hl
          obtain ⟨row, h1, h2, h3⟩ := ih fun c' hc' => hl c' (List.mem_cons_of_mem _ hc')
          have hc : c.length = n := hl c List.mem_cons_self
          have hci : c[i]? = some (c[i]'(by omega)) := List.getElem?_eq_getElem (by omega)
          refine ⟨c[i]'(by omega) :: row, ?_, by simp [h2], ?_⟩
          · have hli : listIndex c i = .ok (c[i]'(by omega)) := by unfold listIndex; rw [hci]
            unfold tryMap
            simp only [hli, h1]
          · intro j c' hj
            cases j with
            | zero =>
              have : c = c' := by simpa using hj
              rw [← this, hci]; rfl
            | succ j => simpa using h3 j c' (by simpa using hj)
      exact hex _ hlen
    show tryMap _ (List.range a.length) = .ok bs ↔ _
    rw [ha, tryMap_ok, List.forall₂_iff_get]
    simp only [List.length_range, List.get_eq_getElem, List.getElem_range]
    constructor
    · rintro ⟨hl, h⟩
      refine ⟨hl.symm, fun i hi => ?_⟩
      obtain ⟨row, r1, r2, r3⟩ := hrow i hi
      have := h i hi (by omega)
      rw [r1] at this
      exact ⟨row, bs[i], List.getElem?_eq_getElem (by omega), this, r2, r3⟩
    · rintro ⟨hl, h⟩
      refine ⟨hl.symm, fun i hi hi' => ?_⟩
      obtain ⟨row, r1, r2, r3⟩ := hrow i hi
      obtain ⟨row', b, b1, b2, b3, b4⟩ := h i hi
      have hrr : row = row' := by
        apply List.ext_getElem?
        intro j
        by_cases hj : j < (a :: as).length
        · have hs : (a :: as)[j]? = some ((a :: as)[j]) := List.getElem?_eq_getElem hj
          rw [r3 j _ hs, b4 j _ hs]
        · rw [List.getElem?_eq_none (by omega), List.getElem?_eq_none (by omega)]
      rw [r1]
      simp only
      rw [hrr, b2]
      have : bs[i]? = some bs[i] := List.getElem?_eq_getElem hi'
      rw [this] at b1
      injection b1 with b1
      rw [b1]

/-- C42: a list shorter than the first one is never silently accepted. -/
theorem mapOverAtoms_short {α β : Type*} (f : List α → Except PyErr β) (a : List α)
    (as : List (List α)) (c : List α) (hc : c ∈ as) (h : c.length < a.length) :
    ∃ e, mapOverAtoms f (a :: as) = .error e := by
  refine tryMap_error_of _ (List.range a.length) c.length PyErr.indexError (List.mem_range.2 h) ?_ |>.imp
    fun e he => he
  have hidx : ∀ l : List (List α), c ∈ l → tryMap (fun arr => listIndex arr c.length) l
      = .error .indexError := by
    intro l
    induction l with
    | nil => intro h; cases h
    | cons d l ih =>
      intro hm
      unfold tryMap
      cases hd : listIndex d c.length with
      | error e =>
        simp only
        unfold listIndex at hd
        split at hd <;> [cases hd; (injection hd with hd; rw [hd])]
      | ok x =>
        simp only
        rcases List.mem_cons.1 hm with rfl | hm
        · unfold listIndex at hd
          rw [List.getElem?_eq_none le_rfl] at hd
          cases hd
        · rw [ih hm]
  rw [hidx _ (List.mem_cons_of_mem _ hc)]

private theorem maxShape_length (shapes : List (List ℕ)) (n : ℕ) : (maxShape shapes n).length = n := by
  simp [maxShape]

private theorem foldl_max_ge (l : List ℕ) (m : ℕ) : m ≤ l.foldl max m ∧ ∀ x ∈ l, x ≤ l.foldl max m := by
  induction l generalizing m with
  | nil => simp
  | cons a l ih =>
    obtain ⟨h1, h2⟩ := ih (max m a)
    refine ⟨le_trans (le_max_left _ _) h1, fun x hx => ?_⟩
    rcases List.mem_cons.1 hx with rfl | hx
    · exact le_trans (le_max_right _ _) h1
    · exact h2 x hx

private theorem foldl_max_mem (l : List ℕ) (hne : l ≠ []) : l.foldl max 0 ∈ l := by
  have : ∀ (l : List ℕ) (m : ℕ), l.foldl max m = m ∨ l.foldl max m ∈ l := by
    intro l
    induction l with
    | nil => intro m; simp
    | cons a l ih =>
      intro m
      rw [List.foldl_cons]
      rcases ih (max m a) with h | h
      · rw [h]
        rcases le_total m a with hle | hle
        · right; rw [max_eq_right hle]; exact List.mem_cons_self
        · left; exact max_eq_left hle
      · right; exact List.mem_cons_of_mem _ h
  rcases this l 0 with h | h
  · cases l with
    | nil => exact absurd rfl hne
    | cons a l =>
      have := (foldl_max_ge (a :: l) 0).2 a List.mem_cons_self
      rw [h] at this
      rw [h]
      have ha : a = 0 := by omega
      rw [ha]; exact List.mem_cons_self
  · exact h

/-- C42: `stack_with_padding` raises `ValueError` exactly for an empty list or mixed ranks. -/
theorem stackWithPadding_error {α : Type*} [Zero α] (l : List (Shaped α)) :
    stackWithPadding l = .error .valueError ↔
      l = [] ∨ ∃ a ∈ l, ∃ b ∈ l, a.shape.length ≠ b.shape.length := by
  cases l with
  | nil => simp [stackWithPadding]
  | cons a l =>
    unfold stackWithPadding
    simp only
    by_cases h : ((a :: l).any fun b => b.shape.length != a.shape.length) = true
    · rw [if_pos h]
      simp only [true_iff]
      right
      obtain ⟨b, hb, hne⟩ := List.any_eq_true.1 h
      exact ⟨b, hb, a, List.mem_cons_self, by simpa using hne⟩
    · rw [if_neg h]
      simp only [reduceCtorEq, false_iff, not_or]
      refine ⟨by simp, ?_⟩
      rintro ⟨c, hc, d, hd, hne⟩
      have hall : ∀ b ∈ a :: l, b.shape.length = a.shape.length := by
        intro b hb
        by_contra hh
        exact h (List.any_eq_true.2 ⟨b, hb, by simpa using hh⟩)
      exact hne ((hall c hc).trans (hall d hd).symm)

/-- C42: otherwise the result has one leading axis of the list's length and the smallest common
shape; entry `i` holds the `i`-th array unchanged at the origin and zeros elsewhere. -/
theorem stackWithPadding_spec {α : Type*} [Zero α] (l : List (Shaped α)) (r : Shaped α)
    (h : stackWithPadding l = .ok r) :
    ∃ m, r.shape = l.length :: m ∧
      (∀ a ∈ l, a.shape.length = m.length ∧ ∀ ax, ax < m.length → a.shape.getD ax 0 ≤ m.getD ax 0) ∧
      (∀ ax, ax < m.length → ∃ a ∈ l, a.shape.getD ax 0 = m.getD ax 0) ∧
      (∀ i (a : Shaped α), l[i]? = some a → ∀ idx, InShape a.shape idx → r.get (i :: idx) = a.get idx) ∧
      (∀ i (a : Shaped α), l[i]? = some a → ∀ idx, ¬ InShape a.shape idx → r.get (i :: idx) = 0) := by
  cases l with
  | nil => simp [stackWithPadding] at h
  | cons a l =>
    unfold stackWithPadding at h
    simp only at h
    by_cases hany : ((a :: l).any fun b => b.shape.length != a.shape.length) = true
    · rw [if_pos hany] at h; cases h
    rw [if_neg hany] at h
    injection h with h
    have hall : ∀ b ∈ a :: l, b.shape.length = a.shape.length := by
      intro b hb
      by_contra hh
      exact hany (List.any_eq_true.2 ⟨b, hb, by simpa using hh⟩)
    refine ⟨maxShape ((a :: l).map (·.shape)) a.shape.length, ?_, ?_, ?_, ?_, ?_⟩
    · rw [← h]
    · intro b hb
      rw [maxShape_length]
      refine ⟨hall b hb, fun ax hax => ?_⟩
      unfold maxShape
      rw [List.getD_eq_getElem?_getD, List.getD_eq_getElem?_getD, List.getElem?_map,
        List.getElem?_range hax]
      simp only [Option.map_some, Option.getD_some]
      refine (foldl_max_ge _ 0).2 _ ?_
      rw [List.map_map]
      exact List.mem_map.2 ⟨b, hb, by simp [List.getD_eq_getElem?_getD]⟩
    · intro ax hax
      rw [maxShape_length] at hax
      have := foldl_max_mem (((a :: l).map (·.shape)).map fun s => s.getD ax 0) (by simp)
      rw [List.map_map, List.mem_map] at this
      obtain ⟨b, hb, he⟩ := this
      refine ⟨b, hb, ?_⟩
      unfold maxShape
      rw [List.getD_eq_getElem?_getD (l := List.map _ _), List.getElem?_map, List.getElem?_range hax]
      simp only [Option.map_some, Option.getD_some]
      rw [List.map_map]
      exact he
    · intro i b hb idx hidx
      rw [← h]
      simp only [List.getElem?_map, hb, Option.map_some]
      show (if InShape b.shape idx then b.get idx else 0) = _
      rw [if_pos hidx]
    · intro i b hb idx hidx
      rw [← h]
      simp only [List.getElem?_map, hb, Option.map_some]
      show (if InShape b.shape idx then b.get idx else 0) = _
      rw [if_neg hidx]

private theorem pool_slots {α β : Type*} (f : α → Except PyErr β) (tasks : List α) (sched : List ℕ) :
    ∀ (p : Pool β) (j : ℕ), sched.foldl (Pool.complete f tasks) p j
      = if j ∈ sched then tasks[j]?.map f else p j := by
  induction sched with
  | nil => intro p j; simp
  | cons i is ih =>
    intro p j
    rw [List.foldl_cons, ih]
    by_cases h1 : j ∈ is
    · rw [if_pos h1, if_pos (List.mem_cons_of_mem _ h1)]
    · rw [if_neg h1]
      unfold Pool.complete
      by_cases h2 : j = i
      · rw [if_pos h2, if_pos (by rw [h2]; exact List.mem_cons_self), h2]
      · rw [if_neg h2, if_neg (by simp [h1, h2])]

private theorem pool_go {α β : Type*} (f : α → Except PyErr β) (tasks : List α) (p : Pool β)
    (h : ∀ i < tasks.length, p i = tasks[i]?.map f) : ∀ l : List ℕ, (∀ i ∈ l, i < tasks.length) →
    readSlots p l = some (tryMap (fun i => match tasks[i]? with
      | some t => f t
      | none => .error .indexError) l) := by
  intro l
  induction l with
  | nil => intro _; rfl
  | cons i is ih =>
    intro hl
    have hi := hl i List.mem_cons_self
    have hs : tasks[i]? = some tasks[i] := List.getElem?_eq_getElem hi
    unfold readSlots tryMap
    rw [h i hi, hs]
    simp only [Option.map_some]
    cases hf : f tasks[i] with
    | error e => rfl
    | ok b =>
      simp only
      rw [ih fun j hj => hl j (List.mem_cons_of_mem _ hj)]
      simp only [Option.map_some]
      cases tryMap (fun i => match tasks[i]? with
        | some t => f t
        | none => .error .indexError) is <;> rfl

private theorem tryMap_range {α β : Type*} (f : α → Except PyErr β) (tasks : List α) :
    tryMap (fun i => match tasks[i]? with
      | some t => f t
      | none => .error .indexError) (List.range tasks.length) = tryMap f tasks := by
  have hmap : ∀ (g : ℕ → Except PyErr β) (h : ℕ → ℕ) (l : List ℕ),
      tryMap g (l.map h) = tryMap (fun i => g (h i)) l := by
    intro g h l
    induction l with
    | nil => rfl
    | cons a l ih => rw [List.map_cons]; unfold tryMap; rw [ih]
  induction tasks with
  | nil => rfl
  | cons t ts ih =>
    rw [List.length_cons, List.range_succ_eq_map]
    unfold tryMap
    rw [hmap]
    simp only [List.getElem?_cons_zero, List.getElem?_cons_succ, Nat.succ_eq_add_one]
    rw [ih]

private theorem betaSbtGrid_eq {R B L G β : Type*} (single : R → B → L → G → Except PyErr β) (g : G) :
    ∀ (rs : List R) (bs : List B) (ls : List L), betaSbtGrid single rs bs ls g
      = tryMap (fun t : R × B × L × G => single t.1 t.2.1 t.2.2.1 t.2.2.2) (preCalcTasks rs bs ls g)
  | [], _, _ => by simp [betaSbtGrid, preCalcTasks, tryMap]
  | _ :: _, [], _ => by simp [betaSbtGrid, preCalcTasks, tryMap]
  | _ :: _, _ :: _, [] => by simp [betaSbtGrid, preCalcTasks, tryMap]
  | r :: rs, b :: bs, l :: ls => by
    have ih := betaSbtGrid_eq single g rs bs ls
    show _ = tryMap _ ((r, b, l, g) :: preCalcTasks rs bs ls g)
    unfold betaSbtGrid tryMap
    rw [ih]

/-- C42: for every schedule of the worker processes (any order of completions, as long as every task
completes) the parallel pre-computation returns what the sequential `beta_sbt_grid` returns: same
values in the same atom order, or the exception of the first failing atom. -/
theorem preCalcBeta_schedule {R B L G β : Type*} (single : R → B → L → G → Except PyErr β) (cpus : ℕ)
    (hc : 2 ≤ cpus) (rs : List R) (bs : List B) (ls : List L) (g : G) (sched : List ℕ)
    (h : ∀ i < rs.length, i ∈ sched) :
    preCalcBeta single cpus rs bs ls g sched = some (betaSbtGrid single rs bs ls g) := by
  unfold preCalcBeta
  rw [if_neg (by omega), betaSbtGrid_eq]
  have hlen : (preCalcTasks rs bs ls g).length ≤ rs.length := by
    simp [preCalcTasks]
  unfold poolResult
  rw [pool_go (fun t : R × B × L × G => single t.1 t.2.1 t.2.2.1 t.2.2.2) (preCalcTasks rs bs ls g) _
    (fun i hi => by rw [pool_slots, if_pos (h i (by omega))]) _
    (fun i hi => List.mem_range.1 hi), tryMap_range]

/-- C42: the values of the sequential `beta_sbt_grid`, atom by atom. -/
theorem betaSbtGrid_spec {R B L G β : Type*} (single : R → B → L → G → Except PyErr β) (rs : List R)
    (bs : List B) (ls : List L) (g : G) (n : ℕ) (hr : rs.length = n) (hb : bs.length = n)
    (hl : ls.length = n) (out : List β) :
    betaSbtGrid single rs bs ls g = .ok out ↔ out.length = n ∧
      ∀ i < n, ∃ r b l x, rs[i]? = some r ∧ bs[i]? = some b ∧ ls[i]? = some l ∧ out[i]? = some x ∧
        single r b l g = .ok x := by
  have hlen : (preCalcTasks rs bs ls g).length = n := by simp [preCalcTasks, hr, hb, hl]
  rw [betaSbtGrid_eq, tryMap_ok, List.forall₂_iff_get]
  simp only [List.get_eq_getElem]
  constructor
  · rintro ⟨h1, h2⟩
    refine ⟨by omega, fun i hi => ?_⟩
    have := h2 i (by omega) (by omega)
    simp only [preCalcTasks, List.getElem_map, List.getElem_zip] at this
    exact ⟨rs[i], bs[i], ls[i], out[i], List.getElem?_eq_getElem _, List.getElem?_eq_getElem _,
      List.getElem?_eq_getElem _, List.getElem?_eq_getElem _, this⟩
  · rintro ⟨h1, h2⟩
    refine ⟨by omega, fun i hi hi' => ?_⟩
    obtain ⟨r, b, l, x, e1, e2, e3, e4, e5⟩ := h2 i (by omega)
    obtain ⟨_, rfl⟩ := List.getElem?_eq_some_iff.1 e1
    obtain ⟨_, rfl⟩ := List.getElem?_eq_some_iff.1 e2
    obtain ⟨_, rfl⟩ := List.getElem?_eq_some_iff.1 e3
    obtain ⟨_, rfl⟩ := List.getElem?_eq_some_iff.1 e4
    simpa only [preCalcTasks, List.getElem_map, List.getElem_zip] using e5

/-- On a machine with a single processor the pool cannot be created: `ValueError` for every input. -/
theorem preCalcBeta_single_cpu {R B L G β : Type*} (single : R → B → L → G → Except PyErr β)
    (rs : List R) (bs : List B) (ls : List L) (g : G) (sched : List ℕ) :
    preCalcBeta single 1 rs bs ls g sched = some (.error .valueError) := rfl

/-- Witness: three atoms, completed in the order 2, 0, 1. -/
example : preCalcBeta (fun r b l g => .ok (r + b + l + g)) 4 [1, 2, 3] [10, 20, 30] [100, 200, 300] 1000
    [2, 0, 1] = some (.ok [1111, 1222, 1333]) := rfl

/-- Witness: two atoms and two arrays. -/
example : mapOverAtoms (fun row => .ok row.sum) [[1, 2], [10, 20]] = .ok [11, 22] := rfl

/-- Witness: stacking a `[2]` and a `[3]` array. -/
example : ∃ r, stackWithPadding [(⟨[2], fun i => i.getD 0 0 + 1⟩ : Shaped ℕ),
    ⟨[3], fun i => i.getD 0 0 + 5⟩] = .ok r ∧ r.shape = [2, 3] ∧ r.get [0, 1] = 2 ∧
    r.get [0, 2] = 0 ∧ r.get [1, 2] = 7 := ⟨_, rfl, rfl, rfl, rfl, rfl⟩

end Jrystal
