import Verif.Lemmas.FftSize

/-! Property C01: FFT size rounding. -/

namespace Jrystal
open Spec

/-- C01. Every request `n ≤ 2048` succeeds and returns the least product of powers of 2, 3, 5, 7
that is at least `n`. -/
theorem fftFactor_least (n : Int) (h : n ≤ 2048) :
    ∃ m, fftFactor n = .ok m ∧ LeastAtLeast Smooth7 n m := by
  unfold fftFactor
  rw [if_neg (by omega)]
  have hmem : 2048 ∈ cufftFactors := by decide +kernel
  split
  · next hnil =>
    exfalso
    have : 2048 ∈ cufftFactors.filter (fun (f : Nat) => decide ((f : Int) - n ≥ 0)) := by
      rw [List.mem_filter]; exact ⟨hmem, by simpa using h⟩
    rw [hnil] at this
    simp at this
  · next f t hcons =>
    obtain ⟨h1, h2, h3⟩ := filter_head_least cufft_sorted n hcons
    refine ⟨f, rfl, ((cufft_mem_iff f).1 h1).1, h2, ?_⟩
    intro k hk hnk
    by_cases hk2 : k ≤ 2048
    · exact h3 k ((cufft_mem_iff k).2 ⟨hk, hk2⟩) hnk
    · have := ((cufft_mem_iff f).1 h1).2
      omega

/-- C01. An error is raised exactly when `n > 2048`, and it is a `ValueError`. -/
theorem fftFactor_error_iff (n : Int) (e : PyErr) :
    fftFactor n = .error e ↔ (n > 2048 ∧ e = .valueError) := by
  constructor
  · intro h
    by_cases hn : n > 2048
    · refine ⟨hn, ?_⟩
      unfold fftFactor at h
      rw [if_pos hn] at h
      injection h with h
      exact h.symm
    · obtain ⟨m, hm, -⟩ := fftFactor_least n (by omega)
      rw [hm] at h
      exact absurd h (by simp)
  · rintro ⟨hn, rfl⟩
    unfold fftFactor
    rw [if_pos hn]

/-- C01. A returned size is a fixed point of the rounding. -/
theorem fftFactor_idempotent (n : Int) (m : Nat) (h : fftFactor n = .ok m) :
    fftFactor (m : Int) = .ok m := by
  have hn : n ≤ 2048 := by
    by_contra hc
    rw [(fftFactor_error_iff n .valueError).2 ⟨by omega, rfl⟩] at h
    exact absurd h (by simp)
  obtain ⟨m', hm', hs, hle, hmin⟩ := fftFactor_least n hn
  have hmm : m = m' := by
    rw [hm'] at h; injection h with h; exact h.symm
  subst hmm
  have hm : m ≤ 2048 := hmin 2048 ⟨11, 0, 0, 0, by norm_num⟩ (by exact_mod_cast hn)
  obtain ⟨m2, hm2, hs2, hle2, hmin2⟩ := fftFactor_least (m : Int) (by exact_mod_cast hm)
  have h1 : m2 ≤ m := hmin2 m hs (le_refl _)
  have h2 : m ≤ m2 := by exact_mod_cast hle2
  rw [hm2, le_antisymm h1 h2]

/-- C01. The rounding is monotone. -/
theorem fftFactor_monotone (n n' : Int) (m m' : Nat) (hnn : n ≤ n')
    (h : fftFactor n = .ok m) (h' : fftFactor n' = .ok m') : m ≤ m' := by
  have aux : ∀ (k : Int) (q : Nat), fftFactor k = .ok q → LeastAtLeast Smooth7 k q := by
    intro k q hq
    by_cases hk : k ≤ 2048
    · obtain ⟨q', hq', hl⟩ := fftFactor_least k hk
      rw [hq] at hq'; injection hq' with hq'; subst hq'; exact hl
    · rw [(fftFactor_error_iff k .valueError).2 ⟨by omega, rfl⟩] at hq
      exact absurd hq (by simp)
  have a := aux n m h
  have b := aux n' m' h'
  exact a.2.2 m' b.1 (le_trans hnn b.2.1)

/-- C01, documented form, partial: the result is a size of the documented form and at least `n`.
What is missing from the documentation's claim is minimality: see `fftFactor_not_documented_least`. -/
theorem fftFactor_documented_partial (n : Int) (m : Nat) (h : fftFactor n = .ok m) :
    DocumentedSize m ∧ n ≤ m := by
  have hn : n ≤ 2048 := by
    by_contra hc
    rw [(fftFactor_error_iff n .valueError).2 ⟨by omega, rfl⟩] at h
    exact absurd h (by simp)
  obtain ⟨m', hm', ⟨a, b, c, d, hs⟩, hle, -⟩ := fftFactor_least n hn
  rw [h] at hm'; injection hm' with hm'; subst hm'
  exact ⟨⟨a, b, c, d, 0, 0, by omega, by omega, by simpa using hs⟩, hle⟩

/-- C01, disagreement with the docstring: for `n = 11` the documented least size is 11, the code
returns 12. -/
theorem fftFactor_not_documented_least :
    ¬ ∀ n : Int, n ≤ 2048 → ∃ m, fftFactor n = .ok m ∧ LeastAtLeast DocumentedSize n m := by
  intro h
  obtain ⟨m, hm, -, -, hmin⟩ := h 11 (by norm_num)
  have h12 : fftFactor 11 = .ok 12 := by decide +kernel
  rw [h12] at hm
  injection hm with hm
  have := hmin 11 ⟨0, 0, 0, 0, 1, 0, by omega, by omega, by norm_num⟩ (by norm_num)
  omega

/-- C01. `proper_grid_size` on a sequence: it succeeds exactly when every entry is at most 2048, and
then returns, entry by entry, the least admissible size. -/
theorem properGridSize_vec (l : List Int) :
    (∀ out, properGridSize (.vec l) = .ok out →
      List.Forall₂ (LeastAtLeast Smooth7) l out) ∧
    ((∀ n ∈ l, n ≤ 2048) ↔ ∃ out, properGridSize (.vec l) = .ok out) := by
  induction l with
  | nil => simp [properGridSize, pure, Except.pure]
  | cons n t ih =>
    simp only [properGridSize, List.mapM_cons] at ih ⊢
    obtain ⟨ih1, ih2⟩ := ih
    by_cases hn : n ≤ 2048
    · obtain ⟨m, hm, hl⟩ := fftFactor_least n hn
      rw [hm]
      cases ht : List.mapM fftFactor t with
      | error e =>
        simp only [bind, Except.bind]
        refine ⟨by intro out h; exact absurd h (by simp), ?_⟩
        constructor
        · intro h
          obtain ⟨o, ho⟩ := ih2.1 (fun k hk => h k (List.mem_cons_of_mem _ hk))
          rw [ht] at ho; exact absurd ho (by simp)
        · rintro ⟨o, ho⟩; exact absurd ho (by simp)
      | ok o =>
        simp only [bind, Except.bind, pure, Except.pure]
        refine ⟨?_, ?_⟩
        · intro out h
          injection h with h
          subst h
          exact List.Forall₂.cons hl (ih1 o ht)
        · constructor
          · intro _; exact ⟨_, rfl⟩
          · intro _ k hk
            rcases List.mem_cons.1 hk with rfl | hk
            · exact hn
            · exact (ih2.2 ⟨o, ht⟩) k hk
    · rw [(fftFactor_error_iff n .valueError).2 ⟨by omega, rfl⟩]
      simp only [bind, Except.bind]
      refine ⟨by intro out h; exact absurd h (by simp), ?_⟩
      constructor
      · intro h; exact absurd (h n (by simp)) hn
      · rintro ⟨o, ho⟩; exact absurd ho (by simp)

/-- C01. A scalar request is the three-fold repetition of the same request, and anything that is
neither a sequence nor a number is rejected with `TypeError`. -/
theorem properGridSize_scalar (n : Int) :
    properGridSize (.scalar n) = properGridSize (.vec [n, n, n]) ∧
    properGridSize .other = .error .typeError := ⟨rfl, rfl⟩

-- non-vacuity: concrete cases
example : fftFactor 11 = .ok 12 ∧ fftFactor 0 = .ok 1 ∧ fftFactor (-3) = .ok 1 ∧
    fftFactor 2048 = .ok 2048 ∧ fftFactor 2049 = .error .valueError := by decide +kernel
example : properGridSize (.vec [17, 64, 1000]) = .ok [18, 64, 1000] := by decide +kernel

end Jrystal
