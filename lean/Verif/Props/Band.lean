import Verif.Model.Band
import Mathlib.Data.List.GetD
import Mathlib.Tactic.Ring
import Mathlib.Tactic.Linarith

/- C39: order of the band-structure results. -/
namespace Jrystal

/-- The parameters used for the `i`-th k point of a chunk starting at `start`: the first k point is
optimised from `p0`, every further one fine-tuned from its predecessor. -/
def Spec.chunkParams {P κ : Type*} (first fine : P → κ → P) (p0 : P) (path : ℕ → κ) (start : ℕ) :
    ℕ → P
  | 0 => first p0 (path start)
  | i + 1 => fine (Spec.chunkParams first fine p0 path start i) (path (start + (i + 1)))

section
variable {P κ E : Type*}

private theorem fineTune_get [Inhabited E] (fine : P → κ → P) (eig : P → κ → E) (f : ℕ → κ) (n : ℕ) :
    ∀ (p : P) (pp : ℕ → P) (s : ℕ), pp 0 = p → (∀ i, pp (i + 1) = fine (pp i) (f (s + i))) → ∀ i < n,
      (fineTune fine eig p ((List.range n).map fun j => f (s + j))).getD i default
        = eig (pp (i + 1)) (f (s + i)) := by
  induction n with
  | zero => intro p pp s _ _ i hi; omega
  | succ n ih =>
    intro p pp s h0 h i hi
    have e : (List.range (n + 1)).map (fun j => f (s + j))
        = f s :: (List.range n).map fun j => f (s + 1 + j) := by
      rw [List.range_succ_eq_map, List.map_cons, List.map_map]
      congr 1
      refine List.map_congr_left fun j _ => ?_
      simp only [Function.comp]; congr 1; omega
    rw [e]
    cases i with
    | zero =>
      show eig (fine p (f s)) (f s) = _
      rw [h 0, h0]; rfl
    | succ i =>
      show (fineTune fine eig (fine p (f s)) _).getD i default = _
      rw [ih (fine p (f s)) (fun i => pp (i + 1)) (s + 1) (by rw [h 0, h0]; rfl)
        (fun i => by rw [h (i + 1)]; congr 2; omega) i (by omega)]
      congr 2; omega

private theorem chunk_get [Inhabited E] (first fine : P → κ → P) (eig : P → κ → E) (p0 : P)
    (path : ℕ → κ) (start n : ℕ) (i : ℕ) (hi : i < n) :
    (optimizeChunk first fine eig p0 ((List.range n).map fun j => path (start + j))).getD i default
      = eig (Spec.chunkParams first fine p0 path start i) (path (start + i)) := by
  obtain ⟨m, rfl⟩ : ∃ m, n = m + 1 := ⟨n - 1, by omega⟩
  have e : (List.range (m + 1)).map (fun j => path (start + j))
      = path start :: (List.range m).map fun j => path (start + 1 + j) := by
    rw [List.range_succ_eq_map, List.map_cons, List.map_map]
    congr 1
    refine List.map_congr_left fun j _ => ?_
    simp only [Function.comp]; congr 1; omega
  rw [e]
  cases i with
  | zero => rfl
  | succ i =>
    show (fineTune fine eig (first p0 (path start)) _).getD i default = _
    rw [fineTune_get fine eig path m (first p0 (path start))
      (Spec.chunkParams first fine p0 path start) (start + 1) rfl
      (fun i => by rw [Spec.chunkParams]; congr 2; omega) i (by omega)]
    congr 2; omega

private theorem chunk_eq (N dev : ℕ) (path : ℕ → κ) (d : ℕ) :
    chunk N dev path d = (List.range (N / dev)).map fun i => path (d * (N / dev) + i) := by
  unfold chunk
  refine List.map_congr_left fun i _ => ?_
  simp [reshapeC, cLin, cUnlin]

private theorem split {N dev q : ℕ} (hd : N % dev = 0) (hq : q < N) :
    q / (N / dev) < dev ∧ q % (N / dev) < N / dev ∧ q / (N / dev) * (N / dev) + q % (N / dev) = q ∧
      N / dev * dev = N := by
  have hN : N / dev * dev = N := Nat.div_mul_cancel (Nat.dvd_of_mod_eq_zero hd)
  have hpos : 0 < N / dev := by
    rcases Nat.eq_zero_or_pos (N / dev) with h | h
    · rw [h] at hN; omega
    · exact h
  refine ⟨?_, Nat.mod_lt _ hpos, Nat.div_add_mod' q (N / dev), hN⟩
  rw [Nat.div_lt_iff_lt_mul hpos, Nat.mul_comm]
  omega

end

/-- C39 (norm-conserving driver): for every number of devices, both parallel settings and every path
that can be split evenly, position `q` of the result holds the eigenvalues computed at the `q`-th k
point of the path, with parameters fine-tuned along that device's chunk; further rows of the
eigenvalue array (one per density channel) follow in blocks of the length of the path. -/
theorem band_normcons_order {P κ : Type*} (N devices : ℕ) (parallel : Bool) (K nb : ℕ)
    (first fine : P → κ → P) (eig : P → κ → (ℕ → ℕ → ℝ)) (p0 : P) (path : ℕ → κ)
    (hdev : N % (if parallel then devices else 1) = 0) :
    ∃ r, bandNormcons N devices parallel K nb first fine eig p0 path = .ok r ∧
      ∀ q < N, ∀ c < K, ∀ b < nb, ∃ start i, q = start + i ∧
        i < N / (if parallel then devices else 1) ∧ N / (if parallel then devices else 1) ∣ start ∧
        r (q + N * c) b = eig (Spec.chunkParams first fine p0 path start i) (path q) c b := by
  unfold bandNormcons
  generalize hu : (if parallel then devices else 1) = util at hdev ⊢
  simp only
  rw [if_neg (by omega)]
  refine ⟨_, rfl, fun q hq c hc b hb => ?_⟩
  obtain ⟨h1, h2, h3, h4⟩ := split hdev hq
  refine ⟨q / (N / util) * (N / util), q % (N / util), h3.symm, h2, Nat.dvd_mul_left _ _, ?_⟩
  have hlin : fUnlin [N / util, util, K, nb] (fLin [N * K, nb] [q + N * c, b])
      = [q % (N / util), q / (N / util), c, b] := by
    simp only [fLin, fUnlin, Nat.mul_zero, Nat.add_zero]
    rw [show q + N * c + N * K * b = q + N * (c + K * b) by ring]
    have hpos : 0 < N / util := by omega
    have hup : 0 < util := Nat.lt_of_le_of_lt (Nat.zero_le _) h1
    have hK : 0 < K := Nat.lt_of_le_of_lt (Nat.zero_le _) hc
    have e1 : ∀ b, (q + N * b) % (N / util) = q % (N / util) := fun b => by
      rw [← h4, Nat.mul_assoc, h4, Nat.add_mul_mod_self_left]
    have e2 : ∀ b, (q + N * b) / (N / util) = q / (N / util) + util * b := fun b => by
      conv_lhs => rw [show N * b = N / util * (util * b) by rw [← Nat.mul_assoc, h4]]
      rw [Nat.add_mul_div_left _ _ hpos]
    rw [e1, e2, Nat.add_mul_mod_self_left, Nat.mod_eq_of_lt h1, Nat.add_mul_div_left _ _ hup,
      Nat.div_eq_of_lt h1, Nat.zero_add, Nat.add_mul_mod_self_left, Nat.mod_eq_of_lt hc,
      Nat.add_mul_div_left _ _ hK, Nat.div_eq_of_lt hc, Nat.zero_add, Nat.mod_eq_of_lt hb]
  unfold reshapeF
  rw [hlin]
  simp only [stacked]
  rw [chunk_eq, chunk_get _ _ _ _ _ _ _ _ h2, h3]

/-- C39 (all-electron driver, part): the same with spin channels, when all devices are used
(`parallel_over_k_path=True` or a single device).  Missing: `parallel_over_k_path=False` with several
devices, where the driver raises (`band_all_electrons_serial_fails`). -/
theorem band_all_electrons_order_partial {P κ : Type*} (N devices : ℕ) (parallel : Bool) (ns nb : ℕ)
    (first fine : P → κ → P) (eig : P → κ → (ℕ → ℕ → ℝ)) (p0 : P) (path : ℕ → κ)
    (hpar : parallel = true ∨ devices = 1) (hdev : N % devices = 0) :
    ∃ r, bandAllElectrons N devices parallel ns nb N nb first fine eig p0 path = .ok r ∧
      ∀ s < ns, ∀ q < N, ∀ b < nb, ∃ start i, q = start + i ∧ i < N / devices ∧
        N / devices ∣ start ∧ r s q b = eig (Spec.chunkParams first fine p0 path start i) (path q) s b := by
  unfold bandAllElectrons
  have hu : ¬ ((if parallel then devices else 1) < devices) := by
    rcases hpar with h | h <;> simp [h]
  simp only
  rw [if_neg (by omega), if_neg hu, if_neg (not_not.2 rfl)]
  refine ⟨_, rfl, fun s hs q hq b hb => ?_⟩
  obtain ⟨h1, h2, h3, h4⟩ := split hdev hq
  refine ⟨q / (N / devices) * (N / devices), q % (N / devices), h3.symm, h2, Nat.dvd_mul_left _ _, ?_⟩
  have hlin : fUnlin [N / devices, devices, ns, 1, nb] (fLin [N, ns, nb] [q, s, b])
      = [q % (N / devices), q / (N / devices), s, 0, b] := by
    simp only [fLin, fUnlin, Nat.mul_zero, Nat.add_zero]
    have hpos : 0 < N / devices := by omega
    have hup : 0 < devices := Nat.lt_of_le_of_lt (Nat.zero_le _) h1
    have hsp : 0 < ns := by omega
    have e1 : (q + N * (s + ns * b)) % (N / devices) = q % (N / devices) := by
      rw [← h4, Nat.mul_assoc, h4, Nat.add_mul_mod_self_left]
    have e2 : (q + N * (s + ns * b)) / (N / devices) = q / (N / devices) + devices * (s + ns * b) := by
      conv_lhs => rw [show N * (s + ns * b) = N / devices * (devices * (s + ns * b)) by
        rw [← Nat.mul_assoc, h4]]
      rw [Nat.add_mul_div_left _ _ hpos]
    rw [e1, e2, Nat.add_mul_mod_self_left, Nat.mod_eq_of_lt h1, Nat.add_mul_div_left _ _ hup,
      Nat.div_eq_of_lt h1, Nat.zero_add, Nat.add_mul_mod_self_left, Nat.mod_eq_of_lt hs,
      Nat.add_mul_div_left _ _ hsp, Nat.div_eq_of_lt hs, Nat.zero_add, Nat.mod_one, Nat.div_one,
      Nat.mod_eq_of_lt hb]
  unfold reshapeF
  rw [hlin]
  simp only [stacked]
  rw [chunk_eq, chunk_get _ _ _ _ _ _ _ _ h2, h3]

/-- C39, C120: what the all-electron driver saves whenever the sizes agree, also if they do so by chance: position
`[s, q, b]` of the array holds number `L = q + num * (s + ns * b)` of all energies, counted first along the path, then over
the spins, then over the orbitals.  If the path has the number of points of the configuration, that is the energy of spin
`s` and orbital `b` at point `q`; otherwise energies of different points of the path are mixed. -/
theorem band_all_electrons_any_order {P κ : Type*} (N devices : ℕ) (parallel : Bool) (ns nb num nout : ℕ)
    (first fine : P → κ → P) (eig : P → κ → (ℕ → ℕ → ℝ)) (p0 : P) (path : ℕ → κ)
    (hpar : parallel = true ∨ devices ≤ 1) (hdev : N % devices = 0) (hfit : N * ns * nb = num * ns * nout) :
    ∃ r, bandAllElectrons N devices parallel ns nb num nout first fine eig p0 path = .ok r ∧
      ∀ s < ns, ∀ q < num, ∀ b < nout, ∀ L, L = q + num * (s + ns * b) → ∃ start i, L % N = start + i ∧
        i < N / devices ∧ N / devices ∣ start ∧ L / N / ns < nb ∧
        r s q b = eig (Spec.chunkParams first fine p0 path start i) (path (L % N)) (L / N % ns) (L / N / ns) := by
  unfold bandAllElectrons
  have hu : ¬ ((if parallel then devices else 1) < devices) := by
    rcases hpar with h | h
    · simp [h]
    · split_ifs <;> omega
  simp only
  rw [if_neg (by omega), if_neg hu, if_neg (not_not.2 hfit)]
  refine ⟨_, rfl, fun s hs q hq b hb L hL => ?_⟩
  have hLlt : L < N * ns * nb := by
    rw [hfit, hL]
    have h1 : s + ns * b + 1 ≤ ns * nout := by
      calc s + ns * b + 1 ≤ ns + ns * b := by omega
        _ = ns * (b + 1) := by ring
        _ ≤ ns * nout := Nat.mul_le_mul_left _ hb
    calc q + num * (s + ns * b) < num + num * (s + ns * b) := by omega
      _ = num * (s + ns * b + 1) := by ring
      _ ≤ num * (ns * nout) := Nat.mul_le_mul_left _ h1
      _ = num * ns * nout := by ring
  have hN0 : 0 < N := by
    rcases Nat.eq_zero_or_pos N with h | h
    · rw [h] at hLlt; simp at hLlt
    · exact h
  obtain ⟨h1, h2, h3, h4⟩ := split hdev (Nat.mod_lt L hN0)
  have hband : L / N / ns < nb := by
    rw [Nat.div_div_eq_div_mul]
    exact Nat.div_lt_of_lt_mul hLlt
  refine ⟨L % N / (N / devices) * (N / devices), L % N % (N / devices), h3.symm, h2, Nat.dvd_mul_left _ _, hband, ?_⟩
  have hlin : fUnlin [N / devices, devices, ns, 1, nb] (fLin [num, ns, nout] [q, s, b])
      = [L % N % (N / devices), L % N / (N / devices), L / N % ns, 0, L / N / ns] := by
    simp only [fLin, fUnlin, Nat.mul_zero, Nat.add_zero]
    rw [← hL]
    have e1 : L % N % (N / devices) = L % (N / devices) :=
      Nat.mod_mod_of_dvd _ (Nat.div_dvd_of_dvd (Nat.dvd_of_mod_eq_zero hdev))
    have e2 : L % N / (N / devices) = L / (N / devices) % devices := by
      conv_lhs => rw [← h4, h4]
      rw [← Nat.mod_mul_right_div_self, h4]
    have e3 : L / (N / devices) / devices = L / N := by rw [Nat.div_div_eq_div_mul, h4]
    rw [e1, e2, e3, Nat.mod_one, Nat.div_one, Nat.mod_eq_of_lt hband]
  unfold reshapeF
  rw [hlin]
  simp only [stacked]
  rw [chunk_eq, chunk_get _ _ _ _ _ _ _ _ h2, h3]

/-- C39 is false for the all-electron driver with `parallel_over_k_path=False` on a machine with
several devices: it raises instead of returning bands. -/
theorem band_all_electrons_serial_fails {P κ : Type*} (N devices ns nb num nout : ℕ) (h2 : 2 ≤ devices)
    (first fine : P → κ → P) (eig : P → κ → (ℕ → ℕ → ℝ)) (p0 : P) (path : ℕ → κ) :
    ∃ e, bandAllElectrons N devices false ns nb num nout first fine eig p0 path = .error e := by
  unfold bandAllElectrons
  simp only [Bool.false_eq_true, if_false]
  by_cases h : N % devices ≠ 0
  · exact ⟨_, if_pos h⟩
  · rw [if_neg h, if_pos (by omega)]; exact ⟨_, rfl⟩

/-- C39: a path that cannot be split evenly is rejected, never silently truncated. -/
theorem band_uneven_rejected {P κ : Type*} (N devices ns nb num nout : ℕ) (h : N % devices ≠ 0)
    (first fine : P → κ → P) (eig : P → κ → (ℕ → ℕ → ℝ)) (p0 : P)
    (path : ℕ → κ) :
    bandAllElectrons N devices true ns nb num nout first fine eig p0 path = .error .typeError ∧
    bandNormcons N devices true ns nb first fine eig p0 path = .error .typeError := by
  unfold bandAllElectrons bandNormcons
  simp [h]

/-- Witness: 6 k points on 2 devices; with trivial optimisation the result is the path itself. -/
example : ∃ r, bandNormcons 6 2 true 1 1 (fun _ k => k) (fun _ k => k) (fun p (_ : ℕ) _ _ => (p : ℝ)) 0
    (fun q => 10 * q) = .ok r ∧ r 4 0 = 40 := by
  refine ⟨_, rfl, ?_⟩
  norm_num [reshapeF, fLin, fUnlin, stacked, optimizeChunk, chunk, reshapeC, cLin, cUnlin, fineTune,
    List.range, List.range.loop]

/-! ### C70 -/

/-- C70 is false: whatever ground state is supplied and whatever the configuration, the norm-conserving
band driver raises, a `NameError` as soon as the path can be split over the devices; even a finished
ground-state calculation does not help. -/
theorem bandNC_supplied {P κ D G : Type*} (energyCalc : Except PyErr D) (gs : G) (N devices : ℕ)
    (parallel : Bool) (K nb : ℕ) (first fine : D → P → κ → P) (eig : D → P → κ → (ℕ → ℕ → ℝ)) (p0 : P)
    (path : ℕ → κ) :
    (∃ e, bandNCCalc energyCalc (some gs) N devices parallel K nb first fine eig p0 path = .error e) ∧
    (N % (if parallel then devices else 1) = 0 →
      bandNCCalc energyCalc (some gs) N devices parallel K nb first fine eig p0 path
        = .error .nameError) := by
  unfold bandNCCalc
  simp only
  refine ⟨?_, fun h => by rw [if_neg (not_not.2 h)]⟩
  split_ifs <;> exact ⟨_, rfl⟩

/-- C70 (part): without a supplied ground state the bands are those of the computed density, in the
order of the path. -/
theorem bandNC_computed_partial {P κ D G : Type*} (d : D) (N devices : ℕ)
    (parallel : Bool) (K nb : ℕ) (first fine : D → P → κ → P) (eig : D → P → κ → (ℕ → ℕ → ℝ)) (p0 : P)
    (path : ℕ → κ) (hdev : N % (if parallel then devices else 1) = 0) :
    ∃ r, bandNCCalc (.ok d) (none : Option G) N devices parallel K nb first fine eig p0 path = .ok r ∧
      ∀ q < N, ∀ c < K, ∀ b < nb, ∃ p, r (q + N * c) b = eig d p (path q) c b := by
  obtain ⟨r, h1, h2⟩ := band_normcons_order N devices parallel K nb (first d) (fine d) (eig d) p0 path
    hdev
  refine ⟨r, h1, fun q hq c hc b hb => ?_⟩
  obtain ⟨s, i, -, -, -, h⟩ := h2 q hq c hc b hb
  exact ⟨_, h⟩

/-- Hypothesis met: 6 k points on 2 devices. -/
example : 6 % (if true then 2 else 1) = 0 := rfl

/-- The parameters of the chunks, as one sequence along the path. -/
theorem chunkParams_path {P κ : Type*} (first fine : P → κ → P) (p0 : P) (path : ℕ → κ) (per : ℕ)
    (hper : 0 < per) :
    ∃ par : ℕ → P, (∀ q, q % per = 0 → par q = first p0 (path q)) ∧
      (∀ q, (q + 1) % per ≠ 0 → par (q + 1) = fine (par q) (path (q + 1))) ∧
      ∀ start i, i < per → per ∣ start → Spec.chunkParams first fine p0 path start i = par (start + i) := by
  refine ⟨fun q => Spec.chunkParams first fine p0 path (q / per * per) (q % per), ?_, ?_, ?_⟩
  · intro q hq
    have := Nat.div_add_mod' q per
    rw [hq, Nat.add_zero] at this
    simp only [hq, this, Spec.chunkParams]
  · intro q hq
    have h1 : (q + 1) % per = q % per + 1 := by
      have := Nat.mod_lt q hper
      rcases Nat.lt_or_ge (q % per + 1) per with h | h
      · rw [Nat.add_mod, Nat.mod_eq_of_lt (a := 1) (by omega), Nat.mod_eq_of_lt h]
      · exfalso
        apply hq
        rw [← Nat.mod_add_mod, show q % per + 1 = per by omega, Nat.mod_self]
    have h2 : (q + 1) / per = q / per := by
      have a1 := Nat.div_add_mod (q + 1) per
      have a2 := Nat.div_add_mod q per
      rw [h1] at a1
      exact Nat.eq_of_mul_eq_mul_left hper (by omega)
    have h3 := Nat.div_add_mod' q per
    simp only [h1, h2, Spec.chunkParams]
    rw [← Nat.add_assoc, h3]
  · rintro start i hi ⟨c, rfl⟩
    simp only
    rw [Nat.mul_add_div hper, Nat.div_eq_of_lt hi, Nat.mul_add_mod, Nat.mod_eq_of_lt hi, Nat.add_zero,
      Nat.mul_comm c]

end Jrystal
