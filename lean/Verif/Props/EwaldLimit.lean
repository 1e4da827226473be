import Verif.Model.NuclearRepulsion
import Verif.Lemmas.EwaldLimit
import Verif.Lemmas.RunSetup
import Verif.Props.Ewald

/- C95: the nuclear repulsion energy converges, and its limit does not depend on numerical choices. -/
namespace Jrystal
open scoped BigOperators
open Filter Topology Matrix

private theorem sfreq_hits {n : ℕ} {f : ℤ} (h1 : -(n : ℤ) ≤ 2 * f) (h2 : 2 * f < n) :
    ∃ j : Fin n, sfreq n j = f := by
  by_cases h : 0 ≤ f
  · refine ⟨⟨f.toNat, by omega⟩, ?_⟩
    rw [sfreq_eq (by omega)]
    dsimp only
    split_ifs <;> omega
  · refine ⟨⟨(f + n).toNat, by omega⟩, ?_⟩
    rw [sfreq_eq (by omega)]
    dsimp only
    split_ifs <;> omega

/-- Sums over ever larger frequency boxes converge to the sum over all integer vectors. -/
private theorem box_tendsto {f : (Fin 3 → ℤ) → ℝ} {a : ℝ} (h : HasSum f a) :
    Tendsto (fun n : Fin 3 → ℕ => ∑ k : Idx n, f fun i => sfreq (n i) (k i)) atTop (𝓝 a) := by
  have hinj : ∀ n : Fin 3 → ℕ, Function.Injective fun (k : Idx n) (i : Fin 3) => sfreq (n i) (k i) := by
    intro n k k' hk
    funext i
    exact Fin.ext (sfreq_inj (k i).2 (k' i).2 (congrFun hk i))
  have hset : Tendsto (fun n : Fin 3 → ℕ =>
      (Finset.univ : Finset (Idx n)).image fun k i => sfreq (n i) (k i)) atTop atTop := by
    rw [tendsto_atTop]
    intro s
    set M : ℕ := s.sup fun z => ∑ i, (z i).natAbs with hM
    filter_upwards [eventually_ge_atTop (fun _ : Fin 3 => 2 * M + 1)] with n hn z hz
    have hzM : ∀ i, (z i).natAbs ≤ M := fun i =>
      (Finset.single_le_sum (f := fun i => (z i).natAbs) (fun _ _ => Nat.zero_le _) (Finset.mem_univ i)).trans
        (Finset.le_sup (f := fun z : Fin 3 → ℤ => ∑ i, (z i).natAbs) hz)
    have hj : ∀ i, ∃ j : Fin (n i), sfreq (n i) j = z i := by
      intro i
      have h1 := hzM i
      have h2 : 2 * M + 1 ≤ n i := hn i
      exact sfreq_hits (by omega) (by omega)
    choose j hj using hj
    rw [Finset.mem_image]
    exact ⟨j, Finset.mem_univ _, funext hj⟩
  have := h.comp hset
  refine this.congr fun n => ?_
  change ∑ z ∈ _, f z = _
  rw [Finset.sum_image fun k _ k' _ hk => hinj n hk]

private theorem sum_flatRows {n : Fin 3 → ℕ} {X : Type} (f : Idx n → X) (F : X → ℝ) :
    ∑ t, F (flatRows f t) = ∑ k, F (f k) := by
  have hnd : (idxList n).Nodup := by
    refine (idxList_sorted n).imp fun {a b} h => ?_
    rintro rfl
    exact lt_irrefl _ h
  have hbij : Function.Bijective fun t : Fin (idxList n).length => (idxList n).get t :=
    ⟨List.nodup_iff_injective_get.mp hnd, fun k => by
      obtain ⟨t, ht⟩ := List.get_of_mem (mem_idxList k)
      exact ⟨t, ht⟩⟩
  exact hbij.sum_comp fun k => F (f k)

theorem rowSum_pos (A : Matrix (Fin 3) (Fin 3) ℝ) (hA : A.det ≠ 0) :
    0 < (Real.sqrt (normSq3 fun d => ∑ i, A i d)) ^ 2 := by
  rw [sqrt_normSq3]
  have h0 : 0 ≤ normSq3 fun d => ∑ i, A i d := Finset.sum_nonneg fun d _ => sq_nonneg _
  refine lt_of_le_of_ne h0 fun h => ?_
  have hz : ∀ d, ∑ i, (1 : Fin 3 → ℝ) i * A i d = ∑ i, (0 : Fin 3 → ℝ) i * A i d := by
    intro d
    have := (Finset.sum_eq_zero_iff_of_nonneg fun d _ => sq_nonneg _).mp h.symm d (Finset.mem_univ d)
    simpa using this
  have := congrFun (row_comb_inj A hA 1 0 hz) 0
  simp at this

/-- The number of translations per axis grows without bound with the cutoff. -/
private theorem count_tendsto (A : Matrix (Fin 3) (Fin 3) ℝ) (hA : A.det ≠ 0) :
    Tendsto (fun cutoff : ℝ => fun _ : Fin 3 => (translationCount A cutoff).toNat) atTop atTop := by
  rw [tendsto_atTop]
  intro b
  have hp := rowSum_pos A hA
  set w := (Real.sqrt (normSq3 fun d => ∑ i, A i d)) ^ 2 with hw
  filter_upwards [eventually_ge_atTop (w * ((∑ i, b i : ℕ) : ℝ))] with cutoff hc i
  have h1 : ((∑ i, b i : ℕ) : ℝ) ≤ cutoff / w := by
    rw [le_div_iff₀ hp]
    linarith
  have h2 : ((∑ i, b i : ℕ) : ℤ) ≤ translationCount A cutoff := by
    unfold translationCount
    have := h1.trans (Int.le_ceil _)
    exact_mod_cast this
  have h3 : b i ≤ ∑ i, b i := Finset.single_le_sum (fun _ _ => Nat.zero_le _) (Finset.mem_univ i)
  dsimp only
  omega

private theorem count_pos (A : Matrix (Fin 3) (Fin 3) ℝ) (hA : A.det ≠ 0) :
    ∀ᶠ cutoff in (atTop : Filter ℝ), 0 < translationCount A cutoff := by
  have := (count_tendsto A hA).eventually (eventually_ge_atTop fun _ => 1)
  filter_upwards [this] with c hc
  have := hc 0
  dsimp only at this
  omega

private theorem ewald_tendsto (A : Matrix (Fin 3) (Fin 3) ℝ) (hA : A.det ≠ 0) {na : ℕ}
    (pos : Fin na → Fin 3 → ℝ) (q : Fin na → ℝ) {eta : ℝ} (he : 0 < eta) (V : ℝ) :
    Tendsto (fun p : (Fin 3 → ℕ) × ℝ => ewald Spec.erfc pos q (gVectors A p.1) V eta
        (flatRows (translationVectors A p.2))) (atTop ×ˢ atTop)
      (𝓝 (Spec.ewaldSeries A (reciprocalVectors A) pos q V eta)) := by
  have hreal : ∀ r : Fin 3 → ℝ, Tendsto (fun p : (Fin 3 → ℕ) × ℝ =>
      Spec.screenedSum Spec.erfc eta (flatRows (translationVectors A p.2)) r) (atTop ×ˢ atTop)
      (𝓝 (∑' z : Fin 3 → ℤ, Spec.erfc (eta * Spec.ewaldDistance r (Spec.latticePoint A z)) /
        Spec.ewaldDistance r (Spec.latticePoint A z))) := by
    intro r
    have h1 := (box_tendsto (summable_screened A hA he r).hasSum).comp (count_tendsto A hA)
    refine (h1.comp tendsto_snd).congr fun p => ?_
    unfold Spec.screenedSum
    rw [sum_flatRows (translationVectors A p.2) fun T => Spec.erfc (eta * Spec.ewaldDistance r T) / Spec.ewaldDistance r T]
    refine Finset.sum_congr rfl fun k _ => ?_
    have : translationVectors A p.2 k
        = Spec.latticePoint A fun i => sfreq (translationCount A p.2).toNat (k i) := by
      funext d
      unfold translationVectors vectorGrid Spec.latticePoint
      refine Finset.sum_congr rfl fun i _ => ?_
      simp only [Bool.false_eq_true, if_false]
      rw [fftfreq_int (k i).2]
    rw [this]
  have hrec : ∀ r : Fin 3 → ℝ, Tendsto (fun p : (Fin 3 → ℕ) × ℝ =>
      ∑ k ∈ Finset.univ.filter (fun k : Idx p.1 => ∃ i, (k i : ℕ) ≠ 0),
        Real.exp (-(Spec.dot (gVectors A p.1 k) (gVectors A p.1 k)) / (4 * eta ^ 2)) /
          Spec.dot (gVectors A p.1 k) (gVectors A p.1 k) * Real.cos (Spec.dot (gVectors A p.1 k) r)) (atTop ×ˢ atTop)
      (𝓝 (∑' n : {n : Fin 3 → ℤ // n ≠ 0},
      Real.exp (-(Spec.dot (Spec.latticePoint (reciprocalVectors A) n) (Spec.latticePoint (reciprocalVectors A) n)) / (4 * eta ^ 2)) /
        Spec.dot (Spec.latticePoint (reciprocalVectors A) n) (Spec.latticePoint (reciprocalVectors A) n) *
        Real.cos (Spec.dot (Spec.latticePoint (reciprocalVectors A) n) r))) := by
    intro r
    refine ((box_tendsto (recip_sum_spec A hA he r)).comp tendsto_fst).congr fun p => ?_
    have hg : ∀ k : Idx p.1, gVectors A p.1 k
        = Spec.latticePoint (reciprocalVectors A) fun i => sfreq (p.1 i) (k i) := fun k =>
      funext fun d => gVectors_apply A p.1 k d
    rw [Finset.sum_filter]
    refine Finset.sum_congr rfl fun k _ => ?_
    rw [hg k]
    by_cases hk : ∃ i, (k i : ℕ) ≠ 0
    · rw [if_pos hk]
    · rw [if_neg hk]
      push Not at hk
      have : Spec.latticePoint (reciprocalVectors A) (fun i => sfreq (p.1 i) (k i)) = fun _ => 0 := by
        funext d
        unfold Spec.latticePoint
        simp [hk, sfreq_zero]
      rw [this]
      simp [Spec.dot]
  simp_rw [ewald_formula]
  unfold Spec.ewald Spec.ewaldSeries
  refine Tendsto.sub_const (Tendsto.sub_const (Tendsto.const_mul _ ?_) _) _
  refine tendsto_finsetSum _ fun i _ => tendsto_finsetSum _ fun j _ => Tendsto.const_mul _ ?_
  exact (hreal _).add ((hrec _).const_mul _)

private theorem repulsion_near (A : Matrix (Fin 3) (Fin 3) ℝ) (hA : A.det ≠ 0) {na : ℕ}
    (pos : Fin na → Fin 3 → ℝ) (q : Fin na → ℝ) {eta : ℝ} (he : 0 < eta) (V ε : ℝ) (hε : 0 < ε) :
    ∃ N : ℕ, ∀ (n : Fin 3 → ℕ) (cutoff : ℝ), (∀ i, N ≤ n i) → (N : ℝ) ≤ cutoff →
      ∃ E, nuclearRepulsion Spec.erfc pos q A (gVectors A n) V eta cutoff = .ok E ∧
        |E - Spec.ewaldSeries A (reciprocalVectors A) pos q V eta| < ε := by
  have h1 := (ewald_tendsto A hA pos q he V).eventually (Metric.ball_mem_nhds _ hε)
  have h2 := h1.and ((count_pos A hA).prod_inr (la := (atTop : Filter (Fin 3 → ℕ))))
  rw [prod_atTop_atTop_eq, eventually_atTop] at h2
  obtain ⟨⟨n0, c0⟩, h0⟩ := h2
  refine ⟨∑ i, n0 i + ⌈c0⌉₊, fun n cutoff hn hc => ?_⟩
  have hn0 : n0 ≤ n := fun i => by
    have h3 : n0 i ≤ ∑ i, n0 i := Finset.single_le_sum (fun _ _ => Nat.zero_le _) (Finset.mem_univ i)
    have := hn i
    show n0 i ≤ n i
    omega
  have hc0 : c0 ≤ cutoff := by
    have h3 := Nat.le_ceil c0
    push_cast at hc
    have h4 : (0 : ℝ) ≤ ∑ i, (n0 i : ℝ) := Finset.sum_nonneg fun _ _ => Nat.cast_nonneg _
    linarith
  obtain ⟨h5, h6⟩ := h0 (n, cutoff) ⟨hn0, hc0⟩
  refine ⟨_, ?_, h5⟩
  unfold nuclearRepulsion
  dsimp only at h6 ⊢
  rw [if_neg (by omega), if_neg (by omega)]

/-- C95: as the FFT grid and the real-space cutoff grow, the returned energy approaches the Ewald energy
with both lattice sums carried out completely. -/
theorem nuclearRepulsion_converges (A B : Matrix (Fin 3) (Fin 3) ℝ) (hA : A.det ≠ 0)
    (hB : Spec.Reciprocal A B) {na : ℕ} (pos : Fin na → Fin 3 → ℝ) (q : Fin na → ℝ) (eta : ℝ)
    (he : 0 < eta) (V ε : ℝ) (hε : 0 < ε) :
    ∃ N : ℕ, ∀ (n : Fin 3 → ℕ) (cutoff : ℝ), (∀ i, N ≤ n i) → (N : ℝ) ≤ cutoff →
      ∃ E, nuclearRepulsion Spec.erfc pos q A (gVectors A n) V eta cutoff = .ok E ∧
        |E - Spec.ewaldSeries A B pos q V eta| < ε := by
  rw [reciprocal_eq hA hB]
  exact repulsion_near A hA pos q he V ε hε

/-- C95: on large enough grids with large enough cutoffs the energy does not depend on the splitting
parameter, up to the stated error of the order `10⁻²⁰` caused by the regularised distance. -/
theorem nuclearRepulsion_eta_independent (A : Matrix (Fin 3) (Fin 3) ℝ) (hA : A.det ≠ 0) {na : ℕ}
    (pos : Fin na → Fin 3 → ℝ) (hsep : Spec.Separated A pos) (q : Fin na → ℝ) (a b : ℝ) (ha : 0 < a)
    (hab : a ≤ b) (ε : ℝ) (hε : 0 < ε) :
    ∃ N : ℕ, ∀ (n n' : Fin 3 → ℕ) (cutoff cutoff' : ℝ), (∀ i, N ≤ n i) → (∀ i, N ≤ n' i) →
      (N : ℝ) ≤ cutoff → (N : ℝ) ≤ cutoff' →
      ∃ E E', nuclearRepulsion Spec.erfc pos q A (gVectors A n) |A.det| a cutoff = .ok E ∧
        nuclearRepulsion Spec.erfc pos q A (gVectors A n') |A.det| b cutoff' = .ok E' ∧
        |E - E'| < Spec.splittingError A q a b + ε := by
  obtain ⟨N, hN⟩ := repulsion_near A hA pos q ha |A.det| (ε / 2) (by linarith)
  obtain ⟨N', hN'⟩ := repulsion_near A hA pos q (ha.trans_le hab) |A.det| (ε / 2) (by linarith)
  refine ⟨max N N', fun n n' c c' hn hn' hc hc' => ?_⟩
  have h1 : (N : ℝ) ≤ ((max N N' : ℕ) : ℝ) := by exact_mod_cast le_max_left N N'
  have h2 : (N' : ℝ) ≤ ((max N N' : ℕ) : ℝ) := by exact_mod_cast le_max_right N N'
  obtain ⟨E, hE, hd⟩ := hN n c (fun i => (le_max_left _ _).trans (hn i)) (h1.trans hc)
  obtain ⟨E', hE', hd'⟩ := hN' n' c' (fun i => (le_max_right _ _).trans (hn' i)) (h2.trans hc')
  refine ⟨E, E', hE, hE', ?_⟩
  have h3 := ewaldSeries_eta A hA pos q hsep ha hab
  have h4 := abs_sub_le E (Spec.ewaldSeries A (reciprocalVectors A) pos q |A.det| a) E'
  have h5 := abs_sub_le (Spec.ewaldSeries A (reciprocalVectors A) pos q |A.det| a)
    (Spec.ewaldSeries A (reciprocalVectors A) pos q |A.det| b) E'
  rw [abs_sub_comm] at hd'
  linarith

/-- C95: on large enough grids with large enough cutoffs, describing the crystal with atoms moved by
lattice vectors gives the same energy (although for a fixed cutoff it does not). -/
theorem nuclearRepulsion_lattice_move (A : Matrix (Fin 3) (Fin 3) ℝ) (hA : A.det ≠ 0) {na : ℕ}
    (pos L : Fin na → Fin 3 → ℝ) (hL : ∀ a, Spec.IsLatticeVector A (L a)) (q : Fin na → ℝ) (V eta : ℝ)
    (he : 0 < eta) (ε : ℝ) (hε : 0 < ε) :
    ∃ N : ℕ, ∀ (n n' : Fin 3 → ℕ) (cutoff cutoff' : ℝ), (∀ i, N ≤ n i) → (∀ i, N ≤ n' i) →
      (N : ℝ) ≤ cutoff → (N : ℝ) ≤ cutoff' →
      ∃ E E', nuclearRepulsion Spec.erfc pos q A (gVectors A n) V eta cutoff = .ok E ∧
        nuclearRepulsion Spec.erfc (fun a d => pos a d + L a d) q A (gVectors A n') V eta cutoff' = .ok E' ∧
        |E - E'| < ε := by
  obtain ⟨N, hN⟩ := repulsion_near A hA pos q he V (ε / 2) (by linarith)
  obtain ⟨N', hN'⟩ := repulsion_near A hA (fun a d => pos a d + L a d) q he V (ε / 2) (by linarith)
  rw [ewaldSeries_lattice_move A hA pos L hL] at hN'
  refine ⟨max N N', fun n n' c c' hn hn' hc hc' => ?_⟩
  have h1 : (N : ℝ) ≤ ((max N N' : ℕ) : ℝ) := by exact_mod_cast le_max_left N N'
  have h2 : (N' : ℝ) ≤ ((max N N' : ℕ) : ℝ) := by exact_mod_cast le_max_right N N'
  obtain ⟨E, hE, hd⟩ := hN n c (fun i => (le_max_left _ _).trans (hn i)) (h1.trans hc)
  obtain ⟨E', hE', hd'⟩ := hN' n' c' (fun i => (le_max_right _ _).trans (hn' i)) (h2.trans hc')
  refine ⟨E, E', hE, hE', ?_⟩
  have h4 := abs_sub_le E (Spec.ewaldSeries A (reciprocalVectors A) pos q V eta) E'
  rw [abs_sub_comm] at hd'
  linarith

/-- C95: the driver's repulsion energy is the one of `nuclear_repulsion`, so that all of the above holds
for the energies reported by calculations. -/
theorem runRepulsion_eq (erfc : ℝ → ℝ) (cfg : RunConfig) {m : ℕ} (c : Crystal m) (n : Fin 3 → ℕ) :
    runRepulsion erfc cfg c n = nuclearRepulsion erfc c.positions (fun a => (c.charges a : ℝ)) c.cell
      (gVectors c.cell n) c.vol cfg.ewaldEta cfg.ewaldCutoff := rfl

/-- The hypotheses are met: caesium chloride in a cubic cell of edge 1. -/
example : (1 : Matrix (Fin 3) (Fin 3) ℝ).det ≠ 0 ∧
    Spec.Reciprocal 1 ((2 * Real.pi) • (1 : Matrix (Fin 3) (Fin 3) ℝ)) ∧
    Spec.Separated 1 (![fun _ => 0, fun _ => 1 / 2] : Fin 2 → Fin 3 → ℝ) := by
  refine ⟨by simp, fun i j => ?_, fun i j z h => ?_⟩
  · unfold Spec.dot
    simp [Matrix.one_apply]
  · have hl : ∀ d, Spec.latticePoint (1 : Matrix (Fin 3) (Fin 3) ℝ) z d = z d := by
      intro d
      unfold Spec.latticePoint
      simp [Matrix.one_apply]
    unfold Spec.dot
    simp_rw [hl]
    have hint : ∀ k : ℤ, k ≠ 0 → (1 : ℝ) ≤ (k : ℝ) * k := by
      intro k hk
      have : (1 : ℤ) ≤ k * k := by
        have := mul_self_pos.mpr hk
        omega
      exact_mod_cast this
    have hhalf : ∀ k : ℤ, (1 / 4 : ℝ) ≤ (1 / 2 - (k : ℝ)) * (1 / 2 - k) := by
      intro k
      have : (0 : ℤ) ≤ k * (k - 1) := by
        rcases lt_or_ge k 1 with hk | hk
        · nlinarith
        · nlinarith
      have h' : (0 : ℝ) ≤ (k : ℝ) * (k - 1) := by exact_mod_cast this
      nlinarith
    have hhalf' : ∀ k : ℤ, (1 / 4 : ℝ) ≤ (-(1 / 2) - (k : ℝ)) * (-(1 / 2) - k) := by
      intro k
      have := hhalf (-k)
      push_cast at this
      nlinarith
    have hsame : z ≠ 0 → (99e-20 : ℝ) < ∑ d, (0 - (z d : ℝ)) * (0 - z d) := by
      intro hz
      obtain ⟨d, hd⟩ := Function.ne_iff.mp hz
      have h1 := hint (z d) hd
      have h2 := Finset.single_le_sum (f := fun d => (0 - (z d : ℝ)) * (0 - z d))
        (fun d _ => mul_self_nonneg _) (Finset.mem_univ d)
      norm_num at h1 h2 ⊢
      linarith
    fin_cases i <;> fin_cases j
    · simpa using hsame (by simpa using h)
    · have h1 := hhalf (z 0)
      have h2 := hhalf (z 1)
      have h3 := hhalf (z 2)
      simp only [Fin.sum_univ_three, Fin.mk_one, Fin.zero_eta, Matrix.cons_val_one, Matrix.cons_val_zero,
        sub_zero]
      norm_num at h1 h2 h3 ⊢
      linarith
    · have h1 := hhalf' (z 0)
      have h2 := hhalf' (z 1)
      have h3 := hhalf' (z 2)
      simp only [Fin.sum_univ_three, Fin.mk_one, Fin.zero_eta, Matrix.cons_val_one, Matrix.cons_val_zero,
        zero_sub]
      norm_num at h1 h2 h3 ⊢
      linarith
    · simpa using hsame (by simpa using h)

/-- A lattice move of the second atom. -/
example : ∀ a, Spec.IsLatticeVector (1 : Matrix (Fin 3) (Fin 3) ℝ)
    ((![fun _ => 0, fun _ => 2] : Fin 2 → Fin 3 → ℝ) a) := by
  intro a
  fin_cases a
  · exact ⟨0, fun d => by simp⟩
  · exact ⟨fun _ => 2, fun d => by simp [Matrix.one_apply]⟩

end Jrystal
