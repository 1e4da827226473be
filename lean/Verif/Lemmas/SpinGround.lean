import Verif.Lemmas.SpinGradient2
import Verif.Lemmas.Aufbau

/- Lemmas for C127: states of least energy with any number of spin channels. -/
namespace Jrystal
open scoped BigOperators ComplexConjugate Matrix
open KohnSham

namespace KohnSham
variable {n : Fin 3 → ℕ} {ns nk nb M : ℕ} {ι : Type} [Fintype ι]

theorem bandEnergy_smul {N : ℕ} (F : Matrix (Fin N) (Fin N) ℂ) (z : ℂ) (u : Fin N → ℂ) :
    Spec.bandEnergy F (fun x => z * u x) = ‖z‖ ^ 2 * Spec.bandEnergy F u := by
  unfold Spec.bandEnergy
  have : ∑ x, conj (z * u x) * ∑ y, F x y * (z * u y) = ((‖z‖ ^ 2 : ℝ) : ℂ) * ∑ x, conj (u x) * ∑ y, F x y * u y := by
    rw [Complex.ofReal_pow, ← Complex.mul_conj']
    simp only [Finset.mul_sum, map_mul]
    exact Finset.sum_congr rfl fun x _ => Finset.sum_congr rfl fun y _ => by ring
  rw [this, Complex.re_ofReal_mul]

theorem bandEnergy_dot {N : ℕ} (F : Matrix (Fin N) (Fin N) ℂ) (u : Fin N → ℂ) :
    Spec.bandEnergy F u = (star u ⬝ᵥ (F *ᵥ u)).re := rfl

/-- Changing empty bands only does not change the density. -/
theorem densityGrid_same (vol : ℝ) {c c' : Coef ns nk nb n} {occ : Occ ns nk nb}
    (hz : ∀ s q a, occ s q a = 0 ∨ c' s q a = c s q a) : densityGrid c' vol occ = densityGrid c vol occ := by
  funext s j
  refine Finset.sum_congr rfl fun q _ => Finset.sum_congr rfl fun a _ => ?_
  show absoluteSquare (orbital (c' s q a) vol j) * occ s q a = absoluteSquare (orbital (c s q a) vol j) * occ s q a
  rcases hz s q a with h3 | h3
  · rw [h3, mul_zero, mul_zero]
  · rw [h3]

/-- Changing empty bands only does not change the energy. -/
theorem spinSum_same (X : (Fin ns → Idx n → ℝ) → ℝ) (V : Idx n → ℝ) (psi : Fin nk → ι → Fin M → Idx n → ℂ)
    (g : Idx n → Fin 3 → ℝ) (kpts : Fin nk → Fin 3 → ℝ) (vol : ℝ) {c c' : Coef ns nk nb n} {occ : Occ ns nk nb}
    (hz : ∀ s q a, occ s q a = 0 ∨ c' s q a = c s q a) :
    spinSum X V psi g kpts vol occ c' = spinSum X V psi g kpts vol occ c := by
  have hkin : kineticEnergyOcc g kpts c' occ = kineticEnergyOcc g kpts c occ := by
    unfold kineticEnergyOcc
    refine congrArg (· / 2) (Finset.sum_congr rfl fun s _ => Finset.sum_congr rfl fun q _ =>
      Finset.sum_congr rfl fun a _ => ?_)
    rcases hz s q a with h3 | h3
    · rw [h3, mul_zero, mul_zero]
    · rw [h3]
  have hnl : ∑ s, ∑ k, ∑ b, occ s k b * (hamiltonianNonlocal c' psi vol s k b b).re
      = ∑ s, ∑ k, ∑ b, occ s k b * (hamiltonianNonlocal c psi vol s k b b).re := by
    refine Finset.sum_congr rfl fun s _ => Finset.sum_congr rfl fun q _ => Finset.sum_congr rfl fun a _ => ?_
    rw [nonlocal_sqForm, nonlocal_sqForm]
    rcases hz s q a with h3 | h3
    · rw [h3, zero_mul, zero_mul]
    · rw [h3]
  unfold spinSum
  rw [densityGrid_same vol hz, hkin, hnl]

/-- Mixing equally occupied bands does not change the energy. -/
theorem spinSum_mix (X : (Fin ns → Idx n → ℝ) → ℝ) (V : Idx n → ℝ) (psi : Fin nk → ι → Fin M → Idx n → ℂ)
    (g : Idx n → Fin 3 → ℝ) (kpts : Fin nk → Fin 3 → ℝ) (vol : ℝ) (c c' : Coef ns nk nb n) (occ : Occ ns nk nb)
    (R : Fin ns → Fin nk → Matrix (Fin nb) (Fin nb) ℂ) (hR : ∀ s k, R s k ∈ Matrix.unitaryGroup (Fin nb) ℂ)
    (hocc : ∀ s k i j, R s k i j ≠ 0 → occ s k i = occ s k j) (hc : ∀ s k i x, c' s k i x = ∑ j, R s k i j * c s k j x) :
    spinSum X V psi g kpts vol occ c' = spinSum X V psi g kpts vol occ c := by
  have hnl : ∑ s, ∑ k, ∑ b, occ s k b * (hamiltonianNonlocal c' psi vol s k b b).re
      = ∑ s, ∑ k, ∑ b, occ s k b * (hamiltonianNonlocal c psi vol s k b b).re := by
    refine Finset.sum_congr rfl fun s _ => Finset.sum_congr rfl fun q _ => ?_
    simp only [nonlocal_sqForm]
    unfold sqForm
    simp only [Finset.mul_sum]
    rw [Finset.sum_comm]
    conv_rhs => rw [Finset.sum_comm]
    refine Finset.sum_congr rfl fun i _ => ?_
    have h1 := mix_weighted (R s q) (hR s q) (occ s q) (hocc s q) (fun j => ∑ x, psi q i.1 i.2 x * c s q j x)
    have h2 : ∀ a, ∑ x, psi q i.1 i.2 x * c' s q a x = ∑ j, R s q a j * ∑ x, psi q i.1 i.2 x * c s q j x := by
      intro a
      simp only [hc, Finset.mul_sum]
      rw [Finset.sum_comm]
      exact Finset.sum_congr rfl fun j _ => Finset.sum_congr rfl fun x _ => by ring
    have h3 : ∀ C : Coef ns nk nb n, ∑ a, occ s q a * (vol⁻¹ * absoluteSquare (∑ x, psi q i.1 i.2 x * C s q a x))
        = vol⁻¹ * ∑ a, absoluteSquare (∑ x, psi q i.1 i.2 x * C s q a x) * occ s q a := by
      intro C
      rw [Finset.mul_sum]
      exact Finset.sum_congr rfl fun a _ => by ring
    rw [h3 c', h3 c, ← h1]
    refine congrArg (vol⁻¹ * ·) (Finset.sum_congr rfl fun a _ => ?_)
    rw [h2]
  unfold spinSum
  rw [densityGrid_mix c c' vol occ R hR hocc hc, kinetic_mix g kpts c c' occ R hR hocc hc, hnl]

section
variable (X : (Fin ns → Idx n → ℝ) → ℝ) (V : Idx n → ℝ) (psi : Fin nk → ι → Fin M → Idx n → ℂ)
    (mask : Idx n → Bool) (A : Matrix (Fin 3) (Fin 3) ℝ) (hA : A.det ≠ 0) (kpts : Fin nk → Fin 3 → ℝ) (vol : ℝ)
    (hvol : 0 < vol) {energy : Coef ns nk nb n → Occ ns nk nb → ℝ → Prop}
    (hE : ∀ c occ e, energy c occ e ↔ e = spinSum X V psi (gVectors A n) kpts vol occ c)
    {t eps : ℝ} {ne spin : ℤ} {r : Bool} {method : String} {c : Coef ns nk nb n} {occ : Occ ns nk nb} {e : ℝ}
    (v : Fin ns → Idx n → ℝ) (hv : Spec.IsDensityGradient vol X (densityGrid c vol occ) v) (U : Fin ns → Idx n → ℝ)
    (hU : ∀ s j, U s j = V j + (hartreeRealSpace (densityGrid c vol occ) (gVectors A n) true j).re + v s j)
    (F : Fin ns → Fin nk → Matrix (Fin (maskCount mask)) (Fin (maskCount mask)) ℂ)
    (hF : ∀ s k, F s k = Spec.planeWaveHamiltonian (fun a => gVectors A n (maskPos mask a)) (rVectors A n) (U s) (kpts k)
      + Spec.projectorMatrix vol (fun (i : ι × Fin M) a => psi k i.1 i.2 (maskPos mask a)))

include hF in
theorem spin_hermitian (s : Fin ns) (k : Fin nk) : (F s k).IsHermitian := by
  rw [hF s k]
  exact (planeWaveHamiltonian_hermitian _ _ _ _).add (projectorMatrix_hermitian _ _)

include hA hvol hE hv hU hF

/-- A state of least energy solves the Kohn-Sham equations. -/
theorem spin_ground_equations (h : Spec.GroundWithin 0 t eps mask ne spin r method energy c occ e) :
    (∀ s k b, occ s k b ≠ 0 → ∀ x, ∑ y, F s k x y * gatherMask mask c s k y b
      = ∑ a, ((Matrix.of (gatherMask mask c s k))ᴴ * F s k * Matrix.of (gatherMask mask c s k)) a b
        * gatherMask mask c s k x a) ∧
    (∀ s k a b, occ s k a ≠ occ s k b →
      ((Matrix.of (gatherMask mask c s k))ᴴ * F s k * Matrix.of (gatherMask mask c s k)) a b = 0) := by
  have hc : expandCoefficient mask (gatherMask mask c) = c := (gather_expand mask).2 c h.physical.selected
  set C := gatherMask mask c with hCdef
  have horth : ∀ D : Fin 1 → Fin (ns * nk) → Fin (maskCount mask) → Fin nb → ℂ, Spec.OrthonormalBands D →
      ∀ s k i j, ∑ G, conj (splitAxes D s k G i) * splitAxes D s k G j = if i = j then 1 else 0 :=
    fun D hD s k i j => hD _ i j
  have hC : Spec.OrthonormalBands (mergeAxes C) := by
    intro i a b
    obtain ⟨⟨s, k⟩, rfl⟩ := finProdFinEquiv.surjective i
    have h1 := h.physical.orthonormal s k a b
    rw [← hc, expandCoefficient_inner] at h1
    simp only [mergeAxes_apply]
    exact h1
  have key := kohnSham_of_derivative (mergeAxes occ)
    (fun D => spinSum X V psi (gVectors A n) kpts vol occ (expandCoefficient mask (splitAxes D))) (mergeAxes C) hC
    (mergeAxes F 0) (fun i => spin_hermitian psi mask A kpts vol U F hF _ _)
    (fun Ct D h0 h1 => by
      have h2 : splitAxes (Ct 0) = C := by rw [h0, splitAxes_merge]
      have := compact_spin_deriv X V psi mask A hA kpts vol hvol occ (fun t => splitAxes (Ct t)) (splitAxes D)
        (fun s k G b => h1 _ G b) v (by rw [h2, hc]; exact hv) U (by rw [h2, hc]; exact hU)
      refine this.congr_deriv ?_
      simp only [← hF, h2]
      rw [← sum_merge fun s k => ∑ b, occ s k b * (((Matrix.of (splitAxes D s k))ᴴ * F s k *
        Matrix.of (C s k)) b b).re]
      refine congrArg (2 * ·) (Finset.sum_congr rfl fun i _ => ?_)
      obtain ⟨⟨s, k⟩, rfl⟩ := finProdFinEquiv.surjective i
      rw [mergeAxes_apply, mergeAxes_apply, mergeAxes_apply, mergeAxes_apply]
      rfl)
    (fun D hD => by
      rw [splitAxes_merge, hc]
      have h1 := h.least (expandCoefficient mask (splitAxes D)) occ _
        ⟨fun s k i j => by rw [expandCoefficient_inner]; exact horth D hD s k i j,
          fun s k b x hx => scatterMask_off mask _ x hx, h.physical.channels, h.physical.nonneg, h.physical.pauli,
          h.physical.electrons, h.physical.polarisation⟩ (fun _ => rfl) ((hE _ _ _).mpr rfl)
      have h2 := (hE _ _ _).mp h.value
      linarith)
  constructor
  · intro s k b hb x
    have := key.1 (finProdFinEquiv (s, k)) b (by rw [mergeAxes_apply]; exact hb) x
    simp only [mergeAxes_apply] at this
    exact this
  · intro s k a b hab
    have := key.2 (finProdFinEquiv (s, k)) a b (by rw [mergeAxes_apply]; exact hab)
    simp only [mergeAxes_apply] at this
    exact this

theorem spin_ground_kohnSham (h : Spec.GroundWithin 0 t eps mask ne spin r method energy c occ e) :
    Spec.KohnShamBands F occ fun s k b y => c s k b (maskPos mask y) := by
  have hc : expandCoefficient mask (gatherMask mask c) = c := (gather_expand mask).2 c h.physical.selected
  have key := spin_ground_equations X V psi mask A hA kpts vol hvol hE v hv U hU F hF h
  intro s k
  refine (kohnShamBands_point (occ s k) (F s k) (spin_hermitian psi mask A kpts vol U F hF s k) (gatherMask mask c s k)
    fun i j => ?_).1 ⟨key.1 s k, key.2 s k⟩
  have h1 := h.physical.orthonormal s k i j
  rw [← hc, expandCoefficient_inner] at h1
  exact h1

omit hE in
/-- The derivative of the energy in the occupations of one channel. -/
theorem spin_occ_line (hsel : ∀ s k b x, mask x = false → c s k b x = 0) (s : Fin ns) (d : Fin nk → Fin nb → ℝ) :
    HasDerivAt (fun u : ℝ => spinSum X V psi (gVectors A n) kpts vol
        (Function.update occ s fun k b => occ s k b + u * d k b) c)
      (∑ k, ∑ b, d k b * Spec.bandEnergy (F s k) fun y => c s k b (maskPos mask y)) 0 := by
  have hc : expandCoefficient mask (gatherMask mask c) = c := (gather_expand mask).2 c hsel
  have h0 : (Function.update occ s fun k b => occ s k b + 0 * d k b) = occ := by
    simp only [zero_mul, add_zero]
    exact Function.update_eq_self s occ
  have hd := hasDerivAt_spinSum_occ X V psi (gVectors A n) kpts vol
    (fun u => Function.update occ s fun k b => occ s k b + u * d k b) (Pi.single s d) c
    (fun s' k b => by
      by_cases hs : s' = s
      · subst hs
        simp only [Function.update_self, Pi.single_eq_same]
        simpa using ((hasDerivAt_id (0 : ℝ)).mul_const (d k b)).const_add (occ s' k b)
      · simp only [Function.update_of_ne hs, Pi.single_eq_of_ne hs]
        exact hasDerivAt_const _ _) v (by rw [h0]; exact hv) U (by rw [h0]; exact hU)
  refine hd.congr_deriv ?_
  rw [Finset.sum_eq_single s (fun s' _ hs => by simp [Pi.single_eq_of_ne hs]) fun h => absurd (Finset.mem_univ _) h]
  rw [Pi.single_eq_same]
  refine Finset.sum_congr rfl fun k _ => Finset.sum_congr rfl fun b _ => ?_
  have e1 := element_compress psi mask A hA (kpts k) vol hvol (gatherMask mask c) (U s) s k b b
  rw [← hF s k, hc] at e1
  have e2 : ((Matrix.of (gatherMask mask c s k))ᴴ * F s k * Matrix.of (gatherMask mask c s k)) b b
      = ∑ x, conj (gatherMask mask c s k x b) * ∑ y, F s k x y * gatherMask mask c s k y b := by
    rw [Matrix.mul_assoc, Matrix.mul_apply]
    refine Finset.sum_congr rfl fun x _ => ?_
    rw [Matrix.conjTranspose_apply, Matrix.mul_apply]
    rfl
  unfold Spec.bandEnergy
  rw [e2] at e1
  exact congrArg (d k b * ·) (congrArg Complex.re e1)

/-- Each channel of a state of least free energy has a Fermi level. -/
theorem spin_ground_level (hm : ¬ (method = "uniform" ∨ method = "gamma")) (heps : 0 < eps)
    (h : Spec.GroundWithin 0 t eps mask ne spin r method energy c occ e) (s : Fin ns) :
    ∃ μ, Spec.FermiLevel t eps ((3 - (ns : ℝ)) / nk)
      (fun k b => Spec.bandEnergy (F s k) fun y => c s k b (maskPos mask y)) (occ s) μ := by
  have hshare : Spec.kShare method nk * Spec.pauli r = (3 - (ns : ℝ)) / nk := by
    have h1 := h.physical.channels
    unfold Spec.kShare Spec.pauli
    rw [if_neg fun h => hm (Or.inr h)]
    cases r <;> simp only [Bool.false_eq_true, if_false, if_true] at h1 ⊢ <;> rw [h1] <;> push_cast <;> ring
  have hent : ∀ o : Fin nk → Fin nb → ℝ, Spec.smearingEntropy eps ((3 - (ns : ℝ)) / nk) (Function.update occ s o)
      - Spec.smearingEntropy eps ((3 - (ns : ℝ)) / nk) (fun _ : Fin 1 => o)
      = Spec.smearingEntropy eps ((3 - (ns : ℝ)) / nk) occ
        - Spec.smearingEntropy eps ((3 - (ns : ℝ)) / nk) (fun _ : Fin 1 => occ s) := by
    intro o
    let φ : (Fin nk → Fin nb → ℝ) → ℝ := fun o => ∑ k, ∑ b, (o k b * Real.log (eps + o k b) +
      ((3 - (ns : ℝ)) / nk - o k b) * Real.log (eps + (3 - (ns : ℝ)) / nk - o k b))
    have hφ : ∀ {m : ℕ} (q : Occ m nk nb), Spec.smearingEntropy eps ((3 - (ns : ℝ)) / nk) q = -∑ s, φ (q s) := fun _ => rfl
    have h1 : ∑ s', φ (Function.update occ s o s') = φ o + ∑ s' ∈ Finset.univ.erase s, φ (occ s') := by
      rw [← Finset.add_sum_erase _ _ (Finset.mem_univ s), Function.update_self]
      refine congrArg (φ o + ·) (Finset.sum_congr rfl fun s' hs' => ?_)
      rw [Function.update_of_ne (Finset.ne_of_mem_erase hs')]
    have h2 : ∑ s', φ (occ s') = φ (occ s) + ∑ s' ∈ Finset.univ.erase s, φ (occ s') :=
      (Finset.add_sum_erase _ _ (Finset.mem_univ s)).symm
    rw [hφ, hφ, hφ, hφ, Fin.sum_univ_one, Fin.sum_univ_one, h1, h2]
    ring
  have hsum : ∀ o : Fin nk → Fin nb → ℝ, ∑ k, ∑ b, o k b = ∑ k, ∑ b, occ s k b →
      ∀ s', ∑ k, ∑ b, Function.update occ s o s' k b = ∑ k, ∑ b, occ s' k b := by
    intro o ho s'
    by_cases hs : s' = s
    · subst hs
      rw [Function.update_self, ho]
    · rw [Function.update_of_ne hs]
  refine fermiLevel_of_least
    (fun o => spinSum X V psi (gVectors A n) kpts vol (Function.update occ s (o 0)) c) _ (fun _ => occ s) t eps
    ((3 - (ns : ℝ)) / nk) heps (fun k b => h.physical.nonneg s k b)
    (fun k b => (h.physical.pauli s k b).trans_eq hshare)
    (fun d => spin_occ_line X V psi mask A hA kpts vol hvol v hv U hU F hF h.physical.selected s d)
    (fun o hb hs => ?_)
  have h1 := h.least c (Function.update occ s (o 0)) _
    ⟨h.physical.orthonormal, h.physical.selected, h.physical.channels, fun s' k b => ?_, fun s' k b => ?_, ?_, ?_⟩
    (fun h => absurd h hm) ((hE _ _ _).mpr rfl)
  · have h2 := (hE _ _ _).mp h.value
    have h3 := hent (o 0)
    have h4 : (fun _ : Fin 1 => o 0) = o := funext fun i => by rw [Subsingleton.elim i 0]
    rw [h4] at h3
    rw [Function.update_eq_self]
    rw [h2] at h1
    have h5 : Spec.smearingEntropy eps ((3 - (ns : ℝ)) / nk) (Function.update occ s (o 0))
        = Spec.smearingEntropy eps ((3 - (ns : ℝ)) / nk) o + Spec.smearingEntropy eps ((3 - (ns : ℝ)) / nk) occ
        - Spec.smearingEntropy eps ((3 - (ns : ℝ)) / nk) (fun _ : Fin 1 => occ s) := by linarith
    rw [h5] at h1
    linarith
  · by_cases hs' : s' = s
    · subst hs'
      rw [Function.update_self]
      exact (hb k b).1
    · rw [Function.update_of_ne hs']
      exact h.physical.nonneg s' k b
  · by_cases hs' : s' = s
    · subst hs'
      rw [Function.update_self, hshare]
      exact (hb k b).2
    · rw [Function.update_of_ne hs']
      exact h.physical.pauli s' k b
  · simp only [hsum (o 0) hs]
    exact h.physical.electrons
  · intro s1 s2 h1 h2
    rw [hsum (o 0) hs, hsum (o 0) hs]
    exact h.physical.polarisation s1 s2 h1 h2

/-- Aufbau: no occupied band lies above a wave of its channel that could be occupied instead. -/
theorem spin_aufbau (hm : ¬ (method = "uniform" ∨ method = "gamma")) (heps : 0 < eps)
    (h : Spec.GroundWithin 0 0 eps mask ne spin r method energy c occ e) (s : Fin ns) (k : Fin nk) (b : Fin nb)
    (hb : occ s k b = 0) (u : Idx n → ℂ) (hu : ∀ x, mask x = false → u x = 0) (hu1 : ∑ x, conj (u x) * u x = 1)
    (huo : ∀ b', 0 < occ s k b' → ∑ x, conj (c s k b' x) * u x = 0) (k' : Fin nk) (b' : Fin nb)
    (hb' : 0 < occ s k' b') :
    Spec.bandEnergy (F s k') (fun y => c s k' b' (maskPos mask y)) ≤ Spec.bandEnergy (F s k) fun y => u (maskPos mask y) := by
  -- the empty band is turned into the wave
  obtain ⟨W, hW1, hW2, ⟨z, hz, hW3⟩, hW4⟩ := exists_reflection (c s k b) u
    (by have := h.physical.orthonormal s k b b; rw [if_pos rfl] at this; exact this) hu1
  let c' : Coef ns nk nb n := fun s' q a => if s' = s ∧ q = k then W (c s' q a) else c s' q a
  have hc' : ∀ s' q a, c' s' q a = if s' = s ∧ q = k then W (c s' q a) else c s' q a := fun _ _ _ => rfl
  have hsame : ∀ s' q a, 0 < occ s' q a → c' s' q a = c s' q a := by
    intro s' q a hqa
    rw [hc']
    by_cases hq : s' = s ∧ q = k
    · obtain ⟨rfl, rfl⟩ := hq
      rw [if_pos ⟨rfl, rfl⟩]
      refine hW2 _ ?_ ?_
      · have hne : b ≠ a := fun hba => by rw [← hba, hb] at hqa; exact lt_irrefl _ hqa
        have := h.physical.orthonormal s' q b a
        rw [if_neg hne] at this
        exact this
      · have h3 := congrArg conj (huo a hqa)
        rw [map_zero, map_sum] at h3
        rw [← h3]
        refine Finset.sum_congr rfl fun x _ => ?_
        rw [map_mul, Complex.conj_conj, mul_comm]
        rfl
    · rw [if_neg hq]
  have horth : ∀ s' q i j, ∑ x, conj (c' s' q i x) * c' s' q j x = if i = j then 1 else 0 := by
    intro s' q i j
    rw [hc', hc']
    by_cases hq : s' = s ∧ q = k
    · rw [if_pos hq, if_pos hq]
      exact (hW1 _ _).trans (h.physical.orthonormal s' q i j)
    · rw [if_neg hq, if_neg hq]
      exact h.physical.orthonormal s' q i j
  have hsel : ∀ s' q a x, mask x = false → c' s' q a x = 0 := by
    intro s' q a x hx
    rw [hc']
    by_cases hq : s' = s ∧ q = k
    · rw [if_pos hq, hW4 _ _ (h.physical.selected s k b x hx) (hu x hx)]
      exact h.physical.selected s' q a x hx
    · rw [if_neg hq]
      exact h.physical.selected s' q a x hx
  have hz' : ∀ s' q a, occ s' q a = 0 ∨ c' s' q a = c s' q a := fun s' q a => by
    rcases (h.physical.nonneg s' q a).eq_or_lt with h3 | h3
    · exact Or.inl h3.symm
    · exact Or.inr (hsame s' q a h3)
  have hdens := densityGrid_same vol hz'
  have hground : Spec.GroundWithin 0 0 eps mask ne spin r method energy c' occ e :=
    ⟨⟨horth, hsel, h.physical.channels, h.physical.nonneg, h.physical.pauli, h.physical.electrons,
      h.physical.polarisation⟩,
      (hE _ _ _).mpr (((hE _ _ _).mp h.value).trans (spinSum_same X V psi (gVectors A n) kpts vol hz').symm), h.given, h.least⟩
  obtain ⟨μ, h4⟩ := spin_ground_level X V psi mask A hA kpts vol hvol hE v (by rw [hdens]; exact hv) U
    (by rw [hdens]; exact hU) F hF hm heps hground s
  have h3 := (h4 k b).1 (by
    rw [hb]
    have h5 := h.physical.channels
    have hk : (0 : ℝ) < nk := by exact_mod_cast k.pos
    refine div_pos ?_ hk
    rw [h5]
    split_ifs <;> norm_num)
  have h8 := (h4 k' b').2 hb'
  simp only [zero_mul, sub_zero] at h3 h8
  rw [hsame s k' b' hb'] at h8
  rw [hc', if_pos ⟨rfl, rfl⟩, hW3] at h3
  have h9 : (fun y => (z • u) (maskPos mask y)) = fun y => z * u (maskPos mask y) := rfl
  rw [h9, bandEnergy_smul, norm_of_unit hz, one_mul] at h3
  exact h8.trans h3

/-- Aufbau for mixtures of bands with the same occupation. -/
theorem spin_aufbau_mixed (hm : ¬ (method = "uniform" ∨ method = "gamma")) (heps : 0 < eps)
    (h : Spec.GroundWithin 0 0 eps mask ne spin r method energy c occ e) (s : Fin ns) (k : Fin nk) (b : Fin nb)
    (hb : occ s k b = 0) (u : Idx n → ℂ) (hu : ∀ x, mask x = false → u x = 0) (hu1 : ∑ x, conj (u x) * u x = 1)
    (huo : ∀ b', 0 < occ s k b' → ∑ x, conj (c s k b' x) * u x = 0) (y : Fin nb → ℂ)
    (hy : ∑ a, conj (y a) * y a = 1) (f : ℝ) (hf : 0 < f) (hyf : ∀ a, y a ≠ 0 → occ s k a = f) :
    Spec.bandEnergy (F s k) (fun G => ∑ a, y a * c s k a (maskPos mask G))
      ≤ Spec.bandEnergy (F s k) fun G => u (maskPos mask G) := by
  -- rotate one of the bands into the mixture
  obtain ⟨b₀, hb₀⟩ : ∃ b₀, y b₀ ≠ 0 := by
    by_contra hne
    push Not at hne
    simp [hne] at hy
  obtain ⟨W, hW1, hW2, ⟨z, hz, hW3⟩, hW4⟩ := exists_reflection (Pi.single b₀ (1 : ℂ)) y
    (by simp [dotProduct, Pi.single_apply]) hy
  let R : Matrix (Fin nb) (Fin nb) ℂ := Matrix.of fun a => W (Pi.single a 1)
  have hR : R ∈ Matrix.unitaryGroup (Fin nb) ℂ := by
    rw [Matrix.mem_unitaryGroup_iff]
    ext i j
    rw [Matrix.mul_apply, Matrix.one_apply]
    have h1 := hW1 (Pi.single j 1) (Pi.single i 1)
    have h2 : star (Pi.single j (1 : ℂ) : Fin nb → ℂ) ⬝ᵥ Pi.single i 1 = if i = j then 1 else 0 := by
      rw [dotProduct_single, mul_one, Pi.star_apply, Pi.single_apply]
      split_ifs <;> simp
    rw [← h2, ← h1]
    refine Finset.sum_congr rfl fun a _ => ?_
    rw [mul_comm]
    rfl
  have hf₀ : occ s k b₀ = f := hyf b₀ hb₀
  have hout : ∀ a, occ s k a ≠ f → R a = Pi.single a 1 := by
    intro a ha
    refine hW2 _ ?_ ?_
    · have : b₀ ≠ a := fun hab => ha (by rw [← hab]; exact hf₀)
      rw [dotProduct_single, mul_one, Pi.star_apply, Pi.single_apply, if_neg this.symm, star_zero]
    · rw [dotProduct_single, mul_one, Pi.star_apply]
      have : y a = 0 := by
        by_contra hya
        exact ha (hyf a hya)
      rw [this, star_zero]
  have hin : ∀ a i, R a i ≠ 0 → occ s k a = occ s k i := by
    intro a i hai
    by_cases ha : occ s k a = f
    · by_contra hne
      have hi : occ s k i ≠ f := fun hi => hne (by rw [ha, hi])
      have h1 : (Pi.single b₀ (1 : ℂ) : Fin nb → ℂ) i = 0 := by
        rw [Pi.single_apply, if_neg fun hib => hi (by rw [hib]; exact hf₀)]
      have h2 : y i = 0 := by
        by_contra hyi
        exact hi (hyf i hyi)
      refine hai ((hW4 (Pi.single a 1) i h1 h2).trans ?_)
      rw [Pi.single_apply, if_neg fun hia => hi (by rw [hia]; exact ha)]
    · rw [hout a ha] at hai
      by_contra hne
      refine hai ?_
      rw [Pi.single_apply, if_neg fun hia => hne (by rw [hia])]
  let RR : Fin ns → Fin nk → Matrix (Fin nb) (Fin nb) ℂ := fun s' q => if s' = s ∧ q = k then R else 1
  have hRR : ∀ s q, RR s q ∈ Matrix.unitaryGroup (Fin nb) ℂ := by
    intro s' q
    by_cases hq : s' = s ∧ q = k
    · simp only [RR, if_pos hq]; exact hR
    · simp only [RR, if_neg hq]; exact one_mem _
  have hRocc : ∀ s q i j, RR s q i j ≠ 0 → occ s q i = occ s q j := by
    intro s' q i j hij
    by_cases hq : s' = s ∧ q = k
    · simp only [RR, if_pos hq] at hij
      rw [hq.1, hq.2]
      exact hin i j hij
    · simp only [RR, if_neg hq] at hij
      by_contra hne
      refine hij ?_
      rw [Matrix.one_apply, if_neg fun h => hne (by rw [h])]
  let c' : Coef ns nk nb n := fun s q i x => ∑ j, RR s q i j * c s q j x
  have hdens : densityGrid c' vol occ = densityGrid c vol occ :=
    densityGrid_mix c c' vol occ RR hRR hRocc fun _ _ _ _ => rfl
  have hval : energy c' occ e := (hE _ _ _).mpr (((hE _ _ _).mp h.value).trans
    (spinSum_mix X V psi (gVectors A n) kpts vol c c' occ RR hRR hRocc fun _ _ _ _ => rfl).symm)
  have horth : ∀ s q i j, ∑ x, conj (c' s q i x) * c' s q j x = if i = j then 1 else 0 := by
    intro s q i j
    have h1 : ∑ x, conj (c' s q i x) * c' s q j x
        = ∑ a, ∑ a', conj (RR s q i a) * RR s q j a' * ∑ x, conj (c s q a x) * c s q a' x := by
      simp only [c', map_sum, map_mul, Finset.sum_mul_sum]
      rw [Finset.sum_comm]
      refine Finset.sum_congr rfl fun a _ => ?_
      rw [Finset.sum_comm]
      refine Finset.sum_congr rfl fun a' _ => ?_
      rw [Finset.mul_sum]
      exact Finset.sum_congr rfl fun x _ => by ring
    rw [h1]
    simp only [h.physical.orthonormal, mul_ite, mul_one, mul_zero, Finset.sum_ite_eq, Finset.mem_univ, if_true]
    have h2 := congrFun (congrFun (Matrix.mem_unitaryGroup_iff.mp (hRR s q)) j) i
    rw [Matrix.mul_apply, Matrix.one_apply] at h2
    rw [show (if i = j then (1 : ℂ) else 0) = if j = i then 1 else 0 from if_congr ⟨Eq.symm, Eq.symm⟩ rfl rfl, ← h2]
    exact Finset.sum_congr rfl fun a _ => by rw [mul_comm]; rfl
  have hsel : ∀ s q a x, mask x = false → c' s q a x = 0 := by
    intro s q a x hx
    refine Finset.sum_eq_zero fun j _ => ?_
    rw [h.physical.selected s q j x hx, mul_zero]
  have hground : Spec.GroundWithin 0 0 eps mask ne spin r method energy c' occ e :=
    ⟨⟨horth, hsel, h.physical.channels, h.physical.nonneg, h.physical.pauli, h.physical.electrons,
      h.physical.polarisation⟩, hval, h.given, h.least⟩
  have hRk : RR s k = R := if_pos ⟨rfl, rfl⟩
  have hfin := spin_aufbau X V psi mask A hA kpts vol hvol hE v (by rw [hdens]; exact hv) U
    (by rw [hdens]; exact hU) F hF hm heps hground s k b hb u hu hu1
    (fun b' hb' => by
      have h1 : ∑ x, conj (c' s k b' x) * u x = ∑ j, conj (R b' j) * ∑ x, conj (c s k j x) * u x := by
        simp only [c', hRk, map_sum, map_mul, Finset.sum_mul, Finset.mul_sum]
        rw [Finset.sum_comm]
        exact Finset.sum_congr rfl fun j _ => Finset.sum_congr rfl fun x _ => by ring
      rw [h1]
      refine Finset.sum_eq_zero fun j _ => ?_
      by_cases hj : R b' j = 0
      · rw [hj, map_zero, zero_mul]
      · rw [huo j (by rw [← hin b' j hj]; exact hb'), mul_zero]) k b₀ (by rw [hf₀]; exact hf)
  have hc₀ : (fun G => c' s k b₀ (maskPos mask G)) = fun G => z * ∑ a, y a * c s k a (maskPos mask G) := by
    funext G
    have : R b₀ = z • y := hW3
    simp only [c', hRk, this, Pi.smul_apply, smul_eq_mul, Finset.mul_sum, mul_assoc]
  rw [hc₀, bandEnergy_smul, norm_of_unit hz, one_mul] at hfin
  exact hfin

/-- The occupied bands of a cold ground state have the lowest eigenvalues of the Hamiltonian of their channel. -/
theorem spin_lowest (hm : ¬ (method = "uniform" ∨ method = "gamma")) (heps : 0 < eps)
    (h : Spec.GroundWithin 0 0 eps mask ne spin r method energy c occ e) (s : Fin ns) (k : Fin nk) (b : Fin nb)
    (hb : occ s k b = 0) {lam : Fin (maskCount mask) → ℝ} (hlam : Spec.IsSpectrum (F s k) lam) {m : ℕ}
    (σ : Fin m → Fin nb) (hσ : Function.Injective σ) (hrange : ∀ b, 0 < occ s k b ↔ ∃ i, σ i = b) {mu : Fin m → ℝ}
    (hmu : Spec.IsSpectrum (((Matrix.of (gatherMask mask c s k))ᴴ * F s k * Matrix.of (gatherMask mask c s k)).submatrix
      σ σ) mu) : ∃ hm : m ≤ maskCount mask, ∀ j, mu j = lam (Fin.castLE hm j) := by
  have hc : expandCoefficient mask (gatherMask mask c) = c := (gather_expand mask).2 c h.physical.selected
  obtain ⟨hks, hmix⟩ := spin_ground_equations X V psi mask A hA kpts vol hvol hE v hv U hU F hF h
  set C := Matrix.of (gatherMask mask c s k) with hCdef
  have hC : Cᴴ * C = 1 := by
    ext i j
    have h1 := h.physical.orthonormal s k i j
    rw [← hc, expandCoefficient_inner] at h1
    rw [Matrix.mul_apply, Matrix.one_apply]
    exact h1
  have hpos : ∀ b, occ s k b ≠ 0 ↔ 0 < occ s k b := fun b =>
    ⟨fun h1 => lt_of_le_of_ne (h.physical.nonneg s k b) h1.symm, ne_of_gt⟩
  have hle : m ≤ maskCount mask := by
    have h2 : (C.submatrix id σ)ᴴ * C.submatrix id σ = 1 := by
      ext i j
      have := congrFun (congrFun hC (σ i)) (σ j)
      rw [Matrix.mul_apply, Matrix.one_apply] at this
      rw [Matrix.mul_apply, Matrix.one_apply]
      refine this.trans ?_
      exact if_congr hσ.eq_iff rfl rfl
    have h3 := Matrix.rank_mul_le_right (C.submatrix id σ)ᴴ (C.submatrix id σ)
    rw [h2, Matrix.rank_one, Fintype.card_fin] at h3
    exact h3.trans ((Matrix.rank_le_card_height _).trans_eq (Fintype.card_fin _))
  refine ⟨hle, lowest_of_aufbau hlam hC (occ s k) (fun b hb' G => ?_) (hmix s k) σ hσ
    (fun b => (hpos b).trans (hrange b)) ?_ hle hmu⟩
  · rw [Matrix.mul_apply, Matrix.mul_apply]
    refine (hks s k b hb' G).trans (Finset.sum_congr rfl fun a _ => mul_comm _ _)
  intro u hu huo y f₀ hy hf₀ hyf
  have hmaskv : ∀ (q : Fin (maskCount mask) → ℂ), (fun G => scatterMask mask q (maskPos mask G)) = q :=
    fun q => funext fun G => scatterMask_get mask q G
  have hinner : ∀ (q q' : Fin (maskCount mask) → ℂ),
      ∑ x, conj (scatterMask mask q x) * scatterMask mask q' x = ∑ G, conj (q G) * q' G := scatterMask_inner mask
  obtain ⟨a₀, ha₀⟩ : ∃ a₀, y a₀ ≠ 0 := by
    by_contra hne
    push Not at hne
    have : y = 0 := funext hne
    simp [this] at hy
  have hf : 0 < f₀ := by
    rw [← hyf a₀ ha₀, ← hpos, hyf a₀ ha₀]
    exact hf₀
  have hfin := spin_aufbau_mixed X V psi mask A hA kpts vol hvol hE v hv U hU F hF hm heps h s k b hb (scatterMask mask u)
    (fun x hx => scatterMask_off mask u x hx) ((hinner u u).trans hu)
    (fun b' hb' => by
      have h1 : c s k b' = scatterMask mask (fun G => C G b') := by
        conv_lhs => rw [← hc]
        rfl
      rw [h1, hinner]
      exact huo b' ((hpos b').mpr hb')) y hy f₀ hf hyf
  rw [hmaskv, bandEnergy_dot, bandEnergy_dot] at hfin
  refine le_of_eq_of_le ?_ hfin
  have h1 : (fun G => ∑ a, y a * c s k a (maskPos mask G)) = C *ᵥ y := by
    funext G
    exact Finset.sum_congr rfl fun a _ => mul_comm _ _
  rw [h1, Matrix.star_mulVec, ← Matrix.dotProduct_mulVec, Matrix.mulVec_mulVec, Matrix.mulVec_mulVec]

end
end KohnSham
end Jrystal
