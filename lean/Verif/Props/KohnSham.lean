import Verif.Lemmas.Stationary
import Verif.Props.Hamiltonian
import Mathlib.Analysis.Normed.Algebra.MatrixExponential
import Mathlib.Analysis.SpecialFunctions.Exponential
import Mathlib.Analysis.Calculus.LocalExtr.Basic
import Mathlib.LinearAlgebra.Matrix.PosDef
import Mathlib.LinearAlgebra.Matrix.DotProduct
import Mathlib.Analysis.Calculus.Deriv.Pow

/- C87: the Hamiltonian of the band structure is the derivative of the energy that the ground state
minimises. -/
namespace Jrystal
open scoped BigOperators ComplexConjugate Matrix ComplexOrder
open KohnSham

/-- C87: along every differentiable curve of coefficients the derivative of `total_energy` is
`2 Re Σ f ⟨δ|H|c⟩`, where `H` is what `hamiltonian_matrix` returns for the density of the coefficients: the
elements between the old bands `c` and the bands of the change `δ`, obtained by one call on the
concatenated bands.  One spin channel and LDA functionals.  Missing: two channels, for which it is false
(`totalEnergy_derivative_polarised_wrong`), and GGA, where the potential is not the derivative
(`vxc_gga_derivative_wrong`). -/
theorem totalEnergy_derivative_partial (lib : XcLib) (xt : String) (hg : pyIn "gga" xt = false)
    {nk nb na : ℕ} {n : Fin 3 → ℕ} (pos : Fin na → Fin 3 → ℝ) (charge : Fin na → ℝ)
    (g : Idx n → Fin 3 → ℝ) (kpts : Fin nk → Fin 3 → ℝ) (vol : ℝ) (occ : Occ 1 nk nb)
    (c : ℝ → Coef 1 nk nb n) (d : Coef 1 nk nb n) (t : ℝ)
    (h : ∀ k b x, HasDerivAt (fun t => c t 0 k b x) (d 0 k b x) t)
    (hd : ∀ j, ∀ x ∈ splitPlus xt, DifferentiableAt ℝ (lib.lda x) (densityGrid (c t) vol occ 0 j)) :
    ∃ (E : ℝ → ℝ) (H : Fin nk → Matrix (Fin (nb + nb)) (Fin (nb + nb)) ℂ),
      (∀ t, totalEnergy lib (c t) pos charge g kpts vol (some occ) false xt = .ok (E t)) ∧
      (∀ k, hamiltonianMatrix lib xt true (fun s k => Fin.append (c t s k) (d s k)) pos charge
        (densityGrid (c t) vol occ) g kpts vol 0 k = .ok (H k)) ∧
      HasDerivAt E (2 * ∑ k, ∑ b, occ 0 k b * (H k (Fin.natAdd nb b) (Fin.castAdd nb b)).re) t := by
  obtain ⟨v, hv, hH⟩ := hamiltonianMatrix_elements_partial lib xt true
    (fun s k => Fin.append (c t s k) (d s k)) pos charge (densityGrid (c t) vol occ) g kpts vol (Or.inl rfl)
  choose H hH1 hH2 using hH 0
  refine ⟨_, H, fun t => totalEnergy_energySum lib xt hg pos charge g kpts vol occ (c t), hH1, ?_⟩
  refine (hasDerivAt_energySum lib xt hg pos charge g kpts vol occ h hd v hv).congr_deriv ?_
  congr 1
  refine Finset.sum_congr rfl fun k _ => Finset.sum_congr rfl fun b _ => ?_
  rw [hH2 k]
  rw [orbital_eq, orbital_eq]
  simp only [Fin.append_left, Fin.append_right]

/-- The hypotheses hold for a curve that changes every coefficient and a functional that is not constant. -/
example : (∀ (k : Fin 1) (b : Fin 2) (x : Idx fun _ => 2),
      HasDerivAt (fun t : ℝ => ((fun t _ _ b _ => ((b : ℕ) : ℂ) + (t : ℂ) : ℝ → Coef 1 1 2 fun _ => 2)) t 0 k b x)
        ((fun _ _ _ _ => 1 : Coef 1 1 2 fun _ => 2) 0 k b x) 0) ∧
    ∀ r : ℝ, DifferentiableAt ℝ (fun r : ℝ => -r ^ 2) r :=
  ⟨fun _ _ _ => (hasDerivAt_ofReal (hasDerivAt_id 0)).const_add _, fun r => by fun_prop⟩

/-- The derivative in the compact layout, in terms of the Hamiltonian on the plane waves. -/
theorem compact_deriv (lib : XcLib) (xt : String) (hg : pyIn "gga" xt = false)
    {nk nb na : ℕ} {n : Fin 3 → ℕ} (mask : Idx n → Bool) (pos : Fin na → Fin 3 → ℝ) (charge : Fin na → ℝ)
    (g : Idx n → Fin 3 → ℝ) (kpts : Fin nk → Fin 3 → ℝ) (vol : ℝ) (occ : Occ 1 nk nb)
    (C : ℝ → Fin 1 → Fin nk → Fin (maskCount mask) → Fin nb → ℂ)
    (D : Fin 1 → Fin nk → Fin (maskCount mask) → Fin nb → ℂ) (t : ℝ)
    (h : ∀ k G b, HasDerivAt (fun t => C t 0 k G b) (D 0 k G b) t)
    (hd : ∀ j, ∀ x ∈ splitPlus xt,
      DifferentiableAt ℝ (lib.lda x) (densityGrid (expandCoefficient mask (C t)) vol occ 0 j))
    (F : Fin nk → Matrix (Fin (maskCount mask)) (Fin (maskCount mask)) ℂ)
    (hF : ∀ k, hamiltonianMatrixBasis lib xt true mask pos charge
      (densityGrid (expandCoefficient mask (C t)) vol occ) g (kpts k) vol = .ok (F k)) :
    HasDerivAt (fun t => energySum lib xt pos charge g kpts vol occ (expandCoefficient mask (C t)))
      (2 * ∑ k, ∑ b, occ 0 k b * (((Matrix.of (D 0 k))ᴴ * F k * Matrix.of (C t 0 k)) b b).re) t := by
  obtain ⟨E, H, h1, h2, h3⟩ := totalEnergy_derivative_partial lib xt hg pos charge g kpts vol occ
    (fun t => expandCoefficient mask (C t)) (expandCoefficient mask D) t (hasDerivAt_expand mask h) hd
  have hE : E = fun t => energySum lib xt pos charge g kpts vol occ (expandCoefficient mask (C t)) := by
    funext t
    exact (Except.ok.inj ((h1 t).symm.trans (totalEnergy_energySum lib xt hg pos charge g kpts vol occ _)))
  rw [hE] at h3
  refine h3.congr_deriv ?_
  congr 1
  refine Finset.sum_congr rfl fun k _ => Finset.sum_congr rfl fun b _ => ?_
  obtain ⟨F', hF', _, hc⟩ := hamiltonianMatrix_compress lib xt true mask
    (fun s k G => Fin.append (C t s k G) (D s k G)) pos charge
    (densityGrid (expandCoefficient mask (C t)) vol occ) g kpts vol k
  have hFF : F' = F k := Except.ok.inj (hF'.symm.trans (hF k))
  have h4 := hc 0
  rw [← expand_append, h2 k] at h4
  rw [Except.ok.inj h4, hFF]
  simp only [Matrix.mul_apply, Matrix.conjTranspose_apply, Matrix.of_apply, Fin.append_left, Fin.append_right]

/-- C87: a ground state solves the Kohn-Sham equations of the Hamiltonian the band calculation uses.  If
orthonormal bands `C` minimise `total_energy` at given occupations, then, with `F` the Hamiltonian on the
plane waves (`_hamiltonian_matrix_basis`) and `H` the result of `hamiltonian_matrix`, both for the density of
`C` itself: `F C_b = Σ_a H_ab C_a` for every occupied band, and `H` does not mix bands of different
occupation.  Missing: as in `totalEnergy_derivative_partial`. -/
theorem groundState_kohn_sham_partial (lib : XcLib) (xt : String) (hg : pyIn "gga" xt = false)
    {nk nb na : ℕ} {n : Fin 3 → ℕ} (mask : Idx n → Bool) (pos : Fin na → Fin 3 → ℝ) (charge : Fin na → ℝ)
    (g : Idx n → Fin 3 → ℝ) (kpts : Fin nk → Fin 3 → ℝ) (vol : ℝ) (occ : Occ 1 nk nb)
    (C : Fin 1 → Fin nk → Fin (maskCount mask) → Fin nb → ℂ) (hC : Spec.OrthonormalBands C)
    (hd : ∀ j, ∀ x ∈ splitPlus xt,
      DifferentiableAt ℝ (lib.lda x) (densityGrid (expandCoefficient mask C) vol occ 0 j))
    (hmin : ∀ C' : Fin 1 → Fin nk → Fin (maskCount mask) → Fin nb → ℂ, Spec.OrthonormalBands C' →
      ∀ E E', totalEnergy lib (expandCoefficient mask C) pos charge g kpts vol (some occ) false xt = .ok E →
        totalEnergy lib (expandCoefficient mask C') pos charge g kpts vol (some occ) false xt = .ok E' →
        E ≤ E') :
    ∃ (F : Fin nk → Matrix (Fin (maskCount mask)) (Fin (maskCount mask)) ℂ)
      (H : Fin nk → Matrix (Fin nb) (Fin nb) ℂ),
      (∀ k, hamiltonianMatrixBasis lib xt true mask pos charge
        (densityGrid (expandCoefficient mask C) vol occ) g (kpts k) vol = .ok (F k)) ∧
      (∀ k, hamiltonianMatrix lib xt true (expandCoefficient mask C) pos charge
        (densityGrid (expandCoefficient mask C) vol occ) g kpts vol 0 k = .ok (H k)) ∧
      (∀ k b, occ 0 k b ≠ 0 → ∀ G, ∑ G', F k G G' * C 0 k G' b = ∑ a, H k a b * C 0 k G a) ∧
      (∀ k a b, occ 0 k a ≠ occ 0 k b → H k a b = 0) := by
  choose F hF1 hF2 hF3 using fun k => hamiltonianMatrix_compress lib xt true mask C pos charge
    (densityGrid (expandCoefficient mask C) vol occ) g kpts vol k
  refine ⟨F, fun k => (Matrix.of (C 0 k))ᴴ * F k * Matrix.of (C 0 k), hF1, fun k => hF3 k 0, ?_⟩
  exact kohnSham_of_derivative occ (fun C => energySum lib xt pos charge g kpts vol occ (expandCoefficient mask C))
    C hC F hF2 (fun Ct D hCt0 hder => by
      have := compact_deriv lib xt hg mask pos charge g kpts vol occ Ct D 0 hder
        (by rw [hCt0]; exact hd) F (by rw [hCt0]; exact hF1)
      rw [hCt0] at this
      exact this)
    fun C' hC' => hmin C' hC' _ _ (totalEnergy_energySum lib xt hg pos charge g kpts vol occ _)
      (totalEnergy_energySum lib xt hg pos charge g kpts vol occ _)

/-- C87: diagonalising `hamiltonian_matrix` of a ground state gives Kohn-Sham states.  Every eigenvector `u`
of `H` that uses occupied bands only turns into an eigenvector `Σ_b u_b C_b` of the Hamiltonian on the plane
waves, with the same eigenvalue.  Missing: as in `totalEnergy_derivative_partial`. -/
theorem groundState_eigenstates_partial (lib : XcLib) (xt : String) (hg : pyIn "gga" xt = false)
    {nk nb na : ℕ} {n : Fin 3 → ℕ} (mask : Idx n → Bool) (pos : Fin na → Fin 3 → ℝ) (charge : Fin na → ℝ)
    (g : Idx n → Fin 3 → ℝ) (kpts : Fin nk → Fin 3 → ℝ) (vol : ℝ) (occ : Occ 1 nk nb)
    (C : Fin 1 → Fin nk → Fin (maskCount mask) → Fin nb → ℂ) (hC : Spec.OrthonormalBands C)
    (hd : ∀ j, ∀ x ∈ splitPlus xt,
      DifferentiableAt ℝ (lib.lda x) (densityGrid (expandCoefficient mask C) vol occ 0 j))
    (hmin : ∀ C' : Fin 1 → Fin nk → Fin (maskCount mask) → Fin nb → ℂ, Spec.OrthonormalBands C' →
      ∀ E E', totalEnergy lib (expandCoefficient mask C) pos charge g kpts vol (some occ) false xt = .ok E →
        totalEnergy lib (expandCoefficient mask C') pos charge g kpts vol (some occ) false xt = .ok E' →
        E ≤ E')
    (k : Fin nk) (u : Fin nb → ℂ) (e : ℝ) (hu : ∀ b, u b ≠ 0 → occ 0 k b ≠ 0)
    (H : Matrix (Fin nb) (Fin nb) ℂ)
    (hH : hamiltonianMatrix lib xt true (expandCoefficient mask C) pos charge
      (densityGrid (expandCoefficient mask C) vol occ) g kpts vol 0 k = .ok H)
    (he : ∀ a, ∑ b, H a b * u b = e * u a) :
    ∃ F : Matrix (Fin (maskCount mask)) (Fin (maskCount mask)) ℂ,
      hamiltonianMatrixBasis lib xt true mask pos charge
        (densityGrid (expandCoefficient mask C) vol occ) g (kpts k) vol = .ok F ∧
      ∀ G, ∑ G', F G G' * (∑ b, u b * C 0 k G' b) = e * ∑ b, u b * C 0 k G b := by
  obtain ⟨F, H', hF, hH', h1, _⟩ := groundState_kohn_sham_partial lib xt hg mask pos charge g kpts vol occ C
    hC hd hmin
  have hHH : H' k = H := Except.ok.inj ((hH' k).symm.trans hH)
  refine ⟨F k, hF k, fun G => ?_⟩
  have h2 : ∑ G', F k G G' * (∑ b, u b * C 0 k G' b) = ∑ b, u b * ∑ G', F k G G' * C 0 k G' b := by
    simp only [Finset.mul_sum]
    rw [Finset.sum_comm]
    exact Finset.sum_congr rfl fun b _ => Finset.sum_congr rfl fun G' _ => by ring
  have h3 : ∑ b, u b * ∑ G', F k G G' * C 0 k G' b = ∑ b, u b * ∑ a, H a b * C 0 k G a := by
    refine Finset.sum_congr rfl fun b _ => ?_
    by_cases hb : u b = 0
    · rw [hb, zero_mul, zero_mul]
    · rw [h1 k b (hu b hb) G, hHH]
  rw [h2, h3]
  simp only [Finset.mul_sum]
  rw [Finset.sum_comm]
  refine Finset.sum_congr rfl fun a _ => ?_
  rw [← mul_assoc, ← he a, Finset.sum_mul]
  exact Finset.sum_congr rfl fun b _ => by ring

/-! ### A ground state exists -/

private theorem continuous_expand {nk nb : ℕ} {n : Fin 3 → ℕ} (mask : Idx n → Bool) (k : Fin nk) (b : Fin nb)
    (x : Idx n) :
    Continuous fun C : Fin 1 → Fin nk → Fin (maskCount mask) → Fin nb → ℂ =>
      expandCoefficient mask C 0 k b x := by
  unfold expandCoefficient
  cases hx : mask x with
  | false =>
    simp only [scatterMask_off mask _ x hx]
    exact continuous_const
  | true =>
    obtain ⟨a, rfl⟩ := exists_maskPos mask hx
    simp only [scatterMask_get]
    fun_prop

private theorem continuous_absoluteSquare : Continuous (absoluteSquare : ℂ → ℝ) := by
  have : (absoluteSquare : ℂ → ℝ) = fun z => ‖z‖ ^ 2 := by
    funext z
    exact absoluteSquare_eq z
  rw [this]
  fun_prop

private theorem continuous_density {nk nb : ℕ} {n : Fin 3 → ℕ} (mask : Idx n → Bool) (vol : ℝ)
    (occ : Occ 1 nk nb) (j : Idx n) :
    Continuous fun C : Fin 1 → Fin nk → Fin (maskCount mask) → Fin nb → ℂ =>
      densityGrid (expandCoefficient mask C) vol occ 0 j := by
  unfold densityGrid densityGridBands
  refine continuous_finsetSum _ fun k _ => continuous_finsetSum _ fun b _ =>
    (continuous_absoluteSquare.comp ?_).mul continuous_const
  simp only [orbital_eq]
  unfold orbital
  simp only [ifftn_eq]
  exact ((continuous_finsetSum _ fun x _ => (continuous_expand mask k b x).mul continuous_const).div_const
    _).mul continuous_const

private theorem continuous_exc (lib : XcLib) (l : List String)
    (h : ∀ x ∈ l, ContinuousOn (lib.lda x) (Set.Ici 0)) : ContinuousOn (excLda1 lib l) (Set.Ici 0) := by
  induction l with
  | nil => unfold excLda1; simpa using continuousOn_const
  | cons a l ih =>
    have : excLda1 lib (a :: l) = fun r => lib.lda a r + excLda1 lib l r := by
      funext r; simp [excLda1, ldaPoint1]
    rw [this]
    exact (h a List.mem_cons_self).add (ih fun x hx => h x (List.mem_cons_of_mem _ hx))

theorem continuous_energySum (lib : XcLib) (xt : String)
    (hl : ∀ x ∈ splitPlus xt, ContinuousOn (lib.lda x) (Set.Ici 0))
    {nk nb na : ℕ} {n : Fin 3 → ℕ} (mask : Idx n → Bool) (pos : Fin na → Fin 3 → ℝ) (charge : Fin na → ℝ)
    (g : Idx n → Fin 3 → ℝ) (kpts : Fin nk → Fin 3 → ℝ) (vol : ℝ) (occ : Occ 1 nk nb)
    (hocc : ∀ k b, 0 ≤ occ 0 k b) :
    Continuous fun C : Fin 1 → Fin nk → Fin (maskCount mask) → Fin nb → ℂ =>
      energySum lib xt pos charge g kpts vol occ (expandCoefficient mask C) := by
  have hrho := continuous_density mask vol occ
  unfold energySum
  refine ((Continuous.add ?_ ?_).add ?_).add ?_
  · unfold kineticEnergyOcc
    refine Continuous.div_const (continuous_finsetSum _ fun s _ => continuous_finsetSum _ fun k _ =>
      continuous_finsetSum _ fun b _ => Continuous.mul (continuous_finsetSum _ fun x _ =>
        continuous_const.mul (continuous_absoluteSquare.comp ?_)) continuous_const) _
    rw [Subsingleton.elim s 0]
    exact continuous_expand mask k b x
  · exact continuous_const.mul (continuous_finsetSum _ fun j _ => continuous_const.mul (hrho j))
  · unfold hartreeSum
    refine continuous_const.mul (continuous_finsetSum _ fun q _ =>
      (continuous_absoluteSquare.comp ?_).div_const _)
    simp only [fftn_eq]
    exact continuous_finsetSum _ fun j _ => (Complex.continuous_ofReal.comp (hrho j)).mul continuous_const
  · refine continuous_const.mul (continuous_finsetSum _ fun j _ => Continuous.mul ?_ (hrho j))
    refine (continuous_exc lib _ hl).comp_continuous (hrho j) fun C => ?_
    refine densityGrid_nonneg _ _ _ (fun s k b => ?_) 0 j
    rw [Subsingleton.elim s 0]
    exact hocc k b

/-- The sets of orthonormal bands are compact. -/
theorem orthonormalBands_compact {nk M nb : ℕ} :
    IsCompact {C : Fin 1 → Fin nk → Fin M → Fin nb → ℂ | Spec.OrthonormalBands C} := by
  let S : Set (Fin 1 → Fin nk → Fin (M) → Fin nb → ℂ) := {C | Spec.OrthonormalBands C}
  have hclosed : IsClosed S := by
    have : S = ⋂ k, ⋂ i, ⋂ j, {C | ∑ G, conj (C 0 k G i) * C 0 k G j = if i = j then 1 else 0} := by
      ext C
      simp only [S, Set.mem_setOf_eq, Set.mem_iInter]
      rfl
    rw [this]
    refine isClosed_iInter fun k => isClosed_iInter fun i => isClosed_iInter fun j => ?_
    refine isClosed_eq (continuous_finsetSum _ fun G _ => Continuous.mul ?_ ?_) continuous_const
    · exact Complex.continuous_conj.comp (by fun_prop)
    · fun_prop
  have hbdd : Bornology.IsBounded S := by
    refine (Metric.isBounded_closedBall (x := (0 : Fin 1 → Fin nk → Fin (M) → Fin nb → ℂ))
      (r := 1)).subset fun C hC => ?_
    rw [mem_closedBall_zero_iff]
    refine (pi_norm_le_iff_of_nonneg zero_le_one).mpr fun s => (pi_norm_le_iff_of_nonneg zero_le_one).mpr
      fun k => (pi_norm_le_iff_of_nonneg zero_le_one).mpr fun G =>
        (pi_norm_le_iff_of_nonneg zero_le_one).mpr fun b => ?_
    rw [Subsingleton.elim s 0]
    have h1 := hC k b b
    rw [if_pos rfl] at h1
    have h2 : ∑ G, ‖C 0 k G b‖ ^ 2 = 1 := by
      have : ((∑ G, ‖C 0 k G b‖ ^ 2 : ℝ) : ℂ) = 1 := by
        rw [← h1]
        push_cast
        exact Finset.sum_congr rfl fun G _ => by rw [mul_comm, Complex.mul_conj']
      exact_mod_cast this
    have h3 : ‖C 0 k G b‖ ^ 2 ≤ 1 := by
      rw [← h2]
      exact Finset.single_le_sum (f := fun G => ‖C 0 k G b‖ ^ 2) (fun G _ => by positivity)
        (Finset.mem_univ G)
    have h4 := norm_nonneg (C 0 k G b)
    nlinarith
  exact Metric.isCompact_of_isClosed_isBounded hclosed hbdd

/-- There are orthonormal bands when there are enough plane waves. -/
theorem orthonormalBands_nonempty {nk M nb : ℕ} (hnb : nb ≤ M) :
    {C : Fin 1 → Fin nk → Fin M → Fin nb → ℂ | Spec.OrthonormalBands C}.Nonempty := by
  refine ⟨fun _ _ G b => if G = Fin.castLE hnb b then 1 else 0, fun k i j => ?_⟩
  beta_reduce
  rw [Finset.sum_eq_single (Fin.castLE hnb i)]
  · rw [if_pos rfl, map_one, one_mul]
    by_cases hij : i = j
    · rw [hij, if_pos rfl, if_pos rfl]
    · rw [if_neg hij, if_neg fun h => hij (Fin.castLE_injective hnb h)]
  · intro G _ hG
    rw [if_neg hG, map_zero, zero_mul]
  · intro h
    exact absurd (Finset.mem_univ _) h

/-- C87: a ground state exists.  When the cutoff leaves at least as many plane waves as there are bands and
the functional is continuous on nonnegative densities, some orthonormal bands have the least total energy of
all. -/
theorem groundState_exists (lib : XcLib) (xt : String) (hg : pyIn "gga" xt = false)
    (hl : ∀ x ∈ splitPlus xt, ContinuousOn (lib.lda x) (Set.Ici 0))
    {nk nb na : ℕ} {n : Fin 3 → ℕ} (mask : Idx n → Bool) (pos : Fin na → Fin 3 → ℝ) (charge : Fin na → ℝ)
    (g : Idx n → Fin 3 → ℝ) (kpts : Fin nk → Fin 3 → ℝ) (vol : ℝ) (occ : Occ 1 nk nb)
    (hocc : ∀ k b, 0 ≤ occ 0 k b) (hnb : nb ≤ maskCount mask) :
    ∃ C : Fin 1 → Fin nk → Fin (maskCount mask) → Fin nb → ℂ, Spec.OrthonormalBands C ∧
      ∀ C' : Fin 1 → Fin nk → Fin (maskCount mask) → Fin nb → ℂ, Spec.OrthonormalBands C' →
        ∃ E E', totalEnergy lib (expandCoefficient mask C) pos charge g kpts vol (some occ) false xt = .ok E ∧
          totalEnergy lib (expandCoefficient mask C') pos charge g kpts vol (some occ) false xt = .ok E' ∧
          E ≤ E' := by
  obtain ⟨C, hC, hmin⟩ := orthonormalBands_compact.exists_isMinOn (orthonormalBands_nonempty hnb)
    (continuous_energySum lib xt hl mask pos charge g kpts vol occ hocc).continuousOn
  exact ⟨C, hC, fun C' hC' => ⟨_, _, totalEnergy_energySum lib xt hg pos charge g kpts vol occ _,
    totalEnergy_energySum lib xt hg pos charge g kpts vol occ _, hmin hC'⟩⟩

/-- All hypotheses of the theorems above hold together: two bands with different occupations on a grid of
eight points, an atom of charge 3 and a functional that depends on the density. -/
example : ∃ (C : Fin 1 → Fin 1 → Fin (maskCount fun _ : Idx (fun _ => 2) => true) → Fin 2 → ℂ),
    Spec.OrthonormalBands C ∧
    (∀ j, ∀ x ∈ splitPlus "lda_x", DifferentiableAt ℝ ((fun _ r => -r : String → ℝ → ℝ) x)
      (densityGrid (expandCoefficient (fun _ : Idx (fun _ => 2) => true) C) 1 (fun _ _ b => if b = 0 then 2 else 1 : Occ 1 1 2) 0 j)) ∧
    ∀ C' : Fin 1 → Fin 1 → Fin (maskCount fun _ : Idx (fun _ => 2) => true) → Fin 2 → ℂ,
      Spec.OrthonormalBands C' → ∀ E E',
      totalEnergy ⟨fun _ r => -r, fun _ _ _ => 0, fun _ _ _ => 0, fun _ _ _ _ _ _ => 0⟩
        (expandCoefficient (fun _ : Idx (fun _ => 2) => true) C) (fun (_ : Fin 1) _ => 0) (fun _ => 3) (gVectors 1 fun _ => 2)
        (fun _ _ => 0) 1 (some (fun _ _ b => if b = 0 then 2 else 1 : Occ 1 1 2)) false "lda_x" = .ok E →
      totalEnergy ⟨fun _ r => -r, fun _ _ _ => 0, fun _ _ _ => 0, fun _ _ _ _ _ _ => 0⟩
        (expandCoefficient (fun _ : Idx (fun _ => 2) => true) C') (fun (_ : Fin 1) _ => 0) (fun _ => 3) (gVectors 1 fun _ => 2)
        (fun _ _ => 0) 1 (some (fun _ _ b => if b = 0 then 2 else 1 : Occ 1 1 2)) false "lda_x" = .ok E' → E ≤ E' := by
  obtain ⟨C, hC, hmin⟩ := groundState_exists
    ⟨fun _ r => -r, fun _ _ _ => 0, fun _ _ _ => 0, fun _ _ _ _ _ _ => 0⟩ "lda_x" (by decide +kernel)
    (fun _ _ => continuousOn_id.neg) (fun _ : Idx (fun _ => 2) => true) (fun (_ : Fin 1) _ => 0) (fun _ => 3)
    (gVectors 1 fun _ => 2) (fun (_ : Fin 1) _ => 0) 1 (fun _ _ (b : Fin 2) => if b = 0 then 2 else 1)
    (fun _ b => by beta_reduce; split_ifs <;> norm_num) (by decide +kernel)
  refine ⟨C, hC, fun j x _ => differentiableAt_id.neg, fun C' hC' E E' h h' => ?_⟩
  obtain ⟨E1, E2, h1, h2, h3⟩ := hmin C' hC'
  rw [Except.ok.inj (h.symm.trans h1), Except.ok.inj (h'.symm.trans h2)]
  exact h3

/-- C87 is false for two spin channels: `hamiltonian_matrix` adds the elements of both channels (see
`hamiltonianMatrix_polarised_wrong`), and the result is not the derivative of the energy. -/
theorem totalEnergy_derivative_polarised_wrong : ∃ (lib : XcLib) (n : Fin 3 → ℕ) (g : Idx n → Fin 3 → ℝ)
    (kpts : Fin 1 → Fin 3 → ℝ) (occ : Occ 2 1 1) (c : ℝ → Coef 2 1 1 n) (d : Coef 2 1 1 n) (E : ℝ → ℝ)
    (E' : ℝ) (H : Fin 2 → Matrix (Fin 2) (Fin 2) ℂ),
    (∀ s k b x, HasDerivAt (fun t => c t s k b x) (d s k b x) 0) ∧
    (∀ t, totalEnergy lib (c t) (fun (_ : Fin 0) _ => 0) (fun _ => 0) g kpts 1 (some occ) false "lda_x"
      = .ok (E t)) ∧
    (∀ s, hamiltonianMatrix lib "lda_x" true (fun s k => Fin.append (c 0 s k) (d s k))
      (fun (_ : Fin 0) _ => 0) (fun _ => 0) (densityGrid (c 0) 1 occ) g kpts 1 s 0 = .ok (H s)) ∧
    HasDerivAt E E' 0 ∧ E' ≠ 2 * ∑ s, occ s 0 0 * (H s 1 0).re := by
  let lib : XcLib := ⟨fun _ _ => 0, fun _ _ _ => 0, fun _ _ _ => 0, fun _ _ _ _ _ _ => 0⟩
  let n : Fin 3 → ℕ := fun _ => 1
  let g : Idx n → Fin 3 → ℝ := fun _ _ => 0
  let kpts : Fin 1 → Fin 3 → ℝ := fun _ _ => 1
  let occ : Occ 2 1 1 := fun _ _ _ => 1
  let c : ℝ → Coef 2 1 1 n := fun t _ _ _ _ => 1 + (t : ℂ)
  let d : Coef 2 1 1 n := fun _ _ _ _ => 1
  have horig : ∀ k : Idx n, ¬ ∃ i, (k i : ℕ) ≠ 0 := by
    rintro k ⟨i, hi⟩
    have h1 : (k i : ℕ) < 1 := (k i).2
    omega
  have hg : pyIn "gga" "lda_x" = false := by decide +kernel
  have he : ∀ a b, excLda2 lib (splitPlus "lda_x") a b = 0 := by
    intro a b
    unfold excLda2
    refine List.sum_eq_zero fun y hy => ?_
    obtain ⟨z, _, rfl⟩ := List.mem_map.mp hy
    simp [ldaPoint2, lib]
  obtain ⟨v, hv, hH⟩ := hamiltonianMatrix_polarised lib "lda_x" (fun s k => Fin.append (c 0 s k) (d s k))
    (fun (_ : Fin 0) _ => 0) (fun _ => 0) (densityGrid (c 0) 1 occ) g kpts 1
  have hvz : ∀ σ x, v σ x = 0 := by
    intro σ x
    have := (effectivePotential_channels lib "lda_x" (densityGrid (c 0) 1 occ) (fun (_ : Fin 0) _ => 0)
      (fun _ => 0) g 1).1
    rw [hv] at this
    simp only [Sigma.mk.injEq, heq_eq_eq, true_and] at this
    rw [this]
    have h1 : hartreeRealSpace (densityGrid (c 0) 1 occ) g true x = 0 := by
      unfold hartreeRealSpace
      rw [ifftn_eq]
      have : ∀ k : Idx n, isOrigin k = true := fun k => by
        rw [isOrigin_iff]; intro i; have h1 : (k i : ℕ) < 1 := (k i).2; omega
      simp [hartreeReciprocal_eq, this]
    have h2 : externalPotential (fun (_ : Fin 0) _ => 0) (fun _ => 0) g 1 x = 0 := by
      unfold externalPotential
      rw [ifftn_eq]
      simp [externalReciprocal]
    have h3 : xcDensity lib "lda_x" true g (densityGrid (c 0) 1 occ) σ x = 0 := by
      unfold xcDensity vxcDensity
      simp [hg, vxcLda2, he]
    beta_reduce
    rw [h1, h2, h3]
    simp
  choose H hH1 hH2 using fun s => hH s 0
  refine ⟨lib, n, g, kpts, occ, c, d, fun t => 3 * (1 + t) ^ 2, 6, H, fun s k b x => ?_, fun t => ?_, hH1, ?_, ?_⟩
  · exact (hasDerivAt_ofReal (hasDerivAt_id 0)).const_add 1
  · unfold totalEnergy totalEnergySplit occOrOnes
    dsimp only
    rw [externalEnergy_eq, hartreeEnergy_eq, xcEnergy_value,
      Finset.filter_false_of_mem fun k _ => horig k]
    have hex : ∀ (rho : Fin 2 → Idx n → ℝ) j, excDensity lib "lda_x" g rho j = 0 := by
      intro rho j
      unfold excDensity
      simp [hg, he]
    simp only [hex]
    have hk : kineticEnergyOcc g kpts (c t) occ = 3 * (1 + t) ^ 2 := by
      unfold kineticEnergyOcc
      have : absoluteSquare (1 + (t : ℂ)) = (1 + t) ^ 2 := by
        rw [absoluteSquare_eq, show (1 + (t : ℂ)) = ((1 + t : ℝ) : ℂ) by push_cast; rfl, Complex.norm_real,
          Real.norm_eq_abs, sq_abs]
      simp [g, kpts, c, n, occ, this]
    rw [hk]
    simp
  · have h1 : HasDerivAt (fun t : ℝ => 1 + t) 1 0 := (hasDerivAt_id 0).const_add 1
    refine ((h1.pow 2).const_mul 3).congr_deriv ?_
    norm_num
  · have hp : ∀ (σ : Fin 2) (f f' : Idx n → ℂ),
        Spec.potentialElement 1 (fun x => (v σ x).re) f f' = 0 := by
      intro σ f f'
      unfold Spec.potentialElement Spec.cellInner
      simp [hvz]
    have hval : ∀ s, H s 1 0 = 3 := by
      intro s
      rw [hH2, hp, hp]
      have : Spec.kineticElement g (kpts 0) (Fin.append (c 0 s 0) (d s 0) 1) (Fin.append (c 0 s 0) (d s 0) 0)
          = 3 / 2 := by
        have h0 : Fin.append (c 0 s 0) (d s 0) 0 = fun _ => 1 := by
          rw [show (0 : Fin (1 + 1)) = Fin.castAdd 1 0 from rfl, Fin.append_left]
          funext x
          simp [c]
        have h1 : Fin.append (c 0 s 0) (d s 0) 1 = fun _ => 1 := by
          rw [show (1 : Fin (1 + 1)) = Fin.natAdd 1 0 from rfl, Fin.append_right]
        rw [h0, h1]
        unfold Spec.kineticElement Spec.kineticEnergy Spec.dot
        simp [g, kpts, n]
      rw [this]
      norm_num
    simp only [hval]
    rw [Fin.sum_univ_two]
    norm_num [occ]

end Jrystal
