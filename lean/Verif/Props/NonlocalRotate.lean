import Verif.Props.Nonlocal
import Verif.Props.Spherical
import Verif.Lemmas.Symmetry

/- C82: the nonlocal pseudopotential seen from rotated axes. -/
namespace Jrystal
open scoped BigOperators ComplexConjugate
open Matrix

private theorem cosAngle_rot {R : Matrix (Fin 3) (Fin 3) ℝ} (hR : R * Rᵀ = 1) (x y : Fin 3 → ℝ) :
    _root_.Spec.cosAngle (rot3 R x) (rot3 R y) = _root_.Spec.cosAngle x y := by
  unfold _root_.Spec.cosAngle
  rw [rot3_dot hR, rot3_dot hR, rot3_dot hR]

private theorem rot3_ne {R : Matrix (Fin 3) (Fin 3) ℝ} (hR : R * Rᵀ = 1) (x : Fin 3 → ℝ) (hx : x ≠ 0) :
    rot3 R x ≠ 0 := by
  intro h
  have h2 := rot3_sq hR x
  rw [h] at h2
  refine hx (funext fun d => ?_)
  have h3 : ∑ d, x d ^ 2 = 0 := by rw [← h2]; simp
  have := (Finset.sum_eq_zero_iff_of_nonneg fun d _ => sq_nonneg (x d)).1 h3 d (Finset.mem_univ d)
  simpa using this

/-- The sum over the orders of the products of two rows. -/
private theorem kernel_rot (sph : SphHarm) (hc : sph.Conj) (l M : ℕ) (h : sph.Addition l)
    (hM : 2 * l + 1 ≤ M) {R : Matrix (Fin 3) (Fin 3) ℝ} (hR : R * Rᵀ = 1) (x y : Fin 3 → ℝ)
    (hx : x ≠ 0 ∨ l = 0) (hy : y ≠ 0 ∨ l = 0) :
    ∑ m : Fin M, sphericalRow sph l m (rot3 R x) * sphericalRow sph l m (rot3 R y)
      = ∑ m : Fin M, sphericalRow sph l m x * sphericalRow sph l m y := by
  have e : ∀ u v, ∑ m : Fin M, sphericalRow sph l m u * sphericalRow sph l m v
      = ∑ i ∈ Finset.range M, sphericalRow sph l i u * sphericalRow sph l i v := fun u v =>
    (Finset.sum_range fun i => sphericalRow sph l i u * sphericalRow sph l i v).symm
  rw [e, e]
  by_cases hl : l = 0
  · subst hl
    have k : ∀ u v : Fin 3 → ℝ, 4 * Real.pi *
        ∑ i ∈ Finset.range M, sphericalRow sph 0 i u * sphericalRow sph 0 i v = 1 := by
      intro u v
      have e0 : ∑ i ∈ Finset.range M, sphericalRow sph 0 i u * sphericalRow sph 0 i v
          = ∑ i ∈ Finset.range (2 * 0 + 1),
            batchSphHarmReal sph 0 (cartesianToSpherical u).theta (cartesianToSpherical u).phi i
            * batchSphHarmReal sph 0 (cartesianToSpherical v).theta (cartesianToSpherical v).phi i := by
        rw [← Finset.sum_subset (Finset.range_subset_range.2 hM)
          (f := fun i => sphericalRow sph 0 i u * sphericalRow sph 0 i v)]
        · refine Finset.sum_congr rfl fun i hi => ?_
          unfold sphericalRow
          rw [if_pos (Finset.mem_range.1 hi), if_pos (Finset.mem_range.1 hi)]
        · intro i _ hi
          unfold sphericalRow
          rw [if_neg (by simpa using hi), zero_mul]
      have a := h (cartesianToSpherical u).phi (cartesianToSpherical u).theta
        (cartesianToSpherical v).phi (cartesianToSpherical v).theta
      rw [← realHarmonics_kernel sph hc 0] at a
      rw [e0]
      have a' := a.trans (show _ = ((1 : ℝ) : ℂ) by simp [_root_.Spec.legendre])
      exact_mod_cast a'
    have hp : 4 * Real.pi ≠ 0 := by positivity
    exact mul_left_cancel₀ hp ((k _ _).trans (k _ _).symm)
  · have hx' : x ≠ 0 := hx.resolve_right hl
    have hy' : y ≠ 0 := hy.resolve_right hl
    have hp : 4 * Real.pi ≠ 0 := by positivity
    refine mul_left_cancel₀ hp ?_
    rw [sphericalRow_kernel sph hc l M h hM _ _ (rot3_ne hR x hx') (rot3_ne hR y hy'),
      sphericalRow_kernel sph hc l M h hM _ _ hx' hy', cosAngle_rot hR]

/-- The inner product of the projections of two states, as a double sum with the kernel inside. -/
private theorem projections_inner (sph : SphHarm) {nk : ℕ} {n : Fin 3 → ℕ} (sp : NlSpecies nk n)
    (τ : Fin 3 → ℝ) (g : Idx n → Fin 3 → ℝ) (kpts : Fin nk → Fin 3 → ℝ) (k : Fin nk) (M : ℕ)
    (c c' : Idx n → ℂ) (b : Fin sp.nbeta) :
    ∑ m, conj (projections sph sp τ g kpts k M c b m) * projections sph sp τ g kpts k M c' b m
      = ∑ x, ∑ y, Spec.projector (sp.ang b) (sp.beta k b x) 1 (fun d => kpts k d + g x d) τ
          * conj (Spec.projector (sp.ang b) (sp.beta k b y) 1 (fun d => kpts k d + g y d) τ)
          * conj (c x) * c' y
          * ((∑ m : Fin M, sphericalRow sph (sp.ang b) m (fun d => kpts k d + g x d)
            * sphericalRow sph (sp.ang b) m (fun d => kpts k d + g y d) : ℝ) : ℂ) := by
  unfold projections Spec.overlap
  simp only [map_sum, Finset.sum_mul_sum]
  rw [Finset.sum_comm]
  refine Finset.sum_congr rfl fun x _ => ?_
  rw [Finset.sum_comm]
  refine Finset.sum_congr rfl fun y _ => ?_
  push_cast
  rw [Finset.mul_sum]
  refine Finset.sum_congr rfl fun m _ => ?_
  unfold Spec.projector
  simp only [map_mul, Complex.conj_conj, Complex.conj_ofReal, Complex.ofReal_one, mul_one]
  ring

private theorem separable_diag {nb M : ℕ} (vol : ℝ) (lam : Fin nb → ℝ) (pa pb pa' pb' : Fin nb → Fin M → ℂ)
    (h : ∀ b, ∑ m, conj (pa' b m) * pb' b m = ∑ m, conj (pa b m) * pb b m) :
    Spec.separable vol (Matrix.diagonal lam) pa' pb' = Spec.separable vol (Matrix.diagonal lam) pa pb := by
  unfold Spec.separable
  congr 1
  refine Finset.sum_congr rfl fun i _ => Finset.sum_congr rfl fun j _ => ?_
  by_cases hij : i = j
  · subst hij
    rw [h]
  · rw [Matrix.diagonal_apply_ne _ hij]
    simp

private theorem le_lmax {na nk : ℕ} {n : Fin 3 → ℕ} (sp : Fin na → NlSpecies nk n) (a : Fin na)
    (b : Fin (sp a).nbeta) : (sp a).ang b ≤ nlLMax sp := by
  unfold nlLMax
  refine le_trans ?_ (Finset.le_sup (f := fun a => Finset.univ.sup (sp a).ang) (Finset.mem_univ a))
  exact Finset.le_sup (f := (sp a).ang) (Finset.mem_univ b)

private theorem projector_rot {R : Matrix (Fin 3) (Fin 3) ℝ} (hR : R * Rᵀ = 1) (l : ℕ) (beta Y : ℝ)
    (q τ : Fin 3 → ℝ) : Spec.projector l beta Y (rot3 R q) (-(rot3 R τ)) = Spec.projector l beta Y q (-τ) := by
  unfold Spec.projector Spec.dot
  simp only [Pi.neg_apply, mul_neg, Finset.sum_neg_distrib, rot3_dot hR]

/-- C82: rotating or reflecting atoms, reciprocal lattice and k points together does not change the matrix
of the nonlocal pseudopotential, for every D matrix, angular momenta and coefficients, provided that the
projectors with angular momentum above zero have radial transforms that vanish at `k + G = 0` (or that no
such vector is on the grid).  Missing: transforms that do not vanish there, where the statement fails
(`nonlocal_rotation_wrong`). -/
theorem nonlocal_rotated_partial (eigh : Eigh) (sph : SphHarm) (hc : sph.Conj) {na ns nk nb : ℕ}
    {n : Fin 3 → ℕ} (sp : Fin na → NlSpecies nk n) (hadd : ∀ a b, sph.Addition ((sp a).ang b))
    (pos : Fin na → Fin 3 → ℝ) (g : Idx n → Fin 3 → ℝ) (kpts : Fin nk → Fin 3 → ℝ)
    (h0 : ∀ a b k x, (∀ d, kpts k d + g x d = 0) → (sp a).ang b = 0 ∨ (sp a).beta k b x = 0)
    (R : Matrix (Fin 3) (Fin 3) ℝ) (hR : R * Rᵀ = 1) (c : Coef ns nk nb n) (vol : ℝ) :
    hamiltonianNonlocal c (nlPsiAll eigh sph sp (fun a => rot3 R (pos a)) (fun x => rot3 R (g x))
        (fun k => rot3 R (kpts k))) vol
      = hamiltonianNonlocal c (nlPsiAll eigh sph sp pos g kpts) vol := by
  funext s k i j
  rw [nonlocal_actual, nonlocal_actual]
  refine Finset.sum_congr rfl fun a _ => separable_diag vol _ _ _ _ _ fun b => ?_
  rw [projections_inner, projections_inner]
  refine Finset.sum_congr rfl fun x _ => Finset.sum_congr rfl fun y _ => ?_
  have eq : ∀ z : Idx n, (fun d => rot3 R (kpts k) d + rot3 R (g z) d) = rot3 R (fun d => kpts k d + g z d) :=
    fun z => funext fun d => rot3_add R _ _ d
  rw [eq, eq, projector_rot hR, projector_rot hR]
  have hz : ∀ z, ((fun d => kpts k d + g z d) ≠ 0 ∨ (sp a).ang b = 0) ∨ (sp a).beta k b z = 0 := by
    intro z
    by_cases hz : (fun d => kpts k d + g z d) = 0
    · rcases h0 a b k z (fun d => congrFun hz d) with h | h
      · exact .inl (.inr h)
      · exact .inr h
    · exact .inl (.inl hz)
  have hp : ∀ q τ, Spec.projector ((sp a).ang b) 0 1 q τ = 0 := by
    intro q τ
    unfold Spec.projector
    simp
  rcases hz x with hx | hx
  · rcases hz y with hy | hy
    · rw [kernel_rot sph hc _ _ (hadd a b) (by have := le_lmax sp a b; omega) hR _ _ hx hy]
    · rw [hy, hp]
      simp
  · rw [hx, hp]
    simp

private theorem row_zero (sph : SphHarm) (l i : ℕ) :
    sphericalRow sph l i 0 = sphericalRow sph l i ![1, 0, 0] := by
  have h1 : (cartesianToSpherical 0).theta = (cartesianToSpherical ![1, 0, 0]).theta := by
    unfold cartesianToSpherical
    have e1 : Complex.arg ⟨(0 : Fin 3 → ℝ) 0, (0 : Fin 3 → ℝ) 1⟩ = 0 := Complex.arg_zero
    have e2 : Complex.arg ⟨(![1, 0, 0] : Fin 3 → ℝ) 0, (![1, 0, 0] : Fin 3 → ℝ) 1⟩ = 0 := Complex.arg_one
    simp only [e1, e2]
  have h2 : (cartesianToSpherical 0).phi = (cartesianToSpherical ![1, 0, 0]).phi := by
    unfold cartesianToSpherical
    simp
  unfold sphericalRow
  rw [h1, h2]

/-- One atom at the origin with one projector of angular momentum one whose transform is one everywhere. -/
private def pSpecies : NlSpecies 1 grid2 := ⟨1, fun _ => 1, 1, fun _ _ _ => 1⟩

private theorem pSpecies_value (eigh : Eigh) (sph : SphHarm) (hc : sph.Conj) (h : sph.Addition 1)
    (g : Idx grid2 → Fin 3 → ℝ) (h0 : g (pt2 false) = 0) (h1 : g (pt2 true) ≠ 0) :
    hamiltonianNonlocal (fun _ _ _ _ => 1 : Coef 1 1 1 grid2)
        (nlPsiAll eigh sph (fun _ : Fin 1 => pSpecies) (fun _ _ => 0) g (fun _ _ => 0)) 1 0 0 0 0
      = ((24 * Real.pi * (1 + _root_.Spec.cosAngle ![1, 0, 0] (g (pt2 true))) : ℝ) : ℂ) := by
  have hx : (![1, 0, 0] : Fin 3 → ℝ) ≠ 0 := by
    intro h
    have := congrFun h 0
    simp at this
  have hlam : (Matrix.diagonal fun b => |eigh.vals (symmetrize pSpecies.dmat) b|) = 1 := by
    have key : ∀ D : Matrix (Fin 1) (Fin 1) ℝ, D = 1 →
        (Matrix.diagonal fun b => |eigh.vals (symmetrize D) b|) = 1 := by
      rintro D rfl
      have : (1 : Matrix (Fin 1) (Fin 1) ℝ) = Matrix.diagonal (fun _ : Fin 1 => (1 : ℝ)) :=
        Matrix.diagonal_one.symm
      rw [this, vals_diagonal eigh _ monotone_const]
      simp
    exact key _ rfl
  have hM : nlLMax (fun _ : Fin 1 => pSpecies) = 1 := by
    unfold nlLMax pSpecies
    simp
  rw [nonlocal_actual, Fin.sum_univ_one, hlam, hM]
  have hsep : ∀ pa : Fin 1 → Fin (2 * 1 + 1) → ℂ, Spec.separable 1 1 pa pa
      = ∑ m, conj (pa 0 m) * pa 0 m := by
    intro pa
    unfold Spec.separable
    rw [Fin.sum_univ_one, Fin.sum_univ_one, Matrix.one_apply_eq]
    simp
  refine (hsep _).trans ?_
  refine (projections_inner sph pSpecies _ g (fun _ _ => 0) 0 (2 * 1 + 1) _ _ (0 : Fin 1)).trans ?_
  have hw : ∀ q : Fin 3 → ℝ, Spec.projector (pSpecies.ang (0 : Fin 1)) (pSpecies.beta 0 (0 : Fin 1) (pt2 false)) 1 q
      (-fun _ => (0 : ℝ)) = -(4 * (Real.pi : ℂ) * Complex.I) := by
    intro q
    unfold Spec.projector Spec.dot pSpecies
    simp
  have hw' : ∀ q : Fin 3 → ℝ, Spec.projector (pSpecies.ang (0 : Fin 1)) (pSpecies.beta 0 (0 : Fin 1) (pt2 true)) 1 q
      (-fun _ => (0 : ℝ)) = -(4 * (Real.pi : ℂ) * Complex.I) := hw
  have hk : ∀ u v : Fin 3 → ℝ, u ≠ 0 → v ≠ 0 → 4 * Real.pi * ∑ m : Fin (2 * 1 + 1), sphericalRow sph 1 m u *
      sphericalRow sph 1 m v = 3 * _root_.Spec.cosAngle u v := by
    intro u v hu hv
    have k := sphericalRow_kernel sph hc 1 3 h (by norm_num) u v hu hv
    rw [Finset.sum_range] at k
    rw [k]
    simp only [_root_.Spec.legendre]
    norm_num
  have e0 : (fun d => (0 : ℝ) + g (pt2 false) d) = 0 := by
    rw [h0]
    funext d
    simp
  have e1 : (fun d => (0 : ℝ) + g (pt2 true) d) = g (pt2 true) := by
    funext d
    simp
  have c00 : _root_.Spec.cosAngle ![1, 0, 0] ![1, 0, 0] = 1 := by
    simp [_root_.Spec.cosAngle, Fin.sum_univ_three]
  have c11 : _root_.Spec.cosAngle (g (pt2 true)) (g (pt2 true)) = 1 := by
    unfold _root_.Spec.cosAngle
    have hp : 0 < ∑ d, g (pt2 true) d * g (pt2 true) d := by
      refine lt_of_le_of_ne (Finset.sum_nonneg fun d _ => mul_self_nonneg _) fun e => h1 ?_
      funext d
      have := (Finset.sum_eq_zero_iff_of_nonneg fun d _ => mul_self_nonneg (g (pt2 true) d)).1 e.symm d
        (Finset.mem_univ d)
      simpa using this
    rw [Real.mul_self_sqrt hp.le, div_self hp.ne']
  have csym : _root_.Spec.cosAngle (g (pt2 true)) ![1, 0, 0] = _root_.Spec.cosAngle ![1, 0, 0] (g (pt2 true)) := by
    unfold _root_.Spec.cosAngle
    rw [mul_comm (Real.sqrt _)]
    congr 1
    exact Finset.sum_congr rfl fun d _ => mul_comm _ _
  simp only [sum_grid2, hw, hw', e0, e1]
  have hrow : ∀ v : Fin 3 → ℝ, ∑ m : Fin (2 * 1 + 1), sphericalRow sph 1 m 0 * sphericalRow sph 1 m v
      = ∑ m : Fin (2 * 1 + 1), sphericalRow sph 1 m ![1, 0, 0] * sphericalRow sph 1 m v := fun v =>
    Finset.sum_congr rfl fun m _ => by rw [row_zero]
  have hrow' : ∀ v : Fin 3 → ℝ, ∑ m : Fin (2 * 1 + 1), sphericalRow sph 1 m v * sphericalRow sph 1 m 0
      = ∑ m : Fin (2 * 1 + 1), sphericalRow sph 1 m v * sphericalRow sph 1 m ![1, 0, 0] := fun v =>
    Finset.sum_congr rfl fun m _ => by rw [row_zero]
  have hang : pSpecies.ang (0 : Fin 1) = 1 := rfl
  rw [hang, hrow, hrow, hrow', hrow']
  have k00 := hk _ _ hx hx
  have k01 := hk _ _ hx h1
  have k10 := hk _ _ h1 hx
  have k11 := hk _ _ h1 h1
  rw [c00] at k00
  rw [csym] at k10
  rw [c11] at k11
  generalize (∑ m : Fin (2 * 1 + 1), sphericalRow sph 1 m ![1, 0, 0] * sphericalRow sph 1 m ![1, 0, 0]) = a at *
  generalize (∑ m : Fin (2 * 1 + 1), sphericalRow sph 1 m ![1, 0, 0] * sphericalRow sph 1 m (g (pt2 true))) = b at *
  generalize (∑ m : Fin (2 * 1 + 1), sphericalRow sph 1 m (g (pt2 true)) * sphericalRow sph 1 m ![1, 0, 0]) = c at *
  generalize (∑ m : Fin (2 * 1 + 1), sphericalRow sph 1 m (g (pt2 true)) * sphericalRow sph 1 m (g (pt2 true))) = d at *
  generalize _root_.Spec.cosAngle ![1, 0, 0] (g (pt2 true)) = z at *
  have hfin : 16 * Real.pi ^ 2 * (a + b + (c + d)) = 24 * Real.pi * (1 + z) := by
    linear_combination 4 * Real.pi * (k00 + k01 + k10 + k11)
  rw [← hfin]
  simp only [map_neg, map_mul, Complex.conj_I, Complex.conj_ofReal, map_one]
  rw [show (starRingEnd ℂ) 4 = 4 from Complex.conj_ofNat 4]
  push_cast
  linear_combination (-(16 * (Real.pi : ℂ) ^ 2 * ((a : ℂ) + b + (c + d)))) * Complex.I_sq

private theorem gtrue_eq : gVectors 1 grid2 (pt2 true) = ![-(2 * Real.pi), 0, 0] := by
  have h : reciprocalVectors 1 = (2 * Real.pi) • (1 : Matrix (Fin 3) (Fin 3) ℝ) := by
    unfold reciprocalVectors
    rw [inv_one, Matrix.transpose_one]
  funext d
  rw [gVectors_apply, Fin.sum_univ_three, h]
  have h0 : sfreq (grid2 0) (pt2 true 0) = -1 := by decide
  have h1 : sfreq (grid2 1) (pt2 true 1) = 0 := by decide
  have h2 : sfreq (grid2 2) (pt2 true 2) = 0 := by decide
  rw [h0, h1, h2]
  fin_cases d <;> simp

private theorem gfalse_eq : gVectors 1 grid2 (pt2 false) = 0 := by
  funext d
  rw [gVectors_apply]
  refine Finset.sum_eq_zero fun i _ => ?_
  have h : sfreq (grid2 i) (pt2 false i) = 0 := by fin_cases i <;> decide
  rw [h]
  simp

/-- C82: without that condition the statement is false: a quarter turn of the axes changes the nonlocal
matrix of one atom at the origin with one projector of angular momentum one whose transform does not
vanish at the origin, because the zero vector is given the direction of the `x` axis whatever the axes. -/
theorem nonlocal_rotation_wrong (eigh : Eigh) (sph : SphHarm) (hc : sph.Conj) (h : sph.Addition 1) :
    ∃ (sp : NlSpecies 1 grid2) (R : Matrix (Fin 3) (Fin 3) ℝ) (c : Coef 1 1 1 grid2), R * Rᵀ = 1 ∧
      hamiltonianNonlocal c (nlPsiAll eigh sph (fun _ : Fin 1 => sp) (fun _ => rot3 R 0)
          (fun x => rot3 R (gVectors 1 grid2 x)) (fun _ => rot3 R 0)) 1
        ≠ hamiltonianNonlocal c (nlPsiAll eigh sph (fun _ : Fin 1 => sp) (fun _ => 0)
          (gVectors 1 grid2) (fun _ => 0)) 1 := by
  refine ⟨pSpecies, !![0, 1, 0; -1, 0, 0; 0, 0, 1], fun _ _ _ _ => 1, ?_, fun e => ?_⟩
  · ext i j
    fin_cases i <;> fin_cases j <;> simp [Matrix.mul_apply, Fin.sum_univ_three]
  have hr0 : rot3 !![0, 1, 0; -1, 0, 0; 0, 0, 1] 0 = fun _ => 0 := by
    funext d
    simp [rot3]
  have hgt : rot3 !![0, 1, 0; -1, 0, 0; 0, 0, 1] (gVectors 1 grid2 (pt2 true)) = ![0, -(2 * Real.pi), 0] := by
    rw [gtrue_eq]
    funext d
    fin_cases d <;> simp [rot3, Fin.sum_univ_three]
  have hpi := Real.pi_pos
  have v1 := pSpecies_value eigh sph hc h (fun x => rot3 !![0, 1, 0; -1, 0, 0; 0, 0, 1] (gVectors 1 grid2 x))
    (by rw [gfalse_eq, hr0]; rfl)
    (by
      rw [hgt]
      intro h
      have := congrFun h 1
      simp at this)
  have v2 := pSpecies_value eigh sph hc h (gVectors 1 grid2) gfalse_eq
    (by
      rw [gtrue_eq]
      intro h
      have := congrFun h 0
      simp at this)
  have e' := congrFun (congrFun (congrFun (congrFun e 0) 0) 0) 0
  rw [hr0] at e'
  have e2 := v1.symm.trans (e'.trans v2)
  have e3 := Complex.ofReal_injective e2
  rw [hgt, gtrue_eq] at e3
  have c1 : _root_.Spec.cosAngle ![1, 0, 0] ![0, -(2 * Real.pi), 0] = 0 := by
    simp [_root_.Spec.cosAngle, Fin.sum_univ_three]
  have c2 : _root_.Spec.cosAngle ![1, 0, 0] ![-(2 * Real.pi), 0, 0] = -1 := by
    have : Real.sqrt (2 * Real.pi * (2 * Real.pi)) = 2 * Real.pi := Real.sqrt_mul_self (by positivity)
    simp [_root_.Spec.cosAngle, Fin.sum_univ_three, this]
  rw [c1, c2] at e3
  nlinarith

/-- Hypotheses met: an atom off the origin with projectors of angular momentum zero and one, the latter
with a transform that vanishes at the origin. -/
example (eigh : Eigh) (R : Matrix (Fin 3) (Fin 3) ℝ) (hR : R * Rᵀ = 1) (D : Matrix (Fin 2) (Fin 2) ℝ)
    (c : Coef 1 1 1 grid2) (p : Fin 3 → ℝ) :
    let sp : Fin 1 → NlSpecies 1 grid2 := fun _ =>
      ⟨2, fun b => b.val, D, fun _ b x => if b = 0 ∨ x = pt2 true then 1 else 0⟩
    hamiltonianNonlocal c (nlPsiAll eigh lowHarmonics sp (fun _ => rot3 R p)
        (fun x => rot3 R (gVectors 1 grid2 x)) (fun _ => rot3 R 0)) 1
      = hamiltonianNonlocal c (nlPsiAll eigh lowHarmonics sp (fun _ => p) (gVectors 1 grid2) (fun _ => 0)) 1 := by
  intro sp
  refine nonlocal_rotated_partial eigh lowHarmonics lowHarmonics_contracts.1 sp ?_ (fun _ => p) _ (fun _ => 0) ?_ R hR c 1
  · intro a b
    change Fin 2 at b
    show lowHarmonics.Addition b.val
    fin_cases b
    · exact lowHarmonics_contracts.2.1
    · exact lowHarmonics_contracts.2.2
  · intro a b k x hx
    change Fin 2 at b
    show b.val = 0 ∨ (if b = 0 ∨ x = pt2 true then (1 : ℝ) else 0) = 0
    by_cases hb : b = 0
    · left
      rw [hb]
      rfl
    · right
      have hxt : x ≠ pt2 true := by
        rintro rfl
        have := hx 0
        rw [gtrue_eq] at this
        simp at this
      rw [if_neg (by simp [hb, hxt])]

end Jrystal
