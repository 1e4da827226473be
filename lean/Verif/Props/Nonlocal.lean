import Verif.Lemmas.Pseudo
import Verif.Lemmas.Xc

/- Property theorems for C34 and C61 (nonlocal pseudopotential). -/
namespace Jrystal
open scoped BigOperators ComplexConjugate
open Matrix

/-! ### C34: the separable operator -/

/-- The projections `⟨β_bm|c⟩` of a plane-wave expansion `c` at k point `k` onto the projectors of an atom
centred at `τ`. -/
noncomputable def projections (sph : SphHarm) {nk : ℕ} {n : Fin 3 → ℕ} (sp : NlSpecies nk n)
    (τ : Fin 3 → ℝ) (g : Idx n → Fin 3 → ℝ) (kpts : Fin nk → Fin 3 → ℝ) (k : Fin nk) (M : ℕ)
    (c : Idx n → ℂ) : Fin sp.nbeta → Fin M → ℂ :=
  fun b m => Spec.overlap (fun x => Spec.projector (sp.ang b) (sp.beta k b x)
    (sphericalRow sph (sp.ang b) m (fun d => kpts k d + g x d)) (fun d => kpts k d + g x d) τ) c

private theorem projector_conj (l : ℕ) (beta Y : ℝ) (q τ : Fin 3 → ℝ) :
    conj (Spec.projector l beta Y q (-τ)) =
      Complex.I ^ l * ((Y : ℂ) * (beta : ℂ) * Complex.exp (-(Complex.I * ((∑ d, q d * τ d : ℝ) : ℂ))) * 4 *
        (Real.pi : ℂ)) := by
  unfold Spec.projector Spec.dot
  simp only [map_mul, map_pow, map_neg, Complex.conj_I, neg_neg, Complex.conj_ofReal, ← Complex.exp_conj,
    Pi.neg_apply, mul_neg, Finset.sum_neg_distrib, Complex.ofReal_neg]
  rw [show (starRingEnd ℂ) 4 = 4 from Complex.conj_ofNat 4]
  ring_nf

/-- The sum over the grid that enters the code's inner products, without phases and eigenvectors. -/
private noncomputable def rawSum (sph : SphHarm) {nk : ℕ} {n : Fin 3 → ℕ} (sp : NlSpecies nk n)
    (pos : Fin 3 → ℝ) (g : Idx n → Fin 3 → ℝ) (kpts : Fin nk → Fin 3 → ℝ) (k : Fin nk)
    (c : Idx n → ℂ) (b2 : Fin sp.nbeta) (m : ℕ) : ℂ :=
  ∑ x, (sphericalRow sph (sp.ang b2) m (fun d => kpts k d + g x d) : ℂ) * (sp.beta k b2 x : ℂ) *
    Complex.exp (-(Complex.I * ((∑ d, (kpts k d + g x d) * pos d : ℝ) : ℂ))) * 4 * (Real.pi : ℂ) * c x

private theorem code_sum (eigh : Eigh) (sph : SphHarm) {nk : ℕ} {n : Fin 3 → ℕ} (sp : NlSpecies nk n)
    (pos : Fin 3 → ℝ) (g : Idx n → Fin 3 → ℝ) (kpts : Fin nk → Fin 3 → ℝ) (k : Fin nk)
    (c : Idx n → ℂ) (b1 : Fin sp.nbeta) (m : ℕ) :
    ∑ x, c x * nlPsi eigh sph sp pos g kpts k b1 m x
      = Complex.I ^ sp.ang b1 * ∑ b2, ((eigh.vecs (symmetrize sp.dmat) b1 b2 : ℝ) : ℂ) *
          (csqrt (eigh.vals (symmetrize sp.dmat) b2) * rawSum sph sp pos g kpts k c b2 m) := by
  unfold nlPsi rawSum
  simp only [Finset.mul_sum, Finset.sum_mul]
  rw [Finset.sum_comm]
  refine Finset.sum_congr rfl fun b2 _ => Finset.sum_congr rfl fun x _ => ?_
  ring

private theorem projections_neg (sph : SphHarm) {nk : ℕ} {n : Fin 3 → ℕ} (sp : NlSpecies nk n)
    (pos : Fin 3 → ℝ) (g : Idx n → Fin 3 → ℝ) (kpts : Fin nk → Fin 3 → ℝ) (k : Fin nk) (M : ℕ)
    (c : Idx n → ℂ) (b2 : Fin sp.nbeta) (m : Fin M) :
    projections sph sp (-pos) g kpts k M c b2 m
      = Complex.I ^ sp.ang b2 * rawSum sph sp pos g kpts k c b2 m := by
  unfold projections Spec.overlap rawSum
  rw [Finset.mul_sum]
  refine Finset.sum_congr rfl fun x _ => ?_
  rw [projector_conj]
  ring

/-- C34: what the code computes, for every D matrix, projector array, angular momenta, k points, cell and
coefficients: each atom contributes the separable operator with the D matrix replaced by the diagonal
matrix of the absolute values of its ascending eigenvalues, centred at minus the atom's position. -/
theorem nonlocal_actual (eigh : Eigh) (sph : SphHarm) {na ns nk nb : ℕ} {n : Fin 3 → ℕ}
    (sp : Fin na → NlSpecies nk n) (pos : Fin na → Fin 3 → ℝ) (g : Idx n → Fin 3 → ℝ)
    (kpts : Fin nk → Fin 3 → ℝ) (c : Coef ns nk nb n) (vol : ℝ) (s : Fin ns) (k : Fin nk) (i j : Fin nb) :
    hamiltonianNonlocal c (nlPsiAll eigh sph sp pos g kpts) vol s k i j
      = ∑ a, Spec.separable vol
          (Matrix.diagonal fun b => |eigh.vals (symmetrize (sp a).dmat) b|)
          (projections sph (sp a) (-pos a) g kpts k (2 * nlLMax sp + 1) (c s k i))
          (projections sph (sp a) (-pos a) g kpts k (2 * nlLMax sp + 1) (c s k j)) := by
  unfold hamiltonianNonlocal Spec.separable
  simp only
  rw [← Finset.sum_div, Fintype.sum_sigma]
  congr 1
  refine Finset.sum_congr rfl fun a _ => ?_
  simp only [nlPsiAll, code_sum]
  rw [Finset.sum_comm]
  simp only [orth_mix (eigh.vecs (symmetrize (sp a).dmat)) (eigh.orth _ (symmetrize_isSymm _))
      (fun b1 => Complex.I ^ (sp a).ang b1) (fun b1 => conj_I_pow_mul _)]
  rw [Finset.sum_comm]
  refine Finset.sum_congr rfl fun b _ => ?_
  rw [Finset.sum_eq_single b]
  · rw [Matrix.diagonal_apply_eq, Finset.mul_sum]
    refine Finset.sum_congr rfl fun m _ => ?_
    rw [projections_neg, projections_neg, map_mul, map_mul, ← csqrt_norm,
      mul_mul_mul_comm (conj (Complex.I ^ (sp a).ang b)), conj_I_pow_mul, one_mul, mul_mul_mul_comm]
  · intro b' _ hb'
    rw [Matrix.diagonal_apply_ne _ hb'.symm]
    simp
  · simp


/-- C34: the nonlocal matrix is Hermitian, for every projector array and all coefficients. -/
theorem nonlocal_hermitian {ns nk nb M : ℕ} {ι : Type} [Fintype ι] {n : Fin 3 → ℕ}
    (c : Coef ns nk nb n) (psi : Fin nk → ι → Fin M → Idx n → ℂ) (vol : ℝ) (s : Fin ns) (k : Fin nk)
    (i j : Fin nb) :
    hamiltonianNonlocal c psi vol s k j i = conj (hamiltonianNonlocal c psi vol s k i j) := by
  unfold hamiltonianNonlocal
  simp only [map_div₀, map_sum, map_mul, Complex.conj_conj, Complex.conj_ofReal]
  congr 1
  refine Finset.sum_congr rfl fun β _ => Finset.sum_congr rfl fun φ _ => ?_
  ring

/-- C34: the nonlocal matrix has no negative expectation value, whatever the D matrix. -/
theorem nonlocal_nonneg {ns nk nb M : ℕ} {ι : Type} [Fintype ι] {n : Fin 3 → ℕ}
    (c : Coef ns nk nb n) (psi : Fin nk → ι → Fin M → Idx n → ℂ) (vol : ℝ) (hv : 0 < vol) (s : Fin ns)
    (k : Fin nk) (y : Fin nb → ℂ) :
    0 ≤ (∑ i, ∑ j, conj (y i) * hamiltonianNonlocal c psi vol s k i j * y j).re := by
  have h : ∑ i, ∑ j, conj (y i) * hamiltonianNonlocal c psi vol s k i j * y j
      = ((∑ β, ∑ φ, ‖∑ i, y i * ∑ x, c s k i x * psi k β φ x‖ ^ 2 / vol : ℝ) : ℂ) := by
    unfold hamiltonianNonlocal
    simp only
    have h1 : ∀ i j, conj (y i) * ((∑ β, ∑ φ, conj (∑ x, c s k i x * psi k β φ x) *
        ∑ x, c s k j x * psi k β φ x) / (vol : ℂ)) * y j
        = ∑ β, ∑ φ, conj (y i * ∑ x, c s k i x * psi k β φ x) *
          (y j * ∑ x, c s k j x * psi k β φ x) / (vol : ℂ) := by
      intro i j
      rw [Finset.sum_div, Finset.mul_sum, Finset.sum_mul]
      refine Finset.sum_congr rfl fun β _ => ?_
      rw [Finset.sum_div, Finset.mul_sum, Finset.sum_mul]
      refine Finset.sum_congr rfl fun φ _ => ?_
      rw [map_mul]
      ring
    simp only [h1]
    push_cast
    have h2 : ∀ (β : ι) (φ : Fin M), ((‖∑ i, y i * ∑ x, c s k i x * psi k β φ x‖ : ℝ) : ℂ) ^ 2 / (vol : ℂ)
        = ∑ i, ∑ j, conj (y i * ∑ x, c s k i x * psi k β φ x) *
          (y j * ∑ x, c s k j x * psi k β φ x) / (vol : ℂ) := by
      intro β φ
      rw [← Complex.conj_mul', map_sum, Finset.sum_mul_sum, Finset.sum_div]
      exact Finset.sum_congr rfl fun i _ => by rw [Finset.sum_div]
    simp only [h2]
    rw [Finset.sum_congr rfl fun i _ => Finset.sum_comm]
    rw [Finset.sum_comm]
    refine Finset.sum_congr rfl fun β _ => ?_
    rw [Finset.sum_congr rfl fun i _ => Finset.sum_comm]
    rw [Finset.sum_comm]
  rw [h, Complex.ofReal_re]
  positivity

/-- C34: the nonlocal energy is the occupation-weighted trace of the nonlocal matrix; without an occupation
the call raises. -/
theorem energyNonlocal_trace {ns nk nb M : ℕ} {ι : Type} [Fintype ι] {n : Fin 3 → ℕ}
    (c : Coef ns nk nb n) (psi : Fin nk → ι → Fin M → Idx n → ℂ) (vol : ℝ) (occ : Occ ns nk nb) :
    (∃ e, energyNonlocal c psi vol (some occ) = .ok e ∧
      (e : ℂ) = ∑ s, ∑ k, ∑ b, (occ s k b : ℂ) * hamiltonianNonlocal c psi vol s k b b) ∧
    energyNonlocal c psi vol none = .error .typeError := by
  refine ⟨⟨_, rfl, ?_⟩, rfl⟩
  have him : ∀ s k b, conj (hamiltonianNonlocal c psi vol s k b b) = hamiltonianNonlocal c psi vol s k b b :=
    fun s k b => (nonlocal_hermitian c psi vol s k b b).symm
  have h : ∑ s, ∑ k, ∑ b, hamiltonianNonlocal c psi vol s k b b * (occ s k b : ℂ)
      = ∑ s, ∑ k, ∑ b, (occ s k b : ℂ) * hamiltonianNonlocal c psi vol s k b b :=
    Finset.sum_congr rfl fun s _ => Finset.sum_congr rfl fun k _ => Finset.sum_congr rfl fun b _ =>
      mul_comm _ _
  rw [h]
  apply Complex.conj_eq_iff_re.mp
  simp only [map_sum, map_mul, Complex.conj_ofReal, him]

/-- C34: the nonlocal energy is never negative for non-negative occupations, even when every entry of the
D matrices is negative. -/
theorem energyNonlocal_nonneg {ns nk nb M : ℕ} {ι : Type} [Fintype ι] {n : Fin 3 → ℕ}
    (c : Coef ns nk nb n) (psi : Fin nk → ι → Fin M → Idx n → ℂ) (vol : ℝ) (hv : 0 < vol)
    (occ : Occ ns nk nb) (ho : ∀ s k b, 0 ≤ occ s k b) :
    ∃ e, energyNonlocal c psi vol (some occ) = .ok e ∧ 0 ≤ e := by
  obtain ⟨⟨e, he, hs⟩, -⟩ := energyNonlocal_trace c psi vol occ
  refine ⟨e, he, ?_⟩
  have h1 := congrArg Complex.re hs
  simp only [Complex.ofReal_re, Complex.re_sum, Complex.re_ofReal_mul] at h1
  rw [h1]
  refine Finset.sum_nonneg fun s _ => Finset.sum_nonneg fun k _ => Finset.sum_nonneg fun b _ => ?_
  refine mul_nonneg (ho s k b) ?_
  have := nonlocal_nonneg c psi vol hv s k (fun i => if i = b then 1 else 0)
  simpa [apply_ite conj] using this

private theorem separable_phase {nb M : ℕ} (vol : ℝ) (D : Matrix (Fin nb) (Fin nb) ℝ)
    (pa pb pa' pb' : Fin nb → Fin M → ℂ) (u : ℂ) (hu : conj u * u = 1)
    (ha : ∀ i m, pa' i m = u * pa i m) (hb : ∀ i m, pb' i m = u * pb i m) :
    Spec.separable vol D pa' pb' = Spec.separable vol D pa pb := by
  unfold Spec.separable
  congr 1
  refine Finset.sum_congr rfl fun i _ => Finset.sum_congr rfl fun j _ => ?_
  congr 1
  refine Finset.sum_congr rfl fun m _ => ?_
  rw [ha, hb, map_mul, mul_mul_mul_comm, hu, one_mul]

private theorem exp_unit (t : ℝ) :
    conj (Complex.exp (Complex.I * (t : ℂ))) * Complex.exp (Complex.I * (t : ℂ)) = 1 := by
  rw [← Complex.exp_conj, map_mul, Complex.conj_I, Complex.conj_ofReal, ← Complex.exp_add]
  simp

private theorem projections_lattice (sph : SphHarm) {nk : ℕ} {n : Fin 3 → ℕ} (sp : NlSpecies nk n)
    (A : Matrix (Fin 3) (Fin 3) ℝ) (hA : A.det ≠ 0) (τ T : Fin 3 → ℝ) (hT : Spec.IsLatticeVector A T)
    (kpts : Fin nk → Fin 3 → ℝ) (k : Fin nk) (M : ℕ) (c : Idx n → ℂ) (b : Fin sp.nbeta) (m : Fin M) :
    projections sph sp (τ + T) (gVectors A n) kpts k M c b m
      = Complex.exp (Complex.I * ((∑ d, kpts k d * T d : ℝ) : ℂ)) *
        projections sph sp τ (gVectors A n) kpts k M c b m := by
  unfold projections Spec.overlap
  rw [Finset.mul_sum]
  refine Finset.sum_congr rfl fun x _ => ?_
  rw [← mul_assoc]
  congr 1
  unfold Spec.projector
  simp only [map_mul, Complex.conj_ofReal, ← Complex.exp_conj, map_neg, Complex.conj_I, neg_mul, neg_neg]
  rw [mul_comm (Complex.exp _), mul_assoc _ (Complex.exp _) (Complex.exp _), ← Complex.exp_add]
  congr 1
  have hx := exp_lattice A hA n x T hT
  have hd : Spec.dot (fun d => kpts k d + gVectors A n x d) (τ + T)
      = Spec.dot (fun d => kpts k d + gVectors A n x d) τ + ∑ d, kpts k d * T d
        + ∑ d, gVectors A n x d * T d := by
    unfold Spec.dot
    simp only [Pi.add_apply]
    rw [← Finset.sum_add_distrib, ← Finset.sum_add_distrib]
    exact Finset.sum_congr rfl fun d _ => by ring
  rw [hd]
  rw [Complex.exp_neg, inv_eq_one] at hx
  push_cast at hx ⊢
  rw [mul_add, Complex.exp_add, hx, mul_one, mul_add]

/-- C34: for a D matrix that is diagonal with non-negative ascending entries, and atoms whose positions
come in pairs opposite to each other up to lattice vectors (a crystal with an inversion centre at the
origin), the nonlocal matrix is the separable operator of the D matrices centred at the atoms.  Missing:
other D matrices (`nonlocal_dmatrix_iff`) and crystals without that inversion centre
(`nonlocal_position_wrong`), where the code's values are wrong. -/
theorem nonlocal_partial (eigh : Eigh) (sph : SphHarm) {na ns nk nb : ℕ} {n : Fin 3 → ℕ}
    (A : Matrix (Fin 3) (Fin 3) ℝ) (hA : A.det ≠ 0)
    (sp : Fin na → NlSpecies nk n) (pos : Fin na → Fin 3 → ℝ) (kpts : Fin nk → Fin 3 → ℝ)
    (hD : ∀ a, ∃ d, (sp a).dmat = Matrix.diagonal d ∧ Monotone d ∧ ∀ b, 0 ≤ d b)
    (σ : Equiv.Perm (Fin na)) (hs : ∀ a, sp (σ a) = sp a)
    (hpos : ∀ a, Spec.IsLatticeVector A (pos (σ a) + pos a))
    (c : Coef ns nk nb n) (vol : ℝ) (s : Fin ns) (k : Fin nk) (i j : Fin nb) :
    hamiltonianNonlocal c (nlPsiAll eigh sph sp pos (gVectors A n) kpts) vol s k i j
      = ∑ a, Spec.separable vol (sp a).dmat
          (projections sph (sp a) (pos a) (gVectors A n) kpts k (2 * nlLMax sp + 1) (c s k i))
          (projections sph (sp a) (pos a) (gVectors A n) kpts k (2 * nlLMax sp + 1) (c s k j)) := by
  rw [nonlocal_actual]
  have hlam : ∀ a, (Matrix.diagonal fun b => |eigh.vals (symmetrize (sp a).dmat) b|) = (sp a).dmat := by
    intro a
    obtain ⟨d, h1, h2, h3⟩ := hD a
    rw [h1, vals_diagonal eigh d h2]
    congr 1
    funext b
    exact abs_of_nonneg (h3 b)
  simp only [hlam]
  have key : ∀ a, Spec.separable vol (sp a).dmat
      (projections sph (sp a) (-pos (σ a)) (gVectors A n) kpts k (2 * nlLMax sp + 1) (c s k i))
      (projections sph (sp a) (-pos (σ a)) (gVectors A n) kpts k (2 * nlLMax sp + 1) (c s k j))
      = Spec.separable vol (sp a).dmat
      (projections sph (sp a) (pos a) (gVectors A n) kpts k (2 * nlLMax sp + 1) (c s k i))
      (projections sph (sp a) (pos a) (gVectors A n) kpts k (2 * nlLMax sp + 1) (c s k j)) := by
    intro a
    have e : pos a = -pos (σ a) + (pos (σ a) + pos a) := by abel
    conv_rhs => rw [e]
    exact (separable_phase vol _ _ _ _ _ _ (exp_unit _)
      (fun b m => projections_lattice sph (sp a) A hA _ _ (hpos a) kpts k _ _ b m)
      (fun b m => projections_lattice sph (sp a) A hA _ _ (hpos a) kpts k _ _ b m)).symm
  rw [← Equiv.sum_comp σ]
  refine Finset.sum_congr rfl fun a _ => ?_
  rw [← key a]
  rw [hs a]

/-- C34: the nonlocal matrix does not change when atoms move by lattice vectors. -/
theorem nonlocal_lattice (eigh : Eigh) (sph : SphHarm) {na ns nk nb : ℕ} {n : Fin 3 → ℕ}
    (A : Matrix (Fin 3) (Fin 3) ℝ) (hA : A.det ≠ 0) (sp : Fin na → NlSpecies nk n)
    (pos T : Fin na → Fin 3 → ℝ) (hT : ∀ a, Spec.IsLatticeVector A (T a)) (kpts : Fin nk → Fin 3 → ℝ)
    (c : Coef ns nk nb n) (vol : ℝ) :
    hamiltonianNonlocal c (nlPsiAll eigh sph sp (fun a => pos a + T a) (gVectors A n) kpts) vol
      = hamiltonianNonlocal c (nlPsiAll eigh sph sp pos (gVectors A n) kpts) vol := by
  funext s k i j
  rw [nonlocal_actual, nonlocal_actual]
  refine Finset.sum_congr rfl fun a _ => ?_
  have e : -(pos a + T a) = -pos a + -T a := by abel
  have hT' : Spec.IsLatticeVector A (-T a) := by
    obtain ⟨m, hm⟩ := hT a
    refine ⟨fun i => -m i, fun d => ?_⟩
    rw [Pi.neg_apply, hm d, ← Finset.sum_neg_distrib]
    exact Finset.sum_congr rfl fun i _ => by push_cast; ring
  rw [e]
  exact separable_phase vol _ _ _ _ _ _ (exp_unit _)
    (fun b m => projections_lattice sph (sp a) A hA _ _ hT' kpts k _ _ b m)
    (fun b m => projections_lattice sph (sp a) A hA _ _ hT' kpts k _ _ b m)

/-- The value of the first spherical harmonic, `Y_00 = 1/(2√π)`: contract of the library function. -/
def SphHarm.Y00 (sph : SphHarm) : Prop :=
  ∀ p t, sph 0 0 p t = ((1 / (2 * Real.sqrt Real.pi) : ℝ) : ℂ)

/-- One kind of atom with `m` projectors of angular momentum zero. -/
private def sSpecies {nk m : ℕ} {n : Fin 3 → ℕ} (D : Matrix (Fin m) (Fin m) ℝ)
    (beta : Fin nk → Fin m → Idx n → ℝ) : NlSpecies nk n := ⟨m, fun _ => 0, D, beta⟩

private theorem lmax_s {nk m : ℕ} {n : Fin 3 → ℕ} (D : Matrix (Fin m) (Fin m) ℝ)
    (beta : Fin nk → Fin m → Idx n → ℝ) : nlLMax (fun _ : Fin 1 => sSpecies D beta) = 0 := by
  unfold nlLMax sSpecies
  simp

private theorem row_s (sph : SphHarm) (h : sph.Y00) (v : Fin 3 → ℝ) :
    sphericalRow sph 0 0 v = 1 / (2 * Real.sqrt Real.pi) := by
  unfold sphericalRow batchSphHarmReal batchSphHarm
  simp [h _ _]

private theorem y00_pos : 0 < 1 / (2 * Real.sqrt Real.pi) := by
  have := Real.sqrt_pos.mpr Real.pi_pos
  positivity

/-- C34: at the origin, for one atom, the code realises the D matrix for all projectors and coefficients if
and only if the D matrix is diagonal with non-negative entries in ascending order. -/
theorem nonlocal_dmatrix_iff (eigh : Eigh) (sph : SphHarm) (hY : sph.Y00) {m : ℕ}
    (D : Matrix (Fin m) (Fin m) ℝ) :
    (∀ (ns nk nb : ℕ) (n : Fin 3 → ℕ) (ang : Fin m → ℕ) (beta : Fin nk → Fin m → Idx n → ℝ)
        (g : Idx n → Fin 3 → ℝ) (kpts : Fin nk → Fin 3 → ℝ) (c : Coef ns nk nb n) (vol : ℝ) (s : Fin ns)
        (k : Fin nk) (i j : Fin nb),
      hamiltonianNonlocal c
          (nlPsiAll eigh sph (fun _ : Fin 1 => ⟨m, ang, D, beta⟩) (fun _ => 0) g kpts) vol s k i j
        = Spec.separable vol D
          (projections sph ⟨m, ang, D, beta⟩ 0 g kpts k
            (2 * nlLMax (fun _ : Fin 1 => (⟨m, ang, D, beta⟩ : NlSpecies nk n)) + 1) (c s k i))
          (projections sph ⟨m, ang, D, beta⟩ 0 g kpts k
            (2 * nlLMax (fun _ : Fin 1 => (⟨m, ang, D, beta⟩ : NlSpecies nk n)) + 1) (c s k j)))
      ↔ ∃ d : Fin m → ℝ, D = Matrix.diagonal d ∧ Monotone d ∧ ∀ b, 0 ≤ d b := by
  constructor
  · intro h
    have hD : D = Matrix.diagonal fun b => |eigh.vals (symmetrize D) b| := by
      ext i j
      let e : Fin m → Idx (fun _ => m) := fun b _ => b
      have he : ∀ a b, e a = e b → a = b := fun a b hab => congrFun hab 0
      let beta : Fin 1 → Fin m → Idx (fun _ => m) → ℝ := fun _ b x => if x = e b then 1 else 0
      let c : Coef 1 1 m (fun _ => m) := fun _ _ i x => if x = e i then 1 else 0
      have h1 := h 1 1 m (fun _ => m) (fun _ => 0) beta (fun _ _ => 0) (fun _ _ => 0) c 1 0 0 i j
      rw [nonlocal_actual, Fin.sum_univ_one, neg_zero] at h1
      change Spec.separable 1 (Matrix.diagonal fun b => |eigh.vals (symmetrize D) b|)
        (projections sph (sSpecies D beta) 0 _ _ 0 _ _) (projections sph (sSpecies D beta) 0 _ _ 0 _ _)
        = Spec.separable 1 D (projections sph (sSpecies D beta) 0 _ _ 0 _ _)
          (projections sph (sSpecies D beta) 0 _ _ 0 _ _) at h1
      have hp : ∀ (i b : Fin m), projections sph (sSpecies D beta) 0 (fun _ _ => 0) (fun _ _ => 0) 0
          (2 * nlLMax (fun _ : Fin 1 => sSpecies D beta) + 1) (c 0 0 i) b ⟨0, by omega⟩
          = if b = i then ((4 * Real.pi * (1 / (2 * Real.sqrt Real.pi)) : ℝ) : ℂ) else 0 := by
        intro i b
        unfold projections Spec.overlap Spec.projector
        rw [Finset.sum_eq_single (e i)]
        · by_cases hb : b = i
          · subst hb
            simp only [sSpecies, beta, c, if_true, pow_zero, Spec.dot, Pi.zero_apply, mul_zero,
              Finset.sum_const_zero, Complex.ofReal_zero, neg_zero, Complex.exp_zero, mul_one,
              Complex.ofReal_one, row_s sph hY]
            rw [map_mul, Complex.conj_ofReal, map_mul, Complex.conj_ofReal,
              show (starRingEnd ℂ) 4 = 4 from Complex.conj_ofNat 4]
            push_cast
            ring
          · have : e i ≠ e b := fun h => hb (he _ _ h).symm
            simp [sSpecies, beta, c, this, hb]
        · intro x _ hx
          simp [c, hx]
        · simp
      have hsep : ∀ E : Matrix (Fin m) (Fin m) ℝ, Spec.separable 1 E
          (projections sph (sSpecies D beta) 0 (fun _ _ => 0) (fun _ _ => 0) 0
            (2 * nlLMax (fun _ : Fin 1 => sSpecies D beta) + 1) (c 0 0 i))
          (projections sph (sSpecies D beta) 0 (fun _ _ => 0) (fun _ _ => 0) 0
            (2 * nlLMax (fun _ : Fin 1 => sSpecies D beta) + 1) (c 0 0 j))
          = (E i j : ℂ) * ((4 * Real.pi * (1 / (2 * Real.sqrt Real.pi)) : ℝ) : ℂ) ^ 2 := by
        intro E
        unfold Spec.separable
        have hm : ∀ i' j' : Fin m, ∑ q, conj (projections sph (sSpecies D beta) 0 (fun _ _ => 0)
            (fun _ _ => 0) 0 (2 * nlLMax (fun _ : Fin 1 => sSpecies D beta) + 1) (c 0 0 i) i' q) *
            projections sph (sSpecies D beta) 0 (fun _ _ => 0) (fun _ _ => 0) 0
            (2 * nlLMax (fun _ : Fin 1 => sSpecies D beta) + 1) (c 0 0 j) j' q
            = (if i' = i then 1 else 0) * (if j' = j then 1 else 0) *
              ((4 * Real.pi * (1 / (2 * Real.sqrt Real.pi)) : ℝ) : ℂ) ^ 2 := by
          intro i' j'
          rw [Finset.sum_eq_single ⟨0, by omega⟩]
          · rw [hp, hp]
            generalize 4 * Real.pi * (1 / (2 * Real.sqrt Real.pi)) = y
            split <;> split <;> simp [pow_two, Complex.conj_ofReal]
          · intro q _ hq
            exfalso
            apply hq
            apply Fin.ext
            have h0 := lmax_s D beta
            have := q.2
            show (q : ℕ) = 0
            omega
          · simp
        simp only [hm]
        rw [Finset.sum_eq_single i, Finset.sum_eq_single j]
        · simp
        · intro b _ hb; simp [hb]
        · simp
        · intro b _ hb; simp [hb]
        · simp
      have h2 := (hsep _).symm.trans (h1.trans (hsep D))
      have hy : ((4 * Real.pi * (1 / (2 * Real.sqrt Real.pi)) : ℝ) : ℂ) ^ 2 ≠ 0 := by
        have h3 := y00_pos
        have h4 : 0 < 4 * Real.pi * (1 / (2 * Real.sqrt Real.pi)) := by
          have := Real.pi_pos
          positivity
        exact pow_ne_zero _ (by exact_mod_cast h4.ne')
      have h5 := mul_right_cancel₀ hy h2
      exact_mod_cast h5.symm
    have hpsd : ∀ b, 0 ≤ eigh.vals (symmetrize D) b := by
      intro b
      have hs := symmetrize_isSymm D
      have hsym : symmetrize D = D := symmetrize_of_symm D (by
        rw [hD]; exact Matrix.diagonal_transpose _)
      have h1 := eigh.spec _ hs
      have h2 := eigh.orth _ hs
      have h3 : (eigh.vecs (symmetrize D))ᵀ * D * eigh.vecs (symmetrize D)
          = Matrix.diagonal (eigh.vals (symmetrize D)) := by
        rw [hsym] at h1 h2 ⊢
        generalize eigh.vecs D = U at h1 h2 ⊢
        generalize eigh.vals D = lam at h1 ⊢
        calc Uᵀ * D * U = Uᵀ * (U * Matrix.diagonal lam * Uᵀ) * U := by rw [← h1]
          _ = (Uᵀ * U) * Matrix.diagonal lam * (Uᵀ * U) := by simp only [Matrix.mul_assoc]
          _ = Matrix.diagonal lam := by rw [h2, one_mul, mul_one]
      have h5 : ((eigh.vecs (symmetrize D))ᵀ * (Matrix.diagonal fun b => |eigh.vals (symmetrize D) b|) *
          eigh.vecs (symmetrize D)) b b
          = ∑ q, |eigh.vals (symmetrize D) q| * eigh.vecs (symmetrize D) q b ^ 2 := by
        rw [Matrix.mul_apply]
        refine Finset.sum_congr rfl fun q _ => ?_
        rw [Matrix.mul_diagonal, Matrix.transpose_apply]
        ring
      have h6 := congrFun (congrFun h3 b) b
      rw [Matrix.diagonal_apply_eq] at h6
      rw [← h6]
      have h7 : ((eigh.vecs (symmetrize D))ᵀ * D * eigh.vecs (symmetrize D)) b b
          = ((eigh.vecs (symmetrize D))ᵀ * (Matrix.diagonal fun b => |eigh.vals (symmetrize D) b|) *
          eigh.vecs (symmetrize D)) b b := by rw [← hD]
      rw [h7, h5]
      exact Finset.sum_nonneg fun q _ => mul_nonneg (abs_nonneg _) (sq_nonneg _)
    refine ⟨eigh.vals (symmetrize D), ?_, eigh.mono _ (symmetrize_isSymm D), hpsd⟩
    conv_lhs => rw [hD]
    congr 1
    funext b
    exact abs_of_nonneg (hpsd b)
  · rintro ⟨d, rfl, hm, h0⟩ ns nk nb n ang beta g kpts c vol s k i j
    rw [nonlocal_actual, Fin.sum_univ_one, neg_zero]
    simp only
    rw [vals_diagonal eigh d hm]
    congr 2
    funext b
    exact abs_of_nonneg (h0 b)

/-- The D matrix of the pseudopotential shipped for germanium (`pseudopotential` data, in Rydberg, halved by
the loader). -/
noncomputable def germaniumD : Matrix (Fin 2) (Fin 2) ℝ :=
  Matrix.diagonal fun b => if b = 0 then 44.5849915611 / 2 else -22.6924252259 / 2

/-- C34: the D matrix shipped for germanium is not realised: for some projectors and coefficients of an
atom at the origin the code's value differs from the separable operator's. -/
theorem nonlocal_germanium_wrong (eigh : Eigh) (sph : SphHarm) (hY : sph.Y00) :
    ∃ (ns nk nb : ℕ) (n : Fin 3 → ℕ) (ang : Fin 2 → ℕ) (beta : Fin nk → Fin 2 → Idx n → ℝ)
        (g : Idx n → Fin 3 → ℝ) (kpts : Fin nk → Fin 3 → ℝ) (c : Coef ns nk nb n) (vol : ℝ) (s : Fin ns)
        (k : Fin nk) (i j : Fin nb),
      hamiltonianNonlocal c
          (nlPsiAll eigh sph (fun _ : Fin 1 => ⟨2, ang, germaniumD, beta⟩) (fun _ => 0) g kpts) vol s k i j
        ≠ Spec.separable vol germaniumD
          (projections sph ⟨2, ang, germaniumD, beta⟩ 0 g kpts k
            (2 * nlLMax (fun _ : Fin 1 => (⟨2, ang, germaniumD, beta⟩ : NlSpecies nk n)) + 1) (c s k i))
          (projections sph ⟨2, ang, germaniumD, beta⟩ 0 g kpts k
            (2 * nlLMax (fun _ : Fin 1 => (⟨2, ang, germaniumD, beta⟩ : NlSpecies nk n)) + 1) (c s k j)) := by
  by_contra h
  push Not at h
  obtain ⟨d, hd, -, h0⟩ := (nonlocal_dmatrix_iff eigh sph hY germaniumD).mp h
  have h1 := congrFun (congrFun hd 1) 1
  unfold germaniumD at h1
  rw [Matrix.diagonal_apply_eq, Matrix.diagonal_apply_eq, if_neg (by decide)] at h1
  have := h0 1
  rw [← h1] at this
  norm_num at this

private theorem g_true : gVectors 1 grid2 (pt2 true) 0 = -(2 * Real.pi) := by
  rw [gVectors_apply, Fin.sum_univ_three]
  have h : reciprocalVectors 1 = (2 * Real.pi) • (1 : Matrix (Fin 3) (Fin 3) ℝ) := by
    unfold reciprocalVectors
    rw [inv_one, Matrix.transpose_one]
  rw [h]
  have h0 : sfreq (grid2 0) (pt2 true 0) = -1 := by decide
  rw [h0]
  simp

private theorem g_false (d : Fin 3) : gVectors 1 grid2 (pt2 false) d = 0 := by
  rw [gVectors_apply]
  refine Finset.sum_eq_zero fun i _ => ?_
  have h : sfreq (grid2 i) (pt2 false i) = 0 := by fin_cases i <;> decide
  rw [h]
  simp

/-- A quarter of the first cell vector of the unit cube. -/
private noncomputable def quarter : Fin 3 → ℝ := fun d => if d = 0 then 1 / 4 else 0

private theorem dot_quarter (x : Idx grid2) (a : ℝ) :
    Spec.dot (fun d => (0 : ℝ) + gVectors 1 grid2 x d) (a • quarter) = gVectors 1 grid2 x 0 * (a / 4) := by
  unfold Spec.dot
  rw [Fin.sum_univ_three]
  simp only [quarter, Pi.smul_apply, smul_eq_mul, if_true, zero_add]
  rw [if_neg (by decide), if_neg (by decide)]
  ring

private theorem proj_s (sph : SphHarm) (hY : sph.Y00) (a : ℝ) (c : Idx grid2 → ℂ) (M : ℕ) (hM : 0 < M) :
    projections sph (⟨1, fun _ => 0, 1, fun _ _ _ => 1⟩ : NlSpecies 1 grid2) (a • quarter)
      (gVectors 1 grid2) (fun _ _ => 0) 0 M c (0 : Fin 1) ⟨0, hM⟩
      = ((4 * Real.pi * (1 / (2 * Real.sqrt Real.pi)) : ℝ) : ℂ) *
        (c (pt2 false) + Complex.exp (-(a * Real.pi / 2 * Complex.I)) * c (pt2 true)) := by
  unfold projections Spec.overlap Spec.projector
  rw [sum_grid2]
  simp only [dot_quarter]
  simp only [g_true, g_false, pow_zero, row_s sph hY]
  simp only [map_mul, Complex.conj_ofReal, ← Complex.exp_conj, map_neg, Complex.conj_I, map_one]
  rw [show (starRingEnd ℂ) 4 = 4 from Complex.conj_ofNat 4,
    show -(-Complex.I * ((-(2 * Real.pi) * (a / 4) : ℝ) : ℂ)) = -(a * Real.pi / 2 * Complex.I) by
      push_cast; ring]
  push_cast
  simp
  ring

private theorem sep_s (sph : SphHarm) (hY : sph.Y00) (a : ℝ) (c : Idx grid2 → ℂ) :
    Spec.separable 1 1
      (projections sph (⟨1, fun _ => 0, 1, fun _ _ _ => 1⟩ : NlSpecies 1 grid2) (a • quarter)
        (gVectors 1 grid2) (fun _ _ => 0) 0
        (2 * nlLMax (fun _ : Fin 1 => (⟨1, fun _ => 0, 1, fun _ _ _ => 1⟩ : NlSpecies 1 grid2)) + 1) c)
      (projections sph (⟨1, fun _ => 0, 1, fun _ _ _ => 1⟩ : NlSpecies 1 grid2) (a • quarter)
        (gVectors 1 grid2) (fun _ _ => 0) 0
        (2 * nlLMax (fun _ : Fin 1 => (⟨1, fun _ => 0, 1, fun _ _ _ => 1⟩ : NlSpecies 1 grid2)) + 1) c)
      = ((4 * Real.pi * (1 / (2 * Real.sqrt Real.pi)) : ℝ) : ℂ) ^ 2 *
        (‖c (pt2 false) + Complex.exp (-(a * Real.pi / 2 * Complex.I)) * c (pt2 true)‖ : ℂ) ^ 2 := by
  unfold Spec.separable
  change (∑ i : Fin 1, ∑ j : Fin 1, (((1 : Matrix (Fin 1) (Fin 1) ℝ) i j : ℝ) : ℂ) * _) / _ = _
  rw [Fin.sum_univ_one, Fin.sum_univ_one, Finset.sum_eq_single ⟨0, by omega⟩]
  · rw [proj_s sph hY, map_mul, Complex.conj_ofReal, mul_mul_mul_comm, Complex.conj_mul']
    simp [pow_two]
  · intro q _ hq
    exfalso
    apply hq
    apply Fin.ext
    have h0 : nlLMax (fun _ : Fin 1 => (⟨1, fun _ => 0, 1, fun _ _ _ => 1⟩ : NlSpecies 1 grid2)) = 0 :=
      lmax_s (nk := 1) (n := grid2) (1 : Matrix (Fin 1) (Fin 1) ℝ) (fun _ _ _ => 1)
    have := q.2
    show (q : ℕ) = 0
    omega
  · simp

private theorem abs_vals_one (eigh : Eigh) :
    (Matrix.diagonal fun b => |eigh.vals (symmetrize (1 : Matrix (Fin 1) (Fin 1) ℝ)) b|) = 1 := by
  rw [show (1 : Matrix (Fin 1) (Fin 1) ℝ) = Matrix.diagonal fun _ => 1 from Matrix.diagonal_one.symm,
    vals_diagonal eigh _ (fun _ _ _ => le_refl _)]
  simp

private theorem code_s (eigh : Eigh) (sph : SphHarm) (hY : sph.Y00) (a : ℝ) (c : Coef 1 1 1 grid2) :
    hamiltonianNonlocal c (nlPsiAll eigh sph
      (fun _ : Fin 1 => (⟨1, fun _ => 0, 1, fun _ _ _ => 1⟩ : NlSpecies 1 grid2)) (fun _ => a • quarter)
      (gVectors 1 grid2) (fun _ _ => 0)) 1 0 0 0 0
      = ((4 * Real.pi * (1 / (2 * Real.sqrt Real.pi)) : ℝ) : ℂ) ^ 2 *
        (‖c 0 0 0 (pt2 false) + Complex.exp (a * Real.pi / 2 * Complex.I) * c 0 0 0 (pt2 true)‖ : ℂ) ^ 2 := by
  have h := sep_s sph hY (-a) (c 0 0 0)
  rw [nonlocal_actual, Fin.sum_univ_one]
  simp only
  rw [abs_vals_one, ← neg_smul]
  rw [show Complex.exp (a * Real.pi / 2 * Complex.I) = Complex.exp (-(((-a : ℝ) : ℂ) * Real.pi / 2 * Complex.I))
    by congr 1; push_cast; ring]
  exact h

private theorem exp_half_pi : Complex.exp ((1 : ℝ) * Real.pi / 2 * Complex.I) = Complex.I := by
  rw [Complex.ofReal_one, one_mul]
  exact Complex.exp_pi_div_two_mul_I

/-- C34: even with the D matrix equal to one, the projectors of an atom away from the origin are not where
the atom is: on the unit cube with grid `2 × 1 × 1` and one atom at `(1/4, 0, 0)` there is a state with
vanishing nonlocal energy in the code and positive energy of the separable operator. -/
theorem nonlocal_position_wrong (eigh : Eigh) (sph : SphHarm) (hY : sph.Y00) :
    ∃ (pos : Fin 3 → ℝ) (c : Coef 1 1 1 grid2) (v : ℝ),
      hamiltonianNonlocal c (nlPsiAll eigh sph
        (fun _ : Fin 1 => (⟨1, fun _ => 0, 1, fun _ _ _ => 1⟩ : NlSpecies 1 grid2)) (fun _ => pos)
        (gVectors 1 grid2) (fun _ _ => 0)) 1 0 0 0 0 = 0 ∧
      Spec.separable 1 1
        (projections sph (⟨1, fun _ => 0, 1, fun _ _ _ => 1⟩ : NlSpecies 1 grid2) pos (gVectors 1 grid2)
          (fun _ _ => 0) 0 (2 * nlLMax
            (fun _ : Fin 1 => (⟨1, fun _ => 0, 1, fun _ _ _ => 1⟩ : NlSpecies 1 grid2)) + 1) (c 0 0 0))
        (projections sph (⟨1, fun _ => 0, 1, fun _ _ _ => 1⟩ : NlSpecies 1 grid2) pos (gVectors 1 grid2)
          (fun _ _ => 0) 0 (2 * nlLMax
            (fun _ : Fin 1 => (⟨1, fun _ => 0, 1, fun _ _ _ => 1⟩ : NlSpecies 1 grid2)) + 1) (c 0 0 0))
        = (v : ℂ) ∧ 0 < v := by
  refine ⟨(1 : ℝ) • quarter, fun _ _ _ x => if x = pt2 false then 1 else Complex.I,
    (4 * Real.pi * (1 / (2 * Real.sqrt Real.pi))) ^ 2 * 2 ^ 2, ?_, ?_, ?_⟩
  · rw [code_s eigh sph hY, exp_half_pi, if_pos rfl, if_neg pt2_ne.symm, Complex.I_mul_I]
    simp
  · have h := sep_s sph hY 1 (fun x => if x = pt2 false then 1 else Complex.I)
    refine h.trans ?_
    rw [Complex.exp_neg, exp_half_pi, if_pos rfl, if_neg pt2_ne.symm, inv_mul_cancel₀ Complex.I_ne_zero]
    rw [show ‖(1 : ℂ) + 1‖ = 2 by norm_num]
    push_cast
    ring
  · have := y00_pos
    have := Real.pi_pos
    positivity

/-! ### C61: translations -/

/-- Coefficients of the wave functions moved by `t`: `ψ(r - t)` has coefficients `c(G) e^{-i(k+G)·t}`. -/
noncomputable def translateCoef {ns nk nb : ℕ} {n : Fin 3 → ℕ} (g : Idx n → Fin 3 → ℝ)
    (kpts : Fin nk → Fin 3 → ℝ) (t : Fin 3 → ℝ) (c : Coef ns nk nb n) : Coef ns nk nb n :=
  fun s k b x => c s k b x * Complex.exp (-(Complex.I * (Spec.dot (fun d => kpts k d + g x d) t : ℂ)))

private theorem projections_translate (sph : SphHarm) {ns nk nb : ℕ} {n : Fin 3 → ℕ} (sp : NlSpecies nk n)
    (τ t : Fin 3 → ℝ) (g : Idx n → Fin 3 → ℝ) (kpts : Fin nk → Fin 3 → ℝ) (k : Fin nk) (M : ℕ)
    (c : Coef ns nk nb n) (s : Fin ns) (i : Fin nb) :
    projections sph sp (τ + t) g kpts k M (translateCoef g kpts t c s k i)
      = projections sph sp τ g kpts k M (c s k i) := by
  funext b m
  unfold projections Spec.overlap translateCoef
  refine Finset.sum_congr rfl fun x _ => ?_
  unfold Spec.projector
  simp only [map_mul, Complex.conj_ofReal, ← Complex.exp_conj, map_neg, Complex.conj_I, neg_mul, neg_neg]
  have hd : Spec.dot (fun d => kpts k d + g x d) (τ + t)
      = Spec.dot (fun d => kpts k d + g x d) τ + Spec.dot (fun d => kpts k d + g x d) t := by
    unfold Spec.dot
    rw [← Finset.sum_add_distrib]
    exact Finset.sum_congr rfl fun d _ => by rw [Pi.add_apply]; ring
  rw [hd]
  push_cast
  rw [mul_add, Complex.exp_add]
  rw [show ∀ A B C D E : ℂ, A * (B * C) * (D * E) = A * B * D * (C * E) by intros; ring,
    ← Complex.exp_add, add_neg_cancel, Complex.exp_zero, mul_one]

/-- C61: moving all atoms by `t` and all wave functions by `-t` leaves the code's nonlocal matrix unchanged:
the code behaves as if the projectors moved opposite to the atoms. -/
theorem nonlocal_mirror (eigh : Eigh) (sph : SphHarm) {na ns nk nb : ℕ} {n : Fin 3 → ℕ}
    (sp : Fin na → NlSpecies nk n) (pos : Fin na → Fin 3 → ℝ) (g : Idx n → Fin 3 → ℝ)
    (kpts : Fin nk → Fin 3 → ℝ) (c : Coef ns nk nb n) (vol : ℝ) (t : Fin 3 → ℝ) :
    hamiltonianNonlocal (translateCoef g kpts (-t) c)
        (nlPsiAll eigh sph sp (fun a => pos a + t) g kpts) vol
      = hamiltonianNonlocal c (nlPsiAll eigh sph sp pos g kpts) vol := by
  funext s k i j
  rw [nonlocal_actual, nonlocal_actual]
  refine Finset.sum_congr rfl fun a _ => ?_
  rw [show -(pos a + t) = -pos a + -t by abel, projections_translate, projections_translate]

/-- C61: moving all atoms and all wave functions by the same vector `t` leaves the nonlocal matrix
unchanged when `2 t` is a lattice vector.  Missing: every other vector (`nonlocal_translation_wrong`). -/
theorem nonlocal_translation_partial (eigh : Eigh) (sph : SphHarm) {na ns nk nb : ℕ} {n : Fin 3 → ℕ}
    (A : Matrix (Fin 3) (Fin 3) ℝ) (hA : A.det ≠ 0)
    (sp : Fin na → NlSpecies nk n) (pos : Fin na → Fin 3 → ℝ)
    (kpts : Fin nk → Fin 3 → ℝ) (c : Coef ns nk nb n) (vol : ℝ) (t : Fin 3 → ℝ)
    (ht : Spec.IsLatticeVector A (t + t)) :
    hamiltonianNonlocal (translateCoef (gVectors A n) kpts t c)
        (nlPsiAll eigh sph sp (fun a => pos a + t) (gVectors A n) kpts) vol
      = hamiltonianNonlocal c (nlPsiAll eigh sph sp pos (gVectors A n) kpts) vol := by
  have h1 := nonlocal_mirror eigh sph sp pos (gVectors A n) kpts c vol (-t)
  rw [neg_neg] at h1
  rw [← h1]
  have h2 := nonlocal_lattice eigh sph A hA sp (fun a => pos a + -t) (fun _ => t + t) (fun _ => ht) kpts
    (translateCoef (gVectors A n) kpts t c) vol
  rw [← h2]
  congr 2
  funext a
  abel

/-- C61: moving an atom and a wave function by the same vector changes the nonlocal energy: on the unit
cube with grid `2 × 1 × 1`, an atom moved from the origin to `(1/4, 0, 0)` together with its wave function
loses all its nonlocal energy. -/
theorem nonlocal_translation_wrong (eigh : Eigh) (sph : SphHarm) (hY : sph.Y00) :
    ∃ (t : Fin 3 → ℝ) (c : Coef 1 1 1 grid2),
      hamiltonianNonlocal (translateCoef (gVectors 1 grid2) (fun _ _ => 0) t c) (nlPsiAll eigh sph
        (fun _ : Fin 1 => (⟨1, fun _ => 0, 1, fun _ _ _ => 1⟩ : NlSpecies 1 grid2)) (fun _ => 0 + t)
        (gVectors 1 grid2) (fun _ _ => 0)) 1 0 0 0 0
      ≠ hamiltonianNonlocal c (nlPsiAll eigh sph
        (fun _ : Fin 1 => (⟨1, fun _ => 0, 1, fun _ _ _ => 1⟩ : NlSpecies 1 grid2)) (fun _ => 0)
        (gVectors 1 grid2) (fun _ _ => 0)) 1 0 0 0 0 := by
  refine ⟨(1 : ℝ) • quarter, fun _ _ _ _ => 1, ?_⟩
  have h0 := code_s eigh sph hY 0 fun _ _ _ _ => 1
  rw [zero_smul] at h0
  rw [zero_add, code_s eigh sph hY, h0, exp_half_pi]
  unfold translateCoef
  rw [dot_quarter, dot_quarter, g_true, g_false]
  rw [show -(Complex.I * ((-(2 * Real.pi) * (1 / 4) : ℝ) : ℂ)) = ((1 : ℝ) : ℂ) * Real.pi / 2 * Complex.I by
    push_cast; ring, exp_half_pi]
  have h1 := y00_pos
  have h2 := Real.pi_pos
  intro h
  have h3 : ((4 * Real.pi * (1 / (2 * Real.sqrt Real.pi)) : ℝ) : ℂ) ^ 2 ≠ 0 := by
    have : 0 < 4 * Real.pi * (1 / (2 * Real.sqrt Real.pi)) := by positivity
    exact pow_ne_zero _ (by exact_mod_cast this.ne')
  have h4 := mul_left_cancel₀ h3 h
  simp at h4
  norm_num at h4

/-! Non-vacuity. -/

/-- The contract of `eigh` can be met. -/
example : Nonempty Eigh := ⟨someEigh⟩

/-- The contract on `Y_00` is met by a constant function. -/
example : SphHarm.Y00 fun _ _ _ _ => ((1 / (2 * Real.sqrt Real.pi) : ℝ) : ℂ) := fun _ _ => rfl

/-- A crystal meeting the hypotheses of `nonlocal_partial`: two equal atoms at `±(1/8, 1/8, 1/8)` of the
unit cube, with two projectors and D matrix `diag(1, 2)`. -/
example (eigh : Eigh) (sph : SphHarm) (c : Coef 1 1 2 (fun _ => 4)) (s k i j) :
    let spec : NlSpecies 1 (fun _ => 4) := ⟨2, fun b => b, Matrix.diagonal fun b => 1 + (b : ℕ), fun _ _ _ => 1⟩
    hamiltonianNonlocal c (nlPsiAll eigh sph (fun _ : Fin 2 => spec)
      (fun a _ => if a = 0 then 1 / 8 else -1 / 8) (gVectors 1 (fun _ => 4)) fun _ _ => 0) 1 s k i j
      = ∑ a : Fin 2, Spec.separable 1 spec.dmat
          (projections sph spec (fun _ => if a = 0 then 1 / 8 else -1 / 8) (gVectors 1 (fun _ => 4))
            (fun _ _ => 0) k (2 * nlLMax (fun _ : Fin 2 => spec) + 1) (c s k i))
          (projections sph spec (fun _ => if a = 0 then 1 / 8 else -1 / 8) (gVectors 1 (fun _ => 4))
            (fun _ _ => 0) k (2 * nlLMax (fun _ : Fin 2 => spec) + 1) (c s k j)) := by
  intro spec
  refine nonlocal_partial eigh sph 1 (by simp) (fun _ : Fin 2 => spec)
    (fun a _ => if a = 0 then 1 / 8 else -1 / 8) (fun _ _ => 0)
    (fun a => ⟨fun b => 1 + (b : ℕ), rfl, ?_, fun b => by positivity⟩) (Equiv.swap 0 1) (fun _ => rfl)
    (fun a => ⟨0, fun d => ?_⟩) c 1 s k i j
  · intro a b h
    have : (a : ℕ) ≤ (b : ℕ) := h
    have : ((a : ℕ) : ℝ) ≤ ((b : ℕ) : ℝ) := by exact_mod_cast this
    show (1 : ℝ) + ((a : ℕ) : ℝ) ≤ 1 + ((b : ℕ) : ℝ)
    linarith
  · fin_cases a <;> (simp; norm_num)

/-- Half a cell vector meets the hypothesis of `nonlocal_translation_partial`. -/
example : Spec.IsLatticeVector 1 ((fun d => if d = 0 then 1 / 2 else 0 : Fin 3 → ℝ) +
    fun d => if d = 0 then 1 / 2 else 0) :=
  ⟨fun i => if i = 0 then 1 else 0, fun d => by
    rw [Fin.sum_univ_three]
    fin_cases d <;> simp [Matrix.one_apply] <;> norm_num⟩

end Jrystal
