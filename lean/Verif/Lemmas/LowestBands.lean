import Verif.Lemmas.Spectrum

/- Invariant subspaces that lie below their complement carry the lowest eigenvalues (C102). -/
namespace Jrystal
open scoped BigOperators ComplexConjugate
open Matrix

private theorem star_dot_re {a : ℕ} (y : Fin a → ℂ) : (star y ⬝ᵥ y) = ((∑ i, Complex.normSq (y i) : ℝ) : ℂ) := by
  push_cast
  refine Finset.sum_congr rfl fun i _ => ?_
  rw [Complex.normSq_eq_conj_mul_self, Pi.star_apply, RCLike.star_def]

private theorem spectrum_form {N : ℕ} {H V : Matrix (Fin N) (Fin N) ℂ} {lam : Fin N → ℝ}
    (hH : H = V * Matrix.diagonal (fun i => (lam i : ℂ)) * Vᴴ) (y : Fin N → ℂ) :
    star y ⬝ᵥ (H *ᵥ y) = ((∑ i, lam i * Complex.normSq ((Vᴴ *ᵥ y) i) : ℝ) : ℂ) := by
  rw [hH, ← Matrix.mulVec_mulVec, ← Matrix.mulVec_mulVec, Matrix.dotProduct_mulVec]
  have : star y ᵥ* V = star (Vᴴ *ᵥ y) := by rw [Matrix.star_mulVec, Matrix.conjTranspose_conjTranspose]
  rw [this]
  push_cast
  refine Finset.sum_congr rfl fun i _ => ?_
  rw [Matrix.mulVec_diagonal, Complex.normSq_eq_conj_mul_self, Pi.star_apply, RCLike.star_def]
  ring

private theorem unitary_norm {N : ℕ} {V : Matrix (Fin N) (Fin N) ℂ} (hV : V * Vᴴ = 1) (y : Fin N → ℂ) :
    ∑ i, Complex.normSq ((Vᴴ *ᵥ y) i) = ∑ i, Complex.normSq (y i) := by
  have h1 := star_dot_re (Vᴴ *ᵥ y)
  have h2 := star_dot_re y
  rw [Matrix.star_mulVec, Matrix.conjTranspose_conjTranspose, ← Matrix.dotProduct_mulVec, Matrix.mulVec_mulVec, hV,
    Matrix.one_mulVec] at h1
  exact_mod_cast h1.symm.trans h2

/-- If the columns of `C` span an invariant subspace and every vector orthogonal to it has at least the energy of
each eigenvalue of the compression, then the compression has the lowest eigenvalues. -/
theorem spectrum_lowest {N m : ℕ} (hm : m ≤ N) {H : Matrix (Fin N) (Fin N) ℂ} {lam : Fin N → ℝ}
    (hH : Spec.IsSpectrum H lam) {C : Matrix (Fin N) (Fin m) ℂ} (hC : Cᴴ * C = 1)
    (hinv : H * C = C * (Cᴴ * H * C)) {mu : Fin m → ℝ} (hM : Spec.IsSpectrum (Cᴴ * H * C) mu)
    (hlow : ∀ v : Fin N → ℂ, Cᴴ *ᵥ v = 0 → ∀ j, mu j * (star v ⬝ᵥ v).re ≤ (star v ⬝ᵥ (H *ᵥ v)).re) (j : Fin m) :
    mu j = lam (Fin.castLE hm j) := by
  refine le_antisymm ?_ (spectrum_separation hm hH hC hM j)
  have hherm := spectrum_hermitian hH
  obtain ⟨hlam, V, hV, hH⟩ := hH
  obtain ⟨hmu, U, hU, hM⟩ := hM
  have hV' : V * Vᴴ = 1 := Matrix.mem_unitaryGroup_iff.1 hV
  have hV'' : Vᴴ * V = 1 := Matrix.mem_unitaryGroup_iff'.1 hV
  have hU' : U * Uᴴ = 1 := Matrix.mem_unitaryGroup_iff.1 hU
  let W : Matrix (Fin m) (Fin N) ℂ := Uᴴ * Cᴴ * V
  -- a combination of the first `j + 1` eigenvectors without components on the first `j` states of the compression
  let L : (Fin N → ℂ) →ₗ[ℂ] (Fin N → ℂ) :=
    { toFun := fun z i => if h : (i : ℕ) < j then (W *ᵥ z) ⟨i, h.trans j.2⟩ else if (i : ℕ) = j then 0 else z i
      map_add' := fun y z => by
        funext i
        simp only [Matrix.mulVec_add, Pi.add_apply]
        split_ifs <;> simp
      map_smul' := fun c y => by
        funext i
        simp only [Matrix.mulVec_smul, Pi.smul_apply, RingHom.id_apply]
        split_ifs <;> simp }
  have hL : ¬ Function.Injective L := by
    rw [LinearMap.injective_iff_surjective]
    intro hs
    obtain ⟨y, hy⟩ := hs (Pi.single (Fin.castLE hm j) 1)
    have := congrFun hy (Fin.castLE hm j)
    simp [L] at this
  obtain ⟨z, hz, hz0⟩ : ∃ y, L y = 0 ∧ y ≠ 0 := by
    by_contra h
    push Not at h
    exact hL ((injective_iff_map_eq_zero L).2 h)
  have hlo : ∀ i : Fin m, i < j → (W *ᵥ z) i = 0 := by
    intro i hi
    have := congrFun hz (Fin.castLE hm i)
    simp only [L, LinearMap.coe_mk, AddHom.coe_mk] at this
    rw [dif_pos (show ((Fin.castLE hm i : Fin N) : ℕ) < j from hi)] at this
    exact this
  have hhi : ∀ i : Fin N, Fin.castLE hm j < i → z i = 0 := by
    intro i hi
    have hi' : (j : ℕ) < i := hi
    have := congrFun hz i
    simp only [L, LinearMap.coe_mk, AddHom.coe_mk] at this
    rw [dif_neg (not_lt.2 hi'.le), if_neg hi'.ne'] at this
    exact this
  -- the energy of that combination, from above
  set y := V *ᵥ z with hy
  have hVy : Vᴴ *ᵥ y = z := by rw [hy, Matrix.mulVec_mulVec, hV'', Matrix.one_mulVec]
  have e1 := spectrum_form hH y
  have n1 := unitary_norm hV' y
  rw [hVy] at e1 n1
  have b1 : (star y ⬝ᵥ (H *ᵥ y)).re ≤ lam (Fin.castLE hm j) * ∑ i, Complex.normSq (y i) := by
    rw [e1, Complex.ofReal_re, ← n1, Finset.mul_sum]
    refine Finset.sum_le_sum fun i _ => ?_
    by_cases hi : Fin.castLE hm j < i
    · rw [hhi i hi]; simp
    · exact mul_le_mul_of_nonneg_right (hlam (not_lt.1 hi)) (Complex.normSq_nonneg _)
  -- and from below: the part inside and the part outside the subspace
  set p := Cᴴ *ᵥ y with hp
  set v := y - C *ᵥ p with hv
  have hCv : Cᴴ *ᵥ v = 0 := by
    have : Cᴴ *ᵥ (C *ᵥ p) = p := by rw [Matrix.mulVec_mulVec, hC, Matrix.one_mulVec]
    rw [hv, Matrix.mulVec_sub, this, ← hp, sub_self]
  have hyv : y = C *ᵥ p + v := by rw [hv]; abel
  have hcv : star (C *ᵥ p) ⬝ᵥ v = 0 := by
    rw [Matrix.star_mulVec, ← Matrix.dotProduct_mulVec, hCv, dotProduct_zero]
  have hvc : star v ⬝ᵥ (C *ᵥ p) = 0 := by
    have : star (star (C *ᵥ p) ⬝ᵥ v) = star v ⬝ᵥ (C *ᵥ p) := by rw [Matrix.star_dotProduct, star_star]
    rw [← this, hcv, star_zero]
  have hHC : H *ᵥ (C *ᵥ p) = C *ᵥ ((Cᴴ * H * C) *ᵥ p) := by
    rw [Matrix.mulVec_mulVec, hinv, ← Matrix.mulVec_mulVec]
  have hvHc : star v ⬝ᵥ (H *ᵥ (C *ᵥ p)) = 0 := by
    rw [hHC, Matrix.dotProduct_mulVec]
    have : star v ᵥ* C = star (Cᴴ *ᵥ v) := by rw [Matrix.star_mulVec, Matrix.conjTranspose_conjTranspose]
    rw [this, hCv, star_zero, zero_dotProduct]
  have hcHv : star (C *ᵥ p) ⬝ᵥ (H *ᵥ v) = 0 := by
    have : star (star v ⬝ᵥ (H *ᵥ (C *ᵥ p))) = star (C *ᵥ p) ⬝ᵥ (H *ᵥ v) := by
      rw [Matrix.star_dotProduct, star_star, Matrix.star_mulVec, hherm.eq, ← Matrix.dotProduct_mulVec]
    rw [← this, hvHc, star_zero]
  have e2 : star y ⬝ᵥ (H *ᵥ y) = star p ⬝ᵥ ((Cᴴ * H * C) *ᵥ p) + star v ⬝ᵥ (H *ᵥ v) := by
    rw [hyv, star_add, Matrix.mulVec_add, add_dotProduct, dotProduct_add, dotProduct_add, hvHc, hcHv, add_zero, zero_add]
    congr 1
    rw [Matrix.star_mulVec, ← Matrix.dotProduct_mulVec, ← Matrix.mulVec_mulVec, ← Matrix.mulVec_mulVec]
  have e3 : star y ⬝ᵥ y = star p ⬝ᵥ p + star v ⬝ᵥ v := by
    rw [hyv, star_add, add_dotProduct, dotProduct_add, dotProduct_add, hcv, hvc, add_zero, zero_add]
    congr 1
    rw [Matrix.star_mulVec, ← Matrix.dotProduct_mulVec, Matrix.mulVec_mulVec, hC, Matrix.one_mulVec]
  have e4 := spectrum_form hM p
  have n4 := unitary_norm hU' p
  have hWp : Uᴴ *ᵥ p = W *ᵥ z := by
    rw [hp, hy, Matrix.mulVec_mulVec, Matrix.mulVec_mulVec]
  have b2 : mu j * (star p ⬝ᵥ p).re ≤ (star p ⬝ᵥ ((Cᴴ * H * C) *ᵥ p)).re := by
    rw [e4, star_dot_re, Complex.ofReal_re, Complex.ofReal_re, ← n4, Finset.mul_sum, hWp]
    refine Finset.sum_le_sum fun i _ => ?_
    by_cases hi : i < j
    · rw [hlo i hi]; simp
    · exact mul_le_mul_of_nonneg_right (hmu (not_lt.1 hi)) (Complex.normSq_nonneg _)
  have b3 := hlow v hCv j
  have b4 : mu j * (star y ⬝ᵥ y).re ≤ (star y ⬝ᵥ (H *ᵥ y)).re := by
    rw [e2, e3, Complex.add_re, Complex.add_re, mul_add]
    exact add_le_add b2 b3
  rw [star_dot_re, Complex.ofReal_re] at b4
  have hpos : 0 < ∑ i, Complex.normSq (y i) := by
    rw [← n1]
    obtain ⟨i, hi⟩ := Function.ne_iff.1 hz0
    exact Finset.sum_pos' (fun _ _ => Complex.normSq_nonneg _) ⟨i, Finset.mem_univ _, Complex.normSq_pos.2 hi⟩
  exact le_of_mul_le_mul_right (b4.trans b1) hpos

/-- The bands of positive occupation carry the lowest eigenvalues: from the Kohn-Sham equations and aufbau. -/
theorem lowest_of_aufbau {N nb m : ℕ} {F : Matrix (Fin N) (Fin N) ℂ} {lam : Fin N → ℝ}
    (hF : Spec.IsSpectrum F lam) {C : Matrix (Fin N) (Fin nb) ℂ} (hC : Cᴴ * C = 1) (f : Fin nb → ℝ)
    (hks : ∀ b, f b ≠ 0 → ∀ G, (F * C) G b = (C * (Cᴴ * F * C)) G b)
    (hmix : ∀ a b, f a ≠ f b → (Cᴴ * F * C) a b = 0)
    (σ : Fin m → Fin nb) (hσ : Function.Injective σ) (hrange : ∀ b, f b ≠ 0 ↔ ∃ i, σ i = b)
    (hauf : ∀ v : Fin N → ℂ, star v ⬝ᵥ v = 1 → (∀ b, f b ≠ 0 → ∑ G, conj (C G b) * v G = 0) →
      ∀ (y : Fin nb → ℂ) (f₀ : ℝ), star y ⬝ᵥ y = 1 → f₀ ≠ 0 → (∀ a, y a ≠ 0 → f a = f₀) →
        (star y ⬝ᵥ ((Cᴴ * F * C) *ᵥ y)).re ≤ (star v ⬝ᵥ (F *ᵥ v)).re)
    (hm : m ≤ N) {mu : Fin m → ℝ} (hmu : Spec.IsSpectrum ((Cᴴ * F * C).submatrix σ σ) mu) (j : Fin m) :
    mu j = lam (Fin.castLE hm j) := by
  set Hm := Cᴴ * F * C with hHm
  let Cσ : Matrix (Fin N) (Fin m) ℂ := C.submatrix id σ
  have h1 : Cσᴴ * F * Cσ = Hm.submatrix σ σ := by
    ext i k
    simp only [Cσ, hHm, Matrix.mul_apply, Matrix.conjTranspose_apply, Matrix.submatrix_apply, id_eq]
  have h2 : Cσᴴ * Cσ = 1 := by
    ext i k
    have := congrFun (congrFun hC (σ i)) (σ k)
    rw [Matrix.mul_apply, Matrix.one_apply] at this
    rw [Matrix.mul_apply, Matrix.one_apply]
    simp only [Cσ, Matrix.conjTranspose_apply, Matrix.submatrix_apply, id_eq]
    simp only [Matrix.conjTranspose_apply] at this
    rw [this]
    exact if_congr hσ.eq_iff rfl rfl
  have hpos : ∀ i, f (σ i) ≠ 0 := fun i => (hrange _).mpr ⟨i, rfl⟩
  -- sums over the occupied bands
  have hsum : ∀ g : Fin nb → ℂ, (∀ a, f a = 0 → g a = 0) → ∑ a, g a = ∑ i, g (σ i) := by
    intro g hg
    rw [← Finset.sum_image (s := Finset.univ) (g := σ) (f := g) fun i _ k _ h => hσ h]
    refine (Finset.sum_subset (Finset.subset_univ _) fun a _ ha => hg a ?_).symm
    by_contra hfa
    obtain ⟨i, hi⟩ := (hrange a).mp hfa
    exact ha (Finset.mem_image.mpr ⟨i, Finset.mem_univ _, hi⟩)
  have h3 : F * Cσ = Cσ * (Cσᴴ * F * Cσ) := by
    rw [h1]
    ext G i
    have := hks (σ i) (hpos i) G
    have h4 : (F * Cσ) G i = (F * C) G (σ i) := by
      simp only [Cσ, Matrix.mul_apply, Matrix.submatrix_apply, id_eq]
    rw [h4, this, Matrix.mul_apply, Matrix.mul_apply, hsum]
    · rfl
    · intro a ha
      rw [hmix a (σ i) (by rw [ha]; exact (hpos i).symm), mul_zero]
  refine spectrum_lowest hm hF h2 h3 (by rw [h1]; exact hmu) (fun v hv j => ?_) j
  by_cases hv0 : v = 0
  · simp [hv0]
  -- an eigenvector of the occupied block within one group of bands
  obtain ⟨-, U, hU, hUd⟩ := hmu
  have hU1 : Uᴴ * U = 1 := Matrix.mem_unitaryGroup_iff'.1 hU
  let x : Fin m → ℂ := fun i => U i j
  have hx : Hm.submatrix σ σ *ᵥ x = (mu j : ℂ) • x := by
    have : Hm.submatrix σ σ * U = U * Matrix.diagonal fun i => (mu i : ℂ) := by
      rw [hUd, Matrix.mul_assoc, hU1, Matrix.mul_one]
    funext i
    have h4 := congrFun (congrFun this i) j
    rw [Matrix.mul_diagonal, Matrix.mul_apply] at h4
    show ∑ k, Hm (σ i) (σ k) * U k j = (mu j : ℂ) * U i j
    rw [mul_comm]
    exact h4
  obtain ⟨i₀, hi₀⟩ : ∃ i₀, x i₀ ≠ 0 := by
    by_contra hne
    push Not at hne
    have := congrFun (congrFun hU1 j) j
    rw [Matrix.mul_apply, Matrix.one_apply, if_pos rfl] at this
    have h0 : ∀ i, U i j = 0 := hne
    simp [h0] at this
  let w : Fin nb → ℂ := fun a => if f a = f (σ i₀) then ∑ i, (if σ i = a then x i else 0) else 0
  have hwσ : ∀ i, w (σ i) = if f (σ i) = f (σ i₀) then x i else 0 := by
    intro i
    simp only [w]
    congr 1
    rw [Finset.sum_eq_single i (fun k _ hk => if_neg fun h => hk (hσ h)) (fun h => absurd (Finset.mem_univ _) h),
      if_pos rfl]
  have hw0 : ∀ a, f a = 0 → w a = 0 := by
    intro a ha
    simp only [w]
    rw [if_neg]
    rw [ha]
    exact (hpos i₀).symm
  have hweig : Hm *ᵥ w = (mu j : ℂ) • w := by
    funext a
    show ∑ b, Hm a b * w b = (mu j : ℂ) * w a
    by_cases ha : f a = f (σ i₀)
    · obtain ⟨i, rfl⟩ := (hrange a).mp (by rw [ha]; exact hpos i₀)
      rw [hsum _ fun b hb => by rw [hw0 b hb, mul_zero], hwσ i, if_pos ha]
      have h4 := congrFun hx i
      change ∑ k, Hm (σ i) (σ k) * x k = (mu j : ℂ) * x i at h4
      rw [← h4]
      refine Finset.sum_congr rfl fun k _ => ?_
      rw [hwσ]
      by_cases hk : f (σ k) = f (σ i₀)
      · rw [if_pos hk]
      · rw [if_neg hk, hmix (σ i) (σ k) (by rw [ha]; exact fun h => hk h.symm), mul_zero, zero_mul]
    · have h5 : w a = 0 := if_neg ha
      rw [h5, mul_zero]
      refine Finset.sum_eq_zero fun b _ => ?_
      by_cases hb : f b = f (σ i₀)
      · rw [hmix a b (by rw [hb]; exact ha), zero_mul]
      · rw [show w b = 0 from if_neg hb, mul_zero]
  -- normalise both
  have hwn : 0 < ∑ a, Complex.normSq (w a) := by
    refine Finset.sum_pos' (fun _ _ => Complex.normSq_nonneg _) ⟨σ i₀, Finset.mem_univ _, Complex.normSq_pos.2 ?_⟩
    rw [hwσ, if_pos rfl]
    exact hi₀
  have hvn : 0 < ∑ a, Complex.normSq (v a) := by
    obtain ⟨i, hi⟩ := Function.ne_iff.1 hv0
    exact Finset.sum_pos' (fun _ _ => Complex.normSq_nonneg _) ⟨i, Finset.mem_univ _, Complex.normSq_pos.2 hi⟩
  have hscale : ∀ {d : ℕ} (u : Fin d → ℂ) (M : Matrix (Fin d) (Fin d) ℂ) (s : ℝ),
      star ((s : ℂ) • u) ⬝ᵥ (M *ᵥ ((s : ℂ) • u)) = (s ^ 2 : ℝ) * (star u ⬝ᵥ (M *ᵥ u)) := by
    intro d u M s
    rw [star_smul, Matrix.mulVec_smul, smul_dotProduct, dotProduct_smul]
    simp only [smul_eq_mul, RCLike.star_def, Complex.conj_ofReal]
    push_cast
    ring
  have hscale1 : ∀ {d : ℕ} (u : Fin d → ℂ) (s : ℝ),
      star ((s : ℂ) • u) ⬝ᵥ ((s : ℂ) • u) = (s ^ 2 : ℝ) * (star u ⬝ᵥ u) := by
    intro d u s
    have := hscale u 1 s
    rwa [Matrix.one_mulVec, Matrix.one_mulVec] at this
  have hinv : ∀ r : ℝ, 0 < r → ((Real.sqrt r)⁻¹) ^ 2 = r⁻¹ := fun r hr => by
    rw [inv_pow, Real.sq_sqrt hr.le]
  have hfin := hauf (((Real.sqrt (∑ a, Complex.normSq (v a)))⁻¹ : ℝ) • v) ?_ ?_
    (((Real.sqrt (∑ a, Complex.normSq (w a)))⁻¹ : ℝ) • w) (f (σ i₀)) ?_ (hpos i₀) ?_
  · rw [show ∀ (d : ℕ) (r : ℝ) (u : Fin d → ℂ), r • u = (r : ℂ) • u from fun _ _ _ => rfl] at hfin
    rw [show ∀ (d : ℕ) (r : ℝ) (u : Fin d → ℂ), r • u = (r : ℂ) • u from fun _ _ _ => rfl] at hfin
    rw [hscale, hscale, hinv _ hwn, hinv _ hvn, hweig, dotProduct_smul, star_dot_re w] at hfin
    rw [star_dot_re v, Complex.ofReal_re]
    rw [smul_eq_mul, Complex.re_ofReal_mul, Complex.re_ofReal_mul, Complex.re_ofReal_mul, Complex.ofReal_re] at hfin
    rw [inv_mul_eq_div, inv_mul_eq_div, mul_div_assoc, div_self hwn.ne', mul_one, le_div_iff₀ hvn] at hfin
    exact hfin
  · have := hscale1 v (Real.sqrt (∑ a, Complex.normSq (v a)))⁻¹
    refine Eq.trans this ?_
    rw [star_dot_re, hinv _ hvn, ← Complex.ofReal_mul, inv_mul_cancel₀ hvn.ne', Complex.ofReal_one]
  · intro b hb
    obtain ⟨i, rfl⟩ := (hrange b).mp hb
    have h4 := congrFun hv i
    change ∑ G, conj (C G (σ i)) * v G = 0 at h4
    show ∑ G, conj (C G (σ i)) * (((Real.sqrt (∑ a, Complex.normSq (v a)))⁻¹ : ℝ) * v G) = 0
    have : ∀ G, conj (C G (σ i)) * (((Real.sqrt (∑ a, Complex.normSq (v a)))⁻¹ : ℝ) * v G)
        = (((Real.sqrt (∑ a, Complex.normSq (v a)))⁻¹ : ℝ) : ℂ) * (conj (C G (σ i)) * v G) := fun G => by ring
    rw [Finset.sum_congr rfl fun G _ => this G, ← Finset.mul_sum, h4, mul_zero]
  · have := hscale1 w (Real.sqrt (∑ a, Complex.normSq (w a)))⁻¹
    refine Eq.trans this ?_
    rw [star_dot_re, hinv _ hwn, ← Complex.ofReal_mul, inv_mul_cancel₀ hwn.ne', Complex.ofReal_one]
  · intro a ha
    by_contra hne
    refine ha ?_
    have : w a = 0 := if_neg hne
    rw [Pi.smul_apply, this, smul_zero]

end Jrystal
