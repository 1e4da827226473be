import Verif.Spec.Reach
import Verif.Lemmas.Planewave
import Verif.Lemmas.Occupation
import Mathlib.Analysis.InnerProductSpace.GramSchmidtOrtho
import Mathlib.LinearAlgebra.Matrix.Block
import Mathlib.Analysis.SpecialFunctions.Trigonometric.Basic
import Mathlib.Topology.Order.IntermediateValue

/- Lemmas for C88: what the parametrisations reach. -/
namespace Jrystal
open scoped BigOperators ComplexConjugate
open Matrix

/-- An upper triangular matrix with orthonormal columns is diagonal. -/
theorem triangular_unitary_diag {F : Type*} [Field F] [StarRing F] {m : ℕ} (R : Matrix (Fin m) (Fin m) F)
    (ht : ∀ i j : Fin m, (j : ℕ) < (i : ℕ) → R i j = 0) (hu : Rᴴ * R = 1) : ∀ i j, i ≠ j → R i j = 0 := by
  have hT : R.BlockTriangular id := fun i j h => ht i j h
  have hu' : R * Rᴴ = 1 := mul_eq_one_comm.1 hu
  let _ : Invertible R := ⟨Rᴴ, hu, hu'⟩
  have hinv : (R⁻¹).BlockTriangular id := Matrix.blockTriangular_inv_of_blockTriangular hT
  have e : R⁻¹ = Rᴴ := Matrix.inv_eq_left_inv hu
  rw [e] at hinv
  intro i j hij
  rcases lt_or_gt_of_ne hij with h | h
  · have := hinv (i := j) (j := i) h
    rw [conjTranspose_apply] at this
    exact star_eq_zero.1 this
  · exact ht i j h

/-- A matrix with orthonormal columns is its QR factor times phases, column by column. -/
theorem qr_phases {F : Type*} [Field F] [StarRing F] (qr : QR F) (ht : Spec.Triangular qr) {N m : ℕ}
    (hm : m ≤ N) (w : Matrix (Fin N) (Fin m) F) (hw : wᴴ * w = 1) :
    ∃ u : Fin (min N m) → F, (∀ j, star (u j) * u j = 1) ∧
      ∀ i j, w i (Fin.castLE (min_le_right N m) j) = qr.q w i j * u j := by
  obtain ⟨R, hR, e⟩ := ht w
  have hmm : min N m = m := min_eq_right hm
  let cst : Fin (min N m) → Fin m := Fin.castLE (min_le_right N m)
  have hbij : Function.Bijective cst :=
    (Fintype.bijective_iff_injective_and_card _).2
      ⟨fun a b h => by simpa [cst, Fin.ext_iff] using h, by simp [hmm]⟩
  let R' : Matrix (Fin (min N m)) (Fin (min N m)) F := R.submatrix id cst
  have hRR : Rᴴ * R = 1 := by
    have h1 : wᴴ * w = Rᴴ * ((qr.q w)ᴴ * qr.q w) * R := by
      conv_lhs => rw [e]
      rw [conjTranspose_mul]
      simp only [Matrix.mul_assoc]
    rw [hw, qr.orth, Matrix.mul_one] at h1
    exact h1.symm
  have hu : R'ᴴ * R' = 1 := by
    ext a b
    have := congrFun (congrFun hRR (cst a)) (cst b)
    rw [Matrix.mul_apply] at this ⊢
    refine Eq.trans this ?_
    rw [Matrix.one_apply, Matrix.one_apply]
    exact if_congr hbij.1.eq_iff rfl rfl
  have hd := triangular_unitary_diag R' (fun i j h => hR i (cst j) (by simpa [cst] using h)) hu
  refine ⟨fun j => R' j j, fun j => ?_, fun i j => ?_⟩
  · have := congrFun (congrFun hu j) j
    rw [Matrix.mul_apply, Matrix.one_apply, if_pos rfl, Finset.sum_eq_single j] at this
    · exact this
    · intro i _ hi
      rw [hd i j hi, mul_zero]
    · intro h; exact absurd (Finset.mem_univ _) h
  · have := congrFun (congrFun e i) (cst j)
    rw [Matrix.mul_apply, Finset.sum_eq_single j] at this
    · exact this
    · intro a _ ha
      have h0 : R a (cst j) = 0 := hd a j ha
      rw [h0, mul_zero]
    · intro h; exact absurd (Finset.mem_univ _) h

/-- A matrix with orthonormal columns and its QR factor span the same space: the row products agree. -/
theorem qr_rows (qr : QR ℝ) (ht : Spec.Triangular qr) {N m : ℕ} (hm : m ≤ N) (w : Matrix (Fin N) (Fin m) ℝ)
    (hw : wᵀ * w = 1) (i : Fin N) :
    ∑ j, (qr.q w) i j * (qr.q w)ᵀ j i = ∑ j, w i j ^ 2 := by
  obtain ⟨u, hu, hq⟩ := qr_phases qr ht hm w (by simpa using hw)
  have : ∑ j, w i j ^ 2 = ∑ j : Fin (min N m), w i (Fin.castLE (min_le_right N m) j) ^ 2 :=
    (Fintype.sum_equiv (finCongr (min_eq_right hm)) _ _ fun _ => rfl).symm
  rw [this]
  refine Finset.sum_congr rfl fun j _ => ?_
  have h1 : u j * u j = 1 := by simpa using hu j
  rw [hq, Matrix.transpose_apply]
  calc qr.q w i j * qr.q w i j = (qr.q w i j * qr.q w i j) * (u j * u j) := by rw [h1, mul_one]
    _ = _ := by ring

/-! ### Carpenter's theorem -/

/-- Rows `i` and `j` of a matrix rotated by the angle `θ`. -/
private noncomputable def rot {N m : ℕ} (i j : Fin N) (θ : ℝ) (w : Matrix (Fin N) (Fin m) ℝ) :
    Matrix (Fin N) (Fin m) ℝ :=
  fun a c => if a = i then Real.cos θ * w i c + Real.sin θ * w j c
    else if a = j then -Real.sin θ * w i c + Real.cos θ * w j c else w a c

private theorem sum_two {N : ℕ} {i j : Fin N} (hij : i ≠ j) (f : Fin N → ℝ) :
    ∑ a, f a = f i + f j + ∑ a ∈ (Finset.univ.erase i).erase j, f a := by
  rw [← Finset.add_sum_erase _ f (Finset.mem_univ i),
    ← Finset.add_sum_erase _ f (Finset.mem_erase.2 ⟨hij.symm, Finset.mem_univ j⟩), add_assoc]

private theorem rot_orth {N m : ℕ} {i j : Fin N} (hij : i ≠ j) (θ : ℝ) (w : Matrix (Fin N) (Fin m) ℝ)
    (hw : wᵀ * w = 1) : (rot i j θ w)ᵀ * rot i j θ w = 1 := by
  rw [← hw]
  ext a b
  rw [Matrix.mul_apply, Matrix.mul_apply, sum_two hij, sum_two hij]
  have h1 : ∑ x ∈ (Finset.univ.erase i).erase j, (rot i j θ w)ᵀ a x * rot i j θ w x b
      = ∑ x ∈ (Finset.univ.erase i).erase j, wᵀ a x * w x b := by
    refine Finset.sum_congr rfl fun x hx => ?_
    have hxj : x ≠ j := Finset.ne_of_mem_erase hx
    have hxi : x ≠ i := Finset.ne_of_mem_erase (Finset.mem_of_mem_erase hx)
    simp [rot, hxi, hxj]
  rw [h1]
  congr 1
  simp only [Matrix.transpose_apply, rot, if_true, if_neg hij.symm]
  linear_combination (w i a * w i b + w j a * w j b) * Real.sin_sq_add_cos_sq θ

/-- Carpenter's theorem (Kadison): numbers between 0 and 1 that add up to `m` are the squared row lengths of
a matrix with `m` orthonormal columns. -/
theorem carpenter {N m : ℕ} (y : Fin N → ℝ) (h01 : ∀ i, 0 ≤ y i ∧ y i ≤ 1) (hs : ∑ i, y i = m) :
    ∃ w : Matrix (Fin N) (Fin m) ℝ, wᵀ * w = 1 ∧ ∀ i, ∑ c, w i c ^ 2 = y i := by
  classical
  obtain ⟨K, hK⟩ : ∃ K, K = (Finset.univ.filter fun i => y i ≠ 0 ∧ y i ≠ 1).card := ⟨_, rfl⟩
  induction K using Nat.strong_induction_on generalizing y with
  | _ K ih =>
  by_cases hall : ∀ i, y i = 0 ∨ y i = 1
  · -- unit vectors
    have hcard : Fintype.card {i // y i = 1} = m := by
      have : ∑ i, y i = ((Finset.univ.filter fun i => y i = 1).card : ℝ) := by
        rw [Finset.card_filter]
        push_cast
        refine Finset.sum_congr rfl fun i _ => ?_
        rcases hall i with h | h <;> simp [h]
      rw [hs] at this
      have h2 : m = (Finset.univ.filter fun i => y i = 1).card := by exact_mod_cast this
      rw [h2, Fintype.card_subtype]
    let e : {i // y i = 1} ≃ Fin m := Fintype.equivFinOfCardEq hcard
    refine ⟨Matrix.of fun i c => if (e.symm c : Fin N) = i then 1 else 0, ?_, fun i => ?_⟩
    · ext a b
      rw [Matrix.mul_apply, Matrix.one_apply, Finset.sum_eq_single ((e.symm a : Fin N))]
      · simp only [Matrix.transpose_apply, Matrix.of_apply, if_true, one_mul]
        refine if_congr ?_ rfl rfl
        constructor
        · intro h
          exact (e.symm.injective (Subtype.ext h)).symm
        · intro h; rw [h]
      · intro i _ hi
        simp [Matrix.transpose_apply, Ne.symm hi]
      · intro h; exact absurd (Finset.mem_univ _) h
    · rcases hall i with h | h
      · rw [h]
        refine Finset.sum_eq_zero fun c _ => ?_
        have : (e.symm c : Fin N) ≠ i := fun hc => by
          have := (e.symm c).2
          rw [hc, h] at this
          exact zero_ne_one this
        simp [this]
      · rw [h, Finset.sum_eq_single (e ⟨i, h⟩)]
        · simp
        · intro c _ hc
          have : (e.symm c : Fin N) ≠ i := fun h' => hc (by
            rw [← e.apply_symm_apply c]
            congr 1
            exact Subtype.ext h')
          simp [this]
        · intro h'; exact absurd (Finset.mem_univ _) h'
  · push Not at hall
    obtain ⟨i, hi0, hi1⟩ := hall
    -- a second entry strictly between 0 and 1
    obtain ⟨j, hji, hj0, hj1⟩ : ∃ j, j ≠ i ∧ y j ≠ 0 ∧ y j ≠ 1 := by
      by_contra hc
      push Not at hc
      have hz : ∀ j ∈ Finset.univ.erase i, ∃ z : ℤ, y j = z := fun j hj => by
        by_cases h : y j = 0
        · exact ⟨0, by simp [h]⟩
        · exact ⟨1, by simp [hc j (Finset.ne_of_mem_erase hj) h]⟩
      have hsum : ∃ z : ℤ, ∑ j ∈ Finset.univ.erase i, y j = z := by
        refine Finset.sum_induction _ (fun x : ℝ => ∃ z : ℤ, x = z) ?_ ⟨0, by simp⟩ hz
        rintro _ _ ⟨a, rfl⟩ ⟨b, rfl⟩
        exact ⟨a + b, by push_cast; rfl⟩
      obtain ⟨z, hz⟩ := hsum
      have := Finset.add_sum_erase Finset.univ y (Finset.mem_univ i)
      rw [hs, hz] at this
      have hy : y i = ((m - z : ℤ) : ℝ) := by push_cast; linarith
      have l0 : 0 < y i := lt_of_le_of_ne (h01 i).1 (Ne.symm hi0)
      have l1 : y i < 1 := lt_of_le_of_ne (h01 i).2 hi1
      rw [hy] at l0 l1
      have l0' : (0 : ℤ) < m - z := by exact_mod_cast l0
      have l1' : (m - z : ℤ) < 1 := by exact_mod_cast l1
      omega
    have a0 : 0 < y i := lt_of_le_of_ne (h01 i).1 (Ne.symm hi0)
    have a1 : y i < 1 := lt_of_le_of_ne (h01 i).2 hi1
    have b0 : 0 < y j := lt_of_le_of_ne (h01 j).1 (Ne.symm hj0)
    have b1 : y j < 1 := lt_of_le_of_ne (h01 j).2 hj1
    -- move weight from i to j until one of them is 0 or 1
    let d := min (y i) (1 - y j)
    have hd0 : 0 < d := lt_min a0 (by linarith)
    have hdi : d ≤ y i := min_le_left _ _
    have hdj : d ≤ 1 - y j := min_le_right _ _
    let y' : Fin N → ℝ := fun a => if a = i then y i - d else if a = j then y j + d else y a
    have ei : y' i = y i - d := by simp [y']
    have ej : y' j = y j + d := by simp [y', hji]
    have eo : ∀ a, a ≠ i → a ≠ j → y' a = y a := fun a h1 h2 => by simp [y', h1, h2]
    have h01' : ∀ a, 0 ≤ y' a ∧ y' a ≤ 1 := by
      intro a
      by_cases h1 : a = i
      · rw [h1, ei]; constructor <;> linarith
      · by_cases h2 : a = j
        · rw [h2, ej]; constructor <;> linarith
        · rw [eo a h1 h2]; exact h01 a
    have hs' : ∑ a, y' a = m := by
      rw [← hs, sum_two hji.symm, sum_two hji.symm, ei, ej]
      congr 1
      · ring
      · refine Finset.sum_congr rfl fun a ha => ?_
        exact eo a (Finset.ne_of_mem_erase (Finset.mem_of_mem_erase ha)) (Finset.ne_of_mem_erase ha)
    have hlt : (Finset.univ.filter fun a => y' a ≠ 0 ∧ y' a ≠ 1).card < K := by
      rw [hK]
      refine Finset.card_lt_card (Finset.ssubset_iff_subset_ne.2 ⟨fun a ha => ?_, fun hc => ?_⟩)
      · rw [Finset.mem_filter] at ha ⊢
        refine ⟨ha.1, ?_⟩
        by_cases h1 : a = i
        · rw [h1]; exact ⟨hi0, hi1⟩
        · by_cases h2 : a = j
          · rw [h2]; exact ⟨hj0, hj1⟩
          · rw [← eo a h1 h2]; exact ha.2
      · have mi : i ∈ (Finset.univ.filter fun a => y' a ≠ 0 ∧ y' a ≠ 1) := by
          rw [hc]; simp [hi0, hi1]
        have mj : j ∈ (Finset.univ.filter fun a => y' a ≠ 0 ∧ y' a ≠ 1) := by
          rw [hc]; simp [hj0, hj1]
        rw [Finset.mem_filter, ei] at mi
        rw [Finset.mem_filter, ej] at mj
        rcases min_choice (y i) (1 - y j) with h | h
        · exact mi.2.1 (by simp only [d, h]; ring)
        · exact mj.2.2 (by simp only [d, h]; ring)
    obtain ⟨w, hw, hrow⟩ := ih _ hlt y' h01' hs' rfl
    -- a rotation that gives row i its length
    let f : ℝ → ℝ := fun θ => ∑ c, (Real.cos θ * w i c + Real.sin θ * w j c) ^ 2
    have hf : Continuous f := by
      refine continuous_finsetSum _ fun c _ => ?_
      exact ((Real.continuous_cos.mul continuous_const).add (Real.continuous_sin.mul continuous_const)).pow 2
    have f0 : f 0 = y i - d := by
      rw [← ei, ← hrow i]; simp [f]
    have f1 : f (Real.pi / 2) = y j + d := by
      rw [← ej, ← hrow j]; simp [f]
    have hmem : y i ∈ Set.Icc (f 0) (f (Real.pi / 2)) := by
      rw [f0, f1]
      refine ⟨by linarith, ?_⟩
      rcases min_choice (y i) (1 - y j) with h | h
      · have : d = y i := h
        linarith
      · have : d = 1 - y j := h
        linarith
    obtain ⟨θ, -, hθ⟩ := intermediate_value_Icc (by positivity) hf.continuousOn hmem
    refine ⟨rot i j θ w, rot_orth hji.symm θ w hw, fun a => ?_⟩
    by_cases h1 : a = i
    · subst h1
      simpa [rot] using hθ
    · by_cases h2 : a = j
      · subst h2
        have e2 : ∑ c, rot i a θ w a c ^ 2 = ∑ c, w i c ^ 2 + ∑ c, w a c ^ 2 - f θ := by
          simp only [f]
          rw [← Finset.sum_add_distrib, ← Finset.sum_sub_distrib]
          refine Finset.sum_congr rfl fun c _ => ?_
          simp only [rot, if_neg h1, if_true]
          linear_combination (w i c ^ 2 + w a c ^ 2) * Real.sin_sq_add_cos_sq θ
        rw [e2, hrow i, hrow a, hθ, ei, ej]
        ring
      · rw [← eo a h1 h2, ← hrow a]
        refine Finset.sum_congr rfl fun c _ => ?_
        simp [rot, h1, h2]

/-! ### The occupations that the idempotent parametrisation reaches -/

theorem unravel_ravel {nk nb : ℕ} {K : Type*} (y : Fin nk → Fin nb → K) : unravel (ravel y) = y := by
  funext k b
  simp [ravel, unravel]

theorem idemChannel_reach (qr : QR ℝ) (ht : Spec.Triangular qr) {nk nb m : ℕ} (y : Fin nk → Fin nb → ℝ)
    (h01 : ∀ k b, 0 ≤ y k b ∧ y k b ≤ 1) (hs : ∑ k, ∑ b, y k b = m) :
    ∃ w : Matrix (Fin (nk * nb)) (Fin m) ℝ, idemChannel qr w = y := by
  obtain ⟨w, hw, hrow⟩ := carpenter (ravel y) (fun i => h01 _ _) ((sum_ravel y).trans hs)
  have hm : m ≤ nk * nb := by
    have h1 : (m : ℝ) ≤ ∑ i : Fin (nk * nb), (1 : ℝ) := by
      rw [← hs, ← sum_ravel]
      exact Finset.sum_le_sum fun i _ => (h01 _ _).2
    rw [Finset.sum_const, Finset.card_univ, Fintype.card_fin, nsmul_eq_mul, mul_one] at h1
    exact_mod_cast h1
  refine ⟨w, ?_⟩
  unfold idemChannel
  have : (fun i => ∑ j, (qr.q w) i j * (qr.q w)ᵀ j i) = ravel y :=
    funext fun i => (qr_rows qr ht hm w hw i).trans (hrow i)
  rw [this, unravel_ravel]

/-! ### The orbitals that the plane-wave parameters reach -/

/-- Every set of orthonormal orbitals on the mask is reached, up to a phase for each orbital. -/
theorem pwCoeff_reach (qr : QR ℂ) (ht : Spec.Triangular qr) {ns nk nb : ℕ} {n : Fin 3 → ℕ}
    (mask : Idx n → Bool) (hm : nb ≤ maskCount mask) (c : Coef ns nk (min (maskCount mask) nb) n)
    (ho : ∀ s k i j, ∑ x, conj (c s k i x) * c s k j x = if i = j then 1 else 0)
    (hs : ∀ s k b x, mask x = false → c s k b x = 0) :
    ∃ p : PwParams ns nk (maskCount mask) nb, ∃ u : Fin ns → Fin nk → Fin (min (maskCount mask) nb) → ℂ,
      (∀ s k b, conj (u s k b) * u s k b = 1) ∧
      ∀ s k b x, c s k b x = u s k b * pwCoeff qr mask p s k b x := by
  have hmm : min (maskCount mask) nb = nb := min_eq_right hm
  let back : Fin nb → Fin (min (maskCount mask) nb) := Fin.cast hmm.symm
  let w : Fin ns → Fin nk → Matrix (Fin (maskCount mask)) (Fin nb) ℂ :=
    fun s k => Matrix.of fun g b => c s k (back b) (maskPos mask g)
  have hw : ∀ s k, (w s k)ᴴ * w s k = 1 := by
    intro s k
    ext a b
    rw [Matrix.mul_apply, Matrix.one_apply]
    have h1 := ho s k (back a) (back b)
    rw [sum_mask mask (fun x => conj (c s k (back a) x) * c s k (back b) x) (fun x hx => by simp only [hs s k _ x hx, map_zero, zero_mul])] at h1
    refine Eq.trans h1 (if_congr ?_ rfl rfl)
    simp [back, Fin.ext_iff]
  let p : PwParams ns nk (maskCount mask) nb :=
    ⟨fun s k => Matrix.of fun g b => (w s k g b).re, fun s k => Matrix.of fun g b => (w s k g b).im⟩
  have hp : ∀ s k, (Matrix.of fun a b => ((p.re s k a b : ℝ) : ℂ) + Complex.I * ((p.im s k a b : ℝ) : ℂ))
      = w s k := by
    intro s k
    ext a b
    simp only [p, Matrix.of_apply]
    rw [mul_comm]
    exact Complex.re_add_im _
  choose u hu hq using fun s k => qr_phases qr ht hm (w s k) (hw s k)
  refine ⟨p, u, fun s k b => hu s k b, fun s k b x => ?_⟩
  unfold pwCoeff expandCoefficient
  cases hx : mask x
  · rw [scatterMask_off mask _ x hx, hs s k b x hx, mul_zero]
  · obtain ⟨g, rfl⟩ := exists_maskPos mask hx
    rw [scatterMask_get]
    unfold unitaryMatrix
    rw [hp s k, mul_comm]
    exact hq s k g b

/-! ### The contract of the QR routine can be met -/

/-- Gram and Schmidt's procedure, completed to a basis. -/
private noncomputable def gsBasis (𝕜 : Type*) [RCLike 𝕜] {n m : ℕ} (w : Matrix (Fin n) (Fin m) 𝕜) :
    OrthonormalBasis (Fin n) 𝕜 (EuclideanSpace 𝕜 (Fin n)) :=
  InnerProductSpace.gramSchmidtOrthonormalBasis (by simp)
    fun i : Fin n => if h : (i : ℕ) < m then WithLp.toLp 2 (fun a => w a ⟨i, h⟩) else 0

/-- A QR routine that keeps the whole contract: the Gram–Schmidt procedure. -/
noncomputable def gramSchmidtQR (𝕜 : Type*) [RCLike 𝕜] : QR 𝕜 where
  q {n m} w := Matrix.of fun a j => gsBasis 𝕜 w (Fin.castLE (min_le_left n m) j) a
  orth {n m} w := by
    ext a b
    rw [Matrix.mul_apply, Matrix.one_apply]
    have h := orthonormal_iff_ite.1 (gsBasis 𝕜 w).orthonormal (Fin.castLE (min_le_left n m) a)
      (Fin.castLE (min_le_left n m) b)
    rw [PiLp.inner_apply] at h
    refine Eq.trans (Finset.sum_congr rfl fun i _ => ?_) (h.trans (if_congr (by simp [Fin.ext_iff]) rfl rfl))
    simp [Matrix.conjTranspose_apply, mul_comm]

theorem gramSchmidtQR_triangular (𝕜 : Type*) [RCLike 𝕜] : Spec.Triangular (gramSchmidtQR 𝕜) := by
  intro n m w
  let v : Fin m → EuclideanSpace 𝕜 (Fin n) := fun j => WithLp.toLp 2 (fun a => w a j)
  refine ⟨Matrix.of fun i j => inner 𝕜 (gsBasis 𝕜 w (Fin.castLE (min_le_left n m) i)) (v j), ?_, ?_⟩
  · intro i j hij
    rw [Matrix.of_apply]
    have hi := i.2
    have hjn : (j : ℕ) < n := by omega
    have h := InnerProductSpace.gramSchmidtOrthonormalBasis_inv_triangular (𝕜 := 𝕜)
      (E := EuclideanSpace 𝕜 (Fin n)) (by simp)
      (fun i : Fin n => if h : (i : ℕ) < m then WithLp.toLp 2 (fun a => w a ⟨i, h⟩) else 0)
      (i := ⟨j, hjn⟩) (j := Fin.castLE (min_le_left n m) i) hij
    simp only [j.2, dif_pos] at h
    exact h
  · ext a j
    rw [Matrix.mul_apply]
    have h1 := congrArg (fun v : EuclideanSpace 𝕜 (Fin n) => v a) ((gsBasis 𝕜 w).sum_repr (v j))
    have h2 : w a j = ∑ i : Fin n, inner 𝕜 (gsBasis 𝕜 w i) (v j) * gsBasis 𝕜 w i a := by
      refine Eq.trans h1.symm ?_
      simp [OrthonormalBasis.repr_apply_apply]
    rw [h2]
    have h3 := Finset.sum_map (Finset.univ : Finset (Fin (min n m)))
      (Fin.castLEEmb (min_le_left n m)) (fun i => inner 𝕜 (gsBasis 𝕜 w i) (v j) * gsBasis 𝕜 w i a)
    refine Eq.trans ?_ (h3.trans (Finset.sum_congr rfl fun i _ => mul_comm _ _))
    symm
    refine Finset.sum_subset (Finset.subset_univ _) fun i _ hi => ?_
    have him : m ≤ (i : ℕ) := by
      by_contra hc
      push Not at hc
      exact hi (Finset.mem_map.2 ⟨⟨i, lt_min i.2 hc⟩, Finset.mem_univ _, rfl⟩)
    have hj := j.2
    have hjn : (j : ℕ) < n := by omega
    have h := InnerProductSpace.gramSchmidtOrthonormalBasis_inv_triangular (𝕜 := 𝕜)
      (E := EuclideanSpace 𝕜 (Fin n)) (by simp)
      (fun i : Fin n => if h : (i : ℕ) < m then WithLp.toLp 2 (fun a => w a ⟨i, h⟩) else 0)
      (i := ⟨j, hjn⟩) (j := i) (show (⟨j, hjn⟩ : Fin n) < i by rw [Fin.lt_def]; simp only; omega)
    simp only [j.2, dif_pos] at h
    have h' : inner 𝕜 (gsBasis 𝕜 w i) (v j) = 0 := h
    rw [h', zero_mul]

end Jrystal
