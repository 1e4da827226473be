import Verif.Spec.SpinGradient
import Mathlib.Analysis.Matrix.Spectrum

/- C126: what the Kohn-Sham equations mean: the bands are eigenstates up to rotations among equally occupied bands. -/
namespace Jrystal
open scoped BigOperators ComplexConjugate Matrix

/-- Diagonalising a Hermitian matrix that does not mix classes, without mixing classes. -/
private theorem diagonalise_classes {m : ℕ} (f : Fin m → ℝ) (H : Matrix (Fin m) (Fin m) ℂ) (hH : H.IsHermitian)
    (hcl : ∀ a b, f a ≠ f b → H a b = 0) :
    ∃ (R : Matrix (Fin m) (Fin m) ℂ) (e : Fin m → ℝ), Rᴴ * R = 1 ∧ (∀ a b, f a ≠ f b → R a b = 0) ∧
      ∀ a b, ∑ c, H a c * R c b = e b * R a b := by
  classical
  let B : ∀ o : ℝ, Matrix {b // f b = o} {b // f b = o} ℂ := fun o => H.submatrix Subtype.val Subtype.val
  have hB : ∀ o, (B o).IsHermitian := fun o => hH.submatrix _
  let U : ∀ o : ℝ, Matrix {b // f b = o} {b // f b = o} ℂ := fun o => ((hB o).eigenvectorUnitary : Matrix _ _ ℂ)
  let R : Matrix (Fin m) (Fin m) ℂ := fun a b => if h : f a = f b then U (f b) ⟨a, h⟩ ⟨b, rfl⟩ else 0
  have hR : ∀ o (a b : {b // f b = o}), R a b = U o a b := by
    rintro o ⟨a, ha⟩ ⟨b, rfl⟩
    exact dif_pos ha
  have hsum : ∀ (o : ℝ) (g : Fin m → ℂ), (∀ a, f a ≠ o → g a = 0) → ∑ a, g a = ∑ a : {b // f b = o}, g a := by
    intro o g hg
    rw [← Finset.sum_subtype (Finset.univ.filter fun b => f b = o) (by simp) g]
    exact (Finset.sum_filter_of_ne fun a _ h => by
      by_contra hne
      exact h (hg a hne)).symm
  refine ⟨R, fun b => (hB (f b)).eigenvalues ⟨b, rfl⟩, ?_, fun a b h => dif_neg h, ?_⟩
  · ext b c
    rw [Matrix.mul_apply, hsum (f c) _ fun a ha => by
      rw [show R a c = 0 from dif_neg ha, mul_zero]]
    by_cases hbc : f b = f c
    · have h1 : (U (f c))ᴴ * U (f c) = 1 := by
        have := Unitary.coe_star_mul_self ((hB (f c)).eigenvectorUnitary)
        rwa [Matrix.star_eq_conjTranspose] at this
      have h2 := congrFun (congrFun h1 ⟨b, hbc⟩) ⟨c, rfl⟩
      rw [Matrix.mul_apply] at h2
      simp only [Matrix.conjTranspose_apply] at h2 ⊢
      have h3 : ∀ a : {b // f b = f c}, star (R a b) * R a c
          = star (U (f c) a ⟨b, hbc⟩) * U (f c) a ⟨c, rfl⟩ := fun a => by
        rw [← hR (f c) a ⟨b, hbc⟩, ← hR (f c) a ⟨c, rfl⟩]
      simp only [h3]
      rw [h2, Matrix.one_apply, Matrix.one_apply]
      simp only [Subtype.mk.injEq]
    · rw [Matrix.one_apply_ne fun h => hbc (congrArg f h)]
      refine Finset.sum_eq_zero fun a _ => ?_
      have h1 : f (a : Fin m) ≠ f b := by
        rw [a.2]
        exact fun h => hbc h.symm
      rw [Matrix.conjTranspose_apply, show R a b = 0 from dif_neg h1, star_zero, zero_mul]
  · intro a b
    rw [hsum (f b) _ fun c hc => by rw [show R c b = 0 from dif_neg hc, mul_zero]]
    by_cases hab : f a = f b
    · have h1 := (hB (f b)).mulVec_eigenvectorBasis ⟨b, rfl⟩
      have h2 := congrFun h1 ⟨a, hab⟩
      have h3 : (B (f b) *ᵥ ⇑((hB (f b)).eigenvectorBasis ⟨b, rfl⟩)) ⟨a, hab⟩
          = ∑ c : {c // f c = f b}, H a c * R c b := by
        unfold Matrix.mulVec dotProduct
        refine Finset.sum_congr rfl fun c _ => ?_
        rw [hR (f b) c ⟨b, rfl⟩]
        rfl
      rw [h3] at h2
      rw [h2, show R a b = U (f b) ⟨a, hab⟩ ⟨b, rfl⟩ from dif_pos hab, Pi.smul_apply, Complex.real_smul]
      rfl
    · rw [show R a b = 0 from dif_neg hab, mul_zero]
      refine Finset.sum_eq_zero fun c _ => ?_
      have h1 : f a ≠ f (c : Fin m) := by
        rw [c.2]
        exact hab
      rw [hcl a c h1, zero_mul]

/-- C126: orthonormal bands solve the Kohn-Sham equations exactly if a rotation `R` among equally occupied bands turns
the occupied ones into eigenstates of the Hamiltonian. -/
theorem kohnShamBands_eigenstates {ns nk M nb : ℕ} (F : Fin ns → Fin nk → Matrix (Fin M) (Fin M) ℂ)
    (hF : ∀ s k, (F s k).IsHermitian) (occ : Fin ns → Fin nk → Fin nb → ℝ) (C : Fin ns → Fin nk → Fin nb → Fin M → ℂ)
    (hC : ∀ s k i j, ∑ x, conj (C s k i x) * C s k j x = if i = j then 1 else 0) :
    Spec.KohnShamBands F occ C ↔
    ∃ (R : Fin ns → Fin nk → Matrix (Fin nb) (Fin nb) ℂ) (e : Fin ns → Fin nk → Fin nb → ℝ),
      (∀ s k, (R s k)ᴴ * R s k = 1) ∧ (∀ s k a b, occ s k a ≠ occ s k b → R s k a b = 0) ∧
      ∀ s k b, occ s k b ≠ 0 → ∀ x, ∑ y, F s k x y * (∑ a, R s k a b * C s k a y)
        = e s k b * ∑ a, R s k a b * C s k a x := by
  constructor
  · intro h
    have hpt : ∀ s k, ∃ (R : Matrix (Fin nb) (Fin nb) ℂ) (e : Fin nb → ℝ), Rᴴ * R = 1 ∧
        (∀ a b, occ s k a ≠ occ s k b → R a b = 0) ∧ ∀ b, occ s k b ≠ 0 → ∀ x,
          ∑ y, F s k x y * (∑ a, R a b * C s k a y) = e b * ∑ a, R a b * C s k a x := by
      intro s k
      -- the matrix of the Hamiltonian between the bands
      let H : Matrix (Fin nb) (Fin nb) ℂ := fun a b => ∑ x, conj (C s k a x) * ∑ y, F s k x y * C s k b y
      have hHh : H.IsHermitian := by
        ext a b
        rw [Matrix.conjTranspose_apply, RCLike.star_def]
        simp only [H, map_sum, map_mul, Complex.conj_conj, Finset.mul_sum]
        rw [Finset.sum_comm]
        refine Finset.sum_congr rfl fun x _ => Finset.sum_congr rfl fun y _ => ?_
        have h1 : conj (F s k y x) = F s k x y := (hF s k).apply x y
        rw [h1]
        ring
      have hval : ∀ b, occ s k b ≠ 0 → ∀ g : Fin nb → ℂ, (∀ x, ∑ y, F s k x y * C s k b y = ∑ a, g a * C s k a x) →
          ∀ a, H a b = g a := by
        intro b hb g hg a
        have e0 : H a b = ∑ x, conj (C s k a x) * ∑ c, g c * C s k c x :=
          Finset.sum_congr rfl fun x _ => by rw [hg]
        rw [e0]
        simp only [Finset.mul_sum]
        rw [Finset.sum_comm]
        have : ∀ c, ∑ x, conj (C s k a x) * (g c * C s k c x) = g c * if a = c then 1 else 0 := by
          intro c
          rw [← hC s k, Finset.mul_sum]
          exact Finset.sum_congr rfl fun x _ => by ring
        simp only [this]
        simp
      have hcl : ∀ a b, occ s k a ≠ occ s k b → H a b = 0 := by
        intro a b hab
        by_cases hb : occ s k b = 0
        · have ha : occ s k a ≠ 0 := by rw [← hb]; exact hab
          obtain ⟨g, g1, g2⟩ := h s k a ha
          rw [← hHh.apply, hval a ha g g2, g1 b hab.symm, star_zero]
        · obtain ⟨g, g1, g2⟩ := h s k b hb
          rw [hval b hb g g2, g1 a hab]
      have heq : ∀ b, occ s k b ≠ 0 → ∀ x, ∑ y, F s k x y * C s k b y = ∑ a, H a b * C s k a x := by
        intro b hb x
        obtain ⟨g, g1, g2⟩ := h s k b hb
        simp only [hval b hb g g2]
        exact g2 x
      obtain ⟨R, e, r1, r2, r3⟩ := diagonalise_classes (occ s k) H hHh hcl
      refine ⟨R, e, r1, r2, fun b hb x => ?_⟩
      have h1 : ∑ y, F s k x y * (∑ a, R a b * C s k a y) = ∑ a, R a b * ∑ y, F s k x y * C s k a y := by
        simp only [Finset.mul_sum]
        rw [Finset.sum_comm]
        exact Finset.sum_congr rfl fun a _ => Finset.sum_congr rfl fun y _ => by ring
      have h2 : ∀ a, R a b * ∑ y, F s k x y * C s k a y = R a b * ∑ c, H c a * C s k c x := by
        intro a
        by_cases hab : occ s k a = occ s k b
        · rw [heq a (by rw [hab]; exact hb)]
        · rw [r2 a b hab, zero_mul, zero_mul]
      rw [h1]
      simp only [h2, Finset.mul_sum]
      rw [Finset.sum_comm]
      refine Finset.sum_congr rfl fun c _ => ?_
      rw [← mul_assoc, ← r3 c b, Finset.sum_mul]
      exact Finset.sum_congr rfl fun a _ => by ring
    choose R e h1 h2 h3 using hpt
    exact ⟨R, e, h1, h2, h3⟩
  · rintro ⟨R, e, h1, h2, h3⟩ s k b hb
    have h1' : R s k * (R s k)ᴴ = 1 := mul_eq_one_comm.1 (h1 s k)
    refine ⟨fun c => ∑ a, conj (R s k b a) * e s k a * R s k c a, fun c hc => ?_, fun x => ?_⟩
    · refine Finset.sum_eq_zero fun a _ => ?_
      by_cases hab : occ s k b = occ s k a
      · rw [h2 s k c a (by rw [← hab]; exact hc), mul_zero]
      · rw [h2 s k b a hab, map_zero, zero_mul, zero_mul]
    · have hCb : ∀ y, C s k b y = ∑ a, conj (R s k b a) * ∑ c, R s k c a * C s k c y := by
        intro y
        simp only [Finset.mul_sum]
        rw [Finset.sum_comm]
        have : ∀ c, ∑ a, conj (R s k b a) * (R s k c a * C s k c y) = (if c = b then 1 else 0) * C s k c y := by
          intro c
          have h4 := congrFun (congrFun h1' c) b
          rw [Matrix.mul_apply, Matrix.one_apply] at h4
          rw [← h4, Finset.sum_mul]
          refine Finset.sum_congr rfl fun a _ => ?_
          rw [Matrix.conjTranspose_apply, RCLike.star_def]
          ring
        simp only [this]
        simp
      have h5 : ∑ y, F s k x y * C s k b y
          = ∑ a, conj (R s k b a) * ∑ y, F s k x y * ∑ c, R s k c a * C s k c y := by
        simp only [hCb]
        simp only [Finset.mul_sum]
        rw [Finset.sum_comm]
        refine Finset.sum_congr rfl fun a _ => Finset.sum_congr rfl fun y _ => Finset.sum_congr rfl fun c _ => by ring
      have h6 : ∀ a, conj (R s k b a) * ∑ y, F s k x y * ∑ c, R s k c a * C s k c y
          = conj (R s k b a) * (e s k a * ∑ c, R s k c a * C s k c x) := by
        intro a
        by_cases hab : occ s k b = occ s k a
        · rw [h3 s k a (by rw [← hab]; exact hb)]
        · rw [h2 s k b a hab, map_zero, zero_mul, zero_mul]
      rw [h5]
      simp only [h6]
      simp only [Finset.mul_sum, Finset.sum_mul]
      rw [Finset.sum_comm]
      exact Finset.sum_congr rfl fun c _ => Finset.sum_congr rfl fun a _ => by ring

/-- The hypotheses are met by two equally occupied bands that are not eigenstates themselves: the Hamiltonian exchanges
them. -/
example : ∃ (F : Fin 1 → Fin 1 → Matrix (Fin 2) (Fin 2) ℂ) (C : Fin 1 → Fin 1 → Fin 2 → Fin 2 → ℂ),
    (∀ s k, (F s k).IsHermitian) ∧ (∀ s k i j, ∑ x, conj (C s k i x) * C s k j x = if i = j then 1 else 0) ∧
    Spec.KohnShamBands F (fun _ _ _ => 2) C ∧ ¬∃ e : ℂ, ∀ x, ∑ y, F 0 0 x y * C 0 0 0 y = e * C 0 0 0 x := by
  refine ⟨fun _ _ => !![0, 1; 1, 0], fun _ _ i x => if i = x then 1 else 0, fun _ _ => ?_, fun _ _ i j => ?_, ?_, ?_⟩
  · ext i j
    fin_cases i <;> fin_cases j <;> simp
  · fin_cases i <;> fin_cases j <;> simp
  · intro s k b _
    refine ⟨fun a => if a = b then 0 else 1, fun a h => absurd rfl h, fun x => ?_⟩
    fin_cases b <;> fin_cases x <;> simp
  · rintro ⟨e, he⟩
    have := he 1
    simp [Fin.sum_univ_two] at this

end Jrystal
