import Verif.Lemmas.IdemGrad
import Verif.Spec.IdemGrad
import Verif.Props.SpinGradient
import Verif.Props.RandomStart

/- C133: where the gradient vanishes, idempotent occupations fill whole levels. -/
namespace Jrystal
open scoped BigOperators ComplexConjugate Matrix
open KohnSham

private theorem columnProjector_unique {N m : ℕ} {W : Matrix (Fin N) (Fin m) ℝ} {P P' : Matrix (Fin N) (Fin N) ℝ}
    (h : Spec.IsColumnProjector W P) (h' : Spec.IsColumnProjector W P') : P = P' := by
  obtain ⟨s, -, w, Y, hY⟩ := h
  obtain ⟨s', -, w', Y', hY'⟩ := h'
  have e1 : P' * P = P := by conv_lhs => rw [hY, ← Matrix.mul_assoc, w', ← hY]
  have e2 : P * P' = P' := by conv_lhs => rw [hY', ← Matrix.mul_assoc, w, ← hY']
  have e3 := congrArg Matrix.transpose e1
  rw [Matrix.transpose_mul, s, s', e2] at e3
  exact e3.symm

private theorem columnProjector_proj {N m : ℕ} {W : Matrix (Fin N) (Fin m) ℝ} (h : LinearIndependent ℝ W.col) :
    Spec.IsColumnProjector W (IdemGrad.proj W) :=
  ⟨IdemGrad.proj_sym W, IdemGrad.proj_idem (IdemGrad.gram_real h), IdemGrad.proj_mul (IdemGrad.gram_real h), _,
    by unfold IdemGrad.proj; rw [Matrix.mul_assoc]⟩

/-- The occupations of a channel are the diagonal of the projector. -/
theorem idemChannel_proj {qr : QR ℝ} (ht : Spec.Triangular qr) {nk nb m : ℕ}
    {W : Matrix (Fin (nk * nb)) (Fin m) ℝ} (hm : m ≤ nk * nb) (hW : IsUnit (Wᵀ * W).det) (k : Fin nk) (b : Fin nb) :
    idemChannel qr W k b = IdemGrad.proj W (finProdFinEquiv (k, b)) (finProdFinEquiv (k, b)) := by
  obtain ⟨R, -, hR⟩ := ht W
  rw [← IdemGrad.proj_factor (min_eq_right hm) hW (qr_orth_real qr W) hR]
  rfl

theorem columns_le {N m : ℕ} {W : Matrix (Fin N) (Fin m) ℝ} (h : LinearIndependent ℝ W.col) : m ≤ N := by
  have := h.fintype_card_le_finrank
  simpa using this

private theorem channel_deriv {qr : QR ℝ} (ht : Spec.Triangular qr) {nk nb m : ℕ}
    {W : ℝ → Matrix (Fin (nk * nb)) (Fin m) ℝ} {D : Matrix (Fin (nk * nb)) (Fin m) ℝ}
    (hD : ∀ i j, HasDerivAt (fun t => W t i j) (D i j) 0) (hW : LinearIndependent ℝ (W 0).col) (k : Fin nk) (b : Fin nb) :
    HasDerivAt (fun t => idemChannel qr (W t) k b)
      ((IdemGrad.half (W 0) D + (IdemGrad.half (W 0) D)ᵀ) (finProdFinEquiv (k, b)) (finProdFinEquiv (k, b))) 0 := by
  have hu := IdemGrad.gram_real hW
  refine (IdemGrad.proj_deriv hD hu _ _).congr_of_eventuallyEq ?_
  have dS : ∀ i j, DifferentiableAt ℝ (fun t => ((W t)ᵀ * W t) i j) 0 :=
    IdemGrad.mul_diff (fun i j => (hD j i).differentiableAt) (fun i j => (hD i j).differentiableAt)
  filter_upwards [(IdemGrad.det_diff dS).continuousAt.eventually_ne hu.ne_zero] with t h
  exact idemChannel_proj ht (columns_le hW) (isUnit_iff_ne_zero.2 h) k b

private theorem ravel_at {nk nb : ℕ} (e : Fin nk → Fin nb → ℝ) (k : Fin nk) (b : Fin nb) :
    ravel e (finProdFinEquiv (k, b)) = e k b := by
  unfold ravel
  rw [Equiv.symm_apply_apply]

private theorem at_index {nk nb : ℕ} (i : Fin (nk * nb)) : ∃ k b, i = finProdFinEquiv (k, b) :=
  ⟨(finProdFinEquiv.symm i).1, (finProdFinEquiv.symm i).2, (finProdFinEquiv.apply_symm_apply i).symm⟩

private theorem channel_dot {nk nb m : ℕ} (e : Fin nk → Fin nb → ℝ) (W D : Matrix (Fin (nk * nb)) (Fin m) ℝ) :
    ∑ k, ∑ b, (IdemGrad.half W D + (IdemGrad.half W D)ᵀ) (finProdFinEquiv (k, b)) (finProdFinEquiv (k, b)) / nk * e k b
      = ∑ i, ∑ j, IdemGrad.grad (ravel fun k b => e k b / nk) W i j * D i j := by
  rw [← IdemGrad.grad_dot]
  have := sum_unravel (nk := nk) (nb := nb) fun i => (ravel fun k b => e k b / nk) i
    * (IdemGrad.half W D + (IdemGrad.half W D)ᵀ) i i
  rw [← this]
  refine Finset.sum_congr rfl fun k _ => Finset.sum_congr rfl fun b _ => ?_
  unfold unravel
  beta_reduce
  rw [ravel_at]
  ring

private theorem keepsLevels_iff {nk nb m : ℕ} (hk : 0 < nk) (e : Fin nk → Fin nb → ℝ)
    {W : Matrix (Fin (nk * nb)) (Fin m) ℝ} (hW : LinearIndependent ℝ W.col)
    {P : Matrix (Fin (nk * nb)) (Fin (nk * nb)) ℝ} (hP : Spec.IsColumnProjector W P) :
    IdemGrad.grad (ravel fun k b => e k b / nk) W = 0 ↔ Spec.KeepsLevels e P := by
  have hkR : (nk : ℝ) ≠ 0 := by exact_mod_cast hk.ne'
  rw [IdemGrad.grad_zero _ (IdemGrad.gram_real hW), columnProjector_unique hP (columnProjector_proj hW)]
  unfold Spec.KeepsLevels
  constructor
  · intro h k b k' b' he
    refine h _ _ fun h2 => he ?_
    rw [ravel_at, ravel_at] at h2
    exact (div_left_inj' hkR).1 h2
  · intro h i j hc
    obtain ⟨k, b, rfl⟩ := at_index i
    obtain ⟨k', b', rfl⟩ := at_index j
    rw [ravel_at, ravel_at] at hc
    exact h k b k' b' fun h2 => hc (by rw [h2])

private theorem pair_unique {N mu md : ℕ} {f : Matrix (Fin N) (Fin mu) ℝ × Matrix (Fin N) (Fin md) ℝ → ℝ}
    {W G G' : Matrix (Fin N) (Fin mu) ℝ × Matrix (Fin N) (Fin md) ℝ} (h : Spec.IsPairGradient f W G)
    (h' : Spec.IsPairGradient f W G') : G = G' := by
  have hline : ∀ a b : ℝ, HasDerivAt (fun t : ℝ => a + t * b) b 0 := fun a b => by
    simpa using ((hasDerivAt_id (0 : ℝ)).mul_const b).const_add a
  have key : ∀ d : Matrix (Fin N) (Fin mu) ℝ × Matrix (Fin N) (Fin md) ℝ,
      ∑ i, ∑ j, G.1 i j * d.1 i j + ∑ i, ∑ j, G.2 i j * d.2 i j
        = ∑ i, ∑ j, G'.1 i j * d.1 i j + ∑ i, ∑ j, G'.2 i j * d.2 i j := by
    intro d
    have a := h (fun t => (fun i j => W.1 i j + t * d.1 i j, fun i j => W.2 i j + t * d.2 i j)) d
      (by ext <;> simp) (fun i j => hline _ _) (fun i j => hline _ _)
    have a' := h' (fun t => (fun i j => W.1 i j + t * d.1 i j, fun i j => W.2 i j + t * d.2 i j)) d
      (by ext <;> simp) (fun i j => hline _ _) (fun i j => hline _ _)
    exact a.unique a'
  have hz := key (fun i j => G.1 i j - G'.1 i j, fun i j => G.2 i j - G'.2 i j)
  have hs : ∑ i, ∑ j, (G.1 i j - G'.1 i j) ^ 2 + ∑ i, ∑ j, (G.2 i j - G'.2 i j) ^ 2 = 0 := by
    rw [← sub_eq_zero] at hz
    rw [← hz]
    simp only [sq, sub_mul, Finset.sum_sub_distrib]
    ring
  have n1 : 0 ≤ ∑ i, ∑ j, (G.1 i j - G'.1 i j) ^ 2 := Finset.sum_nonneg fun _ _ => Finset.sum_nonneg fun _ _ => sq_nonneg _
  have n2 : 0 ≤ ∑ i, ∑ j, (G.2 i j - G'.2 i j) ^ 2 := Finset.sum_nonneg fun _ _ => Finset.sum_nonneg fun _ _ => sq_nonneg _
  have z : ∀ {m : ℕ} (A B : Matrix (Fin N) (Fin m) ℝ), ∑ i, ∑ j, (A i j - B i j) ^ 2 = 0 → A = B := by
    intro m A B h
    ext i j
    have h1 := (Finset.sum_eq_zero_iff_of_nonneg fun i _ => Finset.sum_nonneg fun j _ => sq_nonneg _).1 h i (Finset.mem_univ _)
    have h2 := (Finset.sum_eq_zero_iff_of_nonneg fun j _ => sq_nonneg _).1 h1 j (Finset.mem_univ _)
    exact sub_eq_zero.1 (pow_eq_zero_iff two_ne_zero |>.1 h2)
  exact Prod.ext (z _ _ (by linarith)) (z _ _ (by linarith))

/-- The gradient of a function of the occupations. -/
private theorem idem_rows {qr : QR ℝ} (ht : Spec.Triangular qr) {ns nk nb mu md : ℕ} (hk : 0 < nk) (r : Bool)
    (hns : ns = if r then 1 else 2)
    (W : Matrix (Fin (nk * nb)) (Fin mu) ℝ × Matrix (Fin (nk * nb)) (Fin md) ℝ) (hu : LinearIndependent ℝ W.1.col)
    (hd : LinearIndependent ℝ W.2.col) (Φ : (Fin ns → Fin nk → Fin nb → ℝ) → ℝ)
    (f : Matrix (Fin (nk * nb)) (Fin mu) ℝ × Matrix (Fin (nk * nb)) (Fin md) ℝ → ℝ)
    (hf : ∀ W, f W = Φ fun (s : Fin ns) k b => Spec.idemEntry qr W r s k b) (e : Fin ns → Fin nk → Fin nb → ℝ)
    (hder : ∀ (o : ℝ → Fin ns → Fin nk → Fin nb → ℝ) (d : Fin ns → Fin nk → Fin nb → ℝ),
      (o 0 = fun (s : Fin ns) k b => Spec.idemEntry qr W r s k b) → (∀ s k b, HasDerivAt (fun t => o t s k b) (d s k b) 0) →
      HasDerivAt (fun t => Φ (o t)) (∑ s, ∑ k, ∑ b, d s k b * e s k b) 0)
    (P : Fin 2 → Matrix (Fin (nk * nb)) (Fin (nk * nb)) ℝ) (h0 : Spec.IsColumnProjector W.1 (P 0))
    (h1 : Spec.IsColumnProjector W.2 (P 1)) :
    (∃ G, Spec.IsPairGradient f W G) ∧ ∀ G, Spec.IsPairGradient f W G → (G = 0 ↔
      ∀ (sp : Fin 2) (s : Fin ns), (s : ℕ) = Spec.rowOf r sp → Spec.KeepsLevels (e s) (P sp)) := by
  have key : ∃ G, Spec.IsPairGradient f W G ∧ (G = 0 ↔
      ∀ (sp : Fin 2) (s : Fin ns), (s : ℕ) = Spec.rowOf r sp → Spec.KeepsLevels (e s) (P sp)) := by
    cases r with
    | true =>
      simp only [if_true] at hns
      subst hns
      refine ⟨(IdemGrad.grad (ravel fun k b => e 0 k b / nk) W.1, IdemGrad.grad (ravel fun k b => e 0 k b / nk) W.2), ?_, ?_⟩
      · intro c d hc d1 d2
        have hc1 : (c 0).1 = W.1 := by rw [hc]
        have hc2 : (c 0).2 = W.2 := by rw [hc]
        have := hder (fun t s k b => Spec.idemEntry qr (c t) true s k b) (fun s k b =>
          ((IdemGrad.half W.1 d.1 + (IdemGrad.half W.1 d.1)ᵀ) (finProdFinEquiv (k, b)) (finProdFinEquiv (k, b))
          + (IdemGrad.half W.2 d.2 + (IdemGrad.half W.2 d.2)ᵀ) (finProdFinEquiv (k, b)) (finProdFinEquiv (k, b))) / nk)
          (by rw [hc]) (fun s k b => by
            rw [Subsingleton.elim s 0]
            have a1 := channel_deriv ht d1 (by rw [hc1]; exact hu) k b
            have a2 := channel_deriv ht d2 (by rw [hc2]; exact hd) k b
            rw [hc1] at a1
            rw [hc2] at a2
            exact (a1.add a2).div_const (nk : ℝ))
        simp only [hf]
        refine this.congr_deriv ?_
        rw [Fin.sum_univ_one, ← channel_dot, ← channel_dot, ← Finset.sum_add_distrib]
        refine Finset.sum_congr rfl fun k _ => ?_
        rw [← Finset.sum_add_distrib]
        exact Finset.sum_congr rfl fun b _ => by ring
      · rw [Prod.mk_eq_zero, keepsLevels_iff hk (e 0) hu h0, keepsLevels_iff hk (e 0) hd h1]
        constructor
        · rintro ⟨a, b⟩ sp s -
          rw [Subsingleton.elim s 0]
          fin_cases sp
          · exact a
          · exact b
        · exact fun h => ⟨h 0 0 rfl, h 1 0 rfl⟩
    | false =>
      simp only [Bool.false_eq_true, if_false] at hns
      subst hns
      refine ⟨(IdemGrad.grad (ravel fun k b => e 0 k b / nk) W.1, IdemGrad.grad (ravel fun k b => e 1 k b / nk) W.2), ?_, ?_⟩
      · intro c d hc d1 d2
        have hc1 : (c 0).1 = W.1 := by rw [hc]
        have hc2 : (c 0).2 = W.2 := by rw [hc]
        have := hder (fun t s k b => Spec.idemEntry qr (c t) false s k b) (fun s k b => if s = 0 then
          (IdemGrad.half W.1 d.1 + (IdemGrad.half W.1 d.1)ᵀ) (finProdFinEquiv (k, b)) (finProdFinEquiv (k, b)) / nk
          else (IdemGrad.half W.2 d.2 + (IdemGrad.half W.2 d.2)ᵀ) (finProdFinEquiv (k, b)) (finProdFinEquiv (k, b)) / nk)
          (by rw [hc]) (fun s k b => by
            have a1 := channel_deriv ht d1 (by rw [hc1]; exact hu) k b
            have a2 := channel_deriv ht d2 (by rw [hc2]; exact hd) k b
            rw [hc1] at a1
            rw [hc2] at a2
            fin_cases s
            · exact a1.div_const (nk : ℝ)
            · exact a2.div_const (nk : ℝ))
        simp only [hf]
        refine this.congr_deriv ?_
        rw [Fin.sum_univ_two, ← channel_dot, ← channel_dot]
        rfl
      · rw [Prod.mk_eq_zero, keepsLevels_iff hk (e 0) hu h0, keepsLevels_iff hk (e 1) hd h1]
        constructor
        · rintro ⟨a, b⟩ sp s hs
          have : s = sp := Fin.ext hs
          subst this
          fin_cases s
          · exact a
          · exact b
        · exact fun h => ⟨h 0 0 rfl, h 1 1 rfl⟩
  obtain ⟨G, hG, hG'⟩ := key
  exact ⟨⟨G, hG⟩, fun G' h => by rw [pair_unique h hG]; exact hG'⟩

/-- C133, what it means for the electrons: a spin channel whose projector keeps the levels has a whole number of
electrons per k point set in every group of bands of equal energy; a band whose energy no other band has is empty or
full. -/
theorem keepsLevels_whole {qr : QR ℝ} (ht : Spec.Triangular qr) {nk nb m : ℕ} (e : Fin nk → Fin nb → ℝ)
    {W : Matrix (Fin (nk * nb)) (Fin m) ℝ} (hW : LinearIndependent ℝ W.col)
    {P : Matrix (Fin (nk * nb)) (Fin (nk * nb)) ℝ} (hP : Spec.IsColumnProjector W P) (h : Spec.KeepsLevels e P) :
    (∀ θ, ∃ z : ℕ, ∑ k, ∑ b, (if e k b = θ then idemChannel qr W k b else 0) = z) ∧
    ∀ k b, (∀ k' b', e k' b' = e k b → k' = k ∧ b' = b) → idemChannel qr W k b = 0 ∨ idemChannel qr W k b = 1 := by
  have hx : ∀ k b, idemChannel qr W k b = P (finProdFinEquiv (k, b)) (finProdFinEquiv (k, b)) := fun k b => by
    rw [columnProjector_unique hP (columnProjector_proj hW)]
    exact idemChannel_proj ht (columns_le hW) (IdemGrad.gram_real hW) k b
  have hwhole : ∀ θ, ∃ z : ℕ, ∑ k, ∑ b, (if e k b = θ then idemChannel qr W k b else 0) = z := by
    intro θ
    obtain ⟨z, hz⟩ := IdemGrad.whole_trace (ravel e) hP.2.1 (fun i j hc => by
      obtain ⟨k, b, rfl⟩ := at_index i
      obtain ⟨k', b', rfl⟩ := at_index j
      rw [ravel_at, ravel_at] at hc
      exact h k b k' b' hc) θ
    refine ⟨z, ?_⟩
    rw [← hz, Finset.sum_filter, ← sum_unravel]
    refine Finset.sum_congr rfl fun k _ => Finset.sum_congr rfl fun b _ => ?_
    unfold unravel
    beta_reduce
    rw [ravel_at, hx]
  refine ⟨hwhole, fun k b hkb => ?_⟩
  obtain ⟨z, hz⟩ := hwhole (e k b)
  have e1 : ∑ k', ∑ b', (if e k' b' = e k b then idemChannel qr W k' b' else 0) = idemChannel qr W k b := by
    rw [Finset.sum_eq_single k, Finset.sum_eq_single b]
    · rw [if_pos rfl]
    · intro b' _ hb'
      rw [if_neg fun h2 => hb' (hkb k b' h2).2]
    · intro h2; exact absurd (Finset.mem_univ _) h2
    · intro k' _ hk'
      exact Finset.sum_eq_zero fun b' _ => if_neg fun h2 => hk' (hkb k' b' h2).1
    · intro h2; exact absurd (Finset.mem_univ _) h2
  rw [e1] at hz
  have hb := (idemChannel_bounds qr W k b).2
  rw [hz] at hb ⊢
  have : z ≤ 1 := by exact_mod_cast hb
  interval_cases z
  · left; simp
  · right; simp

/-- C133: the occupations that `idempotent` returns are the diagonals of the projectors of the two channels, divided by
the number of k points, and added up in a restricted calculation. -/
theorem idempotent_projector {qr : QR ℝ} (ht : Spec.Triangular qr) {nk nb mu md : ℕ}
    (W : Matrix (Fin (nk * nb)) (Fin mu) ℝ × Matrix (Fin (nk * nb)) (Fin md) ℝ) (hu : LinearIndependent ℝ W.1.col)
    (hd : LinearIndependent ℝ W.2.col) {P Q : Matrix (Fin (nk * nb)) (Fin (nk * nb)) ℝ}
    (h0 : Spec.IsColumnProjector W.1 P) (h1 : Spec.IsColumnProjector W.2 Q) (k : Fin nk) (b : Fin nb) :
    Spec.idemEntry qr W true 0 k b = (P (finProdFinEquiv (k, b)) (finProdFinEquiv (k, b))
      + Q (finProdFinEquiv (k, b)) (finProdFinEquiv (k, b))) / nk ∧
    Spec.idemEntry qr W false 0 k b = P (finProdFinEquiv (k, b)) (finProdFinEquiv (k, b)) / nk ∧
    Spec.idemEntry qr W false 1 k b = Q (finProdFinEquiv (k, b)) (finProdFinEquiv (k, b)) / nk := by
  have a := idemChannel_proj ht (columns_le hu) (IdemGrad.gram_real hu) k b
  have c := idemChannel_proj ht (columns_le hd) (IdemGrad.gram_real hd) k b
  rw [← columnProjector_unique h0 (columnProjector_proj hu)] at a
  rw [← columnProjector_unique h1 (columnProjector_proj hd)] at c
  rw [← a, ← c]
  exact ⟨rfl, rfl, rfl⟩

/-- C133, the converse warning: parameters that fill any chosen states `σ` completely keep the levels whatever the energies
are, so there the occupation gradient is zero also if the chosen states are not the lowest. -/
theorem keepsLevels_chosen {nk nb m : ℕ} (σ : Fin m → Fin (nk * nb)) (hσ : Function.Injective σ) :
    ∃ (W : Matrix (Fin (nk * nb)) (Fin m) ℝ) (P : Matrix (Fin (nk * nb)) (Fin (nk * nb)) ℝ),
      LinearIndependent ℝ W.col ∧ Spec.IsColumnProjector W P ∧
      (∀ i, P i i = if ∃ j, σ j = i then 1 else 0) ∧ ∀ e, Spec.KeepsLevels e P := by
  classical
  set W : Matrix (Fin (nk * nb)) (Fin m) ℝ := Matrix.of fun i j => if σ j = i then 1 else 0 with hW
  set P : Matrix (Fin (nk * nb)) (Fin (nk * nb)) ℝ := Matrix.diagonal fun i => if ∃ j, σ j = i then 1 else 0 with hP
  have hWW : Wᵀ * W = 1 := by
    ext a b
    rw [Matrix.mul_apply, Matrix.one_apply, Finset.sum_eq_single (σ a)]
    · simp only [hW, Matrix.transpose_apply, Matrix.of_apply, if_true, one_mul, hσ.eq_iff, eq_comm]
    · intro i _ hi
      simp [hW, Ne.symm hi]
    · intro h; exact absurd (Finset.mem_univ _) h
  have hPW : P = W * Wᵀ := by
    ext i i'
    rw [hP, Matrix.diagonal_apply, Matrix.mul_apply]
    simp only [hW, Matrix.of_apply, Matrix.transpose_apply]
    by_cases hi : ∃ j, σ j = i
    · obtain ⟨j, rfl⟩ := hi
      rw [Finset.sum_eq_single j]
      · simp
      · intro j' _ hj'
        rw [if_neg fun h => hj' (hσ h), zero_mul]
      · intro h; exact absurd (Finset.mem_univ _) h
    · rw [if_neg hi, ite_self, Finset.sum_eq_zero]
      intro j _
      rw [if_neg fun h => hi ⟨j, h⟩, zero_mul]
  have hPP : P * P = P := by
    rw [hPW, Matrix.mul_assoc, ← Matrix.mul_assoc Wᵀ, hWW, Matrix.one_mul]
  have hi : LinearIndependent ℝ W.col := by
    rw [← Matrix.mulVec_injective_iff]
    intro x y hxy
    have := congrArg (Wᵀ *ᵥ ·) hxy
    simpa only [Matrix.mulVec_mulVec, hWW, Matrix.one_mulVec] using this
  refine ⟨W, P, hi, ⟨Matrix.diagonal_transpose _, hPP, ?_, Wᵀ, hPW⟩, fun i => Matrix.diagonal_apply_eq _ i,
    fun e k b k' b' he => Matrix.diagonal_apply_ne _ fun h => he ?_⟩
  · rw [hPW, Matrix.mul_assoc, hWW, Matrix.mul_one]
  · have := finProdFinEquiv.injective h
    rw [Prod.mk.injEq] at this
    rw [this.1, this.2]

private theorem projectors_none {N : ℕ} (vol : ℝ) (f : Fin 0 × Fin 0 → Fin N → ℂ) : Spec.projectorMatrix vol f = 0 := by
  funext a b
  simp [Spec.projectorMatrix]

private theorem sum_move {B m : ℕ} (h : B = m) (t : ℝ) (d : Fin m → ℝ) (e : Fin B → ℝ) (q : Fin m → ℝ) :
    ∑ b, d (Fin.cast h b) * e b - t * ∑ b, d b * q b = ∑ b, d b * (e (Fin.cast h.symm b) - t * q b) := by
  subst h
  rw [Finset.mul_sum, ← Finset.sum_sub_distrib]
  exact Finset.sum_congr rfl fun b _ => by
    rw [Fin.cast_eq_self]
    ring

section
variable {ns nk nb mu md : ℕ} {n : Fin 3 → ℕ}

private theorem idem_length {na : ℕ} (E : GsEnv na nk n) (hmeth : E.method = "idempotent")
    (hns : ns = if E.restricted then 1 else 2) (hm : nb ≤ maskCount E.mask)
    (W : Matrix (Fin (nk * nb)) (Fin mu) ℝ × Matrix (Fin (nk * nb)) (Fin md) ℝ) :
    ∃ (o : OccArr nk nb ℝ) (hl : o.length = ns),
      occupation E.qrR (.idem ⟨mu, md, W.1, W.2⟩) E.ne E.spin E.method E.restricted = .ok o ∧
      ∀ (s : Fin ns) k (b : Fin (min (maskCount E.mask) nb)),
        Spec.idemEntry E.qrR W E.restricted s k (Fin.cast (min_eq_right hm) b)
          = o.get (Fin.cast hl.symm s) k (Fin.castLE (min_le_right _ _) b) := by
  have hlen : (idempotentOcc E.qrR ⟨mu, md, W.1, W.2⟩ E.restricted).length = ns := by
    rw [hns]
    cases E.restricted <;> simp [idempotentOcc]
  refine ⟨idempotentOcc E.qrR ⟨mu, md, W.1, W.2⟩ E.restricted, hlen, by simp [occupation, hmeth], fun s k b => ?_⟩
  unfold Spec.idemEntry
  rw [List.getD_eq_getElem _ _ (by rw [hlen]; exact s.isLt)]
  rfl

private theorem idem_bounds (hk : 0 < nk) (qr : QR ℝ) (r : Bool) (hns : ns = if r then 1 else 2)
    (W : Matrix (Fin (nk * nb)) (Fin mu) ℝ × Matrix (Fin (nk * nb)) (Fin md) ℝ) (s : Fin ns) (k : Fin nk) (b : Fin nb) :
    0 ≤ Spec.idemEntry qr W r s k b ∧ Spec.idemEntry qr W r s k b ≤ (3 - (ns : ℝ)) / nk := by
  have hkR : (0 : ℝ) < nk := by exact_mod_cast hk
  obtain ⟨u0, u1⟩ := idemChannel_bounds qr W.1 k b
  obtain ⟨d0, d1⟩ := idemChannel_bounds qr W.2 k b
  cases r with
  | true =>
    simp only [if_true] at hns
    subst hns
    rw [Subsingleton.elim s 0]
    change 0 ≤ (idemChannel qr W.1 k b + idemChannel qr W.2 k b) / (nk : ℝ) ∧
      (idemChannel qr W.1 k b + idemChannel qr W.2 k b) / (nk : ℝ) ≤ _
    refine ⟨div_nonneg (by linarith) hkR.le, div_le_div_of_nonneg_right ?_ hkR.le⟩
    push_cast
    linarith
  | false =>
    simp only [Bool.false_eq_true, if_false] at hns
    subst hns
    have hc : (3 - ((2 : ℕ) : ℝ)) / nk = 1 / nk := by norm_num
    rw [hc]
    fin_cases s
    · exact ⟨div_nonneg u0 hkR.le, div_le_div_of_nonneg_right u1 hkR.le⟩
    · exact ⟨div_nonneg d0 hkR.le, div_le_div_of_nonneg_right d1 hkR.le⟩

/-- The free energy as a function of the occupations. -/
private theorem idem_key {na M : ℕ} {ι : Type} [Fintype ι] (E : GsEnv na nk n)
    (psi : Fin nk → ι → Fin M → Idx n → ℂ) (V : Idx n → ℝ) (hk : 0 < nk) (htR : Spec.Triangular E.qrR)
    (hns : ns = if E.restricted then 1 else 2) (hm : nb ≤ maskCount E.mask) (heps : 0 < E.eps)
    (A : Matrix (Fin 3) (Fin 3) ℝ) (hA : A.det ≠ 0) (hgA : E.g = gVectors A n) (hvol : 0 < E.vol)
    (X : (Fin ns → Idx n → ℝ) → ℝ) (temp : ℝ)
    (f : Matrix (Fin (nk * nb)) (Fin mu) ℝ × Matrix (Fin (nk * nb)) (Fin md) ℝ → ℝ)
    (p : PwParams ns nk (maskCount E.mask) nb)
    (hf : ∀ W, f W = spinSum X V psi E.g E.kpts E.vol
        (fun (s : Fin ns) k b => Spec.idemEntry E.qrR W E.restricted s k (Fin.cast (min_eq_right hm) b))
        (pwCoeff E.qrC E.mask p)
      - temp * Spec.smearingEntropy E.eps ((3 - (ns : ℝ)) / nk)
        fun (s : Fin ns) k (b : Fin (min (maskCount E.mask) nb)) =>
          Spec.idemEntry E.qrR W E.restricted s k (Fin.cast (min_eq_right hm) b))
    (W : Matrix (Fin (nk * nb)) (Fin mu) ℝ × Matrix (Fin (nk * nb)) (Fin md) ℝ) (hu : LinearIndependent ℝ W.1.col)
    (hd : LinearIndependent ℝ W.2.col)
    (P : Fin 2 → Matrix (Fin (nk * nb)) (Fin (nk * nb)) ℝ) (h0 : Spec.IsColumnProjector W.1 (P 0))
    (h1 : Spec.IsColumnProjector W.2 (P 1))
    (occ : Occ ns nk (min (maskCount E.mask) nb))
    (hocc : ∀ s k b, occ s k b = Spec.idemEntry E.qrR W E.restricted s k (Fin.cast (min_eq_right hm) b))
    (v : Fin ns → Idx n → ℝ)
    (hv : Spec.IsDensityGradient E.vol X (densityGrid (pwCoeff E.qrC E.mask p) E.vol occ) v) (U : Fin ns → Idx n → ℝ)
    (hU : ∀ s j, U s j = V j
      + (hartreeRealSpace (densityGrid (pwCoeff E.qrC E.mask p) E.vol occ) E.g true j).re + v s j)
    (F : Fin ns → Fin nk → Matrix (Fin (maskCount E.mask)) (Fin (maskCount E.mask)) ℂ)
    (hF : ∀ s k, F s k
      = Spec.planeWaveHamiltonian (fun a => E.g (maskPos E.mask a)) (rVectors A n) (U s) (E.kpts k)
      + Spec.projectorMatrix E.vol (fun (i : ι × Fin M) a => psi k i.1 i.2 (maskPos E.mask a))) :
    (∃ K, Spec.IsPairGradient f W K) ∧ ∀ K, Spec.IsPairGradient f W K → (K = 0 ↔
      ∀ (sp : Fin 2) (s : Fin ns), (s : ℕ) = Spec.rowOf E.restricted sp → Spec.KeepsLevels
        (fun k b => (Spec.bandEnergy (F s k) fun y =>
            pwCoeff E.qrC E.mask p s k (Fin.cast (min_eq_right hm).symm b) (maskPos E.mask y))
          - temp * Spec.entropySlope E.eps ((3 - (ns : ℝ)) / nk) (Spec.idemEntry E.qrR W E.restricted s k b)) (P sp)) := by
  have hbd := idem_bounds hk E.qrR E.restricted hns W
  exact idem_rows htR hk E.restricted hns W hu hd
    (fun o => spinSum X V psi E.g E.kpts E.vol (fun s k b => o s k (Fin.cast (min_eq_right hm) b)) (pwCoeff E.qrC E.mask p)
      - temp * Spec.smearingEntropy E.eps ((3 - (ns : ℝ)) / nk)
        fun s k (b : Fin (min (maskCount E.mask) nb)) => o s k (Fin.cast (min_eq_right hm) b)) f hf
    (fun s k b => (Spec.bandEnergy (F s k) fun y =>
        pwCoeff E.qrC E.mask p s k (Fin.cast (min_eq_right hm).symm b) (maskPos E.mask y))
      - temp * Spec.entropySlope E.eps ((3 - (ns : ℝ)) / nk) (Spec.idemEntry E.qrR W E.restricted s k b))
    (fun o d ho hod => by
      have hocc0 : (fun s k b => o 0 s k (Fin.cast (min_eq_right hm) b)) = occ := by
        funext s k b
        rw [hocc, ho]
      have d1 := spinSum_occ X E.qrC E.mask V psi A hA E.kpts E.vol hvol p
        (fun t s k b => o t s k (Fin.cast (min_eq_right hm) b)) (fun s k b => d s k (Fin.cast (min_eq_right hm) b))
        (fun s k b => hod s k _) v (by rw [hocc0]; exact hv) U (by rw [hocc0, ← hgA]; exact hU) F
        (by rw [← hgA]; exact hF)
      rw [← hgA] at d1
      have d2 := hasDerivAt_entropy (min_eq_right hm) E.eps ((3 - (ns : ℝ)) / nk) heps o d hod
        (fun s k b => by rw [ho]; exact (hbd s k b).1) (fun s k b => by rw [ho]; exact (hbd s k b).2)
      refine (d1.fun_sub (d2.const_mul temp)).congr_deriv ?_
      rw [ho, Finset.mul_sum, ← Finset.sum_sub_distrib]
      refine Finset.sum_congr rfl fun s _ => ?_
      rw [Finset.mul_sum, ← Finset.sum_sub_distrib]
      refine Finset.sum_congr rfl fun k _ => ?_
      exact sum_move (min_eq_right hm) temp (d s k)
        (fun b => Spec.bandEnergy (F s k) fun y => pwCoeff E.qrC E.mask p s k b (maskPos E.mask y)) _)
    P h0 h1

theorem idem_free {na : ℕ} (E : GsEnv na nk n) (hmeth : E.method = "idempotent")
    (hns : ns = if E.restricted then 1 else 2) (hm : nb ≤ maskCount E.mask) (X : (Fin ns → Idx n → ℝ) → ℝ)
    (hX : ∀ r, xcEnergy E.lib E.xc false r E.g E.vol = .ok (X r)) (temp : ℝ)
    (w : PwParams ns nk (maskCount E.mask) nb)
    (W : Matrix (Fin (nk * nb)) (Fin mu) ℝ × Matrix (Fin (nk * nb)) (Fin md) ℝ) :
    (gsFree E temp ⟨w, .idem ⟨mu, md, W.1, W.2⟩⟩).map (fun r => r.1) = .ok
      (spinSum X (fun j => (externalPotential E.pos E.charge E.g E.vol j).re) (fun _ (_ : Fin 0) (_ : Fin 0) _ => 0) E.g E.kpts E.vol
        (fun (s : Fin ns) k b => Spec.idemEntry E.qrR W E.restricted s k (Fin.cast (min_eq_right hm) b))
        (pwCoeff E.qrC E.mask w)
      - temp * Spec.smearingEntropy E.eps ((3 - (ns : ℝ)) / nk)
        fun (s : Fin ns) k (b : Fin (min (maskCount E.mask) nb)) =>
          Spec.idemEntry E.qrR W E.restricted s k (Fin.cast (min_eq_right hm) b)) := by
  obtain ⟨o, hl, ho, hy⟩ := idem_length E hmeth hns hm W
  have hs := gsState_eq E ⟨w, .idem ⟨mu, md, W.1, W.2⟩⟩ o ho hl hm _ hy
  have he := gsEntropy_eq E ⟨w, .idem ⟨mu, md, W.1, W.2⟩⟩ o ho hl hm _ hy
  unfold gsFree
  rw [gsTotal_of_state E ⟨w, .idem ⟨mu, md, W.1, W.2⟩⟩ _ _ hs,
    totalEnergy_spinSum E.lib E.xc E.pos E.charge E.g E.kpts E.vol X hX, he]
  rfl

/-- C133, all-electron driver with `idempotent` occupations: the minimised function has a gradient in the plane-wave and in
the occupation parameters, and it vanishes exactly if the occupied bands solve the Kohn-Sham equations of their own
density and the projector of each spin channel, whose diagonal are its occupations, connects only bands of equal energy.
At a temperature the energy of a band includes the change of the entropy with its occupation. -/
theorem driver_idempotent_gradient {na : ℕ} (E : GsEnv na nk n) (hk : 0 < nk)
    (ht : Spec.Triangular E.qrC) (htR : Spec.Triangular E.qrR) (hmeth : E.method = "idempotent")
    (hns : ns = if E.restricted then 1 else 2) (hm : nb ≤ maskCount E.mask) (heps : 0 < E.eps)
    (A : Matrix (Fin 3) (Fin 3) ℝ) (hA : A.det ≠ 0) (hgA : E.g = gVectors A n)
    (hvol : 0 < E.vol) (X : (Fin ns → Idx n → ℝ) → ℝ) (hX : ∀ r, xcEnergy E.lib E.xc false r E.g E.vol = .ok (X r))
    (temp : ℝ) (f : PwParams ns nk (maskCount E.mask) nb →
      Matrix (Fin (nk * nb)) (Fin mu) ℝ × Matrix (Fin (nk * nb)) (Fin md) ℝ → ℝ)
    (hf : ∀ w W, (gsFree E temp ⟨w, .idem ⟨mu, md, W.1, W.2⟩⟩).map (fun r => r.1) = .ok (f w W))
    (p : PwParams ns nk (maskCount E.mask) nb) (hp : Spec.Independent p)
    (W : Matrix (Fin (nk * nb)) (Fin mu) ℝ × Matrix (Fin (nk * nb)) (Fin md) ℝ) (hu : LinearIndependent ℝ W.1.col)
    (hd : LinearIndependent ℝ W.2.col)
    (P : Fin 2 → Matrix (Fin (nk * nb)) (Fin (nk * nb)) ℝ) (h0 : Spec.IsColumnProjector W.1 (P 0))
    (h1 : Spec.IsColumnProjector W.2 (P 1))
    (occ : Occ ns nk (min (maskCount E.mask) nb))
    (hocc : ∀ s k b, occ s k b = Spec.idemEntry E.qrR W E.restricted s k (Fin.cast (min_eq_right hm) b))
    (v : Fin ns → Idx n → ℝ)
    (hv : Spec.IsDensityGradient E.vol X (densityGrid (pwCoeff E.qrC E.mask p) E.vol occ) v) (U : Fin ns → Idx n → ℝ)
    (hU : ∀ s j, U s j = (externalPotential E.pos E.charge E.g E.vol j).re
      + (hartreeRealSpace (densityGrid (pwCoeff E.qrC E.mask p) E.vol occ) E.g true j).re + v s j)
    (F : Fin ns → Fin nk → Matrix (Fin (maskCount E.mask)) (Fin (maskCount E.mask)) ℂ)
    (hF : ∀ s k, F s k
      = Spec.planeWaveHamiltonian (fun a => E.g (maskPos E.mask a)) (rVectors A n) (U s) (E.kpts k)) :
    gsDensity E ⟨p, .idem ⟨mu, md, W.1, W.2⟩⟩ = .ok ⟨ns, densityGrid (pwCoeff E.qrC E.mask p) E.vol occ⟩ ∧
    (∃ G, Spec.IsFullGradient (fun w => f w W) p G) ∧ (∃ K, Spec.IsPairGradient (f p) W K) ∧
    ∀ G K, Spec.IsFullGradient (fun w => f w W) p G → Spec.IsPairGradient (f p) W K →
      (Spec.Vanishes G ∧ K = 0 ↔
        (Spec.KohnShamBands F occ fun s k b y => pwCoeff E.qrC E.mask p s k b (maskPos E.mask y)) ∧
        ∀ (sp : Fin 2) (s : Fin ns), (s : ℕ) = Spec.rowOf E.restricted sp → Spec.KeepsLevels
          (fun k b => (Spec.bandEnergy (F s k) fun y =>
              pwCoeff E.qrC E.mask p s k (Fin.cast (min_eq_right hm).symm b) (maskPos E.mask y))
            - temp * Spec.entropySlope E.eps ((3 - (ns : ℝ)) / nk) (Spec.idemEntry E.qrR W E.restricted s k b)) (P sp)) := by
  obtain ⟨o, hl, ho, hy⟩ := idem_length E hmeth hns hm W
  obtain ⟨g1, g2, g3⟩ := driver_gradient_spin E ht hm (.idem ⟨mu, md, W.1, W.2⟩) o ho hl occ
    (fun s k b => (hocc s k b).trans (hy s k b)) A hA hgA hvol X hX temp (fun w => f w W) (fun w => hf w W) p hp v hv U hU
    F hF
  obtain ⟨g4, g5⟩ := idem_key E (fun _ (_ : Fin 0) (_ : Fin 0) _ => 0) (fun j => (externalPotential E.pos E.charge E.g E.vol j).re) hk htR hns hm heps A hA hgA hvol X temp (f p) p
    (fun W => Except.ok.inj ((hf p W).symm.trans (idem_free E hmeth hns hm X hX temp p W))) W hu hd P h0 h1 occ hocc
    v hv U hU F (fun s k => by rw [hF, projectors_none, add_zero])
  exact ⟨g1, g2, g4, fun G K hG hK => by rw [g3 G hG, g5 K hK]⟩

theorem idem_freeNC {na M : ℕ} {ι : Type} [Fintype ι] (E : GsEnv na nk n)
    (vloc : Idx n → ℂ) (psi : Fin nk → ι → Fin M → Idx n → ℂ) (hmeth : E.method = "idempotent")
    (hns : ns = if E.restricted then 1 else 2) (hm : nb ≤ maskCount E.mask) (X : (Fin ns → Idx n → ℝ) → ℝ)
    (hX : ∀ r, xcEnergy E.lib E.xc false r E.g E.vol = .ok (X r)) (temp : ℝ)
    (w : PwParams ns nk (maskCount E.mask) nb)
    (W : Matrix (Fin (nk * nb)) (Fin mu) ℝ × Matrix (Fin (nk * nb)) (Fin md) ℝ) :
    (gsFreeNC E vloc psi temp ⟨w, .idem ⟨mu, md, W.1, W.2⟩⟩).map (fun r => r.1) = .ok
      (spinSum X (fun j => (ifftn vloc j).re) psi E.g E.kpts E.vol
        (fun (s : Fin ns) k b => Spec.idemEntry E.qrR W E.restricted s k (Fin.cast (min_eq_right hm) b))
        (pwCoeff E.qrC E.mask w)
      - temp * Spec.smearingEntropy E.eps ((3 - (ns : ℝ)) / nk)
        fun (s : Fin ns) k (b : Fin (min (maskCount E.mask) nb)) =>
          Spec.idemEntry E.qrR W E.restricted s k (Fin.cast (min_eq_right hm) b)) := by
  obtain ⟨o, hl, ho, hy⟩ := idem_length E hmeth hns hm W
  have hs := gsState_eq E ⟨w, .idem ⟨mu, md, W.1, W.2⟩⟩ o ho hl hm _ hy
  have he := gsEntropy_eq E ⟨w, .idem ⟨mu, md, W.1, W.2⟩⟩ o ho hl hm _ hy
  unfold gsFreeNC
  rw [gsTotalNC_of_state E vloc psi ⟨w, .idem ⟨mu, md, W.1, W.2⟩⟩ _ _ hs _
    (energyNC_spinSum E.lib E.xc vloc psi E.g E.kpts E.vol X hX _ _), he]
  rfl

/-- C133, norm-conserving driver with `idempotent` occupations: the minimised function has a gradient in the plane-wave and in
the occupation parameters, and it vanishes exactly if the occupied bands solve the Kohn-Sham equations of their own
density and the projector of each spin channel, whose diagonal are its occupations, connects only bands of equal energy.
At a temperature the energy of a band includes the change of the entropy with its occupation. -/
theorem driverNC_idempotent_gradient {na M : ℕ} {ι : Type} [Fintype ι] (E : GsEnv na nk n)
    (vloc : Idx n → ℂ) (psi : Fin nk → ι → Fin M → Idx n → ℂ) (hk : 0 < nk)
    (ht : Spec.Triangular E.qrC) (htR : Spec.Triangular E.qrR) (hmeth : E.method = "idempotent")
    (hns : ns = if E.restricted then 1 else 2) (hm : nb ≤ maskCount E.mask) (heps : 0 < E.eps)
    (A : Matrix (Fin 3) (Fin 3) ℝ) (hA : A.det ≠ 0) (hgA : E.g = gVectors A n)
    (hvol : 0 < E.vol) (X : (Fin ns → Idx n → ℝ) → ℝ) (hX : ∀ r, xcEnergy E.lib E.xc false r E.g E.vol = .ok (X r))
    (temp : ℝ) (f : PwParams ns nk (maskCount E.mask) nb →
      Matrix (Fin (nk * nb)) (Fin mu) ℝ × Matrix (Fin (nk * nb)) (Fin md) ℝ → ℝ)
    (hf : ∀ w W, (gsFreeNC E vloc psi temp ⟨w, .idem ⟨mu, md, W.1, W.2⟩⟩).map (fun r => r.1) = .ok (f w W))
    (p : PwParams ns nk (maskCount E.mask) nb) (hp : Spec.Independent p)
    (W : Matrix (Fin (nk * nb)) (Fin mu) ℝ × Matrix (Fin (nk * nb)) (Fin md) ℝ) (hu : LinearIndependent ℝ W.1.col)
    (hd : LinearIndependent ℝ W.2.col)
    (P : Fin 2 → Matrix (Fin (nk * nb)) (Fin (nk * nb)) ℝ) (h0 : Spec.IsColumnProjector W.1 (P 0))
    (h1 : Spec.IsColumnProjector W.2 (P 1))
    (occ : Occ ns nk (min (maskCount E.mask) nb))
    (hocc : ∀ s k b, occ s k b = Spec.idemEntry E.qrR W E.restricted s k (Fin.cast (min_eq_right hm) b))
    (v : Fin ns → Idx n → ℝ)
    (hv : Spec.IsDensityGradient E.vol X (densityGrid (pwCoeff E.qrC E.mask p) E.vol occ) v) (U : Fin ns → Idx n → ℝ)
    (hU : ∀ s j, U s j = (ifftn vloc j).re
      + (hartreeRealSpace (densityGrid (pwCoeff E.qrC E.mask p) E.vol occ) E.g true j).re + v s j)
    (F : Fin ns → Fin nk → Matrix (Fin (maskCount E.mask)) (Fin (maskCount E.mask)) ℂ)
    (hF : ∀ s k, F s k
      = Spec.planeWaveHamiltonian (fun a => E.g (maskPos E.mask a)) (rVectors A n) (U s) (E.kpts k)
      + Spec.projectorMatrix E.vol (fun (i : ι × Fin M) a => psi k i.1 i.2 (maskPos E.mask a))) :
    gsDensity E ⟨p, .idem ⟨mu, md, W.1, W.2⟩⟩ = .ok ⟨ns, densityGrid (pwCoeff E.qrC E.mask p) E.vol occ⟩ ∧
    (∃ G, Spec.IsFullGradient (fun w => f w W) p G) ∧ (∃ K, Spec.IsPairGradient (f p) W K) ∧
    ∀ G K, Spec.IsFullGradient (fun w => f w W) p G → Spec.IsPairGradient (f p) W K →
      (Spec.Vanishes G ∧ K = 0 ↔
        (Spec.KohnShamBands F occ fun s k b y => pwCoeff E.qrC E.mask p s k b (maskPos E.mask y)) ∧
        ∀ (sp : Fin 2) (s : Fin ns), (s : ℕ) = Spec.rowOf E.restricted sp → Spec.KeepsLevels
          (fun k b => (Spec.bandEnergy (F s k) fun y =>
              pwCoeff E.qrC E.mask p s k (Fin.cast (min_eq_right hm).symm b) (maskPos E.mask y))
            - temp * Spec.entropySlope E.eps ((3 - (ns : ℝ)) / nk) (Spec.idemEntry E.qrR W E.restricted s k b)) (P sp)) := by
  obtain ⟨o, hl, ho, hy⟩ := idem_length E hmeth hns hm W
  obtain ⟨g1, g2, g3⟩ := driverNC_gradient_spin E vloc psi ht hm (.idem ⟨mu, md, W.1, W.2⟩) o ho hl occ
    (fun s k b => (hocc s k b).trans (hy s k b)) A hA hgA hvol X hX temp (fun w => f w W) (fun w => hf w W) p hp v hv U hU
    F hF
  obtain ⟨g4, g5⟩ := idem_key E psi (fun j => (ifftn vloc j).re) hk htR hns hm heps A hA hgA hvol X temp (f p) p
    (fun W => Except.ok.inj ((hf p W).symm.trans (idem_freeNC E vloc psi hmeth hns hm X hX temp p W))) W hu hd P h0 h1 occ hocc
    v hv U hU F hF
  exact ⟨g1, g2, g4, fun G K hG hK => by rw [g3 G hG, g5 K hK]⟩

end

open MeasureTheory in
/-- C133: the parameters of `idempotent`, drawn uniformly and independently from `[0, 1)`, have independent columns with
probability one, if there are not more electrons than states. -/
theorem idem_draw_independent {N m : ℕ} (h : m ≤ N) :
    ∀ᵐ w : Fin N × Fin m → ℝ ∂(Measure.pi fun _ => (MeasureTheory.volume : Measure ℝ).restrict (Set.Ico 0 1)),
      LinearIndependent ℝ (Matrix.of fun i j => w (i, j)).col := by
  have m0 : (MeasureTheory.volume : Measure (Fin N × Fin m → ℝ)).IsAddHaarMeasure := isAddHaarMeasure_volume_pi _
  let T : (Fin N × Fin m → ℝ) →ₗ[ℝ] Matrix (Fin m) (Fin m) ℂ :=
    { toFun := fun w => Matrix.of fun i j => (w (Fin.castLE h i, j) : ℂ)
      map_add' := fun w w' => by ext i j; simp
      map_smul' := fun c w => by ext i j; simp }
  have hv := det_ne_zero_ae MeasureTheory.volume T (fun x => if (x.1 : ℕ) = x.2 then 1 else 0) (by
    ext i j
    simp only [T, LinearMap.coe_mk, AddHom.coe_mk, Matrix.of_apply, Matrix.one_apply, Fin.val_castLE, Fin.ext_iff]
    split <;> simp)
  have hac : (Measure.pi fun _ : Fin N × Fin m => (MeasureTheory.volume : Measure ℝ).restrict (Set.Ico 0 1))
      ≪ MeasureTheory.volume := by
    rw [← Measure.restrict_pi_pi]
    exact Measure.restrict_le_self.absolutelyContinuous
  filter_upwards [hac.ae_le hv] with w hw
  have h1 : (Matrix.of fun i j : Fin m => w (Fin.castLE h i, j)).det ≠ 0 := by
    intro h0
    apply hw
    have h2 := RingHom.map_det Complex.ofRealHom (Matrix.of fun i j : Fin m => w (Fin.castLE h i, j))
    rw [h0, map_zero] at h2
    exact h2.symm
  have h2 := Matrix.linearIndependent_cols_of_det_ne_zero h1
  exact LinearIndependent.of_comp (LinearMap.funLeft ℝ ℝ (Fin.castLE h)) h2

/-- Two plane waves, two bands and one electron in each of two spin channels, with idempotent occupations. -/
noncomputable def idemTwoWaves : GsEnv 0 1 ![2, 1, 1] := { spinTwoWaves with method := "idempotent" }

/-- The hypotheses of the theorems above are met: two spin channels with a gradient functional and smearing, random
plane-wave parameters, and an electron shared by two bands; for valence electrons one projector. -/
example : ∃ (X : (Fin 2 → Idx ![2, 1, 1] → ℝ) → ℝ)
    (f f' : PwParams 2 1 (maskCount idemTwoWaves.mask) 2 →
      Matrix (Fin (1 * 2)) (Fin 1) ℝ × Matrix (Fin (1 * 2)) (Fin 1) ℝ → ℝ)
    (p : PwParams 2 1 (maskCount idemTwoWaves.mask) 2)
    (W : Matrix (Fin (1 * 2)) (Fin 1) ℝ × Matrix (Fin (1 * 2)) (Fin 1) ℝ)
    (P : Fin 2 → Matrix (Fin (1 * 2)) (Fin (1 * 2)) ℝ),
    Spec.Triangular idemTwoWaves.qrC ∧ Spec.Triangular idemTwoWaves.qrR ∧ idemTwoWaves.method = "idempotent" ∧
    2 = (if idemTwoWaves.restricted then 1 else 2) ∧ 2 ≤ maskCount idemTwoWaves.mask ∧ 0 < idemTwoWaves.eps ∧
    (1 : Matrix (Fin 3) (Fin 3) ℝ).det ≠ 0 ∧ idemTwoWaves.g = gVectors 1 ![2, 1, 1] ∧ 0 < idemTwoWaves.vol ∧
    (∀ r, xcEnergy idemTwoWaves.lib idemTwoWaves.xc false r idemTwoWaves.g idemTwoWaves.vol = .ok (X r)) ∧
    (∀ w W, (gsFree idemTwoWaves 1 ⟨w, .idem ⟨1, 1, W.1, W.2⟩⟩).map (fun r => r.1) = .ok (f w W)) ∧
    (∀ w W, (gsFreeNC idemTwoWaves (fun _ => 1) (fun _ (_ : Fin 1) (_ : Fin 1) _ => 1) 1
      ⟨w, .idem ⟨1, 1, W.1, W.2⟩⟩).map (fun r => r.1) = .ok (f' w W)) ∧
    Spec.Independent p ∧ LinearIndependent ℝ W.1.col ∧ LinearIndependent ℝ W.2.col ∧
    Spec.IsColumnProjector W.1 (P 0) ∧ Spec.IsColumnProjector W.2 (P 1) ∧
    Spec.KeepsLevels (fun _ _ => 0) (P 0) ∧ ¬ Spec.KeepsLevels (fun _ b => (b : ℝ)) (P 0) ∧
    ∀ occ, ∃ v, Spec.IsDensityGradient idemTwoWaves.vol X
      (densityGrid (pwCoeff idemTwoWaves.qrC idemTwoWaves.mask p) idemTwoWaves.vol occ) v := by
  have hm : 2 ≤ maskCount idemTwoWaves.mask := (by decide : 2 ≤ maskCount (n := ![2, 1, 1]) fun _ => true)
  obtain ⟨w, hw⟩ := (draw_independent (ns := 2) (nk := 1) (g := maskCount idemTwoWaves.mask) (nb := 2)).1 hm |>.exists
  have hX : ∀ r : Fin 2 → Idx ![2, 1, 1] → ℝ, xcEnergy idemTwoWaves.lib idemTwoWaves.xc false r idemTwoWaves.g
    idemTwoWaves.vol = .ok _ := fun r => xcEnergy_value _ _ _ _ _
  have h2 : splitPlus "gga_c" = ["gga_c"] := by decide +kernel
  have h4 : isExchange "gga_c" = false := by decide +kernel
  have hc : LinearIndependent ℝ (Matrix.of fun (_ : Fin (1 * 2)) (_ : Fin 1) => (1 : ℝ)).col := by
    rw [linearIndependent_unique_iff]
    intro h
    have := congrFun h 0
    norm_num [Matrix.col] at this
  have hP : Spec.IsColumnProjector (Matrix.of fun (_ : Fin (1 * 2)) (_ : Fin 1) => (1 : ℝ))
      (Matrix.of fun _ _ => (1 / 2 : ℝ)) := by
    refine ⟨rfl, ?_, ?_, Matrix.of fun _ _ => (1 / 2 : ℝ), ?_⟩ <;> ext i j <;> simp [Matrix.mul_apply]
  refine ⟨_, _, _, Spec.paramsOf w, (Matrix.of fun _ _ => 1, Matrix.of fun _ _ => 1), fun _ => Matrix.of fun _ _ => 1 / 2,
    gramSchmidtQR_triangular ℂ, gramSchmidtQR_triangular ℝ, rfl, rfl, hm,
    by norm_num [idemTwoWaves, spinTwoWaves, trainedTwoWaves], by simp, rfl,
    by norm_num [idemTwoWaves, spinTwoWaves, trainedTwoWaves], hX,
    fun w W => idem_free idemTwoWaves rfl rfl hm _ hX 1 w W,
    fun w W => idem_freeNC idemTwoWaves _ _ rfl rfl hm _ hX 1 w W, hw, hc, hc, hP, hP,
    fun _ _ _ _ h => absurd rfl h, fun h => ?_, fun occ => ?_⟩
  · have := h 0 0 0 1 (by norm_num)
    norm_num at this
  refine ⟨_, xcEnergy_derivative_gga2 idemTwoWaves.lib idemTwoWaves.xc (by decide +kernel) idemTwoWaves.g idemTwoWaves.vol _
    hX _ _ (fun x => rfl) _ (fun j => rfl) (fun j => ?_) _ (fun i j => rfl)⟩
  simp only [excGga2, idemTwoWaves, spinTwoWaves, h2, List.map_cons, List.map_nil, List.sum_cons, List.sum_nil, ggaPoint2, h4,
    Bool.false_eq_true, if_false]
  fun_prop

end Jrystal
