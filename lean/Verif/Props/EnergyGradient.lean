import Verif.Lemmas.EnergyGradient
import Verif.Lemmas.Reach3
import Verif.Props.KohnSham
import Verif.Props.KohnShamNC
import Verif.Props.Reach

/- C124: the gradient of the minimised energy in the plane-wave parameters, and the Kohn-Sham equations. -/
namespace Jrystal
open scoped BigOperators ComplexConjugate Matrix
open KohnSham

private theorem expand_phased {ns nk nb : ℕ} {n : Fin 3 → ℕ} (mask : Idx n → Bool) (u : Fin ns → Fin nk → Fin nb → ℂ)
    (C : Fin ns → Fin nk → Fin (maskCount mask) → Fin nb → ℂ) :
    expandCoefficient mask (fun s k G b => u s k b * C s k G b) = phased u (expandCoefficient mask C) := by
  funext s k b x
  unfold phased expandCoefficient
  cases hx : mask x with
  | false => rw [scatterMask_off mask _ x hx, scatterMask_off mask _ x hx, mul_zero]
  | true =>
    obtain ⟨a, rfl⟩ := exists_maskPos mask hx
    rw [scatterMask_get, scatterMask_get]

/-- C124: at independent parameters `total_energy` of the bands that `pw.coeff` makes of the parameters has a gradient,
and the gradient vanishes exactly where the bands solve the Kohn-Sham equations of their own density: with `F` the
Hamiltonian on the plane waves and `H` the result of `hamiltonian_matrix`, `F C_b = Σ_a H_ab C_a` for every occupied
band, and `H` does not mix bands of different occupation.  Missing: two channels and GGA, where `F` is not the
derivative of the energy (`totalEnergy_derivative_polarised_wrong`, `vxc_gga_derivative_wrong`). -/
theorem energy_gradient_kohnSham_partial (lib : XcLib) (xt : String) (hg : pyIn "gga" xt = false) (qr : QR ℂ)
    (ht : Spec.Triangular qr) {nk nb na : ℕ} {n : Fin 3 → ℕ} (mask : Idx n → Bool) (hm : nb ≤ maskCount mask)
    (pos : Fin na → Fin 3 → ℝ) (charge : Fin na → ℝ) (g : Idx n → Fin 3 → ℝ) (kpts : Fin nk → Fin 3 → ℝ) (vol : ℝ)
    (occ : Occ 1 nk (min (maskCount mask) nb)) (f : PwParams 1 nk (maskCount mask) nb → ℝ)
    (hf : ∀ q, totalEnergy lib (pwCoeff qr mask q) pos charge g kpts vol (some occ) false xt = .ok (f q))
    (p : PwParams 1 nk (maskCount mask) nb) (hp : Spec.Independent p)
    (hd : ∀ j, ∀ x ∈ splitPlus xt, DifferentiableAt ℝ (lib.lda x) (densityGrid (pwCoeff qr mask p) vol occ 0 j)) :
    (∃ G, Spec.IsFullGradient f p G) ∧
    ∃ (F : Fin nk → Matrix (Fin (maskCount mask)) (Fin (maskCount mask)) ℂ)
      (H : Fin nk → Matrix (Fin (min (maskCount mask) nb)) (Fin (min (maskCount mask) nb)) ℂ),
      (∀ k, hamiltonianMatrixBasis lib xt true mask pos charge (densityGrid (pwCoeff qr mask p) vol occ) g (kpts k) vol
        = .ok (F k)) ∧
      (∀ k, hamiltonianMatrix lib xt true (pwCoeff qr mask p) pos charge (densityGrid (pwCoeff qr mask p) vol occ) g kpts
        vol 0 k = .ok (H k)) ∧
      ∀ G, Spec.IsFullGradient f p G → (Spec.Vanishes G ↔
        (∀ k b, occ 0 k b ≠ 0 → ∀ x, ∑ y, F k x y * pwCoeff qr mask p 0 k b (maskPos mask y)
          = ∑ a, H k a b * pwCoeff qr mask p 0 k a (maskPos mask x)) ∧
        (∀ k a b, occ 0 k a ≠ occ 0 k b → H k a b = 0)) := by
  choose F hF1 hF2 hF3 using fun k => hamiltonianMatrix_compress lib xt true mask (unitaryMatrix qr p) pos charge
    (densityGrid (pwCoeff qr mask p) vol occ) g kpts vol k
  set E : (Fin 1 → Fin nk → Fin (maskCount mask) → Fin (min (maskCount mask) nb) → ℂ) → ℝ :=
    fun C => energySum lib xt pos charge g kpts vol occ (expandCoefficient mask C) with hE
  have hfE : f = fun q => E (unitaryMatrix qr q) := by
    funext q
    exact Except.ok.inj ((hf q).symm.trans (totalEnergy_energySum lib xt hg pos charge g kpts vol occ _))
  have hphase : ∀ (u : Fin 1 → Fin nk → Fin (min (maskCount mask) nb) → ℂ), (∀ s k b, conj (u s k b) * u s k b = 1) →
      ∀ C, E (fun s k G b => u s k b * C s k G b) = E C := by
    intro u hu C
    have h1 := totalEnergy_phased lib u hu (expandCoefficient mask C) pos charge g kpts vol occ false xt
    rw [← expand_phased, totalEnergy_energySum lib xt hg, totalEnergy_energySum lib xt hg] at h1
    exact Except.ok.inj h1
  have hder : ∀ (Ct : ℝ → Fin 1 → Fin nk → Fin (maskCount mask) → Fin (min (maskCount mask) nb) → ℂ)
      (D : Fin 1 → Fin nk → Fin (maskCount mask) → Fin (min (maskCount mask) nb) → ℂ),
      Ct 0 = unitaryMatrix qr p → (∀ k G b, HasDerivAt (fun t => Ct t 0 k G b) (D 0 k G b) 0) →
      HasDerivAt (fun t => E (Ct t)) (2 * ∑ k, ∑ b, occ 0 k b *
        (((Matrix.of (D 0 k))ᴴ * F k * Matrix.of (unitaryMatrix qr p 0 k)) b b).re) 0 := by
    intro Ct D h0 h1
    have := compact_deriv lib xt hg mask pos charge g kpts vol occ Ct D 0 h1 (by rw [h0]; exact hd) F
      (by rw [h0]; exact hF1)
    rw [h0] at this
    exact this
  have hc : ∀ k b y, pwCoeff qr mask p 0 k b (maskPos mask y) = unitaryMatrix qr p 0 k y b := fun k b y => by
    unfold pwCoeff expandCoefficient
    rw [scatterMask_get]
  refine ⟨by rw [hfE]; exact gradient_exists qr ht hm occ E hphase p hp F hder, F,
    fun k => (Matrix.of (unitaryMatrix qr p 0 k))ᴴ * F k * Matrix.of (unitaryMatrix qr p 0 k), hF1, fun k => hF3 k 0,
    fun G hG => ?_⟩
  rw [hfE] at hG
  simp only [hc]
  exact ⟨fun h => kohnSham_of_gradient qr ht hm occ E hphase p hp F hder hF2 G hG h,
    fun h => gradient_of_kohnSham qr ht hm occ E hphase p hp F hder hF2 G hG h⟩

/-- C124: where the gradient vanishes, diagonalising `hamiltonian_matrix` gives Kohn-Sham states: every eigenvector `u`
that uses occupied bands only turns into an eigenvector `Σ_b u_b C_b` of the Hamiltonian on the plane waves, with the
same eigenvalue.  Missing: as in `energy_gradient_kohnSham_partial`. -/
theorem energy_gradient_eigenstates_partial (lib : XcLib) (xt : String) (hg : pyIn "gga" xt = false) (qr : QR ℂ)
    (ht : Spec.Triangular qr) {nk nb na : ℕ} {n : Fin 3 → ℕ} (mask : Idx n → Bool) (hm : nb ≤ maskCount mask)
    (pos : Fin na → Fin 3 → ℝ) (charge : Fin na → ℝ) (g : Idx n → Fin 3 → ℝ) (kpts : Fin nk → Fin 3 → ℝ) (vol : ℝ)
    (occ : Occ 1 nk (min (maskCount mask) nb)) (f : PwParams 1 nk (maskCount mask) nb → ℝ)
    (hf : ∀ q, totalEnergy lib (pwCoeff qr mask q) pos charge g kpts vol (some occ) false xt = .ok (f q))
    (p : PwParams 1 nk (maskCount mask) nb) (hp : Spec.Independent p)
    (hd : ∀ j, ∀ x ∈ splitPlus xt, DifferentiableAt ℝ (lib.lda x) (densityGrid (pwCoeff qr mask p) vol occ 0 j))
    (G : PwParams 1 nk (maskCount mask) nb) (hG : Spec.IsFullGradient f p G) (h0 : Spec.Vanishes G)
    (k : Fin nk) (u : Fin (min (maskCount mask) nb) → ℂ) (e : ℝ) (hu : ∀ b, u b ≠ 0 → occ 0 k b ≠ 0)
    (H : Matrix (Fin (min (maskCount mask) nb)) (Fin (min (maskCount mask) nb)) ℂ)
    (hH : hamiltonianMatrix lib xt true (pwCoeff qr mask p) pos charge (densityGrid (pwCoeff qr mask p) vol occ) g kpts
        vol 0 k = .ok H)
    (he : ∀ a, ∑ b, H a b * u b = e * u a) :
    ∃ F : Matrix (Fin (maskCount mask)) (Fin (maskCount mask)) ℂ,
      hamiltonianMatrixBasis lib xt true mask pos charge (densityGrid (pwCoeff qr mask p) vol occ) g (kpts k) vol
        = .ok F ∧
      ∀ x, ∑ y, F x y * (∑ b, u b * pwCoeff qr mask p 0 k b (maskPos mask y))
        = e * ∑ b, u b * pwCoeff qr mask p 0 k b (maskPos mask x) := by
  obtain ⟨-, F, H', hF, hH', h⟩ := energy_gradient_kohnSham_partial lib xt hg qr ht mask hm pos charge g kpts vol occ f
    hf p hp hd
  obtain ⟨h1, -⟩ := (h G hG).1 h0
  have hHH : H' k = H := Except.ok.inj ((hH' k).symm.trans hH)
  refine ⟨F k, hF k, fun x => ?_⟩
  have h2 : ∑ y, F k x y * (∑ b, u b * pwCoeff qr mask p 0 k b (maskPos mask y))
      = ∑ b, u b * ∑ y, F k x y * pwCoeff qr mask p 0 k b (maskPos mask y) := by
    simp only [Finset.mul_sum]
    rw [Finset.sum_comm]
    exact Finset.sum_congr rfl fun b _ => Finset.sum_congr rfl fun y _ => by ring
  have h3 : ∑ b, u b * ∑ y, F k x y * pwCoeff qr mask p 0 k b (maskPos mask y)
      = ∑ b, u b * ∑ a, H a b * pwCoeff qr mask p 0 k a (maskPos mask x) := by
    refine Finset.sum_congr rfl fun b _ => ?_
    by_cases hb : u b = 0
    · rw [hb, zero_mul, zero_mul]
    · rw [h1 k b (hu b hb) x, hHH]
  rw [h2, h3]
  simp only [Finset.mul_sum]
  rw [Finset.sum_comm]
  refine Finset.sum_congr rfl fun a _ => ?_
  rw [← mul_assoc, ← he a, Finset.sum_mul]
  exact Finset.sum_congr rfl fun b _ => by ring

/-- C124: the points where the gradient vanishes include the states of least and of greatest energy, both of which
exist.  So the ground state is among them, and, unless all parameters have the same energy, a state that is not the
ground state is among them too. -/
theorem energy_gradient_extremes (lib : XcLib) (xt : String) (hg : pyIn "gga" xt = false)
    (hl : ∀ x ∈ splitPlus xt, ContinuousOn (lib.lda x) (Set.Ici 0)) (qr : QR ℂ)
    (ht : Spec.Triangular qr) {nk nb na : ℕ} {n : Fin 3 → ℕ} (mask : Idx n → Bool) (hm : nb ≤ maskCount mask)
    (pos : Fin na → Fin 3 → ℝ) (charge : Fin na → ℝ) (g : Idx n → Fin 3 → ℝ) (kpts : Fin nk → Fin 3 → ℝ) (vol : ℝ)
    (occ : Occ 1 nk (min (maskCount mask) nb)) (hocc : ∀ k b, 0 ≤ occ 0 k b) (f : PwParams 1 nk (maskCount mask) nb → ℝ)
    (hf : ∀ q, totalEnergy lib (pwCoeff qr mask q) pos charge g kpts vol (some occ) false xt = .ok (f q)) :
    ∃ p₁ p₂, Spec.Independent p₁ ∧ Spec.Independent p₂ ∧ (∀ q, f p₁ ≤ f q) ∧ (∀ q, f q ≤ f p₂) ∧
      (∀ G, Spec.IsFullGradient f p₁ G → Spec.Vanishes G) ∧ ∀ G, Spec.IsFullGradient f p₂ G → Spec.Vanishes G := by
  set E : (Fin 1 → Fin nk → Fin (maskCount mask) → Fin (min (maskCount mask) nb) → ℂ) → ℝ :=
    fun C => energySum lib xt pos charge g kpts vol occ (expandCoefficient mask C) with hE
  have hfE : ∀ q, f q = E (unitaryMatrix qr q) := fun q =>
    Except.ok.inj ((hf q).symm.trans (totalEnergy_energySum lib xt hg pos charge g kpts vol occ _))
  have hphase : ∀ (u : Fin 1 → Fin nk → Fin (min (maskCount mask) nb) → ℂ), (∀ s k b, conj (u s k b) * u s k b = 1) →
      ∀ C, E (fun s k G b => u s k b * C s k G b) = E C := by
    intro u hu C
    have h1 := totalEnergy_phased lib u hu (expandCoefficient mask C) pos charge g kpts vol occ false xt
    rw [← expand_phased, totalEnergy_energySum lib xt hg, totalEnergy_energySum lib xt hg] at h1
    exact Except.ok.inj h1
  have hcont := (continuous_energySum lib xt hl mask pos charge g kpts vol occ hocc).continuousOn
    (s := {C | Spec.OrthonormalBands C})
  have hreach : ∀ C, Spec.OrthonormalBands C → ∃ p, Spec.Independent p ∧ f p = E C := by
    intro C hC
    obtain ⟨p, R, h1, h2, h3⟩ := params_of_bands hm C hC
    exact ⟨p, h1, (hfE p).trans (energy_of_factor qr ht hm E hphase p (fun k => gram_unit (h1 0 k)) C hC R h2 h3)⟩
  obtain ⟨C₁, hC₁, hmin⟩ := orthonormalBands_compact.exists_isMinOn (orthonormalBands_nonempty (min_le_left _ _)) hcont
  obtain ⟨C₂, hC₂, hmax⟩ := orthonormalBands_compact.exists_isMaxOn (orthonormalBands_nonempty (min_le_left _ _)) hcont
  obtain ⟨p₁, i₁, e₁⟩ := hreach C₁ hC₁
  obtain ⟨p₂, i₂, e₂⟩ := hreach C₂ hC₂
  have g₁ : ∀ q, f p₁ ≤ f q := fun q => by
    rw [e₁, hfE q]
    exact hmin (unitaryMatrix_orth qr q)
  have g₂ : ∀ q, f q ≤ f p₂ := fun q => by
    rw [e₂, hfE q]
    exact hmax (unitaryMatrix_orth qr q)
  exact ⟨p₁, p₂, i₁, i₂, g₁, g₂, fun G hG => vanishes_of_extreme f p₁ G hG (Or.inl g₁),
    fun G hG => vanishes_of_extreme f p₂ G hG (Or.inr g₂)⟩

/-- The hypotheses of the theorems above are met: two bands with different occupations on a grid of eight points, an
atom of charge 3 and a functional that depends on the density; there are parameters with a vanishing gradient. -/
example : ∃ (f : PwParams 1 1 (maskCount fun _ : Idx (fun _ => 2) => true) 2 → ℝ)
    (p : PwParams 1 1 (maskCount fun _ : Idx (fun _ => 2) => true) 2),
    (∀ q, totalEnergy ⟨fun _ r => -r, fun _ _ _ => 0, fun _ _ _ => 0, fun _ _ _ _ _ _ => 0⟩
      (pwCoeff (gramSchmidtQR ℂ) (fun _ => true) q) (fun (_ : Fin 1) _ => 0) (fun _ => 3) (gVectors 1 fun _ => 2)
      (fun _ _ => 0) 1 (some (fun _ _ b => if (b : ℕ) = 0 then 2 else 1)) false "lda_x" = .ok (f q)) ∧
    Spec.Independent p ∧ ∃ G, Spec.IsFullGradient f p G ∧ Spec.Vanishes G := by
  choose f hf using fun q => totalEnergy_succeeds
    ⟨fun _ r => -r, fun _ _ _ => 0, fun _ _ _ => 0, fun _ _ _ _ _ _ => 0⟩
      (pwCoeff (gramSchmidtQR ℂ) (nb := 2) (fun _ : Idx (fun _ => 2) => true) q) (fun (_ : Fin 1) _ => 0) (fun _ => 3)
      (gVectors 1 fun _ => 2)
      (fun _ _ => 0) 1 (some (fun _ _ b => if (b : ℕ) = 0 then 2 else 1 : Occ 1 1 _)) false "lda_x" (Or.inl rfl)
  have hg : pyIn "gga" "lda_x" = false := by decide +kernel
  have hm : 2 ≤ maskCount fun _ : Idx (fun _ => 2) => true := by decide +kernel
  obtain ⟨p, -, h1, -, -, -, h2, -⟩ := energy_gradient_extremes
    ⟨fun _ r => -r, fun _ _ _ => 0, fun _ _ _ => 0, fun _ _ _ _ _ _ => 0⟩ "lda_x" hg (fun _ _ => continuousOn_id.neg)
    (gramSchmidtQR ℂ) (gramSchmidtQR_triangular ℂ) (fun _ => true) hm (fun (_ : Fin 1) _ => 0) (fun _ => 3) _ _ 1 _
    (fun _ b => by beta_reduce; split_ifs <;> norm_num) f hf
  obtain ⟨⟨G, hG⟩, -⟩ := energy_gradient_kohnSham_partial
    ⟨fun _ r => -r, fun _ _ _ => 0, fun _ _ _ => 0, fun _ _ _ _ _ _ => 0⟩ "lda_x" hg
    (gramSchmidtQR ℂ) (gramSchmidtQR_triangular ℂ) (fun _ => true) hm (fun (_ : Fin 1) _ => 0) (fun _ => 3) _ _ 1 _
    f hf p h1 (fun j x _ => differentiableAt_id.neg)
  exact ⟨f, p, hf, h1, G, hG, h2 G hG⟩

private theorem gradient_sub_const {ns nk g nb : ℕ} {f h : PwParams ns nk g nb → ℝ} (c : ℝ) (e : ∀ q, f q = h q - c)
    (p G : PwParams ns nk g nb) : Spec.IsFullGradient f p G ↔ Spec.IsFullGradient h p G := by
  have e1 : f = fun q => h q - c := funext e
  have e2 : h = fun q => f q + c := by funext q; rw [e]; ring
  constructor
  · intro hf P d h0 h1 h2
    rw [e2]
    exact (hf P d h0 h1 h2).add_const c
  · intro hf P d h0 h1 h2
    rw [e1]
    exact (hf P d h0 h1 h2).sub_const c

/-- C124, all-electron driver: the function that a spin-restricted run minimises, at any temperature and with the
occupation parameters held fixed, has a gradient at independent plane-wave parameters, and the gradient vanishes
exactly at solutions of the Kohn-Sham equations.  Missing: as in `energy_gradient_kohnSham_partial`. -/
theorem driver_gradient_kohnSham_partial {na nk nb : ℕ} {n : Fin 3 → ℕ} (E : GsEnv na nk n) (ht : Spec.Triangular E.qrC)
    (hg : pyIn "gga" E.xc = false) (hm : nb ≤ maskCount E.mask) (q : OccParams nk nb) (o : OccArr nk nb ℝ)
    (ho : occupation E.qrR q E.ne E.spin E.method E.restricted = .ok o) (hl : o.length = 1)
    (occ : Occ 1 nk (min (maskCount E.mask) nb))
    (hocc : ∀ s k b, occ s k b = o.get (Fin.cast hl.symm s) k (Fin.castLE (min_le_right _ _) b))
    (temp : ℝ) (f : PwParams 1 nk (maskCount E.mask) nb → ℝ)
    (hf : ∀ w, (gsFree E temp ⟨w, q⟩).map (fun r => r.1) = .ok (f w))
    (p : PwParams 1 nk (maskCount E.mask) nb) (hp : Spec.Independent p)
    (hd : ∀ j, ∀ x ∈ splitPlus E.xc,
      DifferentiableAt ℝ (E.lib.lda x) (densityGrid (pwCoeff E.qrC E.mask p) E.vol occ 0 j)) :
    gsDensity E ⟨p, q⟩ = .ok ⟨1, densityGrid (pwCoeff E.qrC E.mask p) E.vol occ⟩ ∧
    (∃ G, Spec.IsFullGradient f p G) ∧
    ∃ (F : Fin nk → Matrix (Fin (maskCount E.mask)) (Fin (maskCount E.mask)) ℂ)
      (H : Fin nk → Matrix (Fin (min (maskCount E.mask) nb)) (Fin (min (maskCount E.mask) nb)) ℂ),
      (∀ k, hamiltonianMatrixBasis E.lib E.xc true E.mask E.pos E.charge
        (densityGrid (pwCoeff E.qrC E.mask p) E.vol occ) E.g (E.kpts k) E.vol = .ok (F k)) ∧
      (∀ k, hamiltonianMatrix E.lib E.xc true (pwCoeff E.qrC E.mask p) E.pos E.charge
        (densityGrid (pwCoeff E.qrC E.mask p) E.vol occ) E.g E.kpts E.vol 0 k = .ok (H k)) ∧
      ∀ G, Spec.IsFullGradient f p G → (Spec.Vanishes G ↔
        (∀ k b, occ 0 k b ≠ 0 → ∀ x, ∑ y, F k x y * pwCoeff E.qrC E.mask p 0 k b (maskPos E.mask y)
          = ∑ a, H k a b * pwCoeff E.qrC E.mask p 0 k a (maskPos E.mask x)) ∧
        (∀ k a b, occ 0 k a ≠ occ 0 k b → H k a b = 0)) := by
  have hs := fun w => gsState_eq E ⟨w, q⟩ o ho hl hm occ hocc
  have hex : ∀ w, ∃ e, totalEnergy E.lib (pwCoeff E.qrC E.mask w) E.pos E.charge E.g E.kpts E.vol (some occ) false E.xc
      = .ok e := fun w => totalEnergy_succeeds _ _ _ _ _ _ _ _ _ _ (Or.inl rfl)
  choose h hh using hex
  have hsub : ∀ w, f w = h w - temp * fermiDirac (fun s : Fin o.length => o.get s) E.eps := by
    intro w
    have h1 := hf w
    unfold gsFree gsEntropy at h1
    rw [gsTotal_of_state E ⟨w, q⟩ _ _ (hs w), hh w] at h1
    simp only [ho] at h1
    exact (Except.ok.inj h1).symm
  obtain ⟨⟨G, hG⟩, F, H, hF, hH, h2⟩ := energy_gradient_kohnSham_partial E.lib E.xc hg E.qrC ht E.mask hm E.pos E.charge
    E.g E.kpts E.vol occ h hh p hp hd
  refine ⟨?_, ⟨G, (gradient_sub_const _ hsub p G).2 hG⟩, F, H, hF, hH, fun G hG => h2 G ((gradient_sub_const _ hsub p G).1 hG)⟩
  unfold gsDensity
  rw [hs]

/-- C124 for valence electrons: the same for the energy that the norm-conserving ground state minimises, with the
Hermitian part of the result of `hamiltonian_matrix`, which is what `eigh` diagonalises.  Missing: as in
`energyNC_derivative_partial`. -/
theorem energyNC_gradient_kohnSham_partial (lib : XcLib) (xt : String) (hg : pyIn "gga" xt = false) (qr : QR ℂ)
    (ht : Spec.Triangular qr) {nk nb M : ℕ} {ι : Type} [Fintype ι] {n : Fin 3 → ℕ} (mask : Idx n → Bool)
    (hm : nb ≤ maskCount mask) (vloc : Idx n → ℂ) (psi : Fin nk → ι → Fin M → Idx n → ℂ)
    (A : Matrix (Fin 3) (Fin 3) ℝ) (hA : A.det ≠ 0) (kpts : Fin nk → Fin 3 → ℝ) (vol : ℝ) (hvol : 0 < vol)
    (occ : Occ 1 nk (min (maskCount mask) nb)) (f : PwParams 1 nk (maskCount mask) nb → ℝ)
    (hf : ∀ q, Spec.EnergyNC lib xt vloc psi (gVectors A n) kpts vol (pwCoeff qr mask q) occ (f q))
    (p : PwParams 1 nk (maskCount mask) nb) (hp : Spec.Independent p)
    (hd : ∀ j, ∀ x ∈ splitPlus xt, DifferentiableAt ℝ (lib.lda x) (densityGrid (pwCoeff qr mask p) vol occ 0 j))
    (V : Idx n → ℝ) (hV : ∀ x, V x = (ifftn vloc x
      + hartreeRealSpace (densityGrid (pwCoeff qr mask p) vol occ) (gVectors A n) true x
      + vxcDensity lib xt (gVectors A n) (densityGrid (pwCoeff qr mask p) vol occ) 0 x).re)
    (F : Fin nk → Matrix (Fin (maskCount mask)) (Fin (maskCount mask)) ℂ)
    (hF : ∀ k, F k = Spec.planeWaveHamiltonian (fun a => gVectors A n (maskPos mask a)) (rVectors A n) V (kpts k)
      + Spec.projectorMatrix vol (fun (i : ι × Fin M) a => psi k i.1 i.2 (maskPos mask a))) :
    (∃ G, Spec.IsFullGradient f p G) ∧
    ∃ H : Fin 1 → Fin nk → Fin (min (maskCount mask) nb) → Fin (min (maskCount mask) nb) → ℂ,
      ncHamiltonianMatrix lib xt true (pwCoeff qr mask p) (densityGrid (pwCoeff qr mask p) vol occ)
        vloc psi (gVectors A n) kpts vol = .ok ⟨nk, H⟩ ∧
      ∀ G, Spec.IsFullGradient f p G → (Spec.Vanishes G ↔
        (∀ k b, occ 0 k b ≠ 0 → ∀ x, ∑ y, F k x y * pwCoeff qr mask p 0 k b (maskPos mask y)
          = ∑ a, (H 0 k a b + conj (H 0 k b a)) / 2 * pwCoeff qr mask p 0 k a (maskPos mask x)) ∧
        (∀ k a b, occ 0 k a ≠ occ 0 k b → (H 0 k a b + conj (H 0 k b a)) / 2 = 0)) := by
  obtain ⟨H, h1, h2⟩ := ncHamiltonian_elements_partial lib xt true (pwCoeff qr mask p)
    (densityGrid (pwCoeff qr mask p) vol occ) vloc psi (gVectors A n) kpts vol (Or.inl rfl)
  have h3 : ∀ k a b, (H 0 k a b + conj (H 0 k b a)) / 2
      = ((Matrix.of (unitaryMatrix qr p 0 k))ᴴ * F k * Matrix.of (unitaryMatrix qr p 0 k)) a b := by
    intro k a b
    have := ncMatrix_compress mask (unitaryMatrix qr p) psi A hA vol hvol _ V hV (kpts k) 0 k (H 0 k)
      (fun i j => h2 0 k i j)
    rw [hF k, ← this, Matrix.smul_apply, Matrix.add_apply, Matrix.conjTranspose_apply, Matrix.of_apply,
      Matrix.of_apply, smul_eq_mul, RCLike.star_def]
    ring
  have hherm : ∀ k, (F k).IsHermitian := by
    intro k
    rw [hF k]
    exact (planeWaveHamiltonian_hermitian _ _ _ _).add (projectorMatrix_hermitian _ _)
  set E : (Fin 1 → Fin nk → Fin (maskCount mask) → Fin (min (maskCount mask) nb) → ℂ) → ℝ :=
    fun C => valenceSum lib xt vloc psi (gVectors A n) kpts vol occ (expandCoefficient mask C) with hE
  have hfE : f = fun q => E (unitaryMatrix qr q) := by
    funext q
    exact (energyNC_valenceSum lib xt hg vloc psi _ kpts vol _ occ _).mp (hf q)
  have hphase : ∀ (u : Fin 1 → Fin nk → Fin (min (maskCount mask) nb) → ℂ), (∀ s k b, conj (u s k b) * u s k b = 1) →
      ∀ C, E (fun s k G b => u s k b * C s k G b) = E C := by
    intro u hu C
    refine ((energyNC_valenceSum lib xt hg vloc psi (gVectors A n) kpts vol (expandCoefficient mask C) occ _).mp ?_)
    rw [← energyNC_phased u hu, ← expand_phased]
    exact (energyNC_valenceSum lib xt hg vloc psi (gVectors A n) kpts vol _ occ _).mpr rfl
  have hder : ∀ (Ct : ℝ → Fin 1 → Fin nk → Fin (maskCount mask) → Fin (min (maskCount mask) nb) → ℂ)
      (D : Fin 1 → Fin nk → Fin (maskCount mask) → Fin (min (maskCount mask) nb) → ℂ),
      Ct 0 = unitaryMatrix qr p → (∀ k G b, HasDerivAt (fun t => Ct t 0 k G b) (D 0 k G b) 0) →
      HasDerivAt (fun t => E (Ct t)) (2 * ∑ k, ∑ b, occ 0 k b *
        (((Matrix.of (D 0 k))ᴴ * F k * Matrix.of (unitaryMatrix qr p 0 k)) b b).re) 0 := by
    intro Ct D h0 h1
    have := compactNC_deriv lib xt hg mask vloc psi A hA kpts vol hvol occ Ct D 0 h1 (by rw [h0]; exact hd) V
      (by rw [h0]; exact hV)
    rw [h0] at this
    simp only [hF]
    exact this
  have hc : ∀ k b y, pwCoeff qr mask p 0 k b (maskPos mask y) = unitaryMatrix qr p 0 k y b := fun k b y => by
    unfold pwCoeff expandCoefficient
    rw [scatterMask_get]
  refine ⟨by rw [hfE]; exact gradient_exists qr ht hm occ E hphase p hp F hder, H, h1, fun G hG => ?_⟩
  rw [hfE] at hG
  simp only [hc, h3]
  exact ⟨fun h => kohnSham_of_gradient qr ht hm occ E hphase p hp F hder hherm G hG h,
    fun h => gradient_of_kohnSham qr ht hm occ E hphase p hp F hder hherm G hG h⟩

/-- C124, norm-conserving driver.  Missing: as in `energyNC_derivative_partial`. -/
theorem driverNC_gradient_kohnSham_partial {na nk nb M : ℕ} {ι : Type} [Fintype ι] {n : Fin 3 → ℕ} (E : GsEnv na nk n)
    (vloc : Idx n → ℂ) (psi : Fin nk → ι → Fin M → Idx n → ℂ) (ht : Spec.Triangular E.qrC)
    (hg : pyIn "gga" E.xc = false) (hm : nb ≤ maskCount E.mask) (q : OccParams nk nb) (o : OccArr nk nb ℝ)
    (ho : occupation E.qrR q E.ne E.spin E.method E.restricted = .ok o) (hl : o.length = 1)
    (occ : Occ 1 nk (min (maskCount E.mask) nb))
    (hocc : ∀ s k b, occ s k b = o.get (Fin.cast hl.symm s) k (Fin.castLE (min_le_right _ _) b))
    (A : Matrix (Fin 3) (Fin 3) ℝ) (hA : A.det ≠ 0) (hgA : E.g = gVectors A n) (hvol : 0 < E.vol)
    (temp : ℝ) (f : PwParams 1 nk (maskCount E.mask) nb → ℝ)
    (hf : ∀ w, (gsFreeNC E vloc psi temp ⟨w, q⟩).map (fun r => r.1) = .ok (f w))
    (p : PwParams 1 nk (maskCount E.mask) nb) (hp : Spec.Independent p)
    (hd : ∀ j, ∀ x ∈ splitPlus E.xc,
      DifferentiableAt ℝ (E.lib.lda x) (densityGrid (pwCoeff E.qrC E.mask p) E.vol occ 0 j))
    (V : Idx n → ℝ) (hV : ∀ x, V x = (ifftn vloc x
      + hartreeRealSpace (densityGrid (pwCoeff E.qrC E.mask p) E.vol occ) (gVectors A n) true x
      + vxcDensity E.lib E.xc (gVectors A n) (densityGrid (pwCoeff E.qrC E.mask p) E.vol occ) 0 x).re)
    (F : Fin nk → Matrix (Fin (maskCount E.mask)) (Fin (maskCount E.mask)) ℂ)
    (hF : ∀ k, F k = Spec.planeWaveHamiltonian (fun a => gVectors A n (maskPos E.mask a)) (rVectors A n) V (E.kpts k)
      + Spec.projectorMatrix E.vol (fun (i : ι × Fin M) a => psi k i.1 i.2 (maskPos E.mask a))) :
    gsDensity E ⟨p, q⟩ = .ok ⟨1, densityGrid (pwCoeff E.qrC E.mask p) E.vol occ⟩ ∧
    (∃ G, Spec.IsFullGradient f p G) ∧
    ∃ H : Fin 1 → Fin nk → Fin (min (maskCount E.mask) nb) → Fin (min (maskCount E.mask) nb) → ℂ,
      ncHamiltonianMatrix E.lib E.xc true (pwCoeff E.qrC E.mask p)
        (densityGrid (pwCoeff E.qrC E.mask p) E.vol occ) vloc psi E.g E.kpts E.vol = .ok ⟨nk, H⟩ ∧
      ∀ G, Spec.IsFullGradient f p G → (Spec.Vanishes G ↔
        (∀ k b, occ 0 k b ≠ 0 → ∀ x, ∑ y, F k x y * pwCoeff E.qrC E.mask p 0 k b (maskPos E.mask y)
          = ∑ a, (H 0 k a b + conj (H 0 k b a)) / 2 * pwCoeff E.qrC E.mask p 0 k a (maskPos E.mask x)) ∧
        (∀ k a b, occ 0 k a ≠ occ 0 k b → (H 0 k a b + conj (H 0 k b a)) / 2 = 0)) := by
  have hs := fun w => gsState_eq E ⟨w, q⟩ o ho hl hm occ hocc
  choose h hh using fun w => energyNC_exists E.lib E.xc vloc psi E.g E.kpts E.vol (pwCoeff E.qrC E.mask w) occ
  have hsub : ∀ w, f w = h w - temp * fermiDirac (fun s : Fin o.length => o.get s) E.eps := by
    intro w
    have h1 := hf w
    unfold gsFreeNC gsEntropy at h1
    rw [gsTotalNC_of_state E vloc psi ⟨w, q⟩ _ _ (hs w) _ (hh w)] at h1
    simp only [ho] at h1
    exact (Except.ok.inj h1).symm
  rw [hgA] at hh ⊢
  obtain ⟨⟨G, hG⟩, H, hH, h2⟩ := energyNC_gradient_kohnSham_partial E.lib E.xc hg E.qrC ht E.mask hm vloc psi A hA
    E.kpts E.vol hvol occ h hh p hp hd V hV F hF
  refine ⟨?_, ⟨G, (gradient_sub_const _ hsub p G).2 hG⟩, H, hH, fun G hG => h2 G ((gradient_sub_const _ hsub p G).1 hG)⟩
  unfold gsDensity
  rw [hs]

/-- The hypotheses of the theorems about the two drivers are met: two plane waves, two bands and occupations that are
trained by `simplex-projector`; for valence electrons one projector. -/
example : ∃ (o : OccArr 1 2 ℝ) (f f' : PwParams 1 1 (maskCount trainedTwoWaves.mask) 2 → ℝ)
    (p : PwParams 1 1 (maskCount trainedTwoWaves.mask) 2),
    Spec.Triangular trainedTwoWaves.qrC ∧ pyIn "gga" trainedTwoWaves.xc = false ∧ 2 ≤ maskCount trainedTwoWaves.mask ∧
    occupation trainedTwoWaves.qrR (.simplex (fun _ _ => 0) fun _ b => (b : ℝ)) trainedTwoWaves.ne trainedTwoWaves.spin
      trainedTwoWaves.method trainedTwoWaves.restricted = .ok o ∧ o.length = 1 ∧
    (1 : Matrix (Fin 3) (Fin 3) ℝ).det ≠ 0 ∧ trainedTwoWaves.g = gVectors 1 ![2, 1, 1] ∧ 0 < trainedTwoWaves.vol ∧
    (∀ w, (gsFree trainedTwoWaves 1 ⟨w, .simplex (fun _ _ => 0) fun _ b => (b : ℝ)⟩).map (fun r => r.1) = .ok (f w)) ∧
    (∀ w, (gsFreeNC trainedTwoWaves (fun _ => 1) (fun _ (_ : Fin 1) (_ : Fin 1) _ => 1) 1
      ⟨w, .simplex (fun _ _ => 0) fun _ b => (b : ℝ)⟩).map (fun r => r.1) = .ok (f' w)) ∧
    Spec.Independent p ∧
    ∀ x r, DifferentiableAt ℝ (trainedTwoWaves.lib.lda x) r := by
  have hm : 2 ≤ maskCount trainedTwoWaves.mask := (by decide : 2 ≤ maskCount (n := ![2, 1, 1]) fun _ => true)
  let q : OccParams 1 2 := .simplex (fun _ _ => 0) fun _ b => (b : ℝ)
  let o : OccArr 1 2 ℝ := simplexProjector (fun _ _ => 0) (fun _ b => (b : ℝ)) 2 0 true
  have ho : occupation trainedTwoWaves.qrR q trainedTwoWaves.ne trainedTwoWaves.spin
      trainedTwoWaves.method trainedTwoWaves.restricted = .ok o := by
    simp [occupation, trainedTwoWaves, q, o]
  have hl : o.length = 1 := by simp [o, simplexProjector, sumSpin]
  have hs := fun w : PwParams 1 1 (maskCount trainedTwoWaves.mask) 2 =>
    gsState_eq trainedTwoWaves ⟨w, q⟩ o ho hl hm _ fun _ _ _ => rfl
  have h1 : ∀ w : PwParams 1 1 (maskCount trainedTwoWaves.mask) 2, ∃ e, (gsFree trainedTwoWaves 1 ⟨w, q⟩).map (fun r => r.1) = .ok e := by
    intro w
    obtain ⟨e, he⟩ := totalEnergy_succeeds trainedTwoWaves.lib (pwCoeff trainedTwoWaves.qrC trainedTwoWaves.mask w)
      trainedTwoWaves.pos trainedTwoWaves.charge trainedTwoWaves.g trainedTwoWaves.kpts trainedTwoWaves.vol
      (some fun s k b => o.get (Fin.cast hl.symm s) k (Fin.castLE (min_le_right _ _) b)) false trainedTwoWaves.xc
      (Or.inl rfl)
    unfold gsFree gsEntropy
    rw [gsTotal_of_state trainedTwoWaves ⟨w, q⟩ _ _ (hs w), he]
    simp only [ho]
    exact ⟨_, rfl⟩
  have h2 : ∀ w : PwParams 1 1 (maskCount trainedTwoWaves.mask) 2, ∃ e, (gsFreeNC trainedTwoWaves (fun _ => 1) (fun _ (_ : Fin 1) (_ : Fin 1) _ => 1) 1
      ⟨w, q⟩).map (fun r => r.1) = .ok e := by
    intro w
    obtain ⟨e, he⟩ := energyNC_exists trainedTwoWaves.lib trainedTwoWaves.xc (fun _ => 1)
      (fun _ (_ : Fin 1) (_ : Fin 1) _ => 1) trainedTwoWaves.g trainedTwoWaves.kpts trainedTwoWaves.vol
      (pwCoeff trainedTwoWaves.qrC trainedTwoWaves.mask w)
      (fun s k b => o.get (Fin.cast hl.symm s) k (Fin.castLE (min_le_right _ _) b))
    unfold gsFreeNC gsEntropy
    rw [gsTotalNC_of_state trainedTwoWaves _ _ ⟨w, q⟩ _ _ (hs w) _ he]
    simp only [ho]
    exact ⟨_, rfl⟩
  choose f hf using h1
  choose f' hf' using h2
  obtain ⟨C, hC⟩ := orthonormalBands_nonempty (nk := 1) (min_le_left (maskCount trainedTwoWaves.mask) 2)
  obtain ⟨p, -, hp, -⟩ := params_of_bands hm C hC
  exact ⟨o, f, f', p, gramSchmidtQR_triangular ℂ, by decide +kernel, hm, ho, hl, by simp, rfl,
    by norm_num [trainedTwoWaves], hf, hf', hp, fun x r => differentiableAt_const _⟩

end Jrystal
