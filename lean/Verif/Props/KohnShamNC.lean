import Verif.Lemmas.KohnShamNC
import Verif.Props.FermiLevel

/- C101: the Hamiltonian of the pseudopotential code is the derivative of the energy of valence electrons that
the ground state minimises. -/
namespace Jrystal
open scoped BigOperators ComplexConjugate Matrix
open KohnSham

/-- C101: along every differentiable curve of coefficients the derivative of the energy of valence electrons is
`Re Σ f (⟨δ|H|c⟩ + ⟨c|H|δ⟩)`, where `H` is what `hamiltonian_matrix` of the pseudopotential code returns for the
density of the coefficients: the elements between the bands `c` and the bands of the change `δ`, obtained by one
call on the concatenated bands.  The statement has both orders because the matrix is not Hermitian on grids with
even sizes.  One spin channel and LDA functionals.  Missing: two channels, where `hamiltonian_matrix` raises
(`ncHamiltonian_polarised_error`), and GGA, where the potential is not the derivative
(`vxc_gga_derivative_wrong`). -/
theorem energyNC_derivative_partial (lib : XcLib) (xt : String) (hg : pyIn "gga" xt = false)
    {nk nb M : ℕ} {ι : Type} [Fintype ι] {n : Fin 3 → ℕ} (vloc : Idx n → ℂ)
    (psi : Fin nk → ι → Fin M → Idx n → ℂ) (g : Idx n → Fin 3 → ℝ) (kpts : Fin nk → Fin 3 → ℝ) (vol : ℝ)
    (occ : Occ 1 nk nb) (c : ℝ → Coef 1 nk nb n) (d : Coef 1 nk nb n) (t : ℝ)
    (h : ∀ k b x, HasDerivAt (fun t => c t 0 k b x) (d 0 k b x) t)
    (hd : ∀ j, ∀ x ∈ splitPlus xt, DifferentiableAt ℝ (lib.lda x) (densityGrid (c t) vol occ 0 j)) :
    ∃ (E : ℝ → ℝ) (H : Fin 1 → Fin nk → Fin (nb + nb) → Fin (nb + nb) → ℂ),
      (∀ t, Spec.EnergyNC lib xt vloc psi g kpts vol (c t) occ (E t)) ∧
      ncHamiltonianMatrix lib xt true (fun s k => Fin.append (c t s k) (d s k)) (densityGrid (c t) vol occ) vloc psi
        g kpts vol = .ok ⟨nk, H⟩ ∧
      HasDerivAt E (∑ k, ∑ b, occ 0 k b * (H 0 k (Fin.natAdd nb b) (Fin.castAdd nb b)
        + H 0 k (Fin.castAdd nb b) (Fin.natAdd nb b)).re) t := by
  obtain ⟨H, h1, h2⟩ := ncHamiltonian_elements_partial lib xt true (fun s k => Fin.append (c t s k) (d s k))
    (densityGrid (c t) vol occ) vloc psi g kpts vol (Or.inl rfl)
  refine ⟨_, H, fun t => (energyNC_valenceSum lib xt hg vloc psi g kpts vol (c t) occ _).mpr rfl, h1, ?_⟩
  refine (hasDerivAt_valenceSum lib xt hg vloc psi g kpts vol occ h hd _ fun j => rfl).congr_deriv ?_
  rw [Finset.mul_sum]
  refine Finset.sum_congr rfl fun k _ => ?_
  rw [Finset.mul_sum]
  refine Finset.sum_congr rfl fun b _ => ?_
  rw [mul_left_comm]
  congr 1
  rw [h2, h2]
  simp only [true_and, zero_lt_one, dite_true]
  have hn := congrArg Complex.re (nonlocal_hermitian (fun s k => Fin.append (c t s k) (d s k)) psi vol 0 k
    (Fin.natAdd nb b) (Fin.castAdd nb b))
  have hk : (Spec.kineticElement g (kpts k) (c t 0 k b) (d 0 k b)).re
      = (Spec.kineticElement g (kpts k) (d 0 k b) (c t 0 k b)).re := by
    unfold Spec.kineticElement
    rw [Complex.re_sum, Complex.re_sum]
    refine Finset.sum_congr rfl fun x _ => ?_
    rw [Complex.re_ofReal_mul, Complex.re_ofReal_mul]
    simp only [Complex.mul_re, Complex.conj_re, Complex.conj_im]
    ring
  have hp := cellInner_symm_re vol (fun j => ifftn vloc j + hartreeRealSpace (densityGrid (c t) vol occ) g true j
      + vxcDensity lib xt g (densityGrid (c t) vol occ) 0 j) _ (fun j => rfl) (orbital (d 0 k b) vol)
      (orbital (c t 0 k b) vol)
  rw [Complex.conj_re] at hn
  simp only [orbital_eq, Fin.append_left, Fin.append_right] at hn ⊢
  rw [Complex.add_re] at hp
  simp only [Complex.add_re]
  rw [hk, hn]
  simp only [Fin.zero_eta]
  linear_combination -hp

/-- Same matrix, on the plane waves and symmetrised, in the compact layout. -/
theorem compactNC_deriv (lib : XcLib) (xt : String) (hg : pyIn "gga" xt = false)
    {nk nb M : ℕ} {ι : Type} [Fintype ι] {n : Fin 3 → ℕ} (mask : Idx n → Bool) (vloc : Idx n → ℂ)
    (psi : Fin nk → ι → Fin M → Idx n → ℂ) (A : Matrix (Fin 3) (Fin 3) ℝ) (hA : A.det ≠ 0)
    (kpts : Fin nk → Fin 3 → ℝ) (vol : ℝ) (hvol : 0 < vol) (occ : Occ 1 nk nb)
    (C : ℝ → Fin 1 → Fin nk → Fin (maskCount mask) → Fin nb → ℂ)
    (D : Fin 1 → Fin nk → Fin (maskCount mask) → Fin nb → ℂ) (t : ℝ)
    (h : ∀ k G b, HasDerivAt (fun t => C t 0 k G b) (D 0 k G b) t)
    (hd : ∀ j, ∀ x ∈ splitPlus xt,
      DifferentiableAt ℝ (lib.lda x) (densityGrid (expandCoefficient mask (C t)) vol occ 0 j))
    (V : Idx n → ℝ) (hV : ∀ x, V x = (ifftn vloc x
      + hartreeRealSpace (densityGrid (expandCoefficient mask (C t)) vol occ) (gVectors A n) true x
      + vxcDensity lib xt (gVectors A n) (densityGrid (expandCoefficient mask (C t)) vol occ) 0 x).re) :
    HasDerivAt (fun t => valenceSum lib xt vloc psi (gVectors A n) kpts vol occ (expandCoefficient mask (C t)))
      (2 * ∑ k, ∑ b, occ 0 k b * (((Matrix.of (D 0 k))ᴴ * (Spec.planeWaveHamiltonian
            (fun a => gVectors A n (maskPos mask a)) (rVectors A n) V (kpts k)
          + Spec.projectorMatrix vol (fun (i : ι × Fin M) a => psi k i.1 i.2 (maskPos mask a)))
          * Matrix.of (C t 0 k)) b b).re) t := by
  obtain ⟨E, H, h1, h2, h3⟩ := energyNC_derivative_partial lib xt hg vloc psi (gVectors A n) kpts vol occ
    (fun t => expandCoefficient mask (C t)) (expandCoefficient mask D) t (hasDerivAt_expand mask h) hd
  have hE : E = fun t => valenceSum lib xt vloc psi (gVectors A n) kpts vol occ (expandCoefficient mask (C t)) := by
    funext t
    exact (energyNC_valenceSum lib xt hg vloc psi _ kpts vol _ occ _).mp (h1 t)
  rw [hE] at h3
  refine h3.congr_deriv ?_
  rw [Finset.mul_sum]
  refine Finset.sum_congr rfl fun k _ => ?_
  rw [Finset.mul_sum]
  refine Finset.sum_congr rfl fun b _ => ?_
  rw [mul_left_comm]
  congr 1
  obtain ⟨H', h4, h5⟩ := ncHamiltonian_elements_partial lib xt true
    (expandCoefficient mask fun s k G => Fin.append (C t s k G) (D s k G))
    (densityGrid (expandCoefficient mask (C t)) vol occ) vloc psi (gVectors A n) kpts vol (Or.inl rfl)
  rw [expand_append, h4] at h2
  have hHH : H' = H := by
    have := Except.ok.inj h2
    simpa using this
  subst hHH
  have h6 := ncMatrix_compress mask (fun s k G => Fin.append (C t s k G) (D s k G)) psi A hA vol hvol _ V hV
    (kpts k) 0 k (H' 0 k) (fun i j => h5 0 k i j)
  have h7 := congrArg Complex.re (congrFun (congrFun h6 (Fin.natAdd nb b)) (Fin.castAdd nb b))
  have h8 : ∀ F : Matrix (Fin (maskCount mask)) (Fin (maskCount mask)) ℂ,
      ((Matrix.of fun G => Fin.append (C t 0 k G) (D 0 k G))ᴴ * F * Matrix.of fun G => Fin.append (C t 0 k G) (D 0 k G))
        (Fin.natAdd nb b) (Fin.castAdd nb b) = ((Matrix.of (D 0 k))ᴴ * F * Matrix.of (C t 0 k)) b b := by
    intro F
    simp only [Matrix.mul_apply, Matrix.conjTranspose_apply, Matrix.of_apply, Fin.append_left, Fin.append_right]
  rw [h8] at h7
  rw [← h7]
  simp [Matrix.smul_apply, Matrix.conjTranspose_apply]

/-- C101: a ground state of valence electrons solves the Kohn-Sham equations of the Hamiltonian the band
calculation uses.  If orthonormal bands `C` minimise the energy at given occupations, then, with `F` the textbook
Hamiltonian on the plane waves (kinetic energy, local potential, Hartree and exchange-correlation potential of the
density of `C`, and projectors) and `H` the Hermitian part of the result of `hamiltonian_matrix`, which is what
`eigh` diagonalises: `F C_b = Σ_a H_ab C_a` for every occupied band, and `H` does not mix bands of different
occupation.  Missing: as in `energyNC_derivative_partial`. -/
theorem groundStateNC_kohnSham_partial (lib : XcLib) (xt : String) (hg : pyIn "gga" xt = false)
    {nk nb M : ℕ} {ι : Type} [Fintype ι] {n : Fin 3 → ℕ} (mask : Idx n → Bool) (vloc : Idx n → ℂ)
    (psi : Fin nk → ι → Fin M → Idx n → ℂ) (A : Matrix (Fin 3) (Fin 3) ℝ) (hA : A.det ≠ 0)
    (kpts : Fin nk → Fin 3 → ℝ) (vol : ℝ) (hvol : 0 < vol) (occ : Occ 1 nk nb)
    (C : Fin 1 → Fin nk → Fin (maskCount mask) → Fin nb → ℂ) (hC : Spec.OrthonormalBands C)
    (hd : ∀ j, ∀ x ∈ splitPlus xt,
      DifferentiableAt ℝ (lib.lda x) (densityGrid (expandCoefficient mask C) vol occ 0 j))
    (V : Idx n → ℝ) (hV : ∀ x, V x = (ifftn vloc x
      + hartreeRealSpace (densityGrid (expandCoefficient mask C) vol occ) (gVectors A n) true x
      + vxcDensity lib xt (gVectors A n) (densityGrid (expandCoefficient mask C) vol occ) 0 x).re)
    (hmin : ∀ C' : Fin 1 → Fin nk → Fin (maskCount mask) → Fin nb → ℂ, Spec.OrthonormalBands C' →
      ∀ E E', Spec.EnergyNC lib xt vloc psi (gVectors A n) kpts vol (expandCoefficient mask C) occ E →
        Spec.EnergyNC lib xt vloc psi (gVectors A n) kpts vol (expandCoefficient mask C') occ E' → E ≤ E')
    (F : Fin nk → Matrix (Fin (maskCount mask)) (Fin (maskCount mask)) ℂ)
    (hF : ∀ k, F k = Spec.planeWaveHamiltonian (fun a => gVectors A n (maskPos mask a)) (rVectors A n) V (kpts k)
      + Spec.projectorMatrix vol (fun (i : ι × Fin M) a => psi k i.1 i.2 (maskPos mask a))) :
    ∃ H : Fin 1 → Fin nk → Fin nb → Fin nb → ℂ,
      ncHamiltonianMatrix lib xt true (expandCoefficient mask C) (densityGrid (expandCoefficient mask C) vol occ)
        vloc psi (gVectors A n) kpts vol = .ok ⟨nk, H⟩ ∧
      (∀ k b, occ 0 k b ≠ 0 → ∀ G, ∑ G', F k G G' * C 0 k G' b
        = ∑ a, (H 0 k a b + conj (H 0 k b a)) / 2 * C 0 k G a) ∧
      (∀ k a b, occ 0 k a ≠ occ 0 k b → (H 0 k a b + conj (H 0 k b a)) / 2 = 0) := by
  obtain ⟨H, h1, h2⟩ := ncHamiltonian_elements_partial lib xt true (expandCoefficient mask C)
    (densityGrid (expandCoefficient mask C) vol occ) vloc psi (gVectors A n) kpts vol (Or.inl rfl)
  refine ⟨H, h1, ?_⟩
  have h3 : ∀ k a b, (H 0 k a b + conj (H 0 k b a)) / 2
      = ((Matrix.of (C 0 k))ᴴ * F k * Matrix.of (C 0 k)) a b := by
    intro k a b
    have := ncMatrix_compress mask C psi A hA vol hvol _ V hV (kpts k) 0 k (H 0 k) (fun i j => h2 0 k i j)
    rw [hF k, ← this, Matrix.smul_apply, Matrix.add_apply, Matrix.conjTranspose_apply, Matrix.of_apply,
      Matrix.of_apply, smul_eq_mul, RCLike.star_def]
    ring
  have hherm : ∀ k, (F k).IsHermitian := by
    intro k
    rw [hF k]
    exact (planeWaveHamiltonian_hermitian _ _ _ _).add (projectorMatrix_hermitian _ _)
  simp only [h3]
  exact kohnSham_of_derivative occ
    (fun C => valenceSum lib xt vloc psi (gVectors A n) kpts vol occ (expandCoefficient mask C)) C hC F hherm
    (fun Ct D hCt0 hder => by
      have := compactNC_deriv lib xt hg mask vloc psi A hA kpts vol hvol occ Ct D 0 hder
        (by rw [hCt0]; exact hd) V (by rw [hCt0]; exact hV)
      rw [hCt0] at this
      simp only [hF]
      exact this)
    fun C' hC' => hmin C' hC' _ _ ((energyNC_valenceSum lib xt hg vloc psi _ kpts vol _ occ _).mpr rfl)
      ((energyNC_valenceSum lib xt hg vloc psi _ kpts vol _ occ _).mpr rfl)

/-- C101: diagonalising `hamiltonian_matrix` of a ground state gives Kohn-Sham states.  Every eigenvector `u` of its
Hermitian part that uses occupied bands only turns into an eigenvector `Σ_b u_b C_b` of the textbook Hamiltonian,
with the same eigenvalue.  Missing: as in `energyNC_derivative_partial`. -/
theorem groundStateNC_eigenstates_partial (lib : XcLib) (xt : String) (hg : pyIn "gga" xt = false)
    {nk nb M : ℕ} {ι : Type} [Fintype ι] {n : Fin 3 → ℕ} (mask : Idx n → Bool) (vloc : Idx n → ℂ)
    (psi : Fin nk → ι → Fin M → Idx n → ℂ) (A : Matrix (Fin 3) (Fin 3) ℝ) (hA : A.det ≠ 0)
    (kpts : Fin nk → Fin 3 → ℝ) (vol : ℝ) (hvol : 0 < vol) (occ : Occ 1 nk nb)
    (C : Fin 1 → Fin nk → Fin (maskCount mask) → Fin nb → ℂ) (hC : Spec.OrthonormalBands C)
    (hd : ∀ j, ∀ x ∈ splitPlus xt,
      DifferentiableAt ℝ (lib.lda x) (densityGrid (expandCoefficient mask C) vol occ 0 j))
    (V : Idx n → ℝ) (hV : ∀ x, V x = (ifftn vloc x
      + hartreeRealSpace (densityGrid (expandCoefficient mask C) vol occ) (gVectors A n) true x
      + vxcDensity lib xt (gVectors A n) (densityGrid (expandCoefficient mask C) vol occ) 0 x).re)
    (hmin : ∀ C' : Fin 1 → Fin nk → Fin (maskCount mask) → Fin nb → ℂ, Spec.OrthonormalBands C' →
      ∀ E E', Spec.EnergyNC lib xt vloc psi (gVectors A n) kpts vol (expandCoefficient mask C) occ E →
        Spec.EnergyNC lib xt vloc psi (gVectors A n) kpts vol (expandCoefficient mask C') occ E' → E ≤ E')
    (k : Fin nk) (u : Fin nb → ℂ) (e : ℝ) (hu : ∀ b, u b ≠ 0 → occ 0 k b ≠ 0)
    (H : Fin 1 → Fin nk → Fin nb → Fin nb → ℂ)
    (hH : ncHamiltonianMatrix lib xt true (expandCoefficient mask C) (densityGrid (expandCoefficient mask C) vol occ)
        vloc psi (gVectors A n) kpts vol = .ok ⟨nk, H⟩)
    (he : ∀ a, ∑ b, (H 0 k a b + conj (H 0 k b a)) / 2 * u b = e * u a) (G : Fin (maskCount mask)) :
    ∑ G', (Spec.planeWaveHamiltonian (fun a => gVectors A n (maskPos mask a)) (rVectors A n) V (kpts k)
        + Spec.projectorMatrix vol (fun (i : ι × Fin M) a => psi k i.1 i.2 (maskPos mask a))) G G'
        * (∑ b, u b * C 0 k G' b) = e * ∑ b, u b * C 0 k G b := by
  obtain ⟨H', hH', h1, _⟩ := groundStateNC_kohnSham_partial lib xt hg mask vloc psi A hA kpts vol hvol occ C
    hC hd V hV hmin _ fun k => rfl
  have hHH : H' = H := by
    have := Except.ok.inj (hH'.symm.trans hH)
    simpa using this
  subst hHH
  simp only [Finset.mul_sum]
  rw [Finset.sum_comm]
  have h2 : ∀ b, ∑ G', (Spec.planeWaveHamiltonian (fun a => gVectors A n (maskPos mask a)) (rVectors A n) V (kpts k)
        + Spec.projectorMatrix vol (fun (i : ι × Fin M) a => psi k i.1 i.2 (maskPos mask a))) G G' * (u b * C 0 k G' b)
      = u b * ∑ a, (H' 0 k a b + conj (H' 0 k b a)) / 2 * C 0 k G a := by
    intro b
    by_cases hb : u b = 0
    · simp [hb]
    · rw [← h1 k b (hu b hb) G, Finset.mul_sum]
      exact Finset.sum_congr rfl fun G' _ => by ring
  rw [Finset.sum_congr rfl fun b _ => h2 b]
  simp only [Finset.mul_sum]
  rw [Finset.sum_comm]
  refine Finset.sum_congr rfl fun a _ => ?_
  rw [← mul_assoc, ← he a, Finset.sum_mul]
  exact Finset.sum_congr rfl fun b _ => by ring

/-- C101: a state of least free energy of valence electrons (C98, C100) solves the Kohn-Sham equations, at every
temperature.  Missing: as in `energyNC_derivative_partial`. -/
theorem groundNC_kohnSham_partial (lib : XcLib) (xt : String) (hg : pyIn "gga" xt = false)
    {nk nb M : ℕ} {ι : Type} [Fintype ι] {n : Fin 3 → ℕ} (mask : Idx n → Bool) (vloc : Idx n → ℂ)
    (psi : Fin nk → ι → Fin M → Idx n → ℂ) (A : Matrix (Fin 3) (Fin 3) ℝ) (hA : A.det ≠ 0)
    (kpts : Fin nk → Fin 3 → ℝ) (vol : ℝ) (hvol : 0 < vol) (t eps : ℝ) (ne spin : ℤ) (method : String)
    (c : Coef 1 nk nb n) (occ : Occ 1 nk nb) (e : ℝ)
    (h : Spec.GroundWithin 0 t eps mask ne spin true method
      (Spec.EnergyNC lib xt vloc psi (gVectors A n) kpts vol) c occ e)
    (hd : ∀ j, ∀ x ∈ splitPlus xt, DifferentiableAt ℝ (lib.lda x) (densityGrid c vol occ 0 j))
    (V : Idx n → ℝ) (hV : ∀ x, V x = (ifftn vloc x + hartreeRealSpace (densityGrid c vol occ) (gVectors A n) true x
      + vxcDensity lib xt (gVectors A n) (densityGrid c vol occ) 0 x).re)
    (F : Fin nk → Matrix (Fin (maskCount mask)) (Fin (maskCount mask)) ℂ)
    (hF : ∀ k, F k = Spec.planeWaveHamiltonian (fun a => gVectors A n (maskPos mask a)) (rVectors A n) V (kpts k)
      + Spec.projectorMatrix vol (fun (i : ι × Fin M) a => psi k i.1 i.2 (maskPos mask a))) :
    ∃ H : Fin 1 → Fin nk → Fin nb → Fin nb → ℂ,
      ncHamiltonianMatrix lib xt true c (densityGrid c vol occ) vloc psi (gVectors A n) kpts vol = .ok ⟨nk, H⟩ ∧
      (∀ k b, occ 0 k b ≠ 0 → ∀ G, ∑ G', F k G G' * c 0 k b (maskPos mask G')
        = ∑ a, (H 0 k a b + conj (H 0 k b a)) / 2 * c 0 k a (maskPos mask G)) ∧
      (∀ k a b, occ 0 k a ≠ occ 0 k b → (H 0 k a b + conj (H 0 k b a)) / 2 = 0) := by
  have hc : expandCoefficient mask (gatherMask mask c) = c := (gather_expand mask).2 c h.physical.selected
  have horth : ∀ C : Fin 1 → Fin nk → Fin (maskCount mask) → Fin nb → ℂ, Spec.OrthonormalBands C ↔
      ∀ s k i j, ∑ x, conj (expandCoefficient mask C s k i x) * expandCoefficient mask C s k j x
        = if i = j then 1 else 0 := by
    intro C
    simp only [expandCoefficient_inner]
    exact ⟨fun h s k i j => by rw [Subsingleton.elim s 0]; exact h k i j, fun h k i j => h 0 k i j⟩
  have := groundStateNC_kohnSham_partial lib xt hg mask vloc psi A hA kpts vol hvol occ (gatherMask mask c)
    ((horth _).mpr (by rw [hc]; exact h.physical.orthonormal)) (by rw [hc]; exact hd) V (by rw [hc]; exact hV)
    (fun C' hC' E E' h1 h2 => by
      rw [hc] at h1
      have h3 : e = E := ((energyNC_valenceSum lib xt hg vloc psi _ kpts vol c occ e).mp h.value).trans
        ((energyNC_valenceSum lib xt hg vloc psi _ kpts vol c occ E).mp h1).symm
      have h4 := h.least (expandCoefficient mask C') occ E' ⟨(horth C').mp hC',
        fun s k b x hx => scatterMask_off mask _ x hx, h.physical.channels, h.physical.nonneg, h.physical.pauli,
        h.physical.electrons, h.physical.polarisation⟩ (fun _ => rfl) h2
      linarith) F hF
  rw [hc] at this
  exact this

/-- The hypotheses of the derivative hold for a curve that changes every coefficient and a functional that depends
on the density. -/
example : (∀ (k : Fin 1) (b : Fin 2) (x : Idx fun _ => 2),
      HasDerivAt (fun t : ℝ => ((fun t _ _ b _ => ((b : ℕ) : ℂ) + (t : ℂ) : ℝ → Coef 1 1 2 fun _ => 2)) t 0 k b x)
        ((fun _ _ _ _ => 1 : Coef 1 1 2 fun _ => 2) 0 k b x) 0) ∧
    ∀ r : ℝ, DifferentiableAt ℝ (fun r : ℝ => -r ^ 2) r :=
  ⟨fun _ _ _ => (hasDerivAt_ofReal (hasDerivAt_id 0)).const_add _, fun r => by fun_prop⟩

/-- The hypotheses of `groundNC_kohnSham_partial` hold for a crystal with a local and a nonlocal potential, three
electrons in two bands, a functional that depends on the density and a positive temperature. -/
example : ∃ (c : Coef 1 1 2 fun _ => 2) (occ : Occ 1 1 2) (e : ℝ),
    Spec.GroundWithin 0 (1 / 100) 1e-8 (fun _ => true) 3 1 true "idempotent"
      (Spec.EnergyNC ⟨fun _ r => -r, fun _ _ _ => 0, fun _ _ _ => 0, fun _ _ _ _ _ _ => 0⟩ "lda_x"
        (fun x => if x = fun _ => 0 then -1 else 2) (fun (_ : Fin 1) (_ : Fin 1) (_ : Fin 1) _ => 1)
        (gVectors 1 fun _ => 2) (fun _ _ => 0) 1) c occ e ∧
    ∀ j, ∀ x ∈ splitPlus "lda_x", DifferentiableAt ℝ ((fun _ r => -r : String → ℝ → ℝ) x)
      (densityGrid c 1 occ 0 j) := by
  have := groundNC_attained (ns := 1) (nk := 1) (nb := 2) (n := fun _ => 2)
    ⟨fun _ r => -r, fun _ _ _ => 0, fun _ _ _ => 0, fun _ _ _ _ _ _ => 0⟩ "lda_x"
    ⟨fun _ _ _ => continuousOn_id.neg, fun _ _ _ => continuousOn_const, fun _ _ _ => continuousOn_const,
      fun _ _ _ => continuousOn_const⟩ (fun x => if x = fun _ => 0 then -1 else 2)
    (fun (_ : Fin 1) (_ : Fin 1) (_ : Fin 1) _ => 1) (gVectors 1 fun _ => 2) (fun _ _ => 0) 1
    (1 / 100) 1e-8 (by norm_num) (fun _ => true) 3 1 true "idempotent"
  refine (fun hne => (this hne).elim fun c h => h.elim fun occ h => h.elim fun e h =>
    ⟨c, occ, e, h, fun j x _ => differentiableAt_id.neg⟩) ?_
  refine ⟨fun _ _ b x => if x = (fun _ => b) then 1 else 0, fun _ _ b => if b = 0 then 2 else 1, ⟨fun s k i j => ?_,
      fun s k b x hx => (by cases hx), rfl, fun s k b => ?_, fun s k b => ?_, ?_, fun s s' _ h => ?_⟩,
      fun h => absurd h (by decide)⟩
  · have : ∀ x : Idx fun _ => 2, conj (if x = (fun _ => i) then (1 : ℂ) else 0) * (if x = (fun _ => j) then 1 else 0)
        = if x = (fun _ => i) then (if i = j then 1 else 0) else 0 := by
      intro x
      by_cases h : x = fun _ => i
      · subst h
        rw [if_pos rfl, if_pos rfl, map_one, one_mul]
        exact if_congr ⟨fun h => congrFun h 0, fun h => by rw [h]⟩ rfl rfl
      · rw [if_neg h, if_neg h, map_zero, zero_mul]
    rw [Finset.sum_congr rfl fun x _ => this x, Finset.sum_ite_eq' Finset.univ]
    simp
  · beta_reduce; split_ifs <;> norm_num
  · have : Spec.kShare "idempotent" 1 * Spec.pauli true = 2 := by
      unfold Spec.kShare Spec.pauli
      rw [if_neg (by decide), if_pos rfl]
      norm_num
    rw [this]
    beta_reduce; split_ifs <;> norm_num
  · rw [Fin.sum_univ_one, Fin.sum_univ_one, Fin.sum_univ_two, if_pos rfl, if_neg (by decide)]
    norm_num
  · have := s'.2
    omega

end Jrystal
