import Verif.Lemmas.Janak
import Verif.Props.KohnSham
import Verif.Props.Reach
import Verif.Lemmas.Aufbau
import Verif.Lemmas.GroundAttained

/- C99: the band energies and the occupations of a ground state belong together. -/
namespace Jrystal
open scoped BigOperators ComplexConjugate
open KohnSham

/-- C99: the energy changes with an occupation number at the rate of the band energy.  Along every
differentiable change of the occupations the derivative of `total_energy` is the sum of the changes times the
diagonal elements of what `hamiltonian_matrix` returns for the density at hand.  One spin channel and LDA
functionals.  Missing: two channels, for which it is false (`totalEnergy_occupation_polarised_wrong`), and GGA,
where the potential is not the derivative (`vxc_gga_derivative_wrong`). -/
theorem totalEnergy_occupation_partial (lib : XcLib) (xt : String) (hg : pyIn "gga" xt = false)
    {nk nb na : ℕ} {n : Fin 3 → ℕ} (pos : Fin na → Fin 3 → ℝ) (charge : Fin na → ℝ)
    (g : Idx n → Fin 3 → ℝ) (kpts : Fin nk → Fin 3 → ℝ) (vol : ℝ) (c : Coef 1 nk nb n)
    (occ : ℝ → Occ 1 nk nb) (d : Fin nk → Fin nb → ℝ) (t : ℝ)
    (h : ∀ k b, HasDerivAt (fun t => occ t 0 k b) (d k b) t)
    (hd : ∀ j, ∀ x ∈ splitPlus xt, DifferentiableAt ℝ (lib.lda x) (densityGrid c vol (occ t) 0 j)) :
    ∃ (E : ℝ → ℝ) (H : Fin nk → Matrix (Fin nb) (Fin nb) ℂ),
      (∀ t, totalEnergy lib c pos charge g kpts vol (some (occ t)) false xt = .ok (E t)) ∧
      (∀ k, hamiltonianMatrix lib xt true c pos charge (densityGrid c vol (occ t)) g kpts vol 0 k
        = .ok (H k)) ∧
      HasDerivAt E (∑ k, ∑ b, d k b * (H k b b).re) t := by
  obtain ⟨H, h1, h2⟩ := hamiltonian_diag lib xt pos charge g kpts vol c (densityGrid c vol (occ t))
  refine ⟨_, H, fun t => totalEnergy_occEnergy lib xt hg pos charge g kpts vol c (occ t), h1, ?_⟩
  refine (hasDerivAt_occEnergy lib xt hg _ _ g vol c h hd).congr_deriv ?_
  simp only [h2]

/-- C99: the same for the energy of valence electrons and the Hamiltonian of the pseudopotential code. -/
theorem energyNC_occupation_partial (lib : XcLib) (xt : String) (hg : pyIn "gga" xt = false)
    {nk nb M : ℕ} {ι : Type} [Fintype ι] {n : Fin 3 → ℕ} (vloc : Idx n → ℂ)
    (psi : Fin nk → ι → Fin M → Idx n → ℂ) (g : Idx n → Fin 3 → ℝ) (kpts : Fin nk → Fin 3 → ℝ) (vol : ℝ)
    (c : Coef 1 nk nb n) (occ : ℝ → Occ 1 nk nb) (d : Fin nk → Fin nb → ℝ) (t : ℝ)
    (h : ∀ k b, HasDerivAt (fun t => occ t 0 k b) (d k b) t)
    (hd : ∀ j, ∀ x ∈ splitPlus xt, DifferentiableAt ℝ (lib.lda x) (densityGrid c vol (occ t) 0 j)) :
    ∃ (E : ℝ → ℝ) (H : Fin 1 → Fin nk → Fin nb → Fin nb → ℂ),
      (∀ t, Spec.EnergyNC lib xt vloc psi g kpts vol c (occ t) (E t)) ∧
      ncHamiltonianMatrix lib xt true c (densityGrid c vol (occ t)) vloc psi g kpts vol = .ok ⟨nk, H⟩ ∧
      HasDerivAt E (∑ k, ∑ b, d k b * (H 0 k b b).re) t := by
  obtain ⟨H, h1, h2⟩ := ncHamiltonian_diag lib xt vloc psi g kpts vol c (densityGrid c vol (occ t))
  refine ⟨_, H, fun t => (energyNC_occEnergy lib xt hg vloc psi g kpts vol c (occ t) _).mpr rfl, h1, ?_⟩
  refine (hasDerivAt_occEnergy lib xt hg _ _ g vol c h hd).congr_deriv ?_
  simp only [h2]

/-- The hypotheses hold for electrons that move from the first band to the second and a functional that depends
on the density. -/
example : (∀ (k : Fin 1) (b : Fin 2),
      HasDerivAt (fun t : ℝ => ((fun t _ _ b => if b = 0 then 2 - t else t : ℝ → Occ 1 1 2)) t 0 k b)
        (if b = 0 then -1 else 1) 0) ∧
    ∀ r : ℝ, DifferentiableAt ℝ (fun r : ℝ => -r ^ 2) r := by
  refine ⟨fun k b => ?_, fun r => by fun_prop⟩
  by_cases hb : b = 0
  · simp only [hb, if_true]
    exact (hasDerivAt_id (0 : ℝ)).const_sub 2
  · simp only [hb, if_false]
    exact hasDerivAt_id (0 : ℝ)

/-- C99: the occupations of a state of least free energy have a Fermi level with respect to the band energies,
the diagonal elements of `hamiltonian_matrix` for the density of the state.  Missing: as in
`totalEnergy_occupation_partial`. -/
theorem ground_fermiLevel_partial (lib : XcLib) (xt : String) (hg : pyIn "gga" xt = false)
    {nk nb na : ℕ} {n : Fin 3 → ℕ} (pos : Fin na → Fin 3 → ℝ) (charge : Fin na → ℝ)
    (g : Idx n → Fin 3 → ℝ) (kpts : Fin nk → Fin 3 → ℝ) (vol t eps : ℝ) (heps : 0 < eps) (mask : Idx n → Bool)
    (ne spin : ℤ) (method : String) (hm : ¬ (method = "uniform" ∨ method = "gamma"))
    (c : Coef 1 nk nb n) (occ : Occ 1 nk nb) (e : ℝ)
    (h : Spec.GroundWithin 0 t eps mask ne spin true method
      (fun c occ e => totalEnergy lib c pos charge g kpts vol (some occ) false xt = .ok e) c occ e)
    (hd : ∀ j, ∀ x ∈ splitPlus xt, DifferentiableAt ℝ (lib.lda x) (densityGrid c vol occ 0 j)) :
    ∃ (H : Fin nk → Matrix (Fin nb) (Fin nb) ℂ) (μ : ℝ),
      (∀ k, hamiltonianMatrix lib xt true c pos charge (densityGrid c vol occ) g kpts vol 0 k = .ok (H k)) ∧
      Spec.FermiLevel t eps (2 / nk) (fun k b => (H k b b).re) (occ 0) μ := by
  obtain ⟨H, h1, h2⟩ := hamiltonian_diag lib xt pos charge g kpts vol c (densityGrid c vol occ)
  obtain ⟨μ, hμ⟩ := fermiLevel_of_least
    (occEnergy lib xt (fun k b => (Spec.kineticElement g (kpts k) (c 0 k b) (c 0 k b)).re)
      (fun j => (externalPotential pos charge g vol j).re) g vol c) (fun k b => (H k b b).re) occ t eps (2 / nk)
    heps (fun k b => (ground_bounds hm h k b).1) (fun k b => (ground_bounds hm h k b).2)
    (fun d => by
      refine (hasDerivAt_occEnergy lib xt hg _ _ g vol c (line_deriv occ d)
        (by rw [line_zero]; exact hd)).congr_deriv ?_
      rw [line_zero]
      simp only [h2])
    (fun occ' hb hs => by
      have h3 := ground_occupations hm h c h.physical.orthonormal h.physical.selected occ' hb hs _
        (totalEnergy_occEnergy lib xt hg pos charge g kpts vol c occ')
      have h4 : e = _ := Except.ok.inj
        ((show _ = _ from h.value).symm.trans (totalEnergy_occEnergy lib xt hg pos charge g kpts vol c occ))
      rw [h4] at h3
      exact h3)
  exact ⟨H, μ, h1, hμ⟩

/-- C99: the same for valence electrons. -/
theorem groundNC_fermiLevel_partial (lib : XcLib) (xt : String) (hg : pyIn "gga" xt = false)
    {nk nb M : ℕ} {ι : Type} [Fintype ι] {n : Fin 3 → ℕ} (vloc : Idx n → ℂ)
    (psi : Fin nk → ι → Fin M → Idx n → ℂ) (g : Idx n → Fin 3 → ℝ) (kpts : Fin nk → Fin 3 → ℝ) (vol t eps : ℝ)
    (heps : 0 < eps) (mask : Idx n → Bool) (ne spin : ℤ) (method : String)
    (hm : ¬ (method = "uniform" ∨ method = "gamma")) (c : Coef 1 nk nb n) (occ : Occ 1 nk nb) (e : ℝ)
    (h : Spec.GroundWithin 0 t eps mask ne spin true method (Spec.EnergyNC lib xt vloc psi g kpts vol) c occ e)
    (hd : ∀ j, ∀ x ∈ splitPlus xt, DifferentiableAt ℝ (lib.lda x) (densityGrid c vol occ 0 j)) :
    ∃ (H : Fin 1 → Fin nk → Fin nb → Fin nb → ℂ) (μ : ℝ),
      ncHamiltonianMatrix lib xt true c (densityGrid c vol occ) vloc psi g kpts vol = .ok ⟨nk, H⟩ ∧
      Spec.FermiLevel t eps (2 / nk) (fun k b => (H 0 k b b).re) (occ 0) μ := by
  obtain ⟨H, h1, h2⟩ := ncHamiltonian_diag lib xt vloc psi g kpts vol c (densityGrid c vol occ)
  obtain ⟨μ, hμ⟩ := fermiLevel_of_least
    (occEnergy lib xt (fun k b => (Spec.kineticElement g (kpts k) (c 0 k b) (c 0 k b)).re +
        (hamiltonianNonlocal c psi vol 0 k b b).re) (fun j => (ifftn vloc j).re) g vol c)
    (fun k b => (H 0 k b b).re) occ t eps (2 / nk)
    heps (fun k b => (ground_bounds hm h k b).1) (fun k b => (ground_bounds hm h k b).2)
    (fun d => by
      refine (hasDerivAt_occEnergy lib xt hg _ _ g vol c (line_deriv occ d)
        (by rw [line_zero]; exact hd)).congr_deriv ?_
      rw [line_zero]
      simp only [h2])
    (fun occ' hb hs => by
      have h3 := ground_occupations hm h c h.physical.orthonormal h.physical.selected occ' hb hs _
        ((energyNC_occEnergy lib xt hg vloc psi g kpts vol c occ' _).mpr rfl)
      have h4 := (energyNC_occEnergy lib xt hg vloc psi g kpts vol c occ _).mp h.value
      rw [h4] at h3
      exact h3)
  exact ⟨H, μ, h1, hμ⟩

/-- C99, what a Fermi level means without smearing: the states below it are full and the states above it
empty. -/
theorem fermiLevel_cold {nk nb : ℕ} {eps top μ : ℝ} {e f : Fin nk → Fin nb → ℝ}
    (h : Spec.FermiLevel 0 eps top e f μ) (h0 : ∀ k b, 0 ≤ f k b) (h1 : ∀ k b, f k b ≤ top) (k : Fin nk)
    (b : Fin nb) : (e k b < μ → f k b = top) ∧ (μ < e k b → f k b = 0) := by
  have h2 := h k b
  simp only [zero_mul, sub_zero] at h2
  constructor
  · intro h3
    by_contra h4
    exact absurd (h2.1 (lt_of_le_of_ne (h1 k b) h4)) (not_le.mpr h3)
  · intro h3
    by_contra h4
    exact absurd (h2.2 (lt_of_le_of_ne (h0 k b) (Ne.symm h4))) (not_le.mpr h3)

/-- C99, what a Fermi level means with smearing: a state that is neither empty nor full has the occupation of
the Fermi-Dirac distribution, with an error in the exponent that is proportional to `eps`. -/
theorem fermiLevel_fermiDirac {nk nb : ℕ} {t eps top μ : ℝ} (ht : 0 < t) (heps : 0 < eps)
    {e f : Fin nk → Fin nb → ℝ} (h : Spec.FermiLevel t eps top e f μ) (k : Fin nk) (b : Fin nb) (h0 : 0 < f k b)
    (h1 : f k b < top) :
    ∃ r, |r| ≤ eps / f k b + eps / (top - f k b) ∧ f k b = top / (1 + Real.exp ((e k b - μ) / t + r)) := by
  have h2 := le_antisymm ((h k b).1 h1) ((h k b).2 h0)
  have hg : 0 < top - f k b := by linarith
  refine ⟨Real.log ((top - f k b) / f k b) - Spec.entropySlope eps top (f k b), ?_, ?_⟩
  · rw [abs_sub_comm]
    exact entropySlope_near heps h0 h1
  · have : (e k b - μ) / t = Spec.entropySlope eps top (f k b) := by
      rw [h2]
      field_simp
      ring
    rw [this, add_sub_cancel, Real.exp_log (by positivity)]
    field_simp
    ring

/-- C99, aufbau: in a state of least energy (without smearing) no occupied band at any k point lies above any wave
that could be occupied instead.  If at some k point a band is empty, then every wave made of the selected plane
waves that is orthogonal to the occupied bands there has, in the Hamiltonian of the band calculation, at least the
energy of each occupied band.  Missing: as in `totalEnergy_occupation_partial`. -/
theorem ground_aufbau_partial (lib : XcLib) (xt : String) (hg : pyIn "gga" xt = false)
    {nk nb na : ℕ} {n : Fin 3 → ℕ} (pos : Fin na → Fin 3 → ℝ) (charge : Fin na → ℝ)
    (g : Idx n → Fin 3 → ℝ) (kpts : Fin nk → Fin 3 → ℝ) (vol eps : ℝ) (heps : 0 < eps) (mask : Idx n → Bool)
    (ne spin : ℤ) (method : String) (hm : ¬ (method = "uniform" ∨ method = "gamma"))
    (c : Coef 1 nk nb n) (occ : Occ 1 nk nb) (e : ℝ)
    (h : Spec.GroundWithin 0 0 eps mask ne spin true method
      (fun c occ e => totalEnergy lib c pos charge g kpts vol (some occ) false xt = .ok e) c occ e)
    (hd : ∀ j, ∀ x ∈ splitPlus xt, DifferentiableAt ℝ (lib.lda x) (densityGrid c vol occ 0 j))
    (k : Fin nk) (b : Fin nb) (hb : occ 0 k b = 0) (v : Idx n → ℂ) (hv : ∀ x, mask x = false → v x = 0)
    (hv1 : ∑ x, conj (v x) * v x = 1)
    (hvo : ∀ b', 0 < occ 0 k b' → ∑ x, conj (c 0 k b' x) * v x = 0) :
    ∃ (H : Fin nk → Matrix (Fin nb) (Fin nb) ℂ) (Hv : Matrix (Fin 1) (Fin 1) ℂ),
      (∀ k, hamiltonianMatrix lib xt true c pos charge (densityGrid c vol occ) g kpts vol 0 k = .ok (H k)) ∧
      hamiltonianMatrix lib xt true (fun (_ : Fin 1) _ _ => v) pos charge (densityGrid c vol occ) g kpts vol 0 k
        = .ok Hv ∧
      ∀ k' b', 0 < occ 0 k' b' → (H k' b' b').re ≤ (Hv 0 0).re := by
  obtain ⟨H, h1, h2⟩ := hamiltonian_diag lib xt pos charge g kpts vol c (densityGrid c vol occ)
  obtain ⟨Hv, hv2, hv3⟩ := hamiltonian_diag lib xt pos charge g kpts vol (fun (_ : Fin 1) (_ : Fin nk) (_ : Fin 1) => v)
    (densityGrid c vol occ)
  refine ⟨H, Hv k, h1, hv2 k, fun k' b' hb' => ?_⟩
  have hE : ∀ (c : Coef 1 nk nb n) occ e, totalEnergy lib c pos charge g kpts vol (some occ) false xt = .ok e ↔ _ :=
    totalEnergy_sqForm lib xt hg pos charge g kpts vol
  have := aufbau_of_least lib xt hg _ g vol _ _ hE hm heps h hd k b hb v hv hv1 hvo k' b' hb'
  rw [h2 k' b', hv3 k 0, kinetic_sqForm, kinetic_sqForm]
  exact this

/-- C99, aufbau for valence electrons. -/
theorem groundNC_aufbau_partial (lib : XcLib) (xt : String) (hg : pyIn "gga" xt = false)
    {nk nb M : ℕ} {ι : Type} [Fintype ι] {n : Fin 3 → ℕ} (vloc : Idx n → ℂ)
    (psi : Fin nk → ι → Fin M → Idx n → ℂ) (g : Idx n → Fin 3 → ℝ) (kpts : Fin nk → Fin 3 → ℝ) (vol eps : ℝ)
    (heps : 0 < eps) (mask : Idx n → Bool) (ne spin : ℤ) (method : String)
    (hm : ¬ (method = "uniform" ∨ method = "gamma")) (c : Coef 1 nk nb n) (occ : Occ 1 nk nb) (e : ℝ)
    (h : Spec.GroundWithin 0 0 eps mask ne spin true method (Spec.EnergyNC lib xt vloc psi g kpts vol) c occ e)
    (hd : ∀ j, ∀ x ∈ splitPlus xt, DifferentiableAt ℝ (lib.lda x) (densityGrid c vol occ 0 j))
    (k : Fin nk) (b : Fin nb) (hb : occ 0 k b = 0) (v : Idx n → ℂ) (hv : ∀ x, mask x = false → v x = 0)
    (hv1 : ∑ x, conj (v x) * v x = 1)
    (hvo : ∀ b', 0 < occ 0 k b' → ∑ x, conj (c 0 k b' x) * v x = 0) :
    ∃ (H : Fin 1 → Fin nk → Fin nb → Fin nb → ℂ) (Hv : Fin 1 → Fin nk → Fin 1 → Fin 1 → ℂ),
      ncHamiltonianMatrix lib xt true c (densityGrid c vol occ) vloc psi g kpts vol = .ok ⟨nk, H⟩ ∧
      ncHamiltonianMatrix lib xt true (fun (_ : Fin 1) (_ : Fin nk) (_ : Fin 1) => v) (densityGrid c vol occ) vloc psi
        g kpts vol = .ok ⟨nk, Hv⟩ ∧
      ∀ k' b', 0 < occ 0 k' b' → (H 0 k' b' b').re ≤ (Hv 0 k 0 0).re := by
  obtain ⟨H, h1, h2⟩ := ncHamiltonian_diag lib xt vloc psi g kpts vol c (densityGrid c vol occ)
  obtain ⟨Hv, hv2, hv3⟩ := ncHamiltonian_diag lib xt vloc psi g kpts vol
    (fun (_ : Fin 1) (_ : Fin nk) (_ : Fin 1) => v) (densityGrid c vol occ)
  refine ⟨H, Hv, h1, hv2, fun k' b' hb' => ?_⟩
  have hE : ∀ (c : Coef 1 nk nb n) occ e, Spec.EnergyNC lib xt vloc psi g kpts vol c occ e ↔ _ :=
    energyNC_sqForm lib xt hg vloc psi g kpts vol
  have := aufbau_of_least lib xt hg _ g vol _ _ hE hm heps h hd k b hb v hv hv1 hvo k' b' hb'
  rw [h2 k' b', hv3 k 0, kinetic_sqForm, kinetic_sqForm, nonlocal_sqForm, nonlocal_sqForm, ← sqForm_elim,
    ← sqForm_elim]
  exact this

/-- C99: a state of least free energy exists, for every temperature, when the functionals are continuous and there
is any state to choose from. -/
theorem ground_attained (lib : XcLib) (xt : String) (hx : Spec.ContinuousXc lib xt)
    {ns nk nb na : ℕ} {n : Fin 3 → ℕ} (pos : Fin na → Fin 3 → ℝ) (charge : Fin na → ℝ)
    (g : Idx n → Fin 3 → ℝ) (kpts : Fin nk → Fin 3 → ℝ) (vol t eps : ℝ) (heps : 0 < eps) (mask : Idx n → Bool)
    (ne spin : ℤ) (restricted : Bool) (method : String)
    (hne : ∃ (c : Coef ns nk nb n) (occ : Occ ns nk nb),
      Spec.PhysicalState mask ne spin restricted (Spec.kShare method nk) c occ ∧
      (method = "uniform" ∨ method = "gamma" → occ = Spec.givenOccupation method ne spin)) :
    ∃ (c : Coef ns nk nb n) (occ : Occ ns nk nb) (e : ℝ), Spec.GroundWithin 0 t eps mask ne spin restricted method
      (fun c occ e => totalEnergy lib c pos charge g kpts vol (some occ) false xt = .ok e) c occ e := by
  obtain ⟨f, hf1, hf2⟩ := continuousOn_totalEnergy (ns := ns) (nb := nb) lib xt hx pos charge g kpts vol
  obtain ⟨c, occ, h1, h2⟩ := hne
  exact ground_exists heps hf1 (fun c occ e => ⟨fun h => Except.ok.inj (h.symm.trans (hf2 c occ)), fun h => by
    rw [h]; exact hf2 c occ⟩) ⟨(c, occ), h1, h2⟩

/-- The energy of valence electrons as a function. -/
theorem energyNC_function {lib : XcLib} {xt : String} {ns nk nb M : ℕ} {ι : Type} [Fintype ι] {n : Fin 3 → ℕ}
    {vloc : Idx n → ℂ} {psi : Fin nk → ι → Fin M → Idx n → ℂ} {g : Idx n → Fin 3 → ℝ} {kpts : Fin nk → Fin 3 → ℝ}
    {vol : ℝ} {f : Coef ns nk nb n × Occ ns nk nb → ℝ}
    (hf : ∀ c occ, Spec.EnergyNC lib xt vloc psi g kpts vol c occ (f (c, occ))) (c : Coef ns nk nb n)
    (occ : Occ ns nk nb) (e : ℝ) :
    Spec.EnergyNC lib xt vloc psi g kpts vol c occ e ↔ e = f (c, occ) := by
  refine ⟨fun h => ?_, fun h => by rw [h]; exact hf c occ⟩
  obtain ⟨a1, a2, a3, a4, h1, h2, h3, h4, h5⟩ := h
  obtain ⟨b1, b2, b3, b4, k1, k2, k3, k4, k5⟩ := hf c occ
  rw [h5, k5, Except.ok.inj (h1.symm.trans k1), Except.ok.inj (h2.symm.trans k2), Except.ok.inj (h3.symm.trans k3),
    Except.ok.inj (h4.symm.trans k4)]

/-- C99: so does one of valence electrons. -/
theorem groundNC_attained (lib : XcLib) (xt : String) (hx : Spec.ContinuousXc lib xt)
    {ns nk nb M : ℕ} {ι : Type} [Fintype ι] {n : Fin 3 → ℕ} (vloc : Idx n → ℂ)
    (psi : Fin nk → ι → Fin M → Idx n → ℂ) (g : Idx n → Fin 3 → ℝ) (kpts : Fin nk → Fin 3 → ℝ) (vol t eps : ℝ)
    (heps : 0 < eps) (mask : Idx n → Bool) (ne spin : ℤ) (restricted : Bool) (method : String)
    (hne : ∃ (c : Coef ns nk nb n) (occ : Occ ns nk nb),
      Spec.PhysicalState mask ne spin restricted (Spec.kShare method nk) c occ ∧
      (method = "uniform" ∨ method = "gamma" → occ = Spec.givenOccupation method ne spin)) :
    ∃ (c : Coef ns nk nb n) (occ : Occ ns nk nb) (e : ℝ), Spec.GroundWithin 0 t eps mask ne spin restricted method
      (Spec.EnergyNC lib xt vloc psi g kpts vol) c occ e := by
  obtain ⟨f, hf1, hf2⟩ := continuousOn_energyNC (ns := ns) (nb := nb) lib xt hx vloc psi g kpts vol
  obtain ⟨c, occ, h1, h2⟩ := hne
  exact ground_exists heps hf1 (energyNC_function hf2) ⟨(c, occ), h1, h2⟩

/-- C99: a state of least free energy solves the Kohn-Sham equations too.  With `F` the Hamiltonian on the plane
waves and `H` the result of `hamiltonian_matrix` for the density of the state, `F c_b = Σ_a H_ab c_a` for every
occupied band, and `H` does not mix bands of different occupation.  Missing: as in
`totalEnergy_occupation_partial`. -/
theorem ground_kohnSham_partial (lib : XcLib) (xt : String) (hg : pyIn "gga" xt = false)
    {nk nb na : ℕ} {n : Fin 3 → ℕ} (pos : Fin na → Fin 3 → ℝ) (charge : Fin na → ℝ)
    (g : Idx n → Fin 3 → ℝ) (kpts : Fin nk → Fin 3 → ℝ) (vol t eps : ℝ) (mask : Idx n → Bool)
    (ne spin : ℤ) (method : String) (c : Coef 1 nk nb n) (occ : Occ 1 nk nb) (e : ℝ)
    (h : Spec.GroundWithin 0 t eps mask ne spin true method
      (fun c occ e => totalEnergy lib c pos charge g kpts vol (some occ) false xt = .ok e) c occ e)
    (hd : ∀ j, ∀ x ∈ splitPlus xt, DifferentiableAt ℝ (lib.lda x) (densityGrid c vol occ 0 j)) :
    ∃ (F : Fin nk → Matrix (Fin (maskCount mask)) (Fin (maskCount mask)) ℂ)
      (H : Fin nk → Matrix (Fin nb) (Fin nb) ℂ),
      (∀ k, hamiltonianMatrixBasis lib xt true mask pos charge (densityGrid c vol occ) g (kpts k) vol = .ok (F k)) ∧
      (∀ k, hamiltonianMatrix lib xt true c pos charge (densityGrid c vol occ) g kpts vol 0 k = .ok (H k)) ∧
      (∀ k b, occ 0 k b ≠ 0 → ∀ G, ∑ G', F k G G' * c 0 k b (maskPos mask G')
        = ∑ a, H k a b * c 0 k a (maskPos mask G)) ∧
      (∀ k a b, occ 0 k a ≠ occ 0 k b → H k a b = 0) := by
  have hc : expandCoefficient mask (gatherMask mask c) = c := (gather_expand mask).2 c h.physical.selected
  have horth : ∀ C : Fin 1 → Fin nk → Fin (maskCount mask) → Fin nb → ℂ, Spec.OrthonormalBands C ↔
      ∀ s k i j, ∑ x, conj (expandCoefficient mask C s k i x) * expandCoefficient mask C s k j x
        = if i = j then 1 else 0 := by
    intro C
    simp only [expandCoefficient_inner]
    exact ⟨fun h s k i j => by rw [Subsingleton.elim s 0]; exact h k i j, fun h k i j => h 0 k i j⟩
  have := groundState_kohn_sham_partial lib xt hg mask pos charge g kpts vol occ (gatherMask mask c)
    ((horth _).mpr (by rw [hc]; exact h.physical.orthonormal)) (by rw [hc]; exact hd)
    (fun C' hC' E E' h1 h2 => by
      rw [hc] at h1
      have h3 : e = E := Except.ok.inj ((show _ = _ from h.value).symm.trans h1)
      have h4 := h.least (expandCoefficient mask C') occ E' ⟨(horth C').mp hC',
        fun s k b x hx => scatterMask_off mask _ x hx, h.physical.channels, h.physical.nonneg, h.physical.pauli,
        h.physical.electrons, h.physical.polarisation⟩ (fun _ => rfl) h2
      linarith)
  rw [hc] at this
  exact this

/-- The hypotheses of the theorems above are met, also those of `ground_aufbau_partial`: two electrons in two bands
made of two plane waves.  The ground state has both in the first band. -/
theorem twoWaves_ground : ∃ (c : Coef 1 1 2 ![2, 1, 1]) (occ : Occ 1 1 2), occ 0 0 0 = 2 ∧ occ 0 0 1 = 0 ∧
    Spec.GroundWithin 0 0 1e-8 (fun _ => true) 2 0 true "idempotent"
      (fun c occ e => totalEnergy trainedTwoWaves.lib c trainedTwoWaves.pos trainedTwoWaves.charge trainedTwoWaves.g
        trainedTwoWaves.kpts trainedTwoWaves.vol (some occ) false trainedTwoWaves.xc = .ok e) c occ 0 := by
  refine ⟨twoOrbitals rfl, closedShell 2, if_pos rfl, if_neg (by decide), ?_, closedShell_energy rfl,
    fun h => absurd h (by decide), fun c' occ' e' hp _ he => ?_⟩
  · have : Spec.kShare "idempotent" 1 = 1 / (1 : ℕ) := by
      unfold Spec.kShare
      rw [if_neg (by decide)]
    rw [this]
    exact closedShell_physical rfl
  · obtain ⟨har, h1, h2⟩ := total_trained c' occ'
    obtain ⟨har', h3, h4, -⟩ := hartree_nonneg 1 (by simp) (n := ![2, 1, 1])
      (fun i => by fin_cases i <;> decide) (densityGridReciprocal c' 1 occ') 1 one_pos false
    have h5 := (kinetic_nonneg (gVectors 1 ![2, 1, 1]) (fun _ _ => 0) c' occ' hp.nonneg).1
    have h6 : e' = _ := Except.ok.inj (he.symm.trans h2)
    have h7 : har = har' := Except.ok.inj (h1.symm.trans h3)
    rw [h6, h7]
    linarith

/-- And at temperature 1/100, with an atom of charge 3 and a functional that depends on the density. -/
example : ∃ (c : Coef 1 1 2 fun _ => 2) (occ : Occ 1 1 2) (e : ℝ),
    Spec.GroundWithin 0 (1 / 100) 1e-8 (fun _ => true) 3 1 true "idempotent"
      (fun c occ e => totalEnergy ⟨fun _ r => -r, fun _ _ _ => 0, fun _ _ _ => 0, fun _ _ _ _ _ _ => 0⟩
        c (fun (_ : Fin 1) _ => 0) (fun _ => 3) (gVectors 1 fun _ => 2) (fun _ _ => 0) 1 (some occ) false "lda_x"
        = .ok e) c occ e ∧
    ∀ j, ∀ x ∈ splitPlus "lda_x", DifferentiableAt ℝ ((fun _ r => -r : String → ℝ → ℝ) x)
      (densityGrid c 1 occ 0 j) := by
  have := ground_attained (ns := 1) (nk := 1) (nb := 2) (n := fun _ => 2)
    ⟨fun _ r => -r, fun _ _ _ => 0, fun _ _ _ => 0, fun _ _ _ _ _ _ => 0⟩ "lda_x"
    ⟨fun _ _ _ => continuousOn_id.neg, fun _ _ _ => continuousOn_const, fun _ _ _ => continuousOn_const,
      fun _ _ _ => continuousOn_const⟩ (fun (_ : Fin 1) _ => 0) (fun _ => 3) (gVectors 1 fun _ => 2) (fun _ _ => 0) 1
    (1 / 100) 1e-8 (by norm_num) (fun _ => true) 3 1 true "idempotent"
  refine (fun hne => (this hne).elim fun c h => h.elim fun occ h => h.elim fun e h =>
    ⟨c, occ, e, h, fun j x _ => differentiableAt_id.neg⟩) ?_
  refine ⟨fun _ _ b x => if x = (fun _ => b) then 1 else 0, fun _ _ b => if b = 0 then 2 else 1, ⟨fun s k i j => ?_,
      fun s k b x hx => (by cases hx), rfl, fun s k b => ?_, fun s k b => ?_, ?_, fun s s' _ h => ?_⟩,
      fun h => absurd h (by decide)⟩
  · have : ∀ x : Idx fun _ => 2, conj (if x = (fun _ => i) then (1 : ℂ) else 0) * (if x = (fun _ => j) then 1 else 0)
        = if x = (fun _ => i) then (if i = j then 1 else 0) else 0 := by
      intro x
      by_cases h : x = fun _ => i
      · subst h
        rw [if_pos rfl, if_pos rfl, map_one, one_mul]
        exact if_congr ⟨fun h => congrFun h 0, fun h => by rw [h]⟩ rfl rfl
      · rw [if_neg h, if_neg h, map_zero, zero_mul]
    rw [Finset.sum_congr rfl fun x _ => this x, Finset.sum_ite_eq' Finset.univ]
    simp
  · beta_reduce; split_ifs <;> norm_num
  · have : Spec.kShare "idempotent" 1 * Spec.pauli true = 2 := by
      unfold Spec.kShare Spec.pauli
      rw [if_neg (by decide), if_pos rfl]
      norm_num
    rw [this]
    beta_reduce; split_ifs <;> norm_num
  · rw [Fin.sum_univ_one, Fin.sum_univ_one, Fin.sum_univ_two, if_pos rfl, if_neg (by decide)]
    norm_num
  · have := s'.2
    omega

/-- C99 is false for two spin channels: `hamiltonian_matrix` counts the kinetic energy once for each channel (see
`hamiltonianMatrix_polarised`), so its diagonal elements are not the energies at which electrons are added. -/
theorem totalEnergy_occupation_polarised_wrong : ∃ (lib : XcLib) (n : Fin 3 → ℕ) (g : Idx n → Fin 3 → ℝ)
    (kpts : Fin 1 → Fin 3 → ℝ) (c : Coef 2 1 1 n) (occ : ℝ → Occ 2 1 1) (E : ℝ → ℝ) (E' : ℝ)
    (H : Matrix (Fin 1) (Fin 1) ℂ),
    (∀ s k b, HasDerivAt (fun t => occ t s k b) (if s = 0 then 1 else 0) 0) ∧
    (∀ t, totalEnergy lib c (fun (_ : Fin 0) _ => 0) (fun _ => 0) g kpts 1 (some (occ t)) false "lda_x"
      = .ok (E t)) ∧
    hamiltonianMatrix lib "lda_x" true c (fun (_ : Fin 0) _ => 0) (fun _ => 0) (densityGrid c 1 (occ 0)) g kpts 1 0 0
      = .ok H ∧
    HasDerivAt E E' 0 ∧ E' ≠ (H 0 0).re := by
  let lib : XcLib := ⟨fun _ _ => 0, fun _ _ _ => 0, fun _ _ _ => 0, fun _ _ _ _ _ _ => 0⟩
  let n : Fin 3 → ℕ := fun _ => 1
  let g : Idx n → Fin 3 → ℝ := fun _ _ => 0
  let kpts : Fin 1 → Fin 3 → ℝ := fun _ _ => 1
  let c : Coef 2 1 1 n := fun _ _ _ _ => 1
  let occ : ℝ → Occ 2 1 1 := fun t s _ _ => if s = 0 then 1 / 2 + t else 1 / 2
  have horig : ∀ k : Idx n, ¬ ∃ i, (k i : ℕ) ≠ 0 := by
    rintro k ⟨i, hi⟩
    have h1 : (k i : ℕ) < 1 := (k i).2
    omega
  have hg : pyIn "gga" "lda_x" = false := by decide +kernel
  have he : ∀ a b, excLda2 lib (splitPlus "lda_x") a b = 0 := by
    intro a b
    unfold excLda2
    refine List.sum_eq_zero fun y hy => ?_
    obtain ⟨z, _, rfl⟩ := List.mem_map.mp hy
    simp [ldaPoint2, lib]
  obtain ⟨v, hv, hH⟩ := hamiltonianMatrix_polarised lib "lda_x" c
    (fun (_ : Fin 0) _ => 0) (fun _ => 0) (densityGrid c 1 (occ 0)) g kpts 1
  have hvz : ∀ σ x, v σ x = 0 := by
    intro σ x
    have := (effectivePotential_channels lib "lda_x" (densityGrid c 1 (occ 0)) (fun (_ : Fin 0) _ => 0)
      (fun _ => 0) g 1).1
    rw [hv] at this
    simp only [Sigma.mk.injEq, heq_eq_eq, true_and] at this
    rw [this]
    have h1 : hartreeRealSpace (densityGrid c 1 (occ 0)) g true x = 0 := by
      unfold hartreeRealSpace
      rw [ifftn_eq]
      have : ∀ k : Idx n, isOrigin k = true := fun k => by
        rw [isOrigin_iff]; intro i; have h1 : (k i : ℕ) < 1 := (k i).2; omega
      simp [hartreeReciprocal_eq, this]
    have h2 : externalPotential (fun (_ : Fin 0) _ => 0) (fun _ => 0) g 1 x = 0 := by
      unfold externalPotential
      rw [ifftn_eq]
      simp [externalReciprocal]
    have h3 : xcDensity lib "lda_x" true g (densityGrid c 1 (occ 0)) σ x = 0 := by
      unfold xcDensity vxcDensity
      simp [hg, vxcLda2, he]
    beta_reduce
    rw [h1, h2, h3]
    simp
  obtain ⟨H, hH1, hH2⟩ := hH 0 0
  have hid : HasDerivAt (fun t : ℝ => 1 / 2 + t) 1 0 := (hasDerivAt_id 0).const_add (1 / 2)
  refine ⟨lib, n, g, kpts, c, occ, fun t => 3 / 2 + 3 / 2 * t, 3 / 2, H, fun s k b => ?_, fun t => ?_, hH1, ?_, ?_⟩
  · by_cases hs : s = 0
    · simp only [occ, if_pos hs]
      exact hid
    · simp only [occ, if_neg hs]
      exact hasDerivAt_const _ _
  · unfold totalEnergy totalEnergySplit occOrOnes
    dsimp only
    rw [externalEnergy_eq, hartreeEnergy_eq, xcEnergy_value,
      Finset.filter_false_of_mem fun k _ => horig k]
    have hex : ∀ (rho : Fin 2 → Idx n → ℝ) j, excDensity lib "lda_x" g rho j = 0 := by
      intro rho j
      unfold excDensity
      simp [hg, he]
    simp only [hex]
    have hk : kineticEnergyOcc g kpts c (occ t) = 3 / 2 + 3 / 2 * t := by
      unfold kineticEnergyOcc
      simp [g, kpts, c, n, occ, absoluteSquare_eq]
      ring
    rw [hk]
    simp
  · exact (((hasDerivAt_id (0 : ℝ)).const_mul (3 / 2)).const_add (3 / 2)).congr_deriv (by norm_num)
  · have hp : ∀ (σ : Fin 2) (f f' : Idx n → ℂ),
        Spec.potentialElement 1 (fun x => (v σ x).re) f f' = 0 := by
      intro σ f f'
      unfold Spec.potentialElement Spec.cellInner
      simp [hvz]
    have hval : H 0 0 = 3 := by
      rw [hH2, hp, hp]
      have : Spec.kineticElement g (kpts 0) (c 0 0 0) (c 0 0 0) = 3 / 2 := by
        unfold Spec.kineticElement Spec.kineticEnergy Spec.dot
        simp [g, kpts, c, n]
      rw [this]
      norm_num
    rw [hval]
    norm_num

end Jrystal
