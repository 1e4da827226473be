import Verif.Lemmas.Energy
import Verif.Props.Planewave
import Verif.Props.Braket

/- C16, C23–C26, C30. -/
namespace Jrystal
open scoped BigOperators ComplexConjugate Matrix

/-! ### C23: Hartree energy -/

/-- C23: value of the Hartree energy:
`(2π vol / N²) Σ_{G≠0} |n(G)|² / |G|²` with `n` the sum of the spin densities. -/
theorem hartree_formula {ns : ℕ} (A : Matrix (Fin 3) (Fin 3) ℝ) {n : Fin 3 → ℕ}
    (rho : Fin ns → Idx n → ℂ) (vol : ℝ) :
    hartreeEnergy rho (gVectors A n) vol false
      = .ok (2 * Real.pi * vol / ((∏ i, n i : ℕ) : ℝ) ^ 2 *
          ∑ k ∈ Finset.univ.filter (fun k : Idx n => ∃ i, (k i : ℕ) ≠ 0),
            ‖∑ s, rho s k‖ ^ 2 / Spec.dot (gVectors A n k) (gVectors A n k)) :=
  hartreeEnergy_eq rho (gVectors A n) vol false

/-- C23: `kohn_sham=True` doubles the value. -/
theorem hartree_kohn_sham {ns : ℕ} {n : Fin 3 → ℕ} (rho : Fin ns → Idx n → ℂ)
    (g : Idx n → Fin 3 → ℝ) (vol : ℝ) :
    ∃ E, hartreeEnergy rho g vol false = .ok E ∧ hartreeEnergy rho g vol true = .ok (2 * E) := by
  refine ⟨_, hartreeEnergy_eq _ _ _ _, ?_⟩
  rw [hartreeEnergy_eq]
  congr 1
  simp only [Bool.false_eq_true, if_false, if_true]
  ring

/-- C23: the Hartree energy is non-negative and vanishes exactly when the total density has no
component with `G ≠ 0`. -/
theorem hartree_nonneg {ns : ℕ} (A : Matrix (Fin 3) (Fin 3) ℝ) (hA : A.det ≠ 0) {n : Fin 3 → ℕ}
    (hn : ∀ i, 0 < n i) (rho : Fin ns → Idx n → ℂ) (vol : ℝ) (hv : 0 < vol) (ks : Bool) :
    ∃ E, hartreeEnergy rho (gVectors A n) vol ks = .ok E ∧ 0 ≤ E ∧
      (E = 0 ↔ ∀ k : Idx n, (∃ i, (k i : ℕ) ≠ 0) → ∑ s, rho s k = 0) := by
  refine ⟨_, hartreeEnergy_eq _ _ _ _, ?_, ?_⟩
  · refine mul_nonneg ?_ (Finset.sum_nonneg fun k hk => ?_)
    · have : (0 : ℝ) ≤ if ks then 4 else 2 := by split <;> norm_num
      have := Real.pi_pos
      positivity
    · exact div_nonneg (by positivity) (gVectors_sq_pos A hA n k (Finset.mem_filter.mp hk).2).le
  · have hpre : (if ks then (4 : ℝ) else 2) * Real.pi * vol / (gridCount n : ℝ) ^ 2 ≠ 0 := by
      have h1 : (if ks then (4 : ℝ) else 2) ≠ 0 := by split <;> norm_num
      have := Real.pi_pos.ne'
      have := gridCount_ne_real (zeroIdx hn)
      have := hv.ne'
      positivity
    rw [mul_eq_zero, or_iff_right hpre, Finset.sum_eq_zero_iff_of_nonneg]
    · constructor
      · intro h k hk
        have := h k (Finset.mem_filter.mpr ⟨Finset.mem_univ _, hk⟩)
        rw [div_eq_zero_iff, or_iff_left (gVectors_sq_pos A hA n k hk).ne'] at this
        simpa using this
      · intro h k hk
        rw [h k (Finset.mem_filter.mp hk).2]
        simp
    · intro k hk
      exact div_nonneg (by positivity) (gVectors_sq_pos A hA n k (Finset.mem_filter.mp hk).2).le

/-- C23: scaling the density scales the energy quadratically. -/
theorem hartree_scale {ns : ℕ} {n : Fin 3 → ℕ} (rho : Fin ns → Idx n → ℂ)
    (g : Idx n → Fin 3 → ℝ) (vol : ℝ) (ks : Bool) (c : ℂ) :
    ∃ E, hartreeEnergy rho g vol ks = .ok E ∧
      hartreeEnergy (fun s k => c * rho s k) g vol ks = .ok (‖c‖ ^ 2 * E) := by
  refine ⟨_, hartreeEnergy_eq _ _ _ _, ?_⟩
  rw [hartreeEnergy_eq, mul_left_comm]
  congr 2
  rw [Finset.mul_sum]
  refine Finset.sum_congr rfl fun k _ => ?_
  rw [← Finset.mul_sum, norm_mul]
  ring

/-- C23: only the sum over spins away from `G = 0` matters; the two densities may have different
numbers of spin channels. -/
theorem hartree_spin_sum {ns ns' : ℕ} {n : Fin 3 → ℕ} (rho : Fin ns → Idx n → ℂ)
    (rho' : Fin ns' → Idx n → ℂ) (g : Idx n → Fin 3 → ℝ) (vol : ℝ) (ks : Bool)
    (h : ∀ k : Idx n, (∃ i, (k i : ℕ) ≠ 0) → ∑ s, rho s k = ∑ s, rho' s k) :
    hartreeEnergy rho g vol ks = hartreeEnergy rho' g vol ks := by
  rw [hartreeEnergy_eq, hartreeEnergy_eq]
  congr 2
  refine Finset.sum_congr rfl fun k hk => ?_
  rw [h k (Finset.mem_filter.mp hk).2]

private theorem fftn_const {n : Fin 3 → ℕ} (w : ℂ) (k : Idx n) (hk : ∃ i, (k i : ℕ) ≠ 0) :
    fftn (fun _ => w) k = 0 := by
  have hn : ∀ i, 0 < n i := fun i => by have := (k i).2; omega
  have h := omega_orth (zeroIdx hn) k
  have hne : zeroIdx hn ≠ k := by
    obtain ⟨i, hi⟩ := hk
    intro h
    exact hi (by rw [← h]; rfl)
  rw [if_neg hne] at h
  rw [fftn_eq, ← Finset.mul_sum]
  have h2 : ∑ j, conj (omega k j) = ∑ j, omega (zeroIdx hn) j * conj (omega k j) :=
    Finset.sum_congr rfl fun j _ => by rw [omega_zero (zeroIdx hn) j fun _ => rfl, one_mul]
  rw [h2, h, mul_zero]

/-- C23: adding a constant density to each spin channel changes nothing. -/
theorem hartree_constant {ns : ℕ} {n : Fin 3 → ℕ} (dens : Fin ns → Idx n → ℝ) (w : Fin ns → ℝ)
    (g : Idx n → Fin 3 → ℝ) (vol : ℝ) (ks : Bool) :
    hartreeEnergy (fun s => fftn fun j => ((dens s j + w s : ℝ) : ℂ)) g vol ks
      = hartreeEnergy (fun s => fftn fun j => (dens s j : ℂ)) g vol ks := by
  refine hartree_spin_sum _ _ g vol ks fun k hk => ?_
  refine Finset.sum_congr rfl fun s _ => ?_
  have : (fun j => ((dens s j + w s : ℝ) : ℂ)) = fun j => (dens s j : ℂ) + (w s : ℂ) := by
    funext j; push_cast; rfl
  rw [this, fftn_add, fftn_const _ k hk, add_zero]

/-- Hypotheses met with a positive energy: one plane wave on a skew cell. -/
example : ∃ E, hartreeEnergy (fun _ : Fin 1 => fun k : Idx (fun _ => 3) =>
    if k = ![1, 0, 0] then (1 : ℂ) else 0) (gVectors skewCell _) 1 false = .ok E ∧ 0 < E := by
  obtain ⟨E, h1, h2, h3⟩ := hartree_nonneg skewCell skewCell_det (n := fun _ => 3) (by simp)
    (fun _ : Fin 1 => fun k : Idx (fun _ => 3) => if k = ![1, 0, 0] then (1 : ℂ) else 0) 1 one_pos
    false
  refine ⟨E, h1, lt_of_le_of_ne h2 fun h0 => ?_⟩
  have := h3.mp h0.symm ![1, 0, 0] ⟨0, by simp⟩
  simp at this

/-! ### C24: external energy -/

/-- C24: the external potential at a non-zero `G` is `-(N/vol) 4π/(|G|²+1e-10) Σ_a Z_a e^{-iG·R_a}`,
and zero at `G = 0`. -/
theorem external_formula {na : ℕ} {n : Fin 3 → ℕ} (pos : Fin na → Fin 3 → ℝ) (charge : Fin na → ℝ)
    (g : Idx n → Fin 3 → ℝ) (vol : ℝ) (k : Idx n) :
    ((∀ i, (k i : ℕ) = 0) → externalReciprocal pos charge g vol k = 0) ∧
    ((∃ i, (k i : ℕ) ≠ 0) → externalReciprocal pos charge g vol k
      = ((-(4 * Real.pi * ((∏ i, n i : ℕ) : ℝ) / (vol * (Spec.dot (g k) (g k) + 1e-10))) : ℝ) : ℂ) *
        ∑ a, (charge a : ℂ) * Complex.exp (-(Complex.I * (Spec.dot (g k) (pos a) : ℝ)))) := by
  rw [externalReciprocal_eq]
  constructor
  · intro h
    rw [(isOrigin_iff k).mpr h]; simp
  · intro h
    rw [(isOrigin_false k).mpr h]
    rfl

/-- C24: linear in the density. -/
theorem external_linear_density {ns na : ℕ} {n : Fin 3 → ℕ} (rho rho' : Fin ns → Idx n → ℂ)
    (pos : Fin na → Fin 3 → ℝ) (charge : Fin na → ℝ) (g : Idx n → Fin 3 → ℝ) (vol a b : ℝ) :
    ∃ E E', externalEnergy rho pos charge g vol = .ok E ∧ externalEnergy rho' pos charge g vol = .ok E' ∧
      externalEnergy (fun s k => a * rho s k + b * rho' s k) pos charge g vol = .ok (a * E + b * E') := by
  refine ⟨_, _, externalEnergy_eq _ _ _ _ _, externalEnergy_eq _ _ _ _ _, ?_⟩
  rw [externalEnergy_eq]
  congr 1
  rw [mul_left_comm a, mul_left_comm b, ← mul_add]
  congr 1
  rw [Finset.mul_sum, Finset.mul_sum, ← Finset.sum_add_distrib]
  refine Finset.sum_congr rfl fun k _ => ?_
  have h1 : conj (structureFactor pos charge g k) * ∑ s, ((a : ℂ) * rho s k + (b : ℂ) * rho' s k)
      = (a : ℂ) * (conj (structureFactor pos charge g k) * ∑ s, rho s k)
        + (b : ℂ) * (conj (structureFactor pos charge g k) * ∑ s, rho' s k) := by
    rw [Finset.sum_add_distrib, ← Finset.mul_sum, ← Finset.mul_sum]
    ring
  rw [h1, Complex.add_re, Complex.re_ofReal_mul, Complex.re_ofReal_mul]
  ring

/-- C24: linear in the charges. -/
theorem external_linear_charge {ns na : ℕ} {n : Fin 3 → ℕ} (rho : Fin ns → Idx n → ℂ)
    (pos : Fin na → Fin 3 → ℝ) (z z' : Fin na → ℝ) (g : Idx n → Fin 3 → ℝ) (vol a b : ℝ) :
    ∃ E E', externalEnergy rho pos z g vol = .ok E ∧ externalEnergy rho pos z' g vol = .ok E' ∧
      externalEnergy rho pos (fun i => a * z i + b * z' i) g vol = .ok (a * E + b * E') := by
  refine ⟨_, _, externalEnergy_eq _ _ _ _ _, externalEnergy_eq _ _ _ _ _, ?_⟩
  rw [externalEnergy_eq]
  congr 1
  rw [mul_left_comm a, mul_left_comm b, ← mul_add]
  congr 1
  rw [Finset.mul_sum, Finset.mul_sum, ← Finset.sum_add_distrib]
  refine Finset.sum_congr rfl fun k _ => ?_
  have : structureFactor pos (fun i => a * z i + b * z' i) g k
      = (a : ℂ) * structureFactor pos z g k + (b : ℂ) * structureFactor pos z' g k := by
    unfold structureFactor
    rw [Finset.mul_sum, Finset.mul_sum, ← Finset.sum_add_distrib]
    refine Finset.sum_congr rfl fun i _ => ?_
    push_cast; ring
  have h1 : conj (structureFactor pos (fun i => a * z i + b * z' i) g k) * ∑ s, rho s k
      = (a : ℂ) * (conj (structureFactor pos z g k) * ∑ s, rho s k)
        + (b : ℂ) * (conj (structureFactor pos z' g k) * ∑ s, rho s k) := by
    rw [this, map_add, map_mul, map_mul, Complex.conj_ofReal, Complex.conj_ofReal]
    ring
  rw [h1, Complex.add_re, Complex.re_ofReal_mul, Complex.re_ofReal_mul]
  ring

/-- C24: moving atoms by (different) lattice vectors changes nothing. -/
theorem external_lattice {ns na : ℕ} (A : Matrix (Fin 3) (Fin 3) ℝ) (hA : A.det ≠ 0) {n : Fin 3 → ℕ}
    (rho : Fin ns → Idx n → ℂ) (pos pos' : Fin na → Fin 3 → ℝ) (charge : Fin na → ℝ) (vol : ℝ)
    (h : ∀ a, Spec.IsLatticeVector A fun d => pos' a d - pos a d) :
    externalEnergy rho pos' charge (gVectors A n) vol
      = externalEnergy rho pos charge (gVectors A n) vol := by
  rw [externalEnergy_eq, externalEnergy_eq]
  congr 2
  refine Finset.sum_congr rfl fun k _ => ?_
  rw [structureFactor_shift A n pos pos' charge k 1 fun a => exp_lattice A hA n k _ (h a), one_mul]

/-- C24: renumbering the atoms changes nothing. -/
theorem external_permute {ns na : ℕ} {n : Fin 3 → ℕ} (rho : Fin ns → Idx n → ℂ)
    (pos : Fin na → Fin 3 → ℝ) (charge : Fin na → ℝ) (g : Idx n → Fin 3 → ℝ) (vol : ℝ)
    (e : Equiv.Perm (Fin na)) :
    externalEnergy rho (fun a => pos (e a)) (fun a => charge (e a)) g vol
      = externalEnergy rho pos charge g vol := by
  rw [externalEnergy_eq, externalEnergy_eq]
  congr 2
  refine Finset.sum_congr rfl fun k _ => ?_
  have : structureFactor (fun a => pos (e a)) (fun a => charge (e a)) g k
      = structureFactor pos charge g k := by
    unfold structureFactor
    exact Equiv.sum_comp e fun a =>
      (charge a : ℂ) * Complex.exp (-(Complex.I * ((∑ d, g k d * pos a d : ℝ) : ℂ)))
  rw [this]

/-- C24: translating all atoms and the density by the same grid vector changes nothing. -/
theorem external_translate {ns na : ℕ} (A : Matrix (Fin 3) (Fin 3) ℝ) (hA : A.det ≠ 0)
    {n : Fin 3 → ℕ} (dens dens' : Fin ns → Idx n → ℝ) (pos : Fin na → Fin 3 → ℝ)
    (charge : Fin na → ℝ) (vol : ℝ) (t : Idx n)
    (h : ∀ s j j', Spec.IsShift t j j' → dens' s j' = dens s j) :
    externalEnergy (fun s => fftn fun j => (dens' s j : ℂ)) (fun a d => pos a d + rVectors A n t d)
        charge (gVectors A n) vol
      = externalEnergy (fun s => fftn fun j => (dens s j : ℂ)) pos charge (gVectors A n) vol := by
  rw [externalEnergy_eq, externalEnergy_eq]
  congr 2
  refine Finset.sum_congr rfl fun k _ => ?_
  congr 2
  have h1 := structureFactor_shift A n pos (fun a d => pos a d + rVectors A n t d) charge k
    (conj (omega k t)) fun a => by
      rw [← exp_grid A hA]
      simp only [add_sub_cancel_left]
  have h2 : ∀ s, fftn (fun j => (dens' s j : ℂ)) k
      = fftn (fun j => (dens s j : ℂ)) k * conj (omega k t) := fun s =>
    fftn_translate _ _ t (fun j => by rw [h s j _ (isShift_addIdx j t)]) k
  rw [h1]
  simp_rw [h2]
  rw [← Finset.sum_mul, map_mul, Complex.conj_conj]
  have := omega_mul_conj k t
  linear_combination (conj (structureFactor pos charge (gVectors A n) k) *
    ∑ s, fftn (fun j => (dens s j : ℂ)) k) * this

/-- C24: the `G = 0` component of the density does not matter, and only the spin sum does. -/
theorem external_no_zero {ns ns' na : ℕ} {n : Fin 3 → ℕ} (rho : Fin ns → Idx n → ℂ)
    (rho' : Fin ns' → Idx n → ℂ) (pos : Fin na → Fin 3 → ℝ) (charge : Fin na → ℝ)
    (g : Idx n → Fin 3 → ℝ) (vol : ℝ)
    (h : ∀ k : Idx n, (∃ i, (k i : ℕ) ≠ 0) → ∑ s, rho s k = ∑ s, rho' s k) :
    externalEnergy rho pos charge g vol = externalEnergy rho' pos charge g vol := by
  rw [externalEnergy_eq, externalEnergy_eq]
  congr 2
  refine Finset.sum_congr rfl fun k hk => ?_
  rw [h k (Finset.mem_filter.mp hk).2]

/-- C24: the added `1e-10` makes the potential smaller than the Coulomb value `4πZN/(vol|G|²)` by a
relative amount of at most `1e-10/|G|²`. -/
theorem external_softening {n : Fin 3 → ℕ} (A : Matrix (Fin 3) (Fin 3) ℝ) (hA : A.det ≠ 0)
    (k : Idx n) (hk : ∃ i, (k i : ℕ) ≠ 0) :
    let g2 := Spec.dot (gVectors A n k) (gVectors A n k)
    1 / (g2 + 1e-10) < 1 / g2 ∧ (1 / g2 - 1 / (g2 + 1e-10)) ≤ (1e-10 / g2) * (1 / g2) := by
  intro g2
  have h : 0 < g2 := gVectors_sq_pos A hA n k hk
  have h2 : 0 < g2 + 1e-10 := by positivity
  refine ⟨one_div_lt_one_div_of_lt h (by norm_num), ?_⟩
  rw [div_sub_div _ _ h.ne' h2.ne', div_mul_div_comm, div_le_div_iff₀ (by positivity) (by positivity)]
  nlinarith [mul_pos h h]

/-- Hypotheses met: the shift hypothesis of `external_translate` for a translated density. -/
example (dens : Fin 1 → Idx (fun _ => 2) → ℝ) (t : Idx (fun _ => 2)) :
    ∃ dens' : Fin 1 → Idx (fun _ => 2) → ℝ, ∀ s j j', Spec.IsShift t j j' → dens' s j' = dens s j := by
  refine ⟨fun s j' => dens s (addIdx j' (negIdx t)), fun s j j' h => ?_⟩
  show dens s (addIdx j' (negIdx t)) = dens s j
  congr 1
  funext i
  apply Fin.ext
  have h1 : (2 : ℤ) ∣ (j i : ℤ) + t i - j' i := h i
  have h2 : (j i : ℕ) < 2 := (j i).2
  have h3 : (j' i : ℕ) < 2 := (j' i).2
  have h4 : (t i : ℕ) < 2 := (t i).2
  show ((j' i : ℕ) + (2 - (t i : ℕ)) % 2) % 2 = j i
  omega

/-! ### C25: kinetic energy -/

/-- C25: value of the kinetic energy. -/
theorem kinetic_formula {ns nk nb : ℕ} {n : Fin 3 → ℕ} (g : Idx n → Fin 3 → ℝ)
    (kpts : Fin nk → Fin 3 → ℝ) (c : Coef ns nk nb n) (occ : Occ ns nk nb) :
    kineticEnergyOcc g kpts c occ
      = ∑ s, ∑ k, ∑ b, occ s k b * ∑ x, Spec.kineticEnergy (fun d => g x d + kpts k d) * ‖c s k b x‖ ^ 2 := by
  unfold kineticEnergyOcc
  rw [Finset.sum_div]
  refine Finset.sum_congr rfl fun s _ => ?_
  rw [Finset.sum_div]
  refine Finset.sum_congr rfl fun k _ => ?_
  rw [Finset.sum_div]
  refine Finset.sum_congr rfl fun b _ => ?_
  rw [mul_comm, mul_div_assoc, Finset.sum_div]
  congr 1
  refine Finset.sum_congr rfl fun x _ => ?_
  rw [absoluteSquare_eq, Spec.kineticEnergy, ← sum_sq_eq_dot]
  ring

/-- C25: the per-band result without occupation. -/
theorem kineticBands_formula {ns nk nb : ℕ} {n : Fin 3 → ℕ} (g : Idx n → Fin 3 → ℝ)
    (kpts : Fin nk → Fin 3 → ℝ) (c : Coef ns nk nb n) (s : Fin ns) (k : Fin nk) (b : Fin nb) :
    kineticBands g kpts c s k b
      = ∑ x, Spec.kineticEnergy (fun d => g x d + kpts k d) * ‖c s k b x‖ ^ 2 := by
  unfold kineticBands
  rw [Finset.sum_div]
  refine Finset.sum_congr rfl fun x _ => ?_
  rw [absoluteSquare_eq, Spec.kineticEnergy, ← sum_sq_eq_dot]
  ring

private theorem kineticEnergy_nonneg (v : Fin 3 → ℝ) : 0 ≤ Spec.kineticEnergy v := by
  unfold Spec.kineticEnergy Spec.dot
  have : 0 ≤ ∑ d, v d * v d := Finset.sum_nonneg fun d _ => mul_self_nonneg _
  linarith

private theorem kineticEnergy_zero (v : Fin 3 → ℝ) : Spec.kineticEnergy v = 0 ↔ ∀ d, v d = 0 := by
  unfold Spec.kineticEnergy Spec.dot
  rw [div_eq_zero_iff, or_iff_left (by norm_num : (2 : ℝ) ≠ 0),
    Finset.sum_eq_zero_iff_of_nonneg fun d _ => mul_self_nonneg _]
  simp

/-- C25: non-negative for non-negative occupations, and zero only if every occupied coefficient sits
at `k + G = 0`. -/
theorem kinetic_nonneg {ns nk nb : ℕ} {n : Fin 3 → ℕ} (g : Idx n → Fin 3 → ℝ)
    (kpts : Fin nk → Fin 3 → ℝ) (c : Coef ns nk nb n) (occ : Occ ns nk nb)
    (hocc : ∀ s k b, 0 ≤ occ s k b) :
    0 ≤ kineticEnergyOcc g kpts c occ ∧
    (kineticEnergyOcc g kpts c occ = 0 ↔
      ∀ s k b x, occ s k b ≠ 0 → c s k b x ≠ 0 → ∀ d, g x d + kpts k d = 0) := by
  rw [kinetic_formula]
  have h0 : ∀ s k b, 0 ≤ ∑ x, Spec.kineticEnergy (fun d => g x d + kpts k d) * ‖c s k b x‖ ^ 2 :=
    fun s k b => Finset.sum_nonneg fun x _ => mul_nonneg (kineticEnergy_nonneg _) (by positivity)
  have h1 : ∀ s k b, 0 ≤ occ s k b * ∑ x, Spec.kineticEnergy (fun d => g x d + kpts k d) * ‖c s k b x‖ ^ 2 :=
    fun s k b => mul_nonneg (hocc s k b) (h0 s k b)
  refine ⟨Finset.sum_nonneg fun s _ => Finset.sum_nonneg fun k _ => Finset.sum_nonneg fun b _ =>
    h1 s k b, ?_⟩
  rw [Finset.sum_eq_zero_iff_of_nonneg fun s _ => Finset.sum_nonneg fun k _ =>
    Finset.sum_nonneg fun b _ => h1 s k b]
  constructor
  · intro h s k b x ho hc
    have h2 := h s (Finset.mem_univ s)
    rw [Finset.sum_eq_zero_iff_of_nonneg fun k _ => Finset.sum_nonneg fun b _ => h1 s k b] at h2
    have h3 := h2 k (Finset.mem_univ k)
    rw [Finset.sum_eq_zero_iff_of_nonneg fun b _ => h1 s k b] at h3
    have h4 := (mul_eq_zero.mp (h3 b (Finset.mem_univ b))).resolve_left ho
    rw [Finset.sum_eq_zero_iff_of_nonneg fun x _ =>
      mul_nonneg (kineticEnergy_nonneg _) (by positivity)] at h4
    have h5 := (mul_eq_zero.mp (h4 x (Finset.mem_univ x))).resolve_right
      (pow_ne_zero _ (norm_ne_zero_iff.mpr hc))
    exact (kineticEnergy_zero _).mp h5
  · intro h s _
    refine Finset.sum_eq_zero fun k _ => Finset.sum_eq_zero fun b _ => ?_
    by_cases ho : occ s k b = 0
    · rw [ho, zero_mul]
    · rw [Finset.sum_eq_zero, mul_zero]
      intro x _
      by_cases hc : c s k b x = 0
      · rw [hc]; simp
      · rw [(kineticEnergy_zero _).mpr (h s k b x ho hc), zero_mul]

/-- C25: linear in the occupation. -/
theorem kinetic_linear {ns nk nb : ℕ} {n : Fin 3 → ℕ} (g : Idx n → Fin 3 → ℝ)
    (kpts : Fin nk → Fin 3 → ℝ) (c : Coef ns nk nb n) (occ occ' : Occ ns nk nb) (a b : ℝ) :
    kineticEnergyOcc g kpts c (fun s k i => a * occ s k i + b * occ' s k i)
      = a * kineticEnergyOcc g kpts c occ + b * kineticEnergyOcc g kpts c occ' := by
  rw [kinetic_formula, kinetic_formula, kinetic_formula]
  simp_rw [Finset.mul_sum (a := a), Finset.mul_sum (a := b), add_mul, Finset.sum_add_distrib, mul_assoc]

/-- C25: the kinetic energy is the occupation-weighted sum of the diagonal elements that
`expectation` in mode `kinetic` returns for the kinetic operator. -/
theorem kinetic_expectation {ns nk nb : ℕ} {n : Fin 3 → ℕ} (g : Idx n → Fin 3 → ℝ)
    (kpts : Fin nk → Fin 3 → ℝ) (c : Coef ns nk nb n) (occ : Occ ns nk nb) (vol : ℝ) :
    ∃ M : Fin ns → Fin nk → Fin nb → ℂ,
      expectationDiag c (.lead nk fun k x => (kineticOperator g kpts k x : ℂ)) vol none "kinetic"
        = .ok ⟨nk, M⟩ ∧
      (∀ s k b, M s k b = (kineticBands g kpts c s k b : ℂ)) ∧
      (kineticEnergyOcc g kpts c occ : ℂ) = ∑ s, ∑ k, ∑ b, (occ s k b : ℂ) * M s k b := by
  have hM : expectationDiag c (.lead nk fun k x => (kineticOperator g kpts k x : ℂ)) vol none "kinetic"
      = .ok ⟨nk, fun s k b => (kineticBands g kpts c s k b : ℂ)⟩ := by
    unfold expectationDiag integralFactor operatorLen bcLen operatorAt
    simp only [if_neg (by decide : ¬ ("kinetic" = "reciprocal")),
      if_neg (by decide : ¬ ("kinetic" = "real")), if_true, Option.getD_none, bcGet_self]
    congr 2
    funext s k b
    unfold kineticBands kineticOperator
    rw [Finset.sum_div]
    push_cast
    rw [mul_one]
    refine Finset.sum_congr rfl fun x _ => ?_
    rw [absoluteSquare_cast]
    ring
  refine ⟨_, hM, fun _ _ _ => rfl, ?_⟩
  rw [kinetic_formula]
  simp_rw [kineticBands_formula]
  push_cast
  rfl

/-- C25: for the coefficients of `pw.coeff`, masked by the kinetic-energy cutoff at the Gamma point,
the kinetic energy is at most the cutoff times the number of electrons. -/
theorem kinetic_cutoff (qr : QR ℂ) {ns nk nb : ℕ} (A : Matrix (Fin 3) (Fin 3) ℝ) {n : Fin 3 → ℕ}
    (cutoff : ℝ) (p : PwParams ns nk (maskCount (sphericalMask A n cutoff)) nb)
    (occ : Occ ns nk _) (hocc : ∀ s k b, 0 ≤ occ s k b) :
    kineticEnergyOcc (gVectors A n) (fun _ _ => 0) (pwCoeff qr (sphericalMask A n cutoff) p) occ
      ≤ cutoff * ∑ s, ∑ k, ∑ b, occ s k b := by
  rw [kinetic_formula]
  simp_rw [Finset.mul_sum (a := cutoff)]
  refine Finset.sum_le_sum fun s _ => Finset.sum_le_sum fun k _ => Finset.sum_le_sum fun b _ => ?_
  rw [mul_comm cutoff]
  refine mul_le_mul_of_nonneg_left ?_ (hocc s k b)
  have horth := pwCoeff_orthonormal qr (sphericalMask A n cutoff) p s k b b
  rw [if_pos rfl] at horth
  have hone : ∑ x, ‖pwCoeff qr (sphericalMask A n cutoff) p s k b x‖ ^ 2 = 1 := by
    have h2 : ((∑ x, ‖pwCoeff qr (sphericalMask A n cutoff) p s k b x‖ ^ 2 : ℝ) : ℂ) = 1 := by
      rw [← horth]
      push_cast
      exact Finset.sum_congr rfl fun x _ => by rw [Complex.conj_mul']
    exact_mod_cast h2
  calc ∑ x, Spec.kineticEnergy (fun d => gVectors A n x d + 0) *
        ‖pwCoeff qr (sphericalMask A n cutoff) p s k b x‖ ^ 2
      ≤ ∑ x, cutoff * ‖pwCoeff qr (sphericalMask A n cutoff) p s k b x‖ ^ 2 := by
        refine Finset.sum_le_sum fun x _ => ?_
        cases hm : sphericalMask A n cutoff x with
        | false => rw [pwCoeff_support qr _ p s k b x hm]; simp
        | true =>
          refine mul_le_mul_of_nonneg_right ?_ (by positivity)
          simpa using (sphericalMask_iff A n cutoff x).mp hm
    _ = cutoff := by rw [← Finset.mul_sum, hone, mul_one]

/-- Hypotheses met with a positive value: one occupied plane wave. -/
example : 0 < kineticEnergyOcc (gVectors skewCell (fun _ => 3)) (fun _ _ => 0)
    (fun _ _ _ k => if k = ![1, 0, 0] then 1 else 0 : Coef 1 1 1 (fun _ => 3)) (fun _ _ _ => 1) := by
  have h := kinetic_nonneg (gVectors skewCell (fun _ => 3)) (fun _ _ => 0)
    (fun _ _ _ k => if k = ![1, 0, 0] then 1 else 0 : Coef 1 1 1 (fun _ => 3)) (fun _ _ _ => 1)
    (fun _ _ _ => zero_le_one)
  refine lt_of_le_of_ne h.1 fun h0 => ?_
  have h1 := h.2.mp h0.symm 0 0 0 ![1, 0, 0] one_ne_zero (by simp)
  have h2 := gVectors_sq_pos skewCell skewCell_det (fun _ => 3) ![1, 0, 0] ⟨0, by simp⟩
  have h3 : Spec.dot (gVectors skewCell (fun _ => 3) ![1, 0, 0])
      (gVectors skewCell (fun _ => 3) ![1, 0, 0]) = 0 := by
    unfold Spec.dot
    refine Finset.sum_eq_zero fun d _ => ?_
    have := h1 d
    rw [add_zero] at this
    rw [this, zero_mul]
  linarith

/-! ### C26: total energy -/

/-- C26: the total energy is the sum of the four parts returned with `split=True`, and both calls
fail on the same inputs. -/
theorem totalEnergy_sum (lib : XcLib) {ns nk nb na : ℕ} {n : Fin 3 → ℕ}
    (c : Coef ns nk nb n) (pos : Fin na → Fin 3 → ℝ) (charge : Fin na → ℝ) (g : Idx n → Fin 3 → ℝ)
    (kpts : Fin nk → Fin 3 → ℝ) (vol : ℝ) (occ : Option (Occ ns nk nb)) (ks : Bool) (xt : String) :
    (∀ p, totalEnergySplit lib c pos charge g kpts vol occ ks xt = .ok p →
      totalEnergy lib c pos charge g kpts vol occ ks xt = .ok (p.kin + p.ext + p.har + p.xc)) ∧
    (∀ e, totalEnergySplit lib c pos charge g kpts vol occ ks xt = .error e →
      totalEnergy lib c pos charge g kpts vol occ ks xt = .error e) := by
  unfold totalEnergy
  constructor
  · intro p hp; rw [hp]
  · intro e he; rw [he]

/-- C26: the parts are the separate energy functions evaluated on `density_grid` and
`density_grid_reciprocal` of the same coefficients, with ones when no occupation is given. -/
theorem totalEnergy_parts (lib : XcLib) {ns nk nb na : ℕ} {n : Fin 3 → ℕ}
    (c : Coef ns nk nb n) (pos : Fin na → Fin 3 → ℝ) (charge : Fin na → ℝ) (g : Idx n → Fin 3 → ℝ)
    (kpts : Fin nk → Fin 3 → ℝ) (vol : ℝ) (occ : Option (Occ ns nk nb)) (ks : Bool) (xt : String)
    (p : EnergyParts)
    (hp : totalEnergySplit lib c pos charge g kpts vol occ ks xt = .ok p) :
    let o : Occ ns nk nb := occ.getD fun _ _ _ => 1
    p.kin = kineticEnergyOcc g kpts c o ∧
    externalEnergy (densityGridReciprocal c vol o) pos charge g vol = .ok p.ext ∧
    hartreeEnergy (densityGridReciprocal c vol o) g vol ks = .ok p.har ∧
    xcEnergy lib xt ks (densityGrid c vol o) g vol = .ok p.xc := by
  intro o
  have ho : occOrOnes occ = o := by cases occ <;> rfl
  unfold totalEnergySplit at hp
  simp only [ho, waveToDensity_eq, waveToDensityReciprocal_eq] at hp
  split at hp
  · simp at hp
  · rename_i ext h1
    split at hp
    · simp at hp
    · rename_i har h2
      split at hp
      · simp at hp
      · rename_i exc h3
        simp only [Except.ok.injEq] at hp
        subst hp
        exact ⟨rfl, h1, h2, h3⟩

/-- C26: omitting the occupation is the same as passing ones. -/
theorem totalEnergy_ones (lib : XcLib) {ns nk nb na : ℕ} {n : Fin 3 → ℕ}
    (c : Coef ns nk nb n) (pos : Fin na → Fin 3 → ℝ) (charge : Fin na → ℝ) (g : Idx n → Fin 3 → ℝ)
    (kpts : Fin nk → Fin 3 → ℝ) (vol : ℝ) (ks : Bool) (xt : String) :
    totalEnergy lib c pos charge g kpts vol none ks xt
      = totalEnergy lib c pos charge g kpts vol (some fun _ _ _ => 1) ks xt := rfl

/-- C26: it only fails when the exchange-correlation part has an imaginary component, which cannot
happen without `kohn_sham` nor for LDA functionals. -/
theorem totalEnergy_succeeds (lib : XcLib) {ns nk nb na : ℕ} {n : Fin 3 → ℕ}
    (c : Coef ns nk nb n) (pos : Fin na → Fin 3 → ℝ) (charge : Fin na → ℝ) (g : Idx n → Fin 3 → ℝ)
    (kpts : Fin nk → Fin 3 → ℝ) (vol : ℝ) (occ : Option (Occ ns nk nb)) (ks : Bool) (xt : String)
    (h : ks = false ∨ pyIn "gga" xt = false) :
    ∃ E, totalEnergy lib c pos charge g kpts vol occ ks xt = .ok E := by
  have hreal : ∀ (dens : Fin ns → Idx n → ℝ) s j, (xcDensity lib xt ks g dens s j).im = 0 := by
    intro dens s j
    unfold xcDensity
    cases ks with
    | false => simp
    | true =>
      rcases h with h | h
      · cases h
      · simp only [if_true]
        unfold vxcDensity
        rw [h]
        simp only [Bool.false_eq_true, if_false]
        split <;> exact Complex.ofReal_im _
  have hxc : ∀ dens : Fin ns → Idx n → ℝ, ∃ e, xcEnergy lib xt ks dens g vol = .ok e := by
    intro dens
    have him : (∑ s, ∑ j, xcDensity lib xt ks g dens s j * (dens s j : ℂ)).im = 0 := by
      rw [Complex.im_sum]
      refine Finset.sum_eq_zero fun s _ => ?_
      rw [Complex.im_sum]
      refine Finset.sum_eq_zero fun j _ => ?_
      rw [Complex.im_mul_ofReal, hreal, zero_mul]
    unfold xcEnergy
    dsimp only
    rw [if_pos (by rw [him]; norm_num)]
    exact ⟨_, rfl⟩
  unfold totalEnergy totalEnergySplit
  dsimp only
  rw [externalEnergy_eq, hartreeEnergy_eq]
  obtain ⟨e, he⟩ := hxc (waveToDensity (waveGrid c vol) (occOrOnes occ))
  simp only [he]
  exact ⟨_, rfl⟩

/-- C26: moving atoms by lattice vectors does not change the total energy. -/
theorem totalEnergy_lattice (lib : XcLib) {ns nk nb na : ℕ} (A : Matrix (Fin 3) (Fin 3) ℝ)
    (hA : A.det ≠ 0) {n : Fin 3 → ℕ} (c : Coef ns nk nb n) (pos pos' : Fin na → Fin 3 → ℝ)
    (charge : Fin na → ℝ) (kpts : Fin nk → Fin 3 → ℝ) (vol : ℝ) (occ : Option (Occ ns nk nb))
    (ks : Bool) (xt : String) (h : ∀ a, Spec.IsLatticeVector A fun d => pos' a d - pos a d) :
    totalEnergy lib c pos' charge (gVectors A n) kpts vol occ ks xt
      = totalEnergy lib c pos charge (gVectors A n) kpts vol occ ks xt := by
  unfold totalEnergy totalEnergySplit
  dsimp only
  rw [external_lattice A hA _ pos pos' charge vol h]

/-- Hypotheses met: moving an atom along the first cell vector. -/
example : Spec.IsLatticeVector skewCell fun d => (![1, 0, 0] : Fin 3 → ℝ) d - 0 :=
  ⟨![1, 0, 0], fun d => by fin_cases d <;> simp [skewCell, Fin.sum_univ_three]⟩

/-! ### C16: subspace invariance -/

/-- C16: mixing bands of equal occupation by a unitary matrix at each spin and k point (in
particular multiplying bands by phases) leaves the kinetic energy unchanged. -/
theorem kinetic_mix {ns nk nb : ℕ} {n : Fin 3 → ℕ} (g : Idx n → Fin 3 → ℝ)
    (kpts : Fin nk → Fin 3 → ℝ) (c c' : Coef ns nk nb n) (occ : Occ ns nk nb)
    (U : Fin ns → Fin nk → Matrix (Fin nb) (Fin nb) ℂ)
    (hU : ∀ s k, U s k ∈ Matrix.unitaryGroup (Fin nb) ℂ)
    (hocc : ∀ s k i j, U s k i j ≠ 0 → occ s k i = occ s k j)
    (hc : ∀ s k i x, c' s k i x = ∑ j, U s k i j * c s k j x) :
    kineticEnergyOcc g kpts c' occ = kineticEnergyOcc g kpts c occ := by
  unfold kineticEnergyOcc
  congr 1
  refine Finset.sum_congr rfl fun s _ => Finset.sum_congr rfl fun k _ => ?_
  simp_rw [Finset.sum_mul]
  rw [Finset.sum_comm]
  conv_rhs => rw [Finset.sum_comm]
  refine Finset.sum_congr rfl fun x _ => ?_
  have h1 : ∀ C : Coef ns nk nb n,
      ∑ b, (∑ d, (g x d + kpts k d) ^ 2) * absoluteSquare (C s k b x) * occ s k b
        = (∑ d, (g x d + kpts k d) ^ 2) * ∑ b, absoluteSquare (C s k b x) * occ s k b := by
    intro C
    rw [Finset.mul_sum]
    exact Finset.sum_congr rfl fun b _ => by ring
  simp_rw [← Finset.sum_mul]
  rw [h1, h1, ← mix_weighted (U s k) (hU s k) (occ s k) (hocc s k) (fun j => c s k j x)]
  congr 1
  exact Finset.sum_congr rfl fun i _ => by rw [hc]

/-- C16: the same mixing leaves the total energy and each of its parts unchanged. -/
theorem totalEnergy_mix (lib : XcLib) {ns nk nb na : ℕ} {n : Fin 3 → ℕ}
    (c c' : Coef ns nk nb n) (pos : Fin na → Fin 3 → ℝ) (charge : Fin na → ℝ)
    (g : Idx n → Fin 3 → ℝ) (kpts : Fin nk → Fin 3 → ℝ) (vol : ℝ) (occ : Occ ns nk nb) (ks : Bool)
    (xt : String) (U : Fin ns → Fin nk → Matrix (Fin nb) (Fin nb) ℂ)
    (hU : ∀ s k, U s k ∈ Matrix.unitaryGroup (Fin nb) ℂ)
    (hocc : ∀ s k i j, U s k i j ≠ 0 → occ s k i = occ s k j)
    (hc : ∀ s k i x, c' s k i x = ∑ j, U s k i j * c s k j x) :
    totalEnergySplit lib c' pos charge g kpts vol (some occ) ks xt
      = totalEnergySplit lib c pos charge g kpts vol (some occ) ks xt ∧
    totalEnergy lib c' pos charge g kpts vol (some occ) ks xt
      = totalEnergy lib c pos charge g kpts vol (some occ) ks xt := by
  have hd := densityGrid_mix c c' vol occ U hU hocc hc
  have hdG : densityGridReciprocal c' vol occ = densityGridReciprocal c vol occ := by
    unfold densityGridReciprocal
    rw [hd]
  have hk := kinetic_mix g kpts c c' occ U hU hocc hc
  have hsplit : totalEnergySplit lib c' pos charge g kpts vol (some occ) ks xt
      = totalEnergySplit lib c pos charge g kpts vol (some occ) ks xt := by
    unfold totalEnergySplit
    simp only [occOrOnes, waveToDensity_eq, waveToDensityReciprocal_eq, hd, hdG, hk]
  exact ⟨hsplit, by unfold totalEnergy; rw [hsplit]⟩

/-- C16 needs equal occupations: exchanging two bands with different occupations changes the kinetic
energy. -/
theorem kinetic_mix_unequal : ∃ (c c' : Coef 1 1 2 (fun _ => 1)) (occ : Occ 1 1 2)
    (g : Idx (fun _ => 1) → Fin 3 → ℝ) (U : Matrix (Fin 2) (Fin 2) ℂ),
    U ∈ Matrix.unitaryGroup (Fin 2) ℂ ∧ (∀ i x, c' 0 0 i x = ∑ j, U i j * c 0 0 j x) ∧
    kineticEnergyOcc g (fun _ _ => 0) c' occ ≠ kineticEnergyOcc g (fun _ _ => 0) c occ := by
  refine ⟨fun _ _ b _ => if b = 0 then 1 else 0, fun _ _ b _ => if b = 0 then 0 else 1,
    fun _ _ b => if b = 0 then 1 else 0, fun _ _ => 1, !![0, 1; 1, 0], ?_, ?_, ?_⟩
  · rw [Matrix.mem_unitaryGroup_iff]
    ext i j
    fin_cases i <;> fin_cases j <;> simp [Matrix.mul_apply, Matrix.star_apply]
  · intro i x
    fin_cases i <;> simp
  · rw [kinetic_formula, kinetic_formula]
    norm_num [Spec.kineticEnergy, Spec.dot]

/-! ### C30: Hartree potential -/

/-- C30: it averages to zero over the cell. -/
theorem hartreePotential_mean_zero {ns : ℕ} {n : Fin 3 → ℕ} (dens : Fin ns → Idx n → ℝ)
    (g : Idx n → Fin 3 → ℝ) (ks : Bool) : ∑ j, hartreeRealSpace dens g ks j = 0 := by
  by_cases hn : ∀ i, 0 < n i
  · have h := fftn_zero (hartreeRealSpace dens g ks) (zeroIdx hn) fun _ => rfl
    rw [← h]
    unfold hartreeRealSpace
    rw [fftn_ifftn', hartreeReciprocal_eq, (isOrigin_iff _).mpr fun _ => rfl]
    simp
  · push Not at hn
    obtain ⟨i, hi⟩ := hn
    refine Finset.sum_eq_zero fun j _ => ?_
    have := (j i).2
    omega

/-- C30: `(1/2)(vol/N) Σ n V_KS` is the Hartree energy. -/
theorem hartreePotential_energy {ns : ℕ} {n : Fin 3 → ℕ} (hn : ∀ i, 0 < n i)
    (dens : Fin ns → Idx n → ℝ) (g : Idx n → Fin 3 → ℝ) (vol : ℝ) :
    ∃ E, hartreeEnergy (fun s => fftn fun j => (dens s j : ℂ)) g vol false = .ok E ∧
      (1 / 2 : ℂ) * Spec.cellInner vol (fun j => ((∑ s, dens s j : ℝ) : ℂ))
        (hartreeRealSpace dens g true) = (E : ℂ) := by
  refine ⟨_, hartreeEnergy_eq _ _ _ _, ?_⟩
  unfold Spec.cellInner
  have hN : (gridCount n : ℂ) ≠ 0 := gridCount_ne (zeroIdx hn)
  have h1 := fftn_parseval (fun j => ((∑ s, dens s j : ℝ) : ℂ)) (hartreeRealSpace dens g true)
  have h2 : ∑ j, conj ((∑ s, dens s j : ℝ) : ℂ) * hartreeRealSpace dens g true j
      = (∑ k, conj (fftn (fun j => ((∑ s, dens s j : ℝ) : ℂ)) k) *
          fftn (hartreeRealSpace dens g true) k) / (gridCount n : ℂ) := by
    rw [h1]; field_simp
  rw [h2]
  have h3 : ∀ k, fftn (fun j => ((∑ s, dens s j : ℝ) : ℂ)) k
      = ∑ s, fftn (fun j => (dens s j : ℂ)) k := by
    intro k
    rw [← fftn_sum]
    congr 1
    funext j
    push_cast
    rfl
  have h4 : ∑ k, conj (fftn (fun j => ((∑ s, dens s j : ℝ) : ℂ)) k) *
      fftn (hartreeRealSpace dens g true) k
      = ((4 * Real.pi * ∑ k ∈ Finset.univ.filter (fun k : Idx n => ∃ i, (k i : ℕ) ≠ 0),
        ‖∑ s, fftn (fun j => (dens s j : ℂ)) k‖ ^ 2 / Spec.dot (g k) (g k) : ℝ) : ℂ) := by
    unfold hartreeRealSpace
    rw [fftn_ifftn', Finset.mul_sum, Finset.sum_filter, Complex.ofReal_sum]
    refine Finset.sum_congr rfl fun k _ => ?_
    rw [h3, hartreeReciprocal_eq]
    by_cases hk : ∃ i, (k i : ℕ) ≠ 0
    · rw [if_pos hk, (isOrigin_false k).mpr hk]
      simp only [Bool.false_eq_true, if_false, if_true]
      rw [mul_left_comm, Complex.conj_mul']
      push_cast
      ring
    · rw [if_neg hk]
      have : isOrigin k = true := by
        rw [isOrigin_iff]; push Not at hk; exact hk
      rw [this]
      simp
  rw [h4]
  simp only [Bool.false_eq_true, if_false]
  change (1 / 2 : ℂ) * (((vol / (gridCount n : ℝ) : ℝ) : ℂ) * _) = _
  push_cast
  field_simp
  ring

/-- C30: the potential of every real density is real exactly when `|G|` is the same at opposite
grid indices. -/
theorem hartreePotential_real_iff (A : Matrix (Fin 3) (Fin 3) ℝ) (hA : A.det ≠ 0) {n : Fin 3 → ℕ}
    (hn : ∀ i, 0 < n i) (ks : Bool) :
    (∀ (ns : ℕ) (dens : Fin ns → Idx n → ℝ) (j : Idx n),
        (hartreeRealSpace dens (gVectors A n) ks j).im = 0) ↔
    (∀ x x' : Idx n, Spec.IsNeg x x' → Spec.dot (gVectors A n x) (gVectors A n x)
        = Spec.dot (gVectors A n x') (gVectors A n x')) := by
  constructor
  · intro h x x' hx
    -- the density concentrated at one grid point has constant transform
    let dens : Fin 1 → Idx n → ℝ := fun _ j => if j = zeroIdx hn then 1 else 0
    have hF : ∀ k, ∑ s, fftn (fun j => (dens s j : ℂ)) k = 1 := by
      intro k
      rw [Fin.sum_univ_one, fftn_eq, Finset.sum_eq_single (zeroIdx hn)]
      · rw [omega_symm, omega_zero _ _ fun _ => rfl]; simp [dens]
      · intro j _ hj; simp [dens, hj]
      · simp
    set V := hartreeReciprocal (fun s => fftn fun j => (dens s j : ℂ)) (gVectors A n) ks with hV
    have hreal : ∀ j, conj (ifftn V j) = ifftn V j := fun j =>
      Complex.conj_eq_iff_im.mpr (h 1 dens j)
    have hsymm : V (negIdx x) = conj (V x) := by
      have h1 : V = fftn (fun j => (((ifftn V j).re : ℝ) : ℂ)) := by
        have h2 : (fun j => (((ifftn V j).re : ℝ) : ℂ)) = ifftn V := by
          funext j
          exact Complex.conj_eq_iff_re.mp (hreal j)
        rw [h2, fftn_ifftn']
      rw [h1]
      exact fftn_real_neg _ _
    rw [isNeg_unique hx]
    by_cases h0 : ∀ i, (x i : ℕ) = 0
    · have : negIdx x = x := by
        funext i
        apply Fin.ext
        show (n i - (x i : ℕ)) % n i = x i
        rw [h0 i]; simp
      rw [this]
    · push Not at h0
      have h0' : ∃ i, (negIdx x i : ℕ) ≠ 0 := by
        obtain ⟨i, hi⟩ := h0
        refine ⟨i, ?_⟩
        have := (x i).2
        show (n i - (x i : ℕ)) % n i ≠ 0
        rw [Nat.mod_eq_of_lt (by omega)]; omega
      rw [hV, hartreeReciprocal_eq, hartreeReciprocal_eq, hF, hF, (isOrigin_false x).mpr h0,
        (isOrigin_false _).mpr h0'] at hsymm
      simp only [Bool.false_eq_true, if_false, mul_one] at hsymm
      rw [Complex.conj_ofReal, Complex.ofReal_inj] at hsymm
      have hp1 := gVectors_sq_pos A hA n x h0
      have hp2 := gVectors_sq_pos A hA n _ h0'
      have hc : (if ks then (4 : ℝ) else 2) * Real.pi ≠ 0 := by
        have h1 : (if ks then (4 : ℝ) else 2) ≠ 0 := by split <;> norm_num
        exact mul_ne_zero h1 Real.pi_pos.ne'
      rw [div_eq_div_iff hp2.ne' hp1.ne'] at hsymm
      exact mul_left_cancel₀ hc hsymm
  · intro h ns dens j
    rw [← Complex.conj_eq_iff_im]
    refine ifftn_hermitian_real _ (fun k => ?_) j
    have hk : Spec.IsNeg k (negIdx k) := by
      intro i
      have := (k i).2
      show n i ∣ (k i : ℕ) + (n i - (k i : ℕ)) % n i
      by_cases h0 : (k i : ℕ) = 0
      · rw [h0]; simp
      · rw [Nat.mod_eq_of_lt (by omega), Nat.add_sub_cancel' (by omega)]
    rw [hartreeReciprocal_eq, hartreeReciprocal_eq, ← h k _ hk]
    have ho : isOrigin (negIdx k) = isOrigin k := by
      rw [Bool.eq_iff_iff, isOrigin_iff, isOrigin_iff]
      refine forall_congr' fun i => ?_
      have := (k i).2
      show (n i - (k i : ℕ)) % n i = 0 ↔ _
      by_cases h0 : (k i : ℕ) = 0
      · rw [h0]; simp
      · rw [Nat.mod_eq_of_lt (by omega)]; omega
    rw [ho]
    split
    · simp
    · rw [map_mul, Complex.conj_ofReal, map_sum]
      congr 1
      exact Finset.sum_congr rfl fun s _ => fftn_real_neg _ _

private theorem sfreq_neg_odd {m a b : ℕ} (ha : a < m) (hb : b < m) (hodd : m % 2 = 1)
    (h : m ∣ a + b) : sfreq m b = -sfreq m a := by
  rw [sfreq_eq ha, sfreq_eq hb]
  obtain ⟨q, hq⟩ := h
  have : q < 2 := by
    by_contra hcon
    have : m * 2 ≤ m * q := Nat.mul_le_mul_left _ (by omega)
    omega
  interval_cases q
  · split_ifs <;> omega
  · split_ifs <;> omega

/-- C30: on grids with three odd sizes the Hartree potential of a real density is real. -/
theorem hartreePotential_real_partial (A : Matrix (Fin 3) (Fin 3) ℝ) (hA : A.det ≠ 0)
    {n : Fin 3 → ℕ} (hn : ∀ i, n i % 2 = 1) (ks : Bool) {ns : ℕ} (dens : Fin ns → Idx n → ℝ) (j : Idx n) :
    (hartreeRealSpace dens (gVectors A n) ks j).im = 0 := by
  have hpos : ∀ i, 0 < n i := fun i => by have := hn i; omega
  refine (hartreePotential_real_iff A hA hpos ks).mpr (fun x x' hx => ?_) ns dens j
  have : ∀ d, gVectors A n x' d = -gVectors A n x d := by
    intro d
    rw [gVectors_apply, gVectors_apply, ← Finset.sum_neg_distrib]
    refine Finset.sum_congr rfl fun i _ => ?_
    rw [sfreq_neg_odd (x i).2 (x' i).2 (hn i) (hx i)]
    push_cast
    ring
  unfold Spec.dot
  refine Finset.sum_congr rfl fun d _ => ?_
  rw [this d]; ring

private theorem sfreq_neg_sq {m a b : ℕ} (ha : a < m) (hb : b < m) (h : m ∣ a + b) :
    sfreq m b = -sfreq m a ∨ sfreq m b = sfreq m a := by
  rw [sfreq_eq ha, sfreq_eq hb]
  obtain ⟨q, hq⟩ := h
  have : q < 2 := by
    by_contra hcon
    have : m * 2 ≤ m * q := Nat.mul_le_mul_left _ (by omega)
    omega
  interval_cases q
  · split_ifs <;> omega
  · split_ifs <;> omega

/-- C30: for a cell with mutually orthogonal reciprocal vectors it is real on every grid. -/
theorem hartreePotential_real_orthogonal (A : Matrix (Fin 3) (Fin 3) ℝ) (hA : A.det ≠ 0)
    (horth : ∀ i l, i ≠ l → Spec.dot (reciprocalVectors A i) (reciprocalVectors A l) = 0)
    {n : Fin 3 → ℕ} (hn : ∀ i, 0 < n i) (ks : Bool) {ns : ℕ} (dens : Fin ns → Idx n → ℝ) (j : Idx n) :
    (hartreeRealSpace dens (gVectors A n) ks j).im = 0 := by
  refine (hartreePotential_real_iff A hA hn ks).mpr (fun x x' hx => ?_) ns dens j
  have key : ∀ y : Idx n, Spec.dot (gVectors A n y) (gVectors A n y)
      = ∑ i, (sfreq (n i) (y i) : ℝ) ^ 2 * Spec.dot (reciprocalVectors A i) (reciprocalVectors A i) := by
    intro y
    have h1 : Spec.dot (gVectors A n y) (gVectors A n y)
        = ∑ i, ∑ l, (sfreq (n i) (y i) : ℝ) * (sfreq (n l) (y l) : ℝ) *
          Spec.dot (reciprocalVectors A i) (reciprocalVectors A l) := by
      unfold Spec.dot
      simp_rw [gVectors_apply, Finset.sum_mul_sum, Finset.mul_sum]
      rw [Finset.sum_comm]
      refine Finset.sum_congr rfl fun i _ => ?_
      rw [Finset.sum_comm]
      refine Finset.sum_congr rfl fun l _ => Finset.sum_congr rfl fun d _ => by ring
    rw [h1]
    refine Finset.sum_congr rfl fun i _ => ?_
    rw [Finset.sum_eq_single i]
    · ring
    · intro l _ hl
      rw [horth i l (Ne.symm hl), mul_zero]
    · simp
  rw [key, key]
  refine Finset.sum_congr rfl fun i _ => ?_
  rcases sfreq_neg_sq (x i).2 (x' i).2 (hx i) with h | h
  · rw [h]; push_cast; ring
  · rw [h]

/-- The cell used in the counterexample below: inverse of a unit shear. -/
private def shearB : Matrix (Fin 3) (Fin 3) ℝ := !![1, 1, 0; 0, 1, 0; 0, 0, 1]

/-- C30 fails on grids with an even size in a skew cell: some real density on a `2 × 3 × 1` grid has
a Hartree potential that is not real. -/
theorem hartreePotential_not_real : ∃ (A : Matrix (Fin 3) (Fin 3) ℝ) (n : Fin 3 → ℕ) (ns : ℕ)
    (dens : Fin ns → Idx n → ℝ) (j : Idx n), A.det ≠ 0 ∧ (∀ i, 0 < n i) ∧
      (hartreeRealSpace dens (gVectors A n) false j).im ≠ 0 := by
  have hB : shearB.det = 1 := by simp [shearB, Matrix.det_fin_three]
  have hBu : IsUnit shearB.det := by rw [hB]; exact isUnit_one
  have hA : (shearB⁻¹).det ≠ 0 := by
    rw [Matrix.det_nonsing_inv, hB]; simp
  have hn : ∀ i, 0 < (![2, 3, 1] : Fin 3 → ℕ) i := by decide
  by_contra hcon
  push Not at hcon
  have h := (hartreePotential_real_iff shearB⁻¹ hA hn false).mp fun ns dens j =>
    hcon _ _ ns dens j hA hn
  have hr : reciprocalVectors shearB⁻¹ = (2 * Real.pi) • shearBᵀ := by
    unfold reciprocalVectors
    rw [Matrix.nonsing_inv_nonsing_inv _ hBu]
  have hneg : Spec.IsNeg (n := ![2, 3, 1]) (fun i => ⟨![1, 1, 0] i, by fin_cases i <;> decide⟩)
      (fun i => ⟨![1, 2, 0] i, by fin_cases i <;> decide⟩) := by
    intro i; fin_cases i <;> decide
  have h2 := h _ _ hneg
  have hpi := Real.pi_pos
  have hf : (sfreq 2 1 : ℝ) = -1 ∧ (sfreq 3 1 : ℝ) = 1 ∧ (sfreq 3 2 : ℝ) = -1 ∧ (sfreq 1 0 : ℝ) = 0 := by
    refine ⟨?_, ?_, ?_, ?_⟩ <;> norm_num [sfreq]
  unfold Spec.dot at h2
  simp_rw [gVectors_apply, hr] at h2
  simp [Fin.sum_univ_three, shearB, hf.1, hf.2.1, hf.2.2.1, hf.2.2.2] at h2

/-- Hypotheses of the positive cases are met: odd sizes, and the cubic cell. -/
example : (∀ i, (![3, 5, 1] : Fin 3 → ℕ) i % 2 = 1) ∧
    (∀ i l : Fin 3, i ≠ l → Spec.dot (reciprocalVectors 1 i) (reciprocalVectors 1 l) = 0) := by
  refine ⟨by decide, fun i l hil => ?_⟩
  unfold Spec.dot reciprocalVectors
  simp only [inv_one, Matrix.transpose_one, Matrix.smul_apply, Matrix.one_apply, smul_eq_mul]
  refine Finset.sum_eq_zero fun d _ => ?_
  by_cases h : i = d
  · subst h; simp [Ne.symm hil]
  · simp [h]

end Jrystal
