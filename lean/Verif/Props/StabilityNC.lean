import Verif.Props.Stability
import Verif.Props.EwaldRun
import Verif.Props.Thermo

/- C107 and C108 for calculations with norm-conserving pseudopotentials. -/
namespace Jrystal
open scoped BigOperators ComplexConjugate
open RunSetup

/-! ### The parts of the energy -/

/-- The local potential is a sum of waves, one for each atom; the amplitudes do not depend on the arrangement. -/
theorem local_waves (jn : SphBessel) (cs : Spline) (P : NcLists) {m : ℕ} (hm : 0 < m) {n : Fin 3 → ℕ}
    (hn : ∀ i, 0 < n i) (g : Idx n → Fin 3 → ℝ) (vol : ℝ) :
    ∃ w : Idx n → Fin m → ℂ, ∀ (p : Fin m → Fin 3 → ℝ) (v : Idx n → ℂ),
      localReciprocal jn cs (ncLocalAtom P p) g vol "sbt" = .ok v →
      ∀ k, v k = ∑ a, w k a * Complex.exp (-(Complex.I * ((∑ d, g k d * p a d : ℝ) : ℂ))) := by
  have : Nonempty (Idx n) := ⟨fun i => ⟨0, hn i⟩⟩
  obtain ⟨k₀, hk₀⟩ := Finite.exists_max fun k => Real.sqrt (Spec.dot (g k) (g k))
  have hk : IsGreatest (Set.range fun k => Real.sqrt (Spec.dot (g k) (g k))) _ :=
    ⟨⟨k₀, rfl⟩, fun _ ⟨k, e⟩ => e ▸ hk₀ k⟩
  classical
  refine ⟨fun k a => if ∃ i, (k i : ℕ) ≠ 0 then ((∏ i, n i : ℕ) : ℂ) / (vol : ℂ) *
    ((4 * Real.pi * cs (2 * (ncLocalAtom P (fun _ : Fin m => 0) a).nr)
            (fun j => 0.0001 + j * ((Real.sqrt (Spec.dot (g k₀) (g k₀)) - 0.0001) /
              (((2 * (ncLocalAtom P (fun _ : Fin m => 0) a).nr : ℕ) : ℝ) - 1)))
            (fun j => ∑ i ∈ Finset.range ((ncLocalAtom P (fun _ : Fin m => 0) a).nr - 1),
              ((ncLocalAtom P (fun _ : Fin m => 0) a).v i
                  + (ncLocalAtom P (fun _ : Fin m => 0) a).z / (ncLocalAtom P (fun _ : Fin m => 0) a).r i) *
                (ncLocalAtom P (fun _ : Fin m => 0) a).r i ^ 2 *
                jn 0 ((0.0001 + j * ((Real.sqrt (Spec.dot (g k₀) (g k₀)) - 0.0001) /
                  (((2 * (ncLocalAtom P (fun _ : Fin m => 0) a).nr : ℕ) : ℝ) - 1))) *
                    (ncLocalAtom P (fun _ : Fin m => 0) a).r i) *
                ((ncLocalAtom P (fun _ : Fin m => 0) a).r (i + 1) - (ncLocalAtom P (fun _ : Fin m => 0) a).r i))
            (Real.sqrt (Spec.dot (g k) (g k)))
          - 4 * Real.pi * ((ncLocalAtom P (fun _ : Fin m => 0) a).z / Spec.dot (g k) (g k)) : ℝ) : ℂ)
    else 0, fun p v hv k => ?_⟩
  · obtain ⟨v', h1, h2, h3⟩ := local_formula jn cs hm (ncLocalAtom P p) g vol _ hk
    obtain rfl : v' = v := Except.ok.inj (h1.symm.trans hv)
    by_cases h : ∃ i, (k i : ℕ) ≠ 0
    · rw [h3 k h, Finset.mul_sum]
      refine Finset.sum_congr rfl fun a _ => ?_
      beta_reduce
      rw [if_pos h, ← mul_assoc]
      rfl
    · rw [h2 k (by push Not at h; exact h)]
      exact (Finset.sum_eq_zero fun a _ => by beta_reduce; rw [if_neg h, zero_mul]).symm

private theorem local_phase (jn : SphBessel) (cs : Spline) (P : NcLists) {m : ℕ} (hm : 0 < m) {n : Fin 3 → ℕ}
    (hn : ∀ i, 0 < n i) (g : Idx n → Fin 3 → ℝ) (vol : ℝ) :
    ∃ K, 0 ≤ K ∧ ∀ (p p' : Fin m → Fin 3 → ℝ) (v v' : Idx n → ℂ),
      localReciprocal jn cs (ncLocalAtom P p) g vol "sbt" = .ok v →
      localReciprocal jn cs (ncLocalAtom P p') g vol "sbt" = .ok v' →
      ∑ k, ‖v k - v' k‖ ≤ K * ∑ a, Spec.length (fun d => p a d - p' a d) := by
  obtain ⟨w, hw⟩ := local_waves jn cs P hm hn g vol
  refine ⟨∑ k, ∑ a, ‖w k a‖ * Spec.length (g k), Finset.sum_nonneg fun k _ => Finset.sum_nonneg fun a _ =>
    mul_nonneg (norm_nonneg _) (Real.sqrt_nonneg _), fun p p' v v' hv hv' => ?_⟩
  rw [Finset.sum_mul]
  refine Finset.sum_le_sum fun k _ => ?_
  rw [hw p v hv, hw p' v' hv', ← Finset.sum_sub_distrib, Finset.sum_mul]
  refine (norm_sum_le _ _).trans (Finset.sum_le_sum fun a _ => ?_)
  rw [← mul_sub, norm_mul, mul_assoc]
  refine mul_le_mul_of_nonneg_left ((phase_sub _ _).trans ?_) (norm_nonneg _)
  have e : (∑ d, g k d * p a d) - ∑ d, g k d * p' a d = ∑ d, g k d * (p a d - p' a d) := by
    rw [← Finset.sum_sub_distrib]
    exact Finset.sum_congr rfl fun d _ => by ring
  rw [e]
  refine (length_dot _ _).trans (mul_le_mul_of_nonneg_left ?_ (Real.sqrt_nonneg _))
  exact Finset.single_le_sum (f := fun a => Spec.length (fun d => p a d - p' a d))
    (fun a _ => Real.sqrt_nonneg _) (Finset.mem_univ a)

private theorem local_displaced {ns nk nb : ℕ} {n : Fin 3 → ℕ} (hn : ∀ i, 0 < n i) {c : Coef ns nk nb n}
    {vol : ℝ} (hv : 0 < vol) {occ : Occ ns nk nb} {mask : Idx n → Bool} {ne spin : ℤ} {r : Bool} {share : ℝ}
    (h : Spec.PhysicalState mask ne spin r share c occ) (v v' : Idx n → ℂ) (e e' : ℝ)
    (he : energyLocal (densityGridReciprocal c vol occ) v vol = .ok e)
    (he' : energyLocal (densityGridReciprocal c vol occ) v' vol = .ok e') :
    |e - e'| ≤ ne * ∑ k, ‖v k - v' k‖ := by
  have hN : (1 : ℝ) ≤ gridCount n := by
    unfold gridCount
    exact_mod_cast Finset.prod_pos fun i _ => hn i
  have hN0 : (0 : ℝ) < gridCount n := by linarith
  unfold energyLocal at he he'
  rw [reciprocalBraket_one] at he he'
  rw [← Except.ok.inj he, ← Except.ok.inj he', ← mul_sub, ← Complex.sub_re, ← Finset.sum_sub_distrib, abs_mul,
    abs_of_nonneg (by positivity)]
  have h1 : |(∑ k, (conj (v k) * ∑ s, densityGridReciprocal c vol occ s k
      - conj (v' k) * ∑ s, densityGridReciprocal c vol occ s k)).re|
      ≤ ∑ k, ‖v k - v' k‖ * ((gridCount n : ℝ) / vol * ne) := by
    refine (Complex.abs_re_le_norm _).trans ((norm_sum_le _ _).trans (Finset.sum_le_sum fun k _ => ?_))
    rw [← sub_mul, ← map_sub, norm_mul, RCLike.norm_conj]
    exact mul_le_mul_of_nonneg_left (density_fourier_bound hn hv h k) (norm_nonneg _)
  refine (mul_le_mul_of_nonneg_left h1 (by positivity)).trans ?_
  rw [← Finset.sum_mul]
  have hne : (0 : ℝ) ≤ ne := by
    rw [← h.electrons]
    exact Finset.sum_nonneg fun s _ => Finset.sum_nonneg fun k _ => Finset.sum_nonneg fun b _ => h.nonneg s k b
  have hS : 0 ≤ ∑ k, ‖v k - v' k‖ := Finset.sum_nonneg fun k _ => norm_nonneg _
  generalize ∑ k, ‖v k - v' k‖ = S at hS ⊢
  have e1 : vol / (gridCount n : ℝ) ^ 2 * (S * ((gridCount n : ℝ) / vol * ne)) = ne * S / gridCount n := by
    field_simp
  rw [e1]
  exact div_le_self (mul_nonneg hne hS) hN

private theorem sq_sub (f f' : ℂ) (A B : ℝ) (h : ‖f‖ ≤ A) (h' : ‖f'‖ ≤ A) (hd : ‖f - f'‖ ≤ B) :
    |(conj f * f).re - (conj f' * f').re| ≤ 2 * A * B := by
  have e : ∀ z : ℂ, (conj z * z).re = ‖z‖ ^ 2 := by
    intro z
    rw [mul_comm, Complex.mul_conj, Complex.ofReal_re, Complex.normSq_eq_norm_sq]
  rw [e, e, sq_sub_sq, abs_mul, abs_of_nonneg (by positivity)]
  have h1 : |‖f‖ - ‖f'‖| ≤ B := (abs_norm_sub_norm_le f f').trans hd
  exact mul_le_mul (by linarith) h1 (abs_nonneg _) (by linarith [norm_nonneg f])

/-- The projectors are waves; the amplitudes do not depend on the arrangement. -/
theorem projector_waves (eigh : Eigh) (sph : SphHarm) {m nk : ℕ} {n : Fin 3 → ℕ}
    (sp : Fin m → NlSpecies nk n) (g : Idx n → Fin 3 → ℝ) (kpts : Fin nk → Fin 3 → ℝ) :
    ∃ w : Fin nk → (Σ a, Fin (sp a).nbeta) → Fin (2 * nlLMax sp + 1) → Idx n → ℂ,
      ∀ p k β φ x, nlPsiAll eigh sph sp p g kpts k β φ x
        = w k β φ x * Complex.exp (-(Complex.I * ((∑ d, (kpts k d + g x d) * p β.1 d : ℝ) : ℂ))) := by
  refine ⟨fun k β φ x => (∑ b2, ((eigh.vecs (symmetrize (sp β.1).dmat) β.2 b2 : ℝ) : ℂ) *
    csqrt (eigh.vals (symmetrize (sp β.1).dmat) b2) *
    (sphericalRow sph ((sp β.1).ang b2) φ (fun d => kpts k d + g x d) : ℂ) * ((sp β.1).beta k b2 x : ℂ)) *
    Complex.I ^ (sp β.1).ang β.2 * 4 * (Real.pi : ℂ), fun p k β φ x => ?_⟩
  unfold nlPsiAll nlPsi
  ring

private theorem nonlocal_displaced (eigh : Eigh) (sph : SphHarm) {m nk : ℕ} {n : Fin 3 → ℕ}
    (sp : Fin m → NlSpecies nk n) (g : Idx n → Fin 3 → ℝ) (kpts : Fin nk → Fin 3 → ℝ) (vol : ℝ) (hv : 0 < vol) :
    ∃ K, 0 ≤ K ∧ ∀ {ns nb : ℕ} {c : Coef ns nk nb n} {occ : Occ ns nk nb} {mask : Idx n → Bool} {ne spin : ℤ} {r : Bool}
      {share : ℝ}, Spec.PhysicalState mask ne spin r share c occ → ∀ (p p' : Fin m → Fin 3 → ℝ) (e e' : ℝ),
      energyNonlocal c (nlPsiAll eigh sph sp p g kpts) vol (some occ) = .ok e →
      energyNonlocal c (nlPsiAll eigh sph sp p' g kpts) vol (some occ) = .ok e' →
      |e - e'| ≤ ne * (K * ∑ a, Spec.length (fun d => p a d - p' a d)) := by
  obtain ⟨w, hw⟩ := projector_waves eigh sph sp g kpts
  have hnorm : ∀ p k β φ x, ‖nlPsiAll eigh sph sp p g kpts k β φ x‖ = ‖w k β φ x‖ := by
    intro p k β φ x
    rw [hw, norm_mul]
    generalize ∑ d, (kpts k d + g x d) * p β.1 d = y
    rw [show -(Complex.I * (y : ℂ)) = ((-y : ℝ) : ℂ) * Complex.I by push_cast; ring, Complex.norm_exp_ofReal_mul_I,
      mul_one]
  set K : Fin nk → ℝ := fun k => (∑ β, ∑ φ, 2 * (∑ x, ‖w k β φ x‖) *
    (∑ x, ‖w k β φ x‖ * Spec.length (fun d => kpts k d + g x d))) / vol with hK
  have hK0 : ∀ k, 0 ≤ K k := fun k => div_nonneg (Finset.sum_nonneg fun β _ => Finset.sum_nonneg fun φ _ =>
    mul_nonneg (mul_nonneg zero_le_two (Finset.sum_nonneg fun x _ => norm_nonneg _))
      (Finset.sum_nonneg fun x _ => mul_nonneg (norm_nonneg _) (Real.sqrt_nonneg _))) hv.le
  refine ⟨∑ k, K k, Finset.sum_nonneg fun k _ => hK0 k, ?_⟩
  intro ns nb c occ mask ne spin r share h p p' e e' he he'
  generalize hD : ∑ a, Spec.length (fun d => p a d - p' a d) = D
  have hD0 : 0 ≤ D := hD ▸ Finset.sum_nonneg fun a _ => Real.sqrt_nonneg _
  have hc : ∀ s k b x, ‖c s k b x‖ ≤ 1 := by
    intro s k b x
    have h1 := h.orthonormal s k b b
    rw [if_pos rfl] at h1
    have h2 : ∑ x, ‖c s k b x‖ ^ 2 = 1 := by
      have h3 := congrArg Complex.re h1
      rw [Complex.re_sum, Complex.one_re] at h3
      rw [← h3]
      refine Finset.sum_congr rfl fun y _ => ?_
      rw [mul_comm, Complex.mul_conj, Complex.ofReal_re, Complex.normSq_eq_norm_sq]
    have h4 := Finset.single_le_sum (f := fun x => ‖c s k b x‖ ^ 2) (fun x _ => sq_nonneg _) (Finset.mem_univ x)
    rw [h2] at h4
    exact (sq_le_one_iff₀ (norm_nonneg _)).mp h4
  have hA : ∀ q s k b β φ, ‖∑ x, c s k b x * nlPsiAll eigh sph sp q g kpts k β φ x‖ ≤ ∑ x, ‖w k β φ x‖ := by
    intro q s k b β φ
    refine (norm_sum_le _ _).trans (Finset.sum_le_sum fun x _ => ?_)
    rw [norm_mul, hnorm]
    exact mul_le_of_le_one_left (norm_nonneg _) (hc s k b x)
  have hB : ∀ s k b β φ, ‖∑ x, c s k b x * nlPsiAll eigh sph sp p g kpts k β φ x
      - ∑ x, c s k b x * nlPsiAll eigh sph sp p' g kpts k β φ x‖
      ≤ (∑ x, ‖w k β φ x‖ * Spec.length (fun d => kpts k d + g x d)) * D := by
    intro s k b β φ
    rw [← Finset.sum_sub_distrib, Finset.sum_mul]
    refine (norm_sum_le _ _).trans (Finset.sum_le_sum fun x _ => ?_)
    rw [← mul_sub, norm_mul]
    refine (mul_le_of_le_one_left (norm_nonneg _) (hc s k b x)).trans ?_
    rw [hw, hw, ← mul_sub, norm_mul, mul_assoc]
    refine mul_le_mul_of_nonneg_left ((phase_sub _ _).trans ?_) (norm_nonneg _)
    have e : (∑ d, (kpts k d + g x d) * p β.1 d) - ∑ d, (kpts k d + g x d) * p' β.1 d
        = ∑ d, (kpts k d + g x d) * (p β.1 d - p' β.1 d) := by
      rw [← Finset.sum_sub_distrib]
      exact Finset.sum_congr rfl fun d _ => by ring
    rw [e]
    refine (length_dot _ _).trans (mul_le_mul_of_nonneg_left ?_ (Real.sqrt_nonneg _))
    rw [← hD]
    exact Finset.single_le_sum (f := fun a => Spec.length (fun d => p a d - p' a d))
      (fun a _ => Real.sqrt_nonneg _) (Finset.mem_univ β.1)
  have hdiag : ∀ s k b, |(hamiltonianNonlocal c (nlPsiAll eigh sph sp p g kpts) vol s k b b).re
      - (hamiltonianNonlocal c (nlPsiAll eigh sph sp p' g kpts) vol s k b b).re| ≤ K k * D := by
    intro s k b
    unfold hamiltonianNonlocal
    simp only [hK]
    rw [Complex.div_ofReal_re, Complex.div_ofReal_re, ← sub_div, abs_div, abs_of_pos hv, div_mul_eq_mul_div]
    refine div_le_div_of_nonneg_right ?_ hv.le
    rw [Complex.re_sum, Complex.re_sum, ← Finset.sum_sub_distrib, Finset.sum_mul]
    refine (Finset.abs_sum_le_sum_abs _ _).trans (Finset.sum_le_sum fun β _ => ?_)
    rw [Complex.re_sum, Complex.re_sum, ← Finset.sum_sub_distrib, Finset.sum_mul]
    refine (Finset.abs_sum_le_sum_abs _ _).trans (Finset.sum_le_sum fun φ _ => ?_)
    rw [mul_assoc]
    exact sq_sub _ _ _ _ (hA p s k b β φ) (hA p' s k b β φ) (hB s k b β φ)
  unfold energyNonlocal at he he'
  simp only [Except.ok.injEq] at he he'
  rw [← he, ← he', ← h.electrons]
  simp only [Complex.re_sum, Complex.re_mul_ofReal]
  rw [← Finset.sum_sub_distrib, Finset.sum_mul]
  refine (Finset.abs_sum_le_sum_abs _ _).trans (Finset.sum_le_sum fun s _ => ?_)
  rw [← Finset.sum_sub_distrib, Finset.sum_mul]
  refine (Finset.abs_sum_le_sum_abs _ _).trans (Finset.sum_le_sum fun k _ => ?_)
  rw [← Finset.sum_sub_distrib, Finset.sum_mul]
  refine (Finset.abs_sum_le_sum_abs _ _).trans (Finset.sum_le_sum fun b _ => ?_)
  rw [← sub_mul, abs_mul, abs_of_nonneg (h.nonneg s k b), mul_comm]
  refine mul_le_mul_of_nonneg_left ((hdiag s k b).trans ?_) (h.nonneg s k b)
  exact mul_le_mul_of_nonneg_right (Finset.single_le_sum (fun k _ => hK0 k) (Finset.mem_univ k)) hD0

/-- C107 for valence electrons: there is one constant such that the energies of every physical state for any two
arrangements of the atoms differ by at most this constant times the number of electrons times the lengths of the
displacements. -/
theorem energyNC_displaced (lib : XcLib) (xt : String) (jn : SphBessel) (cs : Spline) (eigh : Eigh) (sph : SphHarm)
    (P : NcLists) {m nk : ℕ} (hm : 0 < m) {n : Fin 3 → ℕ} (hn : ∀ i, 0 < n i) (sp : Fin m → NlSpecies nk n)
    (g : Idx n → Fin 3 → ℝ) (kpts : Fin nk → Fin 3 → ℝ) (vol : ℝ) (hv : 0 < vol) :
    ∃ K, 0 ≤ K ∧ ∀ {ns nb : ℕ} {c : Coef ns nk nb n} {occ : Occ ns nk nb} {mask : Idx n → Bool} {ne spin : ℤ} {r : Bool}
      {share : ℝ}, Spec.PhysicalState mask ne spin r share c occ → ∀ (p p' : Fin m → Fin 3 → ℝ) (v v' : Idx n → ℂ),
      localReciprocal jn cs (ncLocalAtom P p) g vol "sbt" = .ok v →
      localReciprocal jn cs (ncLocalAtom P p') g vol "sbt" = .ok v' → ∀ e e',
      Spec.EnergyNC lib xt v (nlPsiAll eigh sph sp p g kpts) g kpts vol c occ e →
      Spec.EnergyNC lib xt v' (nlPsiAll eigh sph sp p' g kpts) g kpts vol c occ e' →
      |e - e'| ≤ ne * K * ∑ a, Spec.length (fun d => p a d - p' a d) := by
  obtain ⟨K₁, hK₁, h₁⟩ := local_phase jn cs P hm hn g vol
  obtain ⟨K₂, hK₂, h₂⟩ := nonlocal_displaced eigh sph sp g kpts vol hv
  refine ⟨K₁ + K₂, by linarith, ?_⟩
  intro ns nb c occ mask ne spin r share h p p' v v' hv1 hv2 e e' he he'
  obtain ⟨a1, a2, a3, a4, b1, b2, b3, b4, rfl⟩ := he
  obtain ⟨a1', a2', a3', a4', b1', b2', b3', b4', rfl⟩ := he'
  obtain rfl := Except.ok.inj (b1.symm.trans b1')
  obtain rfl := Except.ok.inj (b4.symm.trans b4')
  have x2 := h₂ h p p' _ _ b3 b3'
  have x1 := local_displaced hn hv h v v' _ _ b2 b2'
  have hne : (0 : ℝ) ≤ ne := by
    rw [← h.electrons]
    exact Finset.sum_nonneg fun s _ => Finset.sum_nonneg fun k _ => Finset.sum_nonneg fun b _ => h.nonneg s k b
  have x3 := mul_le_mul_of_nonneg_left (h₁ p p' v v' hv1 hv2) hne
  have x4 : kineticEnergyOcc g kpts c occ + a1 + a2 + a3 + a4 - (kineticEnergyOcc g kpts c occ + a1 + a2' + a3' + a4)
      = (a2 - a2') + (a3 - a3') := by ring
  rw [x4]
  refine (abs_add_le _ _).trans ?_
  calc _ ≤ ne * (K₁ * ∑ a, Spec.length (fun d => p a d - p' a d))
        + ne * (K₂ * ∑ a, Spec.length (fun d => p a d - p' a d)) := add_le_add (x1.trans x3) x2
    _ = _ := by ring

/-! ### Calculations -/

/-- The reported total energy belongs to a ground state at the requested temperature, without a convergence test or
without smearing. -/
theorem ncRun_total_ground (L : NcLib) (cfg : NcConfig) {m : ℕ} (a : AseAtoms m) (size ksize : Fin 3 → ℤ)
    (P : NcLists) (ne spin : ℤ) (H : Spec.AdmissibleRunNC L cfg a size ksize P ne spin)
    (hC : Spec.Triangular L.qrC) (hR : Spec.Triangular L.qrR) (hxc : Spec.ContinuousXc L.xc cfg.xc)
    (heps : 0 < cfg.eps) (hspin : cfg.occupation = "simplex-projector" → cfg.restricted = true → spin = 0)
    (hg : cfg.occupation = "gamma" → ∀ i, ksize i ≤ 1)
    (ε : ℝ) (hopt : ∀ opt, L.optimizer = .ok opt → Spec.NearOptimizer ε opt)
    (A : Matrix (Fin 3) (Fin 3) ℝ) (hA : A = (angstrom2bohr : ℝ) • a.cell)
    (pos : Fin m → Fin 3 → ℝ) (hpos : ∀ i d, pos i d = angstrom2bohr * a.positions i d)
    (he : 3 ≤ cfg.epoch) (hw : 2 ≤ cfg.window) (hq : cfg.threshold ≤ 0 ∨ cfg.smearing ≤ 0)
    {n kn : Fin 3 → ℕ} (hn : Spec.LeastGrid size n) (hkn : Spec.LeastGrid ksize kn)
    (mask : Idx n → Bool) (hmask : createFreqMask cfg.toRunConfig A n = .ok mask)
    (bs : List (BetaArr (idxList kn).length n)) (hbs : ncBetas L P (gVectors A n) (flatRows (kVectors A kn)) = .ok bs) :
    ∃ rep vloc c occ, runAtomsNC L cfg a = .ok ⟨n, rep⟩ ∧
      localReciprocal L.jn L.csLoc (ncLocalAtom P pos) (gVectors A n) |A.det| "sbt" = .ok vloc ∧
      Spec.GroundWithin (ns := if cfg.restricted then 1 else 2) (nk := (idxList kn).length)
        (nb := (ne.toNat + 1) / 2 + cfg.emptyBands) ε (max cfg.smearing 0) cfg.eps mask ne spin cfg.restricted
        cfg.occupation
        (Spec.EnergyNC L.xc cfg.xc vloc (nlPsiAll L.eigh L.sph (fun a : Fin m => ncSpecies P bs a) pos
          (gVectors A n) (flatRows (kVectors A kn))) (gVectors A n) (flatRows (kVectors A kn)) |A.det|)
        c occ (rep.total - rep.repulsion) := by
  have key : ∃ n' kn' rep, ∃ mask' : Idx n' → Bool, ∃ vloc bs', runAtomsNC L cfg a = .ok ⟨n', rep⟩ ∧
      Spec.LeastGrid size n' ∧
      Spec.LeastGrid ksize kn' ∧ createFreqMask cfg.toRunConfig A n' = .ok mask' ∧
      localReciprocal L.jn L.csLoc (ncLocalAtom P pos) (gVectors A n') |A.det| "sbt" = .ok vloc ∧
      ncBetas L P (gVectors A n') (flatRows (kVectors A kn')) = .ok bs' ∧
      ∃ ns nb, nb = (ne.toNat + 1) / 2 + cfg.emptyBands ∧ ∃ c occ,
        Spec.GroundWithin (ns := ns) (nk := (idxList kn').length) (nb := nb) ε (max cfg.smearing 0) cfg.eps mask' ne spin
          cfg.restricted cfg.occupation
          (Spec.EnergyNC L.xc cfg.xc vloc (nlPsiAll L.eigh L.sph (fun a : Fin m => ncSpecies P bs' a) pos
            (gVectors A n') (flatRows (kVectors A kn'))) (gVectors A n') (flatRows (kVectors A kn')) |A.det|)
          c occ (rep.total - rep.repulsion) := by
    rcases hq with hq | hq
    · obtain ⟨n, kn, rep, mask, vloc, bs, a1, a2, a3, a4, a6, a7, ns, nb, a5, h, -⟩ :=
        ncRun_smearing L cfg a size ksize P ne spin H hC hR hxc heps hspin hg ε hopt A hA pos hpos he hw hq
      obtain ⟨c, occ, h⟩ := h.total
      exact ⟨n, kn, rep, mask, vloc, bs, a1, a2, a3, a4, a6, a7, ns, nb, a5, c, occ, h⟩
    · obtain ⟨n, kn, rep, mask, vloc, bs, a1, a2, a3, a4, a6, a7, ns, nb, a5, -, h⟩ :=
        ncRun_ground_state L cfg a size ksize P ne spin H hC hR hxc heps hspin hg ε hopt A hA pos hpos
      obtain ⟨j, c, occ, -, h⟩ := h (by omega) hw
      rw [temperature_zero _ hq] at h
      rw [max_eq_right hq]
      exact ⟨n, kn, rep, mask, vloc, bs, a1, a2, a3, a4, a6, a7, ns, nb, a5, c, occ, h⟩
  obtain ⟨n', kn', rep, mask', vloc, bs', a1, a2, a3, a4, a6, a7, ns, nb, rfl, c, occ, h⟩ := key
  obtain rfl := leastGrid_unique hn a2
  obtain rfl := leastGrid_unique hkn a3
  obtain rfl := Except.ok.inj (hmask.symm.trans a4)
  obtain rfl := Except.ok.inj (hbs.symm.trans a7)
  obtain rfl := h.physical.channels
  exact ⟨rep, vloc, c, occ, a1, a6, h⟩

/-- C107, whole calculations with norm-conserving pseudopotentials: one constant bounds, for all arrangements of the
atoms, the change of the total energy without the repulsion of the nuclei per length of the displacements, up to the
accuracy of the optimiser and, with smearing, `2 T log 2` per band. -/
theorem ncRun_displaced (L : NcLib) (cfg : NcConfig) {m : ℕ} (a : AseAtoms m) (size ksize : Fin 3 → ℤ)
    (P : NcLists) (ne spin : ℤ) (H : Spec.AdmissibleRunNC L cfg a size ksize P ne spin)
    (hC : Spec.Triangular L.qrC) (hR : Spec.Triangular L.qrR) (hxc : Spec.ContinuousXc L.xc cfg.xc)
    (heps : 0 < cfg.eps) (hspin : cfg.occupation = "simplex-projector" → cfg.restricted = true → spin = 0)
    (hg : cfg.occupation = "gamma" → ∀ i, ksize i ≤ 1)
    (he : 3 ≤ cfg.epoch) (hw : 2 ≤ cfg.window) (hq : cfg.threshold ≤ 0 ∨ cfg.smearing ≤ 0) :
    ∃ n K, Spec.LeastGrid size n ∧ 0 ≤ K ∧ ∀ (opt : Optimizer) (ε : ℝ), Spec.NearOptimizer ε opt →
      (∀ {ns nk g nb : ℕ} (f : GsParams ns nk g nb → Except PyErr ℝ) (p : GsParams ns nk g nb × opt.State),
        Spec.KeepsShape p.1.occ (opt.step f p).1.occ) →
      ∀ p p' : Fin m → Fin 3 → ℝ, ∃ rep rep',
        runAtomsNC { L with optimizer := .ok opt } cfg { a with positions := p } = .ok ⟨n, rep⟩ ∧
        runAtomsNC { L with optimizer := .ok opt } cfg { a with positions := p' } = .ok ⟨n, rep'⟩ ∧
        |(rep.total - rep.repulsion) - (rep'.total - rep'.repulsion)|
          ≤ K * (∑ i, Spec.length (fun d => p i d - p' i d))
            + 2 * max cfg.smearing 0 * ((ne.toNat + 1) / 2 + cfg.emptyBands : ℕ) * Real.log 2 + ε := by
  set A : Matrix (Fin 3) (Fin 3) ℝ := (angstrom2bohr : ℝ) • a.cell with hA
  obtain ⟨n, kn, -, mask, -, bs, -, a2, a3, a4, -, a6, -⟩ :=
    ncRun_history { L with optimizer := .ok (nearOptimizer 1) } cfg a size ksize P ne spin
      { H with optimizer := ⟨_, rfl, nearOptimizer_keeps 1⟩ } hC hR hxc heps hspin hg 1
      (fun o ho => by cases Except.ok.inj ho; exact nearOptimizer_near one_pos) A hA _ (fun _ _ => rfl)
  have hn : ∀ i, 0 < n i := fun i => smooth_pos (a2 i).1
  have hdet : 0 < |A.det| := by
    rw [hA, abs_pos]
    exact fromAse_det a cfg.spin H.cell
  obtain ⟨K, hK, hKe⟩ := energyNC_displaced L.xc cfg.xc L.jn L.csLoc L.eigh L.sph P H.atoms hn
    (fun a : Fin m => ncSpecies P bs a) (gVectors A n) (flatRows (kVectors A kn)) |A.det| hdet
  have hne : (0 : ℝ) ≤ angstrom2bohr := by norm_num [angstrom2bohr]
  refine ⟨n, |(ne : ℝ)| * K * angstrom2bohr, a2, mul_nonneg (mul_nonneg (abs_nonneg _) hK) hne,
    fun opt ε hopt hkeep p p' => ?_⟩
  obtain ⟨rep, v, c, occ, h1, hv, h2⟩ := ncRun_total_ground { L with optimizer := .ok opt } cfg { a with positions := p }
    size ksize P ne spin { H with optimizer := ⟨opt, rfl, hkeep⟩ } hC hR hxc heps hspin hg ε
    (fun o ho => by cases Except.ok.inj ho; exact hopt) A hA _ (fun _ _ => rfl) he hw hq a2 a3 mask a4 bs a6
  obtain ⟨rep', v', c', occ', h1', hv', h2'⟩ := ncRun_total_ground { L with optimizer := .ok opt } cfg
    { a with positions := p' }
    size ksize P ne spin { H with optimizer := ⟨opt, rfl, hkeep⟩ } hC hR hxc heps hspin hg ε
    (fun o ho => by cases Except.ok.inj ho; exact hopt) A hA _ (fun _ _ => rfl) he hw hq a2 a3 mask a4 bs a6
  refine ⟨rep, rep', h1, h1', ?_⟩
  obtain ⟨f, -, hf⟩ := continuousOn_energyNC (ns := if cfg.restricted then 1 else 2)
    (nb := (ne.toNat + 1) / 2 + cfg.emptyBands) L.xc cfg.xc hxc v
    (nlPsiAll L.eigh L.sph (fun a : Fin m => ncSpecies P bs a) (fun i d => angstrom2bohr * p i d) (gVectors A n)
      (flatRows (kVectors A kn))) (gVectors A n) (flatRows (kVectors A kn)) |A.det|
  obtain ⟨f', -, hf'⟩ := continuousOn_energyNC (ns := if cfg.restricted then 1 else 2)
    (nb := (ne.toNat + 1) / 2 + cfg.emptyBands) L.xc cfg.xc hxc v'
    (nlPsiAll L.eigh L.sph (fun a : Fin m => ncSpecies P bs a) (fun i d => angstrom2bohr * p' i d) (gVectors A n)
      (flatRows (kVectors A kn))) (gVectors A n) (flatRows (kVectors A kn)) |A.det|
  have d1 := hKe h2.physical _ _ v v' hv hv' _ _ h2.value (hf' c occ)
  have d2 := hKe h2'.physical _ _ v v' hv hv' _ _ (hf c' occ') h2'.value
  have b1 := h2.least c' occ' _ h2'.physical (fun hm => (h2'.given hm).trans (h2.given hm).symm) (hf c' occ')
  have b2 := h2'.least c occ _ h2.physical (fun hm => (h2.given hm).trans (h2'.given hm).symm) (hf' c occ)
  have hlen : ∀ i, Spec.length (fun d => angstrom2bohr * p i d - angstrom2bohr * p' i d)
      = angstrom2bohr * Spec.length (fun d => p i d - p' i d) := by
    intro i
    unfold Spec.length
    rw [show (angstrom2bohr : ℝ) = Real.sqrt ((angstrom2bohr : ℝ) ^ 2) by rw [Real.sqrt_sq hne],
      ← Real.sqrt_mul (sq_nonneg _), Finset.mul_sum, Real.sqrt_sq hne]
    congr 1
    exact Finset.sum_congr rfl fun d _ => by ring
  simp only [hlen] at d1 d2
  rw [← Finset.mul_sum] at d1 d2
  have hnn : (0 : ℝ) ≤ ne := by
    rw [← h2.physical.electrons]
    exact Finset.sum_nonneg fun s _ => Finset.sum_nonneg fun k _ => Finset.sum_nonneg fun b _ => h2.physical.nonneg s k b
  rw [abs_of_nonneg hnn]
  have hkpos := idxList_length_pos fun i => smooth_pos (a3 i).1
  have ent := entropy_gap hkpos (fun h => one_kpoint a3 (hg h)) heps h2.physical h2'.physical
  have ent' := entropy_gap hkpos (fun h => one_kpoint a3 (hg h)) heps h2'.physical h2.physical
  have hT := le_max_right cfg.smearing 0
  have m1 := mul_le_mul_of_nonneg_left ent hT
  have m2 := mul_le_mul_of_nonneg_left ent' hT
  generalize ∑ i, Spec.length (fun d => p i d - p' i d) = D at d1 d2 ⊢
  rw [abs_le] at d1 d2 ⊢
  rw [← mul_assoc] at d1 d2
  constructor <;> linarith [d1.1, d1.2, d2.1, d2.2]

/-- C108, whole calculations with norm-conserving pseudopotentials. -/
theorem ncRun_hotter (L : NcLib) (cfg : NcConfig) {m : ℕ} (a : AseAtoms m) (sm : ℝ) (size ksize : Fin 3 → ℤ)
    (P : NcLists) (ne spin : ℤ) (H : Spec.AdmissibleRunNC L cfg a size ksize P ne spin)
    (hC : Spec.Triangular L.qrC) (hR : Spec.Triangular L.qrR) (hxc : Spec.ContinuousXc L.xc cfg.xc)
    (heps : 0 < cfg.eps) (hspin : cfg.occupation = "simplex-projector" → cfg.restricted = true → spin = 0)
    (hg : cfg.occupation = "gamma" → ∀ i, ksize i ≤ 1)
    (ε : ℝ) (hopt : ∀ opt, L.optimizer = .ok opt → Spec.NearOptimizer ε opt)
    (he : 3 ≤ cfg.epoch) (hw : 2 ≤ cfg.window) (hq : cfg.threshold ≤ 0)
    (t t' : ℝ) (ht : t = max cfg.smearing 0) (ht' : t' = max sm 0) (htt : t < t') :
    ∃ n rep rep', runAtomsNC L cfg a = .ok ⟨n, rep⟩ ∧ runAtomsNC L { cfg with smearing := sm } a = .ok ⟨n, rep'⟩ ∧
      rep.repulsion = rep'.repulsion ∧
      rep.total ≤ rep'.total + ε * (1 + 2 * t / (t' - t)) ∧
      rep'.total ≤ rep.total + 2 * t' * ((ne.toNat + 1) / 2 + cfg.emptyBands : ℕ) * Real.log 2 + ε := by
  obtain ⟨n, kn, -, mask, -, bs, -, a2, a3, a4, -, a6, -⟩ :=
    ncRun_history L cfg a size ksize P ne spin H hC hR hxc heps hspin hg ε hopt _ rfl _ (fun _ _ => rfl)
  have H' : Spec.AdmissibleRunNC L { cfg with smearing := sm } a size ksize P ne spin := { H with }
  obtain ⟨rep, v, c, occ, h1, hv, h2⟩ := ncRun_total_ground L cfg a size ksize P ne spin H hC hR hxc heps hspin hg ε hopt
    _ rfl _ (fun _ _ => rfl) he hw (Or.inl hq) a2 a3 mask a4 bs a6
  obtain ⟨rep', v', c', occ', h1', hv', h2'⟩ := ncRun_total_ground L { cfg with smearing := sm } a size ksize P ne spin H'
    hC hR hxc heps hspin hg ε hopt _ rfl _ (fun _ _ => rfl) he hw (Or.inl hq) a2 a3 mask a4 bs a6
  obtain rfl := Except.ok.inj (hv.symm.trans hv')
  have hrep : rep.repulsion = rep'.repulsion := by
    have e1 := ncRun_repulsion L cfg a H.cell H.ewald h1
    have e2 := ncRun_repulsion L { cfg with smearing := sm } a H.cell H.ewald h1'
    exact Except.ok.inj (e1.symm.trans e2)
  refine ⟨n, rep, rep', h1, h1', hrep, ?_, ?_⟩
  · have h3 := (ground_hotter (by rw [← ht, ← ht']; exact htt) h2 h2' _ _ rfl rfl).2.1 (le_max_right _ _)
    rw [← ht, ← ht', hrep] at h3
    have : t * ((ε + ε) / (t' - t)) = ε * (2 * t / (t' - t)) := by ring
    rw [this] at h3
    linarith
  · have h3 := ground_energy_bound (idxList_length_pos fun i => smooth_pos (a3 i).1) (fun h => one_kpoint a3 (hg h)) heps
      (le_max_right _ _) h2' le_rfl c occ _ h2.physical h2.given h2.value
    rw [← ht', hrep] at h3
    linarith

/-! ### Concrete cases -/

/-- The hypotheses of `ncRun_displaced` hold for the silicon pair. -/
example (eigh : Eigh) (jn : SphBessel) (csLoc csBeta : Spline) : ∃ n K, 0 ≤ K ∧ ∀ ε, 0 < ε → ∀ p p' : Fin 2 → Fin 3 → ℝ,
    let L : NcLib := { siliconLib diracLib eigh jn csLoc csBeta with
      qrC := gramSchmidtQR ℂ, qrR := gramSchmidtQR ℝ, optimizer := .ok (nearOptimizer ε) }
    ∃ rep rep', runAtomsNC L siliconConfig { siliconAtoms with positions := p } = .ok ⟨n, rep⟩ ∧
      runAtomsNC L siliconConfig { siliconAtoms with positions := p' } = .ok ⟨n, rep'⟩ ∧
      |(rep.total - rep.repulsion) - (rep'.total - rep'.repulsion)|
        ≤ K * (∑ i, Spec.length (fun d => p i d - p' i d)) + ε := by
  obtain ⟨P, H⟩ := silicon_admissible diracLib eigh jn csLoc csBeta
  obtain ⟨n, K, -, hK, h⟩ := ncRun_displaced { siliconLib diracLib eigh jn csLoc csBeta with
      qrC := gramSchmidtQR ℂ, qrR := gramSchmidtQR ℝ } siliconConfig siliconAtoms (fun _ => 4) (fun _ => 2) P 4 0
    { H with } (gramSchmidtQR_triangular ℂ) (gramSchmidtQR_triangular ℝ) diracLib_continuous
    (by norm_num [siliconConfig, lithiumConfig]) (fun _ _ => rfl) (fun h => absurd h (by decide)) (by decide) (by decide)
    (Or.inr le_rfl)
  refine ⟨n, K, hK, fun ε hε p p' => ?_⟩
  obtain ⟨rep, rep', h1, h2, h3⟩ := h (nearOptimizer ε) ε (nearOptimizer_near hε) (nearOptimizer_keeps ε) p p'
  refine ⟨rep, rep', h1, h2, ?_⟩
  simpa [siliconConfig, lithiumConfig] using h3

/-- The hypotheses of `ncRun_hotter` hold for the silicon pair. -/
example {ε : ℝ} (hε : 0 < ε) (eigh : Eigh) (jn : SphBessel) (csLoc csBeta : Spline) :
    let L : NcLib := { siliconLib diracLib eigh jn csLoc csBeta with
      qrC := gramSchmidtQR ℂ, qrR := gramSchmidtQR ℝ, optimizer := .ok (nearOptimizer ε) }
    ∃ n rep rep', runAtomsNC L { siliconConfig with threshold := 0 } siliconAtoms = .ok ⟨n, rep⟩ ∧
      runAtomsNC L { siliconConfig with threshold := 0, smearing := 0.01 } siliconAtoms = .ok ⟨n, rep'⟩ ∧
      rep.total ≤ rep'.total + ε ∧ rep'.total ≤ rep.total + 0.16 * Real.log 2 + ε := by
  intro L
  obtain ⟨P, H⟩ := silicon_admissible diracLib eigh jn csLoc csBeta
  obtain ⟨n, rep, rep', h1, h2, -, h3, h4⟩ := ncRun_hotter L { siliconConfig with threshold := 0 } siliconAtoms 0.01
    (fun _ => 4) (fun _ => 2) P 4 0
    { H with optimizer := ⟨nearOptimizer ε, rfl, nearOptimizer_keeps ε⟩ }
    (gramSchmidtQR_triangular ℂ) (gramSchmidtQR_triangular ℝ) diracLib_continuous
    (by norm_num [siliconConfig, lithiumConfig]) (fun _ _ => rfl) (fun h => absurd h (by decide)) ε
    (fun o ho => by cases Except.ok.inj ho; exact nearOptimizer_near hε) (by decide) (by decide) le_rfl 0 0.01
    (by simp [siliconConfig, lithiumConfig]) (by norm_num) (by norm_num)
  refine ⟨n, rep, rep', h1, h2, by simpa using h3, ?_⟩
  have h5 : rep'.total ≤ rep.total + 2 * 0.01 * ((8 : ℕ) : ℝ) * Real.log 2 + ε := h4
  push_cast at h5
  linarith

end Jrystal
