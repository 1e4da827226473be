import Verif.Props.Local
import Verif.Props.Nonlocal
import Verif.Props.Energy
import Verif.Spec.Hamiltonian

/- Property theorems for C63 (Hamiltonian of the norm-conserving pseudopotential calculation). -/
namespace Jrystal
open scoped BigOperators ComplexConjugate
open Matrix

private theorem kin_expectation {ns nk nb : ℕ} {n : Fin 3 → ℕ} (g : Idx n → Fin 3 → ℝ)
    (kpts : Fin nk → Fin 3 → ℝ) (c : Coef ns nk nb n) (vol : ℝ) :
    expectationFull c (.lead nk fun k x => (kineticOperator g kpts k x : ℂ)) vol none "kinetic"
      = .ok ⟨nk, fun s k i j => Spec.kineticElement g (kpts k) (c s k i) (c s k j)⟩ := by
  unfold expectationFull integralFactor operatorLen bcLen operatorAt
  simp only [if_neg (by decide : ¬ ("kinetic" = "reciprocal")),
    if_neg (by decide : ¬ ("kinetic" = "real")), if_true, Option.getD_none, bcGet_self]
  congr 2
  funext s k i j
  unfold Spec.kineticElement Spec.kineticEnergy kineticOperator
  rw [Complex.ofReal_one, mul_one]
  refine Finset.sum_congr rfl fun x _ => ?_
  rw [sum_sq_eq_dot]
  ring

/-- `v_s` acts as one potential when the density has one channel or `kohn_sham` is off. -/
private theorem op_single (lib : XcLib) (xt : String) (ks : Bool) {ns nk nb d : ℕ} {n : Fin 3 → ℕ}
    (dens : Fin d → Idx n → ℝ) (g : Idx n → Fin 3 → ℝ) (hd : d = 1 ∨ ks = false) (V X : Idx n → ℂ)
    (hX : ∀ x, X x = if h : ks = true ∧ 0 < d then vxcDensity lib xt g dens ⟨0, h.2⟩ x
      else (excDensity lib xt g dens x : ℂ))
    (hV : ∀ x, V x = hartreeRealSpace dens g ks x + X x) (w : Coef ns nk nb n) (vol : ℝ) :
    expectationFull w (ncOperator lib xt ks dens g) vol none "real"
        = .ok ⟨nk, fun s k i j => Spec.cellInner vol (w s k i) fun x => V x * w s k j x⟩ ∧
    expectationFull w (ncXcOperator lib xt ks dens g) vol none "real"
        = .ok ⟨nk, fun s k i j => Spec.cellInner vol (w s k i) fun x => X x * w s k j x⟩ := by
  cases ks with
  | false =>
    have h1 : ∀ x, X x = (excDensity lib xt g dens x : ℂ) := fun x => by rw [hX, dif_neg (by simp)]
    have h2 : ncOperator lib xt false dens g = .grid V := by
      unfold ncOperator
      rw [if_neg (by simp)]
      congr 1
      funext x
      rw [hV, h1]
    have h3 : ncXcOperator lib xt false dens g = .grid X := by
      unfold ncXcOperator
      rw [if_neg (by simp)]
      congr 1
      funext x
      rw [h1]
    rw [h2, h3]
    exact ⟨(expectation_unpolarised_partial w V vol).2, (expectation_unpolarised_partial w X vol).2⟩
  | true =>
    have hd1 : d = 1 := hd.resolve_right (by simp)
    subst hd1
    have h1 : ∀ (s : Fin 1) x, X x = vxcDensity lib xt g dens s x := fun s x => by
      rw [hX, dif_pos ⟨rfl, by norm_num⟩, Subsingleton.elim s 0]
      rfl
    have h2 : ncOperator lib xt true dens g = .lead 1 fun _ => V := by
      unfold ncOperator
      rw [if_pos rfl]
      congr 1
      funext s x
      rw [hV, h1 s]
    have h3 : ncXcOperator lib xt true dens g = .lead 1 fun _ => X := by
      unfold ncXcOperator
      rw [if_pos rfl]
      congr 1
      funext s x
      rw [h1 s]
    rw [h2, h3]
    exact ⟨(expectation_unpolarised_partial w V vol).1, (expectation_unpolarised_partial w X vol).1⟩

private theorem bcLen_self (m : ℕ) : bcLen m m = .ok m := by
  unfold bcLen
  rw [if_pos rfl]

/-- C63: for a density with one channel, or without `kohn_sham`, `hamiltonian_matrix` succeeds and its
elements are the nonlocal element plus `⟨c_i|T_k|c_j⟩` plus `⟨ψ_i|V_loc + V_H + V_xc|ψ_j⟩`, where `V_xc` is the
exchange-correlation potential with `kohn_sham` and the energy density without.  Missing: polarised densities
with `kohn_sham` (`ncHamiltonian_polarised_error`). -/
theorem ncHamiltonian_elements_partial (lib : XcLib) (xt : String) (ks : Bool) {ns nk nb d M : ℕ} {ι : Type}
    [Fintype ι] {n : Fin 3 → ℕ} (c : Coef ns nk nb n) (dens : Fin d → Idx n → ℝ) (vloc : Idx n → ℂ)
    (psi : Fin nk → ι → Fin M → Idx n → ℂ) (g : Idx n → Fin 3 → ℝ) (kpts : Fin nk → Fin 3 → ℝ) (vol : ℝ)
    (hd : d = 1 ∨ ks = false) :
    ∃ H : Fin ns → Fin nk → Fin nb → Fin nb → ℂ,
      ncHamiltonianMatrix lib xt ks c dens vloc psi g kpts vol = .ok ⟨nk, H⟩ ∧
      ∀ s k i j, H s k i j = hamiltonianNonlocal c psi vol s k i j
        + Spec.kineticElement g (kpts k) (c s k i) (c s k j)
        + Spec.cellInner vol (waveGrid c vol s k i) fun x =>
            (ifftn vloc x + hartreeRealSpace dens g ks x +
              (if h : ks = true ∧ 0 < d then vxcDensity lib xt g dens ⟨0, h.2⟩ x
                else (excDensity lib xt g dens x : ℂ))) * waveGrid c vol s k j x := by
  unfold ncHamiltonianMatrix hamiltonianLocal
  simp only
  rw [(expectation_unpolarised_partial (waveGrid c vol) (ifftn vloc) vol).2, kin_expectation,
    (op_single lib xt ks dens g hd _ _ (fun x => rfl) (fun x => rfl) (waveGrid c vol) vol).1]
  simp only [bcLen_self]
  refine ⟨_, rfl, fun s k i j => ?_⟩
  simp only [bcIdx_self]
  unfold Spec.cellInner
  rw [add_assoc (hamiltonianNonlocal c psi vol s k i j), ← mul_add, ← Finset.sum_add_distrib]
  rw [add_right_comm]
  refine congrArg₂ (· + ·) rfl (congrArg₂ (· * ·) rfl (Finset.sum_congr rfl fun x _ => ?_))
  ring

/-- C63: with the same restriction the trace function is the sum of the real parts of all diagonal elements
of the matrix. -/
theorem ncHamiltonian_trace_partial (lib : XcLib) (xt : String) (ks : Bool) {ns nk nb d M : ℕ} {ι : Type}
    [Fintype ι] {n : Fin 3 → ℕ} (hn : ∀ i, 0 < n i) (c : Coef ns nk nb n) (dens : Fin d → Idx n → ℝ)
    (vloc : Idx n → ℂ) (psi : Fin nk → ι → Fin M → Idx n → ℂ) (g : Idx n → Fin 3 → ℝ)
    (kpts : Fin nk → Fin 3 → ℝ) (vol : ℝ) (hd : d = 1 ∨ ks = false)
    (H : Fin ns → Fin nk → Fin nb → Fin nb → ℂ)
    (hH : ncHamiltonianMatrix lib xt ks c dens vloc psi g kpts vol = .ok ⟨nk, H⟩) :
    ncHamiltonianTrace lib xt ks c dens vloc psi g kpts vol = .ok (∑ s, ∑ k, ∑ i, (H s k i i).re) := by
  obtain ⟨H', h1, h2⟩ := ncHamiltonian_elements_partial lib xt ks c dens vloc psi g kpts vol hd
  have hHH : H = H' := by
    have := Except.ok.inj (hH.symm.trans h1)
    simpa using this
  subst hHH
  obtain ⟨L, hL1, hL2, hL3⟩ := hamiltonianLocal_energy hn (waveGrid c vol) vloc vol fun _ _ _ => 1
  unfold ncHamiltonianTrace energyNonlocal
  simp only
  rw [hL3]
  simp only
  rw [(expectation_diag _ _ _ _ _).2 _ _ (expectation_unpolarised_partial (waveGrid c vol)
      (hartreeRealSpace dens g ks) vol).2,
    (expectation_diag _ _ _ _ _).2 _ _ (op_single lib xt ks dens g hd _ _ (fun x => rfl) (fun x => rfl)
      (waveGrid c vol) vol).2,
    (expectation_diag _ _ _ _ _).2 _ _ (kin_expectation g kpts c vol)]
  simp only [bcLen_self, bcIdx_self]
  congr 1
  simp only [Complex.add_re, Complex.ofReal_re, Complex.re_sum, Complex.ofReal_one, mul_one, one_mul,
    ← Finset.sum_add_distrib]
  refine Finset.sum_congr rfl fun s _ => Finset.sum_congr rfl fun k _ => Finset.sum_congr rfl fun i _ => ?_
  rw [h2, hL2]
  have hsum : ∀ (a b e : Idx n → ℂ) (f : Idx n → ℂ),
      (Spec.cellInner vol f fun x => (a x + b x + e x) * f x).re
        = (Spec.cellInner vol f fun x => a x * f x).re +
          ((Spec.cellInner vol f fun x => b x * f x).re + (Spec.cellInner vol f fun x => e x * f x).re) := by
    intro a b e f
    rw [← Complex.add_re, ← Complex.add_re]
    congr 1
    unfold Spec.cellInner
    rw [← mul_add, ← mul_add, ← Finset.sum_add_distrib, ← Finset.sum_add_distrib]
    refine congrArg₂ (· * ·) rfl (Finset.sum_congr rfl fun x _ => by ring)
  rw [Complex.add_re, Complex.add_re, hsum]
  ring

private theorem cellInner_real_symm {n : Fin 3 → ℕ} (vol : ℝ) (V : Idx n → ℂ) (hV : ∀ x, (V x).im = 0)
    (f f' : Idx n → ℂ) :
    Spec.cellInner vol f' (fun x => V x * f x) = conj (Spec.cellInner vol f fun x => V x * f' x) := by
  unfold Spec.cellInner
  rw [map_mul, Complex.conj_ofReal, map_sum]
  refine congrArg₂ (· * ·) rfl (Finset.sum_congr rfl fun x _ => ?_)
  rw [map_mul, map_mul, Complex.conj_conj, Complex.conj_eq_iff_im.mpr (hV x)]
  ring

/-- C63: the matrix is Hermitian whenever the three potentials are real in real space. -/
theorem ncHamiltonian_hermitian_partial (lib : XcLib) (xt : String) (ks : Bool) {ns nk nb d M : ℕ} {ι : Type}
    [Fintype ι] {n : Fin 3 → ℕ} (c : Coef ns nk nb n) (dens : Fin d → Idx n → ℝ) (vloc : Idx n → ℂ)
    (psi : Fin nk → ι → Fin M → Idx n → ℂ) (g : Idx n → Fin 3 → ℝ) (kpts : Fin nk → Fin 3 → ℝ) (vol : ℝ)
    (hd : d = 1 ∨ ks = false) (hl : ∀ x, (ifftn vloc x).im = 0)
    (hh : ∀ x, (hartreeRealSpace dens g ks x).im = 0) (hx : ∀ s x, (vxcDensity lib xt g dens s x).im = 0) :
    ∃ H : Fin ns → Fin nk → Fin nb → Fin nb → ℂ,
      ncHamiltonianMatrix lib xt ks c dens vloc psi g kpts vol = .ok ⟨nk, H⟩ ∧
      ∀ s k i j, H s k j i = conj (H s k i j) := by
  obtain ⟨H, h1, h2⟩ := ncHamiltonian_elements_partial lib xt ks c dens vloc psi g kpts vol hd
  refine ⟨H, h1, fun s k i j => ?_⟩
  rw [h2, h2, map_add, map_add, nonlocal_hermitian]
  refine congrArg₂ (· + ·) (congrArg₂ (· + ·) rfl ?_) ?_
  · unfold Spec.kineticElement
    rw [map_sum]
    refine Finset.sum_congr rfl fun x _ => ?_
    rw [map_mul, map_mul, Complex.conj_ofReal, Complex.conj_conj]
    ring
  · refine cellInner_real_symm vol _ (fun x => ?_) _ _
    rw [Complex.add_im, Complex.add_im, hl, hh]
    split
    · rw [hx]; norm_num
    · simp

/-- C63: on grids with odd sizes, for functionals without gradients, the matrix built from the local and
nonlocal potentials of any crystal is Hermitian. -/
theorem ncHamiltonian_hermitian_odd (lib : XcLib) (xt : String) (hg : pyIn "gga" xt = false) (ks : Bool)
    {ns nk nb d M na : ℕ} {ι : Type} [Fintype ι] {n : Fin 3 → ℕ} (hn : ∀ i, n i % 2 = 1)
    (A : Matrix (Fin 3) (Fin 3) ℝ) (hA : A.det ≠ 0) (c : Coef ns nk nb n) (dens : Fin d → Idx n → ℝ)
    (jn : SphBessel) (cs : Spline) (atoms : Fin na → LocalAtom) (method : String) (vloc : Idx n → ℂ)
    (psi : Fin nk → ι → Fin M → Idx n → ℂ) (kpts : Fin nk → Fin 3 → ℝ) (vol : ℝ)
    (hv : localReciprocal jn cs atoms (gVectors A n) vol method = .ok vloc) (hd : d = 1 ∨ ks = false) :
    ∃ H : Fin ns → Fin nk → Fin nb → Fin nb → ℂ,
      ncHamiltonianMatrix lib xt ks c dens vloc psi (gVectors A n) kpts vol = .ok ⟨nk, H⟩ ∧
      ∀ s k i j, H s k j i = conj (H s k i j) := by
  refine ncHamiltonian_hermitian_partial lib xt ks c dens vloc psi _ kpts vol hd
    (local_real_partial jn cs A hn atoms vol method vloc hv)
    (hartreePotential_real_partial A hA hn ks dens) fun s x => ?_
  unfold vxcDensity
  simp only [hg, Bool.false_eq_true, if_false]
  split <;> exact Complex.ofReal_im _

/-- C63 fails for polarised densities: with `kohn_sham` and more than two k points the matrix raises. -/
theorem ncHamiltonian_polarised_error (lib : XcLib) (xt : String) {ns nk nb M : ℕ} {ι : Type}
    [Fintype ι] {n : Fin 3 → ℕ} (c : Coef ns nk nb n) (dens : Fin 2 → Idx n → ℝ) (vloc : Idx n → ℂ)
    (psi : Fin nk → ι → Fin M → Idx n → ℂ) (g : Idx n → Fin 3 → ℝ) (kpts : Fin nk → Fin 3 → ℝ) (vol : ℝ)
    (hk : 2 < nk) :
    ncHamiltonianMatrix lib xt true c dens vloc psi g kpts vol = .error .valueError := by
  unfold ncHamiltonianMatrix hamiltonianLocal
  simp only
  rw [(expectation_unpolarised_partial (waveGrid c vol) (ifftn vloc) vol).2, kin_expectation]
  simp only
  have : ncOperator lib xt true dens g
      = .lead 2 fun s j => hartreeRealSpace dens g true j + vxcDensity lib xt g dens s j := by
    unfold ncOperator
    rw [if_pos rfl]
  rw [this, expectation_spin_axis_wrong.1 _ _ _ hk]

/-- The two operators of a density with several channels, on orbitals of one k point: the axis of the channels
becomes the k axis of the result. -/
private theorem op_channels {ns nb d : ℕ} {n : Fin 3 → ℕ} (V : Fin d → Idx n → ℂ)
    (w : Coef ns 1 nb n) (vol : ℝ) :
    expectationFull w (.lead d V) vol none "real"
      = .ok ⟨d, fun s q i j => Spec.cellInner vol (w s 0 i) fun x => V q x * w s 0 j x⟩ := by
  have hl : bcLen 1 d = .ok d := by
    unfold bcLen
    by_cases h : 1 = d
    · rw [if_pos h, h]
    · rw [if_neg h, if_pos rfl]
  unfold expectationFull integralFactor operatorLen
  simp only [if_neg (by decide : ¬ ("real" = "reciprocal")), if_true, Option.getD_none, hl]
  congr 2
  funext s q i j
  unfold Spec.cellInner operatorAt
  have h0 : ∀ f : Fin 1 → Idx n → ℂ, bcGet f (q : ℕ) = f 0 := fun f => by
    unfold bcGet bcIdx
    rw [dif_pos rfl]
    rfl
  simp only [h0, bcGet_self]
  rw [mul_comm]
  refine congrArg₂ (· * ·) ?_ (Finset.sum_congr rfl fun x _ => by ring)
  unfold gridCount
  push_cast
  rfl

private theorem bcIdx_one (k : ℕ) : bcIdx 1 k = some 0 := by
  unfold bcIdx
  rw [dif_pos rfl]
  rfl

/-- C63: for orbitals of one k point and a density with any number of channels, `hamiltonian_matrix` with
`kohn_sham` returns one matrix for each channel: the kinetic and nonlocal elements plus the elements of the
potential of that channel. -/
theorem ncHamiltonian_channels (lib : XcLib) (xt : String) {ns nb d M : ℕ} {ι : Type}
    [Fintype ι] {n : Fin 3 → ℕ} (c : Coef ns 1 nb n) (dens : Fin d → Idx n → ℝ) (vloc : Idx n → ℂ)
    (psi : Fin 1 → ι → Fin M → Idx n → ℂ) (g : Idx n → Fin 3 → ℝ) (kpts : Fin 1 → Fin 3 → ℝ) (vol : ℝ) :
    ∃ H : Fin ns → Fin d → Fin nb → Fin nb → ℂ,
      ncHamiltonianMatrix lib xt true c dens vloc psi g kpts vol = .ok ⟨d, H⟩ ∧
      ∀ s σ i j, H s σ i j = hamiltonianNonlocal c psi vol s 0 i j
        + Spec.kineticElement g (kpts 0) (c s 0 i) (c s 0 j)
        + Spec.cellInner vol (waveGrid c vol s 0 i) fun x =>
            (ifftn vloc x + hartreeRealSpace dens g true x + vxcDensity lib xt g dens σ x)
              * waveGrid c vol s 0 j x := by
  have hop : ncOperator lib xt true dens g
      = .lead d fun σ x => hartreeRealSpace dens g true x + vxcDensity lib xt g dens σ x := by
    unfold ncOperator
    rw [if_pos rfl]
  have hl : bcLen 1 d = .ok d := by
    unfold bcLen
    by_cases h : 1 = d
    · rw [if_pos h, h]
    · rw [if_neg h, if_pos rfl]
  have hl' : bcLen d 1 = .ok d := by
    unfold bcLen
    by_cases h : d = 1
    · rw [if_pos h]
    · rw [if_neg h, if_neg h, if_pos rfl]
  unfold ncHamiltonianMatrix hamiltonianLocal
  simp only
  rw [(expectation_unpolarised_partial (waveGrid c vol) (ifftn vloc) vol).2, kin_expectation, hop,
    op_channels]
  simp only [bcLen_self, hl, hl']
  refine ⟨_, rfl, fun s σ i j => ?_⟩
  simp only [bcIdx_self, bcIdx_one]
  unfold Spec.cellInner
  rw [add_assoc (hamiltonianNonlocal c psi vol s 0 i j), ← mul_add, ← Finset.sum_add_distrib]
  rw [add_right_comm]
  refine congrArg₂ (· + ·) rfl (congrArg₂ (· * ·) rfl (Finset.sum_congr rfl fun x _ => ?_))
  ring

/-- C63 fails for polarised densities: the trace function takes the Hartree potential once and the
exchange-correlation potential of a channel once for every channel, but the kinetic, nonlocal and local terms
once only, so it is not the sum of the diagonal elements of the matrices of the channels. -/
theorem ncHamiltonian_channels_trace (lib : XcLib) (xt : String) {ns nb d M : ℕ} {ι : Type}
    [Fintype ι] {n : Fin 3 → ℕ} (hn : ∀ i, 0 < n i) (c : Coef ns 1 nb n) (dens : Fin d → Idx n → ℝ)
    (vloc : Idx n → ℂ) (psi : Fin 1 → ι → Fin M → Idx n → ℂ) (g : Idx n → Fin 3 → ℝ)
    (kpts : Fin 1 → Fin 3 → ℝ) (vol : ℝ) :
    ncHamiltonianTrace lib xt true c dens vloc psi g kpts vol = .ok (∑ s, ∑ i,
      (hamiltonianNonlocal c psi vol s 0 i i + Spec.kineticElement g (kpts 0) (c s 0 i) (c s 0 i)
        + Spec.cellInner vol (waveGrid c vol s 0 i) fun x =>
            (ifftn vloc x + ∑ σ, (hartreeRealSpace dens g true x + vxcDensity lib xt g dens σ x))
              * waveGrid c vol s 0 i x).re) := by
  have hop : ncXcOperator lib xt true dens g = .lead d fun σ x => vxcDensity lib xt g dens σ x := by
    unfold ncXcOperator
    rw [if_pos rfl]
  have hl : bcLen 1 d = .ok d := by
    unfold bcLen
    by_cases h : 1 = d
    · rw [if_pos h, h]
    · rw [if_neg h, if_pos rfl]
  obtain ⟨L, hL1, hL2, hL3⟩ := hamiltonianLocal_energy hn (waveGrid c vol) vloc vol fun _ _ _ => 1
  unfold ncHamiltonianTrace energyNonlocal
  simp only
  rw [hL3]
  simp only
  rw [(expectation_diag _ _ _ _ _).2 _ _ (expectation_unpolarised_partial (waveGrid c vol)
      (hartreeRealSpace dens g true) vol).2, hop,
    (expectation_diag _ _ _ _ _).2 _ _ (op_channels _ (waveGrid c vol) vol),
    (expectation_diag _ _ _ _ _).2 _ _ (kin_expectation g kpts c vol)]
  simp only [hl, bcIdx_self, bcIdx_one]
  congr 1
  simp only [Complex.add_re, Complex.ofReal_re, Complex.re_sum, Complex.ofReal_one, mul_one, one_mul,
    ← Finset.sum_add_distrib, Fin.sum_univ_one]
  refine Finset.sum_congr rfl fun s _ => ?_
  rw [Finset.sum_comm, ← Finset.sum_add_distrib, ← Finset.sum_add_distrib]
  refine Finset.sum_congr rfl fun i _ => ?_
  rw [hL2]
  have hsum : ∀ (f v h : Idx n → ℂ) (w : Fin d → Idx n → ℂ),
      (Spec.cellInner vol f fun x => (v x + ∑ σ, (h x + w σ x)) * f x)
        = (Spec.cellInner vol f fun x => v x * f x) + ∑ σ, ((Spec.cellInner vol f fun x => h x * f x)
          + Spec.cellInner vol f fun x => w σ x * f x) := by
    intro f v h w
    unfold Spec.cellInner
    simp only [← mul_add, ← Finset.sum_add_distrib, ← Finset.mul_sum]
    refine congrArg₂ (· * ·) rfl ?_
    rw [Finset.sum_comm, ← Finset.sum_add_distrib]
    refine Finset.sum_congr rfl fun x _ => ?_
    rw [add_mul, mul_add, Finset.sum_mul, Finset.mul_sum]
    congr 1
    refine Finset.sum_congr rfl fun σ _ => ?_
    ring
  rw [hsum, Complex.add_re, Complex.re_sum]
  simp only [Complex.add_re]
  ring

/-- The hypotheses of `ncHamiltonian_hermitian_odd` are met: a skew cell, an odd grid, two atoms, LDA. -/
example (lib : XcLib) (c : Coef 1 2 3 fun _ => 5) (dens : Fin 1 → Idx (fun _ => 5) → ℝ)
    (psi : Fin 2 → Fin 2 → Fin 4 → Idx (fun _ => 5) → ℂ) (kpts : Fin 2 → Fin 3 → ℝ) :
    ∃ vloc H, localReciprocal (fun _ _ => 0) stepSpline
        (fun a : Fin 2 => ⟨fun _ => if a = 0 then 0 else 1 / 4, 5, fun i => i + 1, fun i => -(4 / (i + 1)), 4⟩)
        (gVectors skewCell fun _ => 5) 1 "sbt" = .ok vloc ∧
      ncHamiltonianMatrix lib "lda_x" true c dens vloc psi (gVectors skewCell fun _ => 5) kpts 1
        = .ok ⟨2, H⟩ ∧ ∀ s k i j, H s k j i = conj (H s k i j) := by
  obtain ⟨vloc, hv⟩ := (local_errors (fun _ _ => 0) stepSpline
    (fun a : Fin 2 => ⟨fun _ => if a = 0 then 0 else 1 / 4, 5, fun i => i + 1, fun i => -(4 / (i + 1)), 4⟩)
    (gVectors skewCell fun _ => 5) 1 "sbt").1 ⟨Or.inl rfl, by norm_num⟩
  obtain ⟨H, h⟩ := ncHamiltonian_hermitian_odd lib "lda_x" (by decide) true (fun _ => by norm_num) skewCell
    skewCell_det c dens _ _ _ _ vloc psi kpts 1 hv (Or.inl rfl)
  exact ⟨vloc, H, hv, h⟩

end Jrystal
