import Verif.Lemmas.Pseudo
import Verif.Lemmas.Xc
import Verif.Props.Braket
import Verif.Props.Cell
import Verif.Props.Sbt

/- Property theorems for C35, C62, C64 and C65 (local pseudopotential and projector form factors). -/
namespace Jrystal
open scoped BigOperators ComplexConjugate
open Matrix

/-! ### C35 -/

/-- The potential in closed form, for both transform methods. -/
private theorem local_eq {jn : SphBessel} {cs : Spline} {na : ℕ} {n : Fin 3 → ℕ} {atoms : Fin na → LocalAtom}
    {g : Idx n → Fin 3 → ℝ} {vol : ℝ} {method : String} {form : LocalAtom → Idx n → ℂ}
    (hf : localForm jn cs g method = .ok form) (hna : 0 < na) :
    localReciprocal jn cs atoms g vol method = .ok fun k => if isOrigin k then 0 else
      (gridCount n : ℂ) / (vol : ℂ) * ∑ a, (form (atoms a) k -
          (((atoms a).z / Spec.dot (g k) (g k) * (4 * Real.pi) : ℝ) : ℂ)) *
        Complex.exp (-(Complex.I * (Spec.dot (g k) (atoms a).pos : ℂ))) := by
  unfold localReciprocal
  rw [hf]
  simp only
  rw [if_neg (by omega)]
  congr 1
  funext k
  cases hk : isOrigin k with
  | true => simp
  | false =>
    simp only [Bool.false_eq_true, if_false]
    have h : gRadius g k ^ 2 = Spec.dot (g k) (g k) := by
      unfold gRadius
      rw [Real.sq_sqrt (Finset.sum_nonneg fun d _ => sq_nonneg _), sum_sq_eq_dot]
    rw [h, mul_comm, ← mul_div_right_comm]
    rfl

private theorem local_inv {jn : SphBessel} {cs : Spline} {na : ℕ} {n : Fin 3 → ℕ} {atoms : Fin na → LocalAtom}
    {g : Idx n → Fin 3 → ℝ} {vol : ℝ} {method : String} {v : Idx n → ℂ}
    (h : localReciprocal jn cs atoms g vol method = .ok v) :
    0 < na ∧ ∃ form, localForm jn cs g method = .ok form := by
  unfold localReciprocal at h
  cases hf : localForm jn cs g method with
  | error e => rw [hf] at h; cases h
  | ok form =>
    rw [hf] at h
    simp only at h
    refine ⟨?_, form, rfl⟩
    by_contra h0
    rw [if_pos (by omega)] at h
    cases h

/-- C35: the potential is computed exactly for the methods "sbt" and "fft" and at least one atom; everything
else raises `ValueError`. -/
theorem local_errors (jn : SphBessel) (cs : Spline) {na : ℕ} {n : Fin 3 → ℕ} (atoms : Fin na → LocalAtom)
    (g : Idx n → Fin 3 → ℝ) (vol : ℝ) (method : String) :
    ((method = "sbt" ∨ method = "fft") ∧ 0 < na →
      ∃ v, localReciprocal jn cs atoms g vol method = .ok v) ∧
    (¬((method = "sbt" ∨ method = "fft") ∧ 0 < na) →
      localReciprocal jn cs atoms g vol method = .error .valueError) := by
  have hform : ∀ m : String, (m = "sbt" ∨ m = "fft") → ∃ f, localForm jn cs g m = .ok f := by
    rintro m (rfl | rfl)
    · exact ⟨_, rfl⟩
    · exact ⟨_, rfl⟩
  constructor
  · rintro ⟨hm, hna⟩
    obtain ⟨f, hf⟩ := hform method hm
    exact ⟨_, local_eq hf hna⟩
  · intro h
    by_cases hm : method = "sbt" ∨ method = "fft"
    · have h0 : na = 0 := by
        by_contra h0
        exact h ⟨hm, by omega⟩
      obtain ⟨f, hf⟩ := hform method hm
      unfold localReciprocal
      rw [hf]
      simp only
      rw [if_pos h0]
    · push Not at hm
      unfold localReciprocal localForm
      rw [if_neg hm.1, if_neg hm.2]

theorem maxRadius_eq {ι : Type} [Fintype ι] (rad : ι → ℝ) (h0 : ∀ i, 0 ≤ rad i) (m : ℝ)
    (hm : IsGreatest (Set.range rad) m) : maxRadius rad = m := by
  unfold maxRadius
  obtain ⟨⟨i, hi⟩, hub⟩ := hm
  have h1 := (Finset.fold_max_le (b := (0 : ℝ)) (s := Finset.univ) (f := rad) m).mpr
    ⟨by rw [← hi]; exact h0 i, fun j _ => hub ⟨j, rfl⟩⟩
  have h2 := (Finset.le_fold_max (b := (0 : ℝ)) (s := Finset.univ) (f := rad) m).mpr
    (Or.inr ⟨i, Finset.mem_univ i, hi.ge⟩)
  exact le_antisymm h1 h2

/-- C35: the potential of the default method.  It vanishes at `G = 0`; elsewhere it is
`(N/vol) Σ_a F_a(|G|) e^{-iG·τ_a}` where `F_a(q) = 4π S_a(q) - 4π Z_a/q²` and `S_a` is the cubic spline
through the left Riemann sums `Σ_i (v(r_i) + Z/r_i) r_i² j_0(q r_i) (r_{i+1} - r_i)` at the `2 nr` equidistant
points `q` from `0.0001` to the largest `|G|`. -/
theorem local_formula (jn : SphBessel) (cs : Spline) {na : ℕ} (hna : 0 < na) {n : Fin 3 → ℕ}
    (atoms : Fin na → LocalAtom) (g : Idx n → Fin 3 → ℝ) (vol kmax : ℝ)
    (hk : IsGreatest (Set.range fun k => Real.sqrt (Spec.dot (g k) (g k))) kmax) :
    ∃ v, localReciprocal jn cs atoms g vol "sbt" = .ok v ∧
      (∀ k : Idx n, (∀ i, (k i : ℕ) = 0) → v k = 0) ∧
      ∀ k : Idx n, (∃ i, (k i : ℕ) ≠ 0) →
        v k = ((∏ i, n i : ℕ) : ℂ) / (vol : ℂ) * ∑ a,
          ((4 * Real.pi * cs (2 * (atoms a).nr)
              (fun j => 0.0001 + j * ((kmax - 0.0001) / (((2 * (atoms a).nr : ℕ) : ℝ) - 1)))
              (fun j => ∑ i ∈ Finset.range ((atoms a).nr - 1),
                ((atoms a).v i + (atoms a).z / (atoms a).r i) * (atoms a).r i ^ 2 *
                  jn 0 ((0.0001 + j * ((kmax - 0.0001) / (((2 * (atoms a).nr : ℕ) : ℝ) - 1))) * (atoms a).r i) *
                  ((atoms a).r (i + 1) - (atoms a).r i))
              (Real.sqrt (Spec.dot (g k) (g k)))
            - 4 * Real.pi * ((atoms a).z / Spec.dot (g k) (g k)) : ℝ) : ℂ) *
          Complex.exp (-(Complex.I * (Spec.dot (g k) (atoms a).pos : ℂ))) := by
  have hrad : ∀ k, gRadius g k = Real.sqrt (Spec.dot (g k) (g k)) := fun k => by
    unfold gRadius
    rw [sum_sq_eq_dot]
  have hmax : maxRadius (gRadius g) = kmax := by
    rw [show gRadius g = fun k => Real.sqrt (Spec.dot (g k) (g k)) from funext hrad]
    exact maxRadius_eq _ (fun k => Real.sqrt_nonneg _) _ hk
  refine ⟨_, local_eq rfl hna, fun k h => ?_, fun k h => ?_⟩
  · rw [if_pos ((isOrigin_iff k).mpr h)]
  · rw [(isOrigin_false k).mpr h]
    simp only [Bool.false_eq_true, if_false]
    refine congrArg₂ (· * ·) rfl (Finset.sum_congr rfl fun a _ => ?_)
    rw [← Complex.ofReal_sub]
    congr 2
    unfold localSbt
    simp only [hmax, hrad]
    have hs : sbtNumerical jn (atoms a).nr (atoms a).r kmax 0
        (fun i => (atoms a).v i + (atoms a).z / (atoms a).r i) (deltaR (atoms a).nr (atoms a).r)
        = fun j : ℕ => ∑ i ∈ Finset.range ((atoms a).nr - 1),
                ((atoms a).v i + (atoms a).z / (atoms a).r i) * (atoms a).r i ^ 2 *
                  jn 0 ((0.0001 + j * ((kmax - 0.0001) / (((2 * (atoms a).nr : ℕ) : ℝ) - 1))) * (atoms a).r i) *
                  ((atoms a).r (i + 1) - (atoms a).r i) := by
      funext j
      cases hnr : (atoms a).nr with
      | zero => rfl
      | succ m =>
        rw [sbtNumerical_leftRiemann]
        rfl
    rw [hs]
    have hg : gGrid (atoms a).nr kmax
        = fun j : ℕ => 0.0001 + j * ((kmax - 0.0001) / (((2 * (atoms a).nr : ℕ) : ℝ) - 1)) := rfl
    rw [hg]
    ring

/-- C35: the potential is the sum of the potentials of the single atoms, for both methods. -/
theorem local_additive (jn : SphBessel) (cs : Spline) {na : ℕ} {n : Fin 3 → ℕ} (atoms : Fin na → LocalAtom)
    (g : Idx n → Fin 3 → ℝ) (vol : ℝ) (method : String) (v : Idx n → ℂ)
    (h : localReciprocal jn cs atoms g vol method = .ok v) :
    ∃ w : Fin na → Idx n → ℂ,
      (∀ a, localReciprocal jn cs (fun _ : Fin 1 => atoms a) g vol method = .ok (w a)) ∧
      ∀ k, v k = ∑ a, w a k := by
  obtain ⟨hna, form, hf⟩ := local_inv h
  rw [local_eq hf hna] at h
  refine ⟨_, fun a => local_eq hf (by norm_num), fun k => ?_⟩
  have h' := congrFun (Except.ok.inj h) k
  rw [← h']
  cases isOrigin k with
  | true => simp
  | false =>
    simp only [Bool.false_eq_true, if_false, Fin.sum_univ_one]
    rw [Finset.mul_sum]

/-- C35: the order of the atoms does not matter. -/
theorem local_permute (jn : SphBessel) (cs : Spline) {na : ℕ} {n : Fin 3 → ℕ} (atoms : Fin na → LocalAtom)
    (g : Idx n → Fin 3 → ℝ) (vol : ℝ) (method : String) (e : Equiv.Perm (Fin na)) :
    localReciprocal jn cs (fun a => atoms (e a)) g vol method = localReciprocal jn cs atoms g vol method := by
  by_cases hok : (method = "sbt" ∨ method = "fft") ∧ 0 < na
  · obtain ⟨v, hv⟩ := (local_errors jn cs atoms g vol method).1 hok
    obtain ⟨hna, form, hf⟩ := local_inv hv
    rw [local_eq hf hna, local_eq hf hna]
    congr 1
    funext k
    cases isOrigin k with
    | true => rfl
    | false =>
      simp only [Bool.false_eq_true, if_false]
      refine congrArg₂ (· * ·) rfl ?_
      exact Equiv.sum_comp e fun a => (form (atoms a) k -
          (((atoms a).z / Spec.dot (g k) (g k) * (4 * Real.pi) : ℝ) : ℂ)) *
        Complex.exp (-(Complex.I * (Spec.dot (g k) (atoms a).pos : ℂ)))
  · rw [(local_errors jn cs _ g vol method).2 hok, (local_errors jn cs _ g vol method).2 hok]

/-- An atom moved by a vector. -/
def LocalAtom.move (a : LocalAtom) (t : Fin 3 → ℝ) : LocalAtom := { a with pos := a.pos + t }

private theorem form_move {jn : SphBessel} {cs : Spline} {n : Fin 3 → ℕ} {g : Idx n → Fin 3 → ℝ}
    {method : String} {form : LocalAtom → Idx n → ℂ} (hf : localForm jn cs g method = .ok form)
    (a : LocalAtom) (t : Fin 3 → ℝ) : form (a.move t) = form a := by
  unfold localForm at hf
  split at hf
  · rw [← Except.ok.inj hf]; rfl
  · split at hf
    · rw [← Except.ok.inj hf]; rfl
    · cases hf

private theorem phase_move (q τ t : Fin 3 → ℝ) :
    Complex.exp (-(Complex.I * (Spec.dot q (τ + t) : ℂ)))
      = Complex.exp (-(Complex.I * (Spec.dot q τ : ℂ))) * Complex.exp (-(Complex.I * (Spec.dot q t : ℂ))) := by
  rw [← Complex.exp_add]
  congr 1
  unfold Spec.dot
  push_cast
  rw [← neg_add, ← mul_add, ← Finset.sum_add_distrib]
  congr 2
  exact Finset.sum_congr rfl fun d _ => by rw [Pi.add_apply]; push_cast; ring

/-- C35: moving atoms by lattice vectors, a different one for each atom, changes nothing. -/
theorem local_lattice (jn : SphBessel) (cs : Spline) {na : ℕ} (A : Matrix (Fin 3) (Fin 3) ℝ) (hA : A.det ≠ 0)
    {n : Fin 3 → ℕ} (atoms : Fin na → LocalAtom) (t : Fin na → Fin 3 → ℝ)
    (ht : ∀ a, Spec.IsLatticeVector A (t a)) (vol : ℝ) (method : String) :
    localReciprocal jn cs (fun a => (atoms a).move (t a)) (gVectors A n) vol method
      = localReciprocal jn cs atoms (gVectors A n) vol method := by
  by_cases hok : (method = "sbt" ∨ method = "fft") ∧ 0 < na
  · obtain ⟨v, hv⟩ := (local_errors jn cs atoms (gVectors A n) vol method).1 hok
    obtain ⟨hna, form, hf⟩ := local_inv hv
    rw [local_eq hf hna, local_eq hf hna]
    congr 1
    funext k
    cases isOrigin k with
    | true => rfl
    | false =>
      simp only [Bool.false_eq_true, if_false]
      refine congrArg₂ (· * ·) rfl (Finset.sum_congr rfl fun a _ => ?_)
      rw [form_move hf]
      have h1 : Complex.exp (-(Complex.I * (Spec.dot (gVectors A n k) (t a) : ℂ))) = 1 :=
        exp_lattice A hA n k (t a) (ht a)
      have h2 := phase_move (gVectors A n k) (atoms a).pos (t a)
      rw [h1, mul_one] at h2
      rw [← h2]
      rfl
  · rw [(local_errors jn cs _ _ vol method).2 hok, (local_errors jn cs _ _ vol method).2 hok]

/-- C35: moving all atoms by a grid vector moves the real-space potential by the same number of grid
steps. -/
theorem local_translate (jn : SphBessel) (cs : Spline) {na : ℕ} (A : Matrix (Fin 3) (Fin 3) ℝ) (hA : A.det ≠ 0)
    {n : Fin 3 → ℕ} (atoms : Fin na → LocalAtom) (t : Idx n) (vol : ℝ) (method : String) (v : Idx n → ℂ)
    (h : localReciprocal jn cs atoms (gVectors A n) vol method = .ok v) :
    ∃ v', localReciprocal jn cs (fun a => (atoms a).move (rVectors A n t)) (gVectors A n) vol method = .ok v' ∧
      ∀ j j', Spec.IsShift t j j' → ifftn v' j' = ifftn v j := by
  obtain ⟨hna, form, hf⟩ := local_inv h
  rw [local_eq hf hna] at h
  refine ⟨_, local_eq hf hna, fun j j' hj => ?_⟩
  rw [isShift_unique hj, ← Except.ok.inj h]
  refine ifftn_translate _ _ t (fun k => ?_) j
  cases isOrigin k with
  | true => simp
  | false =>
    simp only [Bool.false_eq_true, if_false]
    rw [mul_assoc, Finset.sum_mul]
    refine congrArg₂ (· * ·) rfl (Finset.sum_congr rfl fun a _ => ?_)
    rw [form_move hf, ← exp_grid A hA n k t, mul_assoc]
    have h2 := phase_move (gVectors A n k) (atoms a).pos (rVectors A n t)
    rw [show (∑ d, gVectors A n k d * rVectors A n t d : ℝ) = Spec.dot (gVectors A n k) (rVectors A n t) from rfl,
      ← h2]
    rfl

/-- C35: for the pure Coulomb table `v(r) = -Z/r` the default method gives the potential of bare point
charges `-(4π N/vol) Σ_a Z_a e^{-iG·τ_a}/|G|²`, whatever the mesh, for every spline routine that maps the zero
table to zero. -/
theorem local_coulomb (jn : SphBessel) (cs : Spline) (hcs : ∀ N x q, cs N x (fun _ => 0) q = 0) {na : ℕ}
    (hna : 0 < na) {n : Fin 3 → ℕ} (atoms : Fin na → LocalAtom)
    (hv : ∀ a i, (atoms a).v i = -((atoms a).z / (atoms a).r i)) (g : Idx n → Fin 3 → ℝ) (vol : ℝ) :
    ∃ v, localReciprocal jn cs atoms g vol "sbt" = .ok v ∧
      ∀ k : Idx n, (∃ i, (k i : ℕ) ≠ 0) →
        v k = -(4 * Real.pi * ((∏ i, n i : ℕ) : ℂ) / (vol : ℂ)) *
          ∑ a, (((atoms a).z / Spec.dot (g k) (g k) : ℝ) : ℂ) *
            Complex.exp (-(Complex.I * (Spec.dot (g k) (atoms a).pos : ℂ))) := by
  refine ⟨_, local_eq rfl hna, fun k h => ?_⟩
  rw [(isOrigin_false k).mpr h]
  simp only [Bool.false_eq_true, if_false]
  have h0 : ∀ a, localSbt jn cs g (atoms a) k = 0 := by
    intro a
    unfold localSbt
    simp only
    have : sbtNumerical jn (atoms a).nr (atoms a).r (maxRadius (gRadius g)) 0
        (fun i => (atoms a).v i + (atoms a).z / (atoms a).r i) (deltaR (atoms a).nr (atoms a).r)
        = fun _ => 0 := by
      funext j
      unfold sbtNumerical
      exact Finset.sum_eq_zero fun i _ => by beta_reduce; rw [hv]; ring
    rw [this, hcs, zero_mul]
  rw [Finset.mul_sum, Finset.mul_sum]
  refine Finset.sum_congr rfl fun a _ => ?_
  rw [h0]
  change (((∏ i, n i : ℕ) : ℂ)) / (vol : ℂ) * _ = _
  push_cast
  ring

/-- C35: `energy_local` of transformed real densities is the integral over the cell of the total density
times the real part of the real-space potential. -/
theorem energyLocal_integral {ns : ℕ} {n : Fin 3 → ℕ} (hn : ∀ i, 0 < n i) (dens : Fin ns → Idx n → ℝ)
    (v : Idx n → ℂ) (vol : ℝ) :
    energyLocal (fun s => fftn fun j => (dens s j : ℂ)) v vol
      = .ok (Spec.cellIntegral vol fun j => (∑ s, dens s j) * (ifftn v j).re) := by
  have hN : (gridCount n : ℂ) ≠ 0 := gridCount_ne (zeroIdx hn)
  unfold energyLocal
  rw [reciprocalBraket_one]
  congr 1
  have h1 : ∀ k, ∑ s, fftn (fun j => (dens s j : ℂ)) k = fftn (fun j => ((∑ s, dens s j : ℝ) : ℂ)) k := by
    intro k
    rw [← fftn_sum]
    congr 1
    funext j
    push_cast
    rfl
  have h2 : ∑ k, conj (v k) * ∑ s, fftn (fun j => (dens s j : ℂ)) k
      = (gridCount n : ℂ) * ∑ j, conj (ifftn v j) * ((∑ s, dens s j : ℝ) : ℂ) := by
    rw [← fftn_parseval, fftn_ifftn']
    exact Finset.sum_congr rfl fun k _ => by rw [h1]
  rw [h2]
  unfold Spec.cellIntegral
  change vol / (gridCount n : ℝ) ^ 2 * (((gridCount n : ℝ) : ℂ) * _).re = vol / (gridCount n : ℝ) * _
  have hNr : (gridCount n : ℝ) ≠ 0 := gridCount_ne_real (zeroIdx hn)
  rw [Complex.re_ofReal_mul, Complex.re_sum]
  have h3 : ∀ j, (conj (ifftn v j) * ((∑ s, dens s j : ℝ) : ℂ)).re = (∑ s, dens s j) * (ifftn v j).re := by
    intro j
    rw [Complex.re_mul_ofReal, Complex.conj_re]
    ring
  rw [Finset.sum_congr rfl fun j _ => h3 j]
  field_simp

/-- C35: the elements of `hamiltonian_local` are the integrals `⟨ψ_i|V|ψ_j⟩` with the real-space potential,
and the occupation-weighted sum of the real parts of its diagonal is `energy_local` of the density of the
same wave functions. -/
theorem hamiltonianLocal_energy {ns nk nb : ℕ} {n : Fin 3 → ℕ} (hn : ∀ i, 0 < n i) (w : Coef ns nk nb n)
    (v : Idx n → ℂ) (vol : ℝ) (occ : Occ ns nk nb) :
    ∃ M : Fin ns → Fin nk → Fin nb → Fin nb → ℂ,
      hamiltonianLocal w v vol = .ok ⟨nk, M⟩ ∧
      (∀ s k i j, M s k i j = Spec.cellInner vol (w s k i) fun x => ifftn v x * w s k j x) ∧
      energyLocal (waveToDensityReciprocal w occ) v vol
        = .ok (∑ s, ∑ k, ∑ b, occ s k b * (M s k b b).re) := by
  refine ⟨_, (expectation_unpolarised_partial w (ifftn v) vol).2, fun _ _ _ _ => rfl, ?_⟩
  unfold waveToDensityReciprocal
  rw [energyLocal_integral hn]
  congr 1
  have h1 : ∀ s k b, (Spec.cellInner vol (w s k b) fun x => ifftn v x * w s k b x).re
      = vol / (gridCount n : ℝ) * ∑ x, absoluteSquare (w s k b x) * (ifftn v x).re := by
    intro s k b
    unfold Spec.cellInner
    change (((vol / (gridCount n : ℝ) : ℝ) : ℂ) * _).re = _
    rw [Complex.re_ofReal_mul, Complex.re_sum]
    congr 1
    refine Finset.sum_congr rfl fun x _ => ?_
    rw [mul_left_comm, Complex.conj_mul', absoluteSquare_eq, mul_comm, ← Complex.ofReal_pow,
      Complex.re_ofReal_mul]
  simp only [h1]
  unfold Spec.cellIntegral waveToDensity
  change vol / (gridCount n : ℝ) * _ = _
  simp only [Fintype.sum_prod_type, Finset.sum_mul, Finset.mul_sum]
  rw [Finset.sum_comm]
  refine Finset.sum_congr rfl fun s _ => ?_
  rw [Finset.sum_comm]
  refine Finset.sum_congr rfl fun k _ => ?_
  rw [Finset.sum_comm]
  refine Finset.sum_congr rfl fun b _ => Finset.sum_congr rfl fun x _ => ?_
  ring

/-! ### C62: the local potential as a real function -/

private theorem sfreq_opp {m a b : ℕ} (ha : a < m) (hb : b < m) (hodd : m % 2 = 1)
    (h : m ∣ a + b) : sfreq m b = -sfreq m a := by
  rw [sfreq_eq ha, sfreq_eq hb]
  obtain ⟨q, hq⟩ := h
  have : q < 2 := by
    by_contra hcon
    have : m * 2 ≤ m * q := Nat.mul_le_mul_left _ (by omega)
    omega
  interval_cases q
  · split_ifs <;> omega
  · split_ifs <;> omega

private theorem neg_dvd {n : Fin 3 → ℕ} (k : Idx n) (i : Fin 3) : n i ∣ (k i : ℕ) + (negIdx k i : ℕ) := by
  have := (k i).2
  show n i ∣ (k i : ℕ) + (n i - (k i : ℕ)) % n i
  by_cases h0 : (k i : ℕ) = 0
  · rw [h0]; simp
  · rw [Nat.mod_eq_of_lt (by omega), Nat.add_sub_cancel' (by omega)]

private theorem isOrigin_neg {n : Fin 3 → ℕ} (k : Idx n) : isOrigin (negIdx k) = isOrigin k := by
  rw [Bool.eq_iff_iff, isOrigin_iff, isOrigin_iff]
  refine forall_congr' fun i => ?_
  have := (k i).2
  show (n i - (k i : ℕ)) % n i = 0 ↔ _
  by_cases h0 : (k i : ℕ) = 0
  · rw [h0]; simp
  · rw [Nat.mod_eq_of_lt (by omega)]; omega

private theorem gVectors_opp (A : Matrix (Fin 3) (Fin 3) ℝ) {n : Fin 3 → ℕ} (hn : ∀ i, n i % 2 = 1)
    (k : Idx n) : gVectors A n (negIdx k) = -gVectors A n k := by
  funext d
  rw [Pi.neg_apply, gVectors_apply, gVectors_apply, ← Finset.sum_neg_distrib]
  refine Finset.sum_congr rfl fun i _ => ?_
  rw [sfreq_opp (k i).2 (negIdx k i).2 (hn i) (neg_dvd k i)]
  push_cast
  ring

private theorem form_opp {jn : SphBessel} {cs : Spline} (A : Matrix (Fin 3) (Fin 3) ℝ) {n : Fin 3 → ℕ}
    (hn : ∀ i, n i % 2 = 1) {method : String} {form : LocalAtom → Idx n → ℂ}
    (hf : localForm jn cs (gVectors A n) method = .ok form) (a : LocalAtom) (k : Idx n) :
    form a (negIdx k) = conj (form a k) := by
  have hr : gRadius (gVectors A n) (negIdx k) = gRadius (gVectors A n) k := by
    unfold gRadius
    rw [gVectors_opp A hn]
    simp
  unfold localForm at hf
  split at hf
  · rw [← Except.ok.inj hf]
    unfold localSbt
    simp only [hr, Complex.conj_ofReal]
  · split at hf
    · rw [← Except.ok.inj hf]
      unfold localFft
      simp only [map_mul, map_div₀, Complex.conj_ofReal, fftn_real_neg, Complex.conj_natCast]
      rw [show (starRingEnd ℂ) 4 = 4 from Complex.conj_ofNat 4]
    · cases hf

/-- C62: on grids with three odd sizes the real-space local potential is real, for all atoms, positions and
both methods.  Missing: even sizes (`local_not_real`). -/
theorem local_real_partial (jn : SphBessel) (cs : Spline) {na : ℕ} (A : Matrix (Fin 3) (Fin 3) ℝ)
    {n : Fin 3 → ℕ} (hn : ∀ i, n i % 2 = 1) (atoms : Fin na → LocalAtom) (vol : ℝ) (method : String)
    (v : Idx n → ℂ) (h : localReciprocal jn cs atoms (gVectors A n) vol method = .ok v) (j : Idx n) :
    (ifftn v j).im = 0 := by
  obtain ⟨hna, form, hf⟩ := local_inv h
  rw [local_eq hf hna] at h
  rw [← Complex.conj_eq_iff_im]
  refine ifftn_hermitian_real v (fun k => ?_) j
  rw [← Except.ok.inj h]
  simp only [isOrigin_neg]
  cases isOrigin k with
  | true => simp
  | false =>
    simp only [Bool.false_eq_true, if_false]
    rw [map_mul, map_div₀, Complex.conj_natCast, Complex.conj_ofReal, map_sum]
    refine congrArg₂ (· * ·) rfl (Finset.sum_congr rfl fun a _ => ?_)
    have hd : ∀ u : Fin 3 → ℝ, Spec.dot (-gVectors A n k) u = -Spec.dot (gVectors A n k) u := by
      intro u
      unfold Spec.dot
      rw [← Finset.sum_neg_distrib]
      exact Finset.sum_congr rfl fun d _ => by rw [Pi.neg_apply]; ring
    have hdd : Spec.dot (-gVectors A n k) (-gVectors A n k) = Spec.dot (gVectors A n k) (gVectors A n k) := by
      unfold Spec.dot
      exact Finset.sum_congr rfl fun d _ => by rw [Pi.neg_apply]; ring
    rw [form_opp A hn hf, gVectors_opp A hn, hdd, hd, map_mul, map_sub, Complex.conj_ofReal,
      ← Complex.exp_conj, map_neg, map_mul, Complex.conj_I, Complex.conj_ofReal]
    congr 2
    push_cast
    ring

/-- C62: on grids with three odd sizes the matrix of the local potential is Hermitian. -/
theorem hamiltonianLocal_hermitian_partial (jn : SphBessel) (cs : Spline) {na ns nk nb : ℕ}
    (A : Matrix (Fin 3) (Fin 3) ℝ) {n : Fin 3 → ℕ} (hn : ∀ i, n i % 2 = 1) (atoms : Fin na → LocalAtom)
    (vol : ℝ) (method : String) (v : Idx n → ℂ)
    (h : localReciprocal jn cs atoms (gVectors A n) vol method = .ok v) (w : Coef ns nk nb n) :
    ∃ M : Fin ns → Fin nk → Fin nb → Fin nb → ℂ, hamiltonianLocal w v vol = .ok ⟨nk, M⟩ ∧
      ∀ s k i j, M s k j i = conj (M s k i j) := by
  have hM := (expectation_unpolarised_partial w (ifftn v) vol).2
  refine ⟨_, hM, fun s k i j => ?_⟩
  refine (expectation_hermitian w (.grid (ifftn v)) (fun x => ?_) vol "real" nk _ hM s k i j).1
  rw [Complex.conj_eq_iff_im]
  exact local_real_partial jn cs A hn atoms vol method v h x

private theorem g_point : gVectors 1 grid2 (pt2 true) = fun d => if d = 0 then -(2 * Real.pi) else 0 := by
  funext d
  rw [gVectors_apply, Fin.sum_univ_three]
  have h : reciprocalVectors 1 = (2 * Real.pi) • (1 : Matrix (Fin 3) (Fin 3) ℝ) := by
    unfold reciprocalVectors
    rw [inv_one, Matrix.transpose_one]
  rw [h]
  have h0 : sfreq (grid2 0) (pt2 true 0) = -1 := by decide
  have h1 : sfreq (grid2 1) (pt2 true 1) = 0 := by decide
  have h2 : sfreq (grid2 2) (pt2 true 2) = 0 := by decide
  rw [h0, h1, h2]
  fin_cases d <;> simp

/-- C62 fails on even grids: for one atom of charge one at a quarter of the first cell vector of the unit
cube, with the pure Coulomb table, the real-space potential on the grid `2 × 1 × 1` is not real, and the
matrix of the local potential is not Hermitian. -/
theorem local_not_real (jn : SphBessel) (cs : Spline) (hcs : ∀ N x q, cs N x (fun _ => 0) q = 0) :
    ∃ (a : LocalAtom) (v : Idx grid2 → ℂ), a.z = 1 ∧
      localReciprocal jn cs (fun _ : Fin 1 => a) (gVectors 1 grid2) 1 "sbt" = .ok v ∧
      (∃ j, (ifftn v j).im ≠ 0) ∧
      ∃ (w : Coef 1 1 1 grid2) (M : Fin 1 → Fin 1 → Fin 1 → Fin 1 → ℂ),
        hamiltonianLocal w v 1 = .ok ⟨1, M⟩ ∧ M 0 0 0 0 ≠ conj (M 0 0 0 0) := by
  let a : LocalAtom := ⟨fun d => if d = 0 then 1 / 4 else 0, 1, fun _ => 1, fun _ => -1, 1⟩
  obtain ⟨v, hv, hk⟩ := local_coulomb jn cs hcs (na := 1) (by norm_num) (fun _ => a)
    (fun _ _ => by simp [a]) (gVectors 1 grid2) 1
  have hpi := Real.pi_pos
  have hv1 : v (pt2 true) = ((-(2 / Real.pi) : ℝ) : ℂ) * Complex.I := by
    rw [hk (pt2 true) ⟨0, by decide⟩, g_point, Fin.sum_univ_one]
    have h1 : Spec.dot (fun d : Fin 3 => if d = 0 then -(2 * Real.pi) else 0)
        (fun d => if d = 0 then -(2 * Real.pi) else 0) = 4 * Real.pi ^ 2 := by
      unfold Spec.dot
      rw [Fin.sum_univ_three]
      simp
      ring
    have h2 : Spec.dot (fun d : Fin 3 => if d = 0 then -(2 * Real.pi) else 0) a.pos = -(Real.pi / 2) := by
      unfold Spec.dot
      rw [Fin.sum_univ_three]
      simp [a]
      ring
    rw [h1, h2]
    have h3 : Complex.exp (-(Complex.I * ((-(Real.pi / 2) : ℝ) : ℂ))) = Complex.I := by
      refine Eq.trans (congrArg Complex.exp ?_) Complex.exp_pi_div_two_mul_I
      push_cast
      ring
    rw [h3]
    have h4 : ((∏ i, grid2 i : ℕ) : ℂ) = 2 := by
      have : ∏ i, grid2 i = 2 := by decide
      rw [this]; norm_num
    rw [h4]
    have hpc : (Real.pi : ℂ) ≠ 0 := by exact_mod_cast hpi.ne'
    push_cast
    simp only [a]
    field_simp
    norm_num
  obtain ⟨v', hv', h0, _⟩ : ∃ v', localReciprocal jn cs (fun _ : Fin 1 => a) (gVectors 1 grid2) 1 "sbt" = .ok v' ∧
      v' (pt2 false) = 0 ∧ True := by
    refine ⟨_, local_eq rfl (by norm_num), ?_, trivial⟩
    rw [if_pos ((isOrigin_iff _).mpr pt2_false_zero)]
  have hvv : v' = v := Except.ok.inj (hv'.symm.trans hv)
  rw [hvv] at h0
  have hif : ifftn v (pt2 false) = ((-(1 / Real.pi) : ℝ) : ℂ) * Complex.I := by
    rw [(ifftn_grid2 v).1, h0, hv1]
    push_cast
    ring
  refine ⟨a, v, rfl, hv, ⟨pt2 false, ?_⟩, fun _ _ _ x => if x = pt2 false then 1 else 0, _,
    (expectation_unpolarised_partial _ (ifftn v) 1).2, ?_⟩
  · rw [hif, Complex.im_ofReal_mul]
    simp [hpi.ne']
  · beta_reduce
    have hM : Spec.cellInner 1 (fun x : Idx grid2 => if x = pt2 false then (1 : ℂ) else 0)
        (fun x => ifftn v x * if x = pt2 false then (1 : ℂ) else 0)
        = (((1 / 2 : ℝ) * -(1 / Real.pi) : ℝ) : ℂ) * Complex.I := by
      unfold Spec.cellInner
      have h4 : ((∏ i, grid2 i : ℕ) : ℝ) = 2 := by
        have : ∏ i, grid2 i = 2 := by decide
        rw [this]; norm_num
      rw [h4, sum_grid2]
      beta_reduce
      rw [if_pos rfl, if_neg pt2_ne.symm, hif]
      simp
      ring
    rw [hM, map_mul, Complex.conj_ofReal, Complex.conj_I]
    intro h
    have h5 := congrArg Complex.im h
    rw [Complex.im_ofReal_mul, Complex.im_ofReal_mul] at h5
    simp at h5
    have h6 : 0 < Real.pi⁻¹ := inv_pos.mpr hpi
    linarith

/-! ### C64: the method "fft" -/

/-- C64: what the method "fft" gives for one atom at the origin without Coulomb tail (charge zero): the
tabulated potential at the distances of the grid points from the origin minus its mean, times `4π/vol`.  The
distances are those of the grid of the transposed cell, measured inside the cell without wrapping. -/
theorem local_fft_actual (jn : SphBessel) (cs : Spline) (A : Matrix (Fin 3) (Fin 3) ℝ) (hA : A.det ≠ 0)
    {n : Fin 3 → ℕ} (hn : ∀ i, 2 ≤ n i) (nr : ℕ) (r v : Samples) (vol : ℝ) :
    ∃ V, localReciprocal jn cs (fun _ : Fin 1 => ⟨0, nr, r, v, 0⟩) (gVectors A n) vol "fft" = .ok V ∧
      ∀ j, ifftn V j = ((4 * Real.pi / vol * (
        cs nr r v (Real.sqrt (Spec.dot (rVectors Aᵀ n j) (rVectors Aᵀ n j))) -
          (∑ l, cs nr r v (Real.sqrt (Spec.dot (rVectors Aᵀ n l) (rVectors Aᵀ n l)))) / ((∏ i, n i : ℕ) : ℝ)) : ℝ) : ℂ) := by
  refine ⟨_, local_eq rfl (by norm_num), fun j => ?_⟩
  have hN : (gridCount n : ℂ) ≠ 0 := gridCount_ne j
  set u : Idx n → ℝ := fun l => cs nr r v (Real.sqrt (Spec.dot (rVectors Aᵀ n l) (rVectors Aᵀ n l))) with hu
  have hform : ∀ k, localFft cs (gVectors A n) ⟨0, nr, r, v, 0⟩ k
      = fftn (fun l => (u l : ℂ)) k / (gridCount n : ℂ) * 4 * (Real.pi : ℂ) := by
    intro k
    unfold localFft g2rVectorGrid
    rw [Option.getD_none, g2cell_transposes A hA n hn]
    simp only [zero_div, add_zero, sum_sq_eq_dot]
    rfl
  have hV : (fun k => if isOrigin k then (0 : ℂ) else
      (gridCount n : ℂ) / (vol : ℂ) * ∑ a : Fin 1, (localFft cs (gVectors A n) ⟨0, nr, r, v, 0⟩ k -
          (((0 : ℝ) / Spec.dot (gVectors A n k) (gVectors A n k) * (4 * Real.pi) : ℝ) : ℂ)) *
        Complex.exp (-(Complex.I * (Spec.dot (gVectors A n k) 0 : ℂ))))
      = fftn fun l => ((4 * Real.pi / vol : ℝ) : ℂ) * ((u l : ℂ) + (-(((∑ l, u l) / (gridCount n : ℝ) : ℝ)) : ℂ)) := by
    funext k
    rw [fftn_smul, fftn_add]
    by_cases hk : ∃ i, (k i : ℕ) ≠ 0
    · rw [(isOrigin_false k).mpr hk, fftn_const _ k hk, add_zero]
      simp only [Bool.false_eq_true, if_false, Fin.sum_univ_one, hform]
      have h0 : Spec.dot (gVectors A n k) 0 = 0 := by
        unfold Spec.dot
        simp
      rw [h0]
      push_cast
      simp
      field_simp
    · have h1 : ∀ i, (k i : ℕ) = 0 := by push Not at hk; exact hk
      rw [(isOrigin_iff k).mpr h1, if_pos rfl, fftn_zero _ k h1, fftn_zero _ k h1]
      rw [Finset.sum_const, Finset.card_univ]
      have hc : Fintype.card (Idx n) = gridCount n := by
        unfold gridCount
        simp [Fintype.card_pi]
      rw [hc]
      push_cast
      rw [nsmul_eq_mul]
      field_simp
      simp
  refine (congrFun (congrArg ifftn hV) j).trans ?_
  rw [ifftn_fftn']
  change _ = ((4 * Real.pi / vol * (u j - (∑ l, u l) / (gridCount n : ℝ)) : ℝ) : ℂ)
  push_cast
  ring

/-- C64 fails: unless the cell volume happens to be `4π`, the method "fft" misses the tabulated potential
(up to the constant that the zero mean fixes) at every grid point where the table differs from its mean. -/
theorem local_fft_wrong (jn : SphBessel) (cs : Spline) (A : Matrix (Fin 3) (Fin 3) ℝ) (hA : A.det ≠ 0)
    (hs : ∀ i j, A i j = A j i) {n : Fin 3 → ℕ} (hn : ∀ i, 2 ≤ n i) (nr : ℕ) (r v : Samples) (vol : ℝ)
    (h0 : vol ≠ 0) (hvol : vol ≠ 4 * Real.pi) (mean : ℝ)
    (hmean : mean = (∑ l, cs nr r v (Real.sqrt (Spec.dot (rVectors A n l) (rVectors A n l)))) /
      ((∏ i, n i : ℕ) : ℝ)) :
    ∃ V, localReciprocal jn cs (fun _ : Fin 1 => ⟨0, nr, r, v, 0⟩) (gVectors A n) vol "fft" = .ok V ∧
      ∀ j, cs nr r v (Real.sqrt (Spec.dot (rVectors A n j) (rVectors A n j))) ≠ mean →
        ifftn V j ≠ ((cs nr r v (Real.sqrt (Spec.dot (rVectors A n j) (rVectors A n j))) - mean : ℝ) : ℂ) := by
  obtain ⟨V, hV, h⟩ := local_fft_actual jn cs A hA hn nr r v vol
  have hT : Aᵀ = A := by
    ext i j
    rw [Matrix.transpose_apply, hs]
  refine ⟨V, hV, fun j hj he => ?_⟩
  rw [h j, hT, ← hmean, Complex.ofReal_inj] at he
  have h1 : (4 * Real.pi / vol - 1) * (cs nr r v (Real.sqrt (Spec.dot (rVectors A n j) (rVectors A n j))) - mean)
      = 0 := by linarith
  rcases mul_eq_zero.mp h1 with h2 | h2
  · rw [sub_eq_zero, div_eq_one_iff_eq h0] at h2
    exact hvol h2.symm
  · exact hj (sub_eq_zero.mp h2)

/-! ### C65: transforms of the projectors -/

/-- C65: errors of the projector transform: a number of angular momenta different from the number of
projectors, or projectors sampled on a mesh of another length, fail an assertion. -/
theorem betaSbt_errors (jn : SphBessel) (cs : Spline) {nk : ℕ} {n : Fin 3 → ℕ} (nr nrow ncol : ℕ)
    (r : Samples) (beta : ℕ → Samples) (ang : List ℤ) (g : Idx n → Fin 3 → ℝ) (kpts : Fin nk → Fin 3 → ℝ)
    (h : ang.length ≠ nrow ∨ nr ≠ ncol) :
    betaSbtSingle jn cs nr nrow ncol r beta ang g kpts = .error .assertionError := by
  unfold betaSbtSingle
  by_cases h1 : ang.length ≠ nrow
  · rw [if_pos h1]
  · rw [if_neg h1, if_pos (h.resolve_left h1)]

/-- C65: for matching lengths the value at `k + G` is, for every projector, the spline through the left
Riemann sums `Σ_i β(r_i) r_i² j_l(q r_i) (r_{i+1} - r_i)` with the angular momentum at the position of the
projector, over the mesh without its first point when that point is zero. -/
theorem betaSbt_formula (jn : SphBessel) (cs : Spline) {nk : ℕ} {n : Fin 3 → ℕ} (nr nrow : ℕ) (hnr : 0 < nr)
    (r : Samples) (beta : ℕ → Samples) (ang : List ℤ) (hl : ang.length = nrow) (g : Idx n → Fin 3 → ℝ)
    (kpts : Fin nk → Fin 3 → ℝ) (kmax : ℝ)
    (hk : IsGreatest (Set.range fun p : Fin nk × Idx n => Real.sqrt
      (Spec.dot (fun d => kpts p.1 d + g p.2 d) fun d => kpts p.1 d + g p.2 d)) kmax)
    (e : ℕ) (he : (r 0 = 0 ∧ e = 1) ∨ (r 0 ≠ 0 ∧ e = 0)) :
    ∃ B, betaSbtSingle jn cs nr nrow nr r beta ang g kpts = .ok B ∧
      ∀ (k : Fin nk) (b : Fin nrow) (x : Idx n), B k b x = cs (2 * (nr - e))
        (fun j => 0.0001 + j * ((kmax - 0.0001) / (((2 * (nr - e) : ℕ) : ℝ) - 1)))
        (fun j => ∑ i ∈ Finset.range (nr - e - 1), beta b (i + e) * r (i + e) ^ 2 *
          jn (ang[(b : ℕ)]'(by rw [hl]; exact b.2))
            ((0.0001 + j * ((kmax - 0.0001) / (((2 * (nr - e) : ℕ) : ℝ) - 1))) * r (i + e)) *
          (r (i + 1 + e) - r (i + e)))
        (Real.sqrt (Spec.dot (fun d => kpts k d + g x d) fun d => kpts k d + g x d)) := by
  unfold betaSbtSingle
  rw [if_neg (not_not.mpr hl), if_neg (not_not.mpr rfl), if_neg (by omega)]
  have hdrop : (if r 0 = 0 then 1 else 0) = e := by
    rcases he with ⟨h0, h1⟩ | ⟨h0, h1⟩
    · rw [if_pos h0, h1]
    · rw [if_neg h0, h1]
  have hrad : ∀ p : Fin nk × Idx n, Real.sqrt (∑ d, (kpts p.1 d + g p.2 d) ^ 2) = Real.sqrt
      (Spec.dot (fun d => kpts p.1 d + g p.2 d) fun d => kpts p.1 d + g p.2 d) := fun p => by
    rw [← sum_sq_eq_dot]
  have hmax : maxRadius (fun p : Fin nk × Idx n => Real.sqrt (∑ d, (kpts p.1 d + g p.2 d) ^ 2)) = kmax := by
    rw [funext hrad]
    exact maxRadius_eq _ (fun k => Real.sqrt_nonneg _) _ hk
  refine ⟨_, rfl, fun k b x => ?_⟩
  beta_reduce
  rw [hmax, hrad (k, x)]
  simp only [hdrop]
  have hang : ang.getD b 0 = ang[(b : ℕ)]'(by rw [hl]; exact b.2) := by
    rw [List.getD_eq_getElem?_getD, List.getElem?_eq_getElem (by rw [hl]; exact b.2), Option.getD_some]
  congr 1
  funext j
  rw [hang]
  cases hm : nr - e with
  | zero => rfl
  | succ m =>
    rw [sbtNumerical_leftRiemann]
    rfl

/-! Non-vacuity. -/

/-- A routine through all knots that maps the zero table to zero. -/
noncomputable def stepSpline : Spline := fun N x y q =>
  letI := Classical.propDecidable
  if h : ∃ j, j < N ∧ x j = q then y h.choose else 0

/-- It meets the hypothesis of `local_coulomb` and `local_not_real`, and interpolates on distinct knots. -/
example : (∀ N x q, stepSpline N x (fun _ => 0) q = 0) ∧
    ∀ N (x y : Samples), (∀ i j, x i = x j → i = j) → ∀ j < N, stepSpline N x y (x j) = y j := by
  constructor
  · intro N x q
    unfold stepSpline
    split <;> rfl
  · intro N x y hx j hj
    have h : ∃ j', j' < N ∧ x j' = x j := ⟨j, hj, rfl⟩
    unfold stepSpline
    rw [dif_pos h, hx _ _ h.choose_spec.2]

/-- Every grid with points has a largest `|G|`. -/
example {n : Fin 3 → ℕ} (hn : ∀ i, 0 < n i) (g : Idx n → Fin 3 → ℝ) :
    ∃ kmax, IsGreatest (Set.range fun k => Real.sqrt (Spec.dot (g k) (g k))) kmax := by
  obtain ⟨k, -, hk⟩ := Finset.exists_max_image Finset.univ (fun k => Real.sqrt (Spec.dot (g k) (g k)))
    ⟨zeroIdx hn, Finset.mem_univ _⟩
  exact ⟨_, ⟨k, rfl⟩, by rintro _ ⟨l, rfl⟩; exact hk l (Finset.mem_univ _)⟩

/-- Two atoms on a skew cell have a potential. -/
example : ∃ v, localReciprocal (fun _ _ => 0) stepSpline
    (fun a : Fin 2 => ⟨fun _ => if a = 0 then 0 else 1 / 4, 5, fun i => i + 1, fun i => -(4 / (i + 1)), 4⟩)
    (gVectors skewCell fun _ => 4) 1 "sbt" = .ok v :=
  (local_errors _ _ _ _ _ _).1 ⟨Or.inl rfl, by norm_num⟩

/-- A grid point where the table differs from its mean, as `local_fft_wrong` asks. -/
example : (fun q : ℝ => if q = 0 then (1 : ℝ) else 0)
      (Real.sqrt (Spec.dot (rVectors 1 (fun _ => 2) fun _ => 0) (rVectors 1 (fun _ => 2) fun _ => 0)))
    ≠ (1 / 8 : ℝ) := by
  have h : rVectors 1 (fun _ => 2) (fun _ => 0) = 0 := by
    funext d
    rw [rVectors_apply]
    have h0 : sfreq 2 0 = 0 := by decide
    simp [h0]
  rw [h]
  simp [Spec.dot]

end Jrystal
