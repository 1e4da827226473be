import Verif.Lemmas.Janak
import Verif.Lemmas.Reflect
import Verif.Spec.GroundState
import Verif.Props.Reach
import Verif.Lemmas.LowestBands
import Verif.Lemmas.PwMatrixNC

/- States of least energy fill the lowest bands (C99, C102). -/
namespace Jrystal
open scoped BigOperators ComplexConjugate
open KohnSham
open Matrix

/-- States with other occupations of the same orbitals compete with a ground state when the occupations are not
prescribed. -/
theorem ground_occupations {nk nb : ℕ} {n : Fin 3 → ℕ} {t eps : ℝ} {mask : Idx n → Bool} {ne spin : ℤ}
    {method : String} (hm : ¬ (method = "uniform" ∨ method = "gamma"))
    {energy : Coef 1 nk nb n → Occ 1 nk nb → ℝ → Prop} {c : Coef 1 nk nb n} {occ : Occ 1 nk nb} {e : ℝ}
    (h : Spec.GroundWithin 0 t eps mask ne spin true method energy c occ e) (c' : Coef 1 nk nb n)
    (horth : ∀ s k i j, ∑ x, conj (c' s k i x) * c' s k j x = if i = j then 1 else 0)
    (hsel : ∀ s k b x, mask x = false → c' s k b x = 0) (occ' : Occ 1 nk nb)
    (hb : ∀ k b, 0 ≤ occ' 0 k b ∧ occ' 0 k b ≤ 2 / nk)
    (hs : ∑ k, ∑ b, occ' 0 k b = ∑ k, ∑ b, occ 0 k b) (e' : ℝ) (he' : energy c' occ' e') :
    e - t * Spec.smearingEntropy eps (2 / nk) occ ≤ e' - t * Spec.smearingEntropy eps (2 / nk) occ' := by
  have hshare : Spec.kShare method nk * Spec.pauli true = 2 / nk := by
    unfold Spec.kShare Spec.pauli
    rw [if_neg fun h => hm (Or.inr h), if_pos rfl]
    ring
  have htop : (3 - ((1 : ℕ) : ℝ)) / nk = 2 / nk := by norm_num
  have := h.least c' occ' e' ⟨horth, hsel, rfl,
    fun s k b => by rw [Subsingleton.elim s 0]; exact (hb k b).1,
    fun s k b => by rw [Subsingleton.elim s 0, hshare]; exact (hb k b).2, ?_, ?_⟩ (fun h => absurd h hm) he'
  · rw [add_zero, htop] at this
    exact this
  · have h1 := h.physical.electrons
    rw [Fin.sum_univ_one] at h1 ⊢
    rw [hs, h1]
  · intro s s' _ h1
    have := s'.2
    omega

theorem ground_bounds {nk nb : ℕ} {n : Fin 3 → ℕ} {t eps : ℝ} {mask : Idx n → Bool} {ne spin : ℤ}
    {method : String} (hm : ¬ (method = "uniform" ∨ method = "gamma"))
    {energy : Coef 1 nk nb n → Occ 1 nk nb → ℝ → Prop} {c : Coef 1 nk nb n} {occ : Occ 1 nk nb} {e : ℝ}
    (h : Spec.GroundWithin 0 t eps mask ne spin true method energy c occ e) (k : Fin nk) (b : Fin nb) :
    0 ≤ occ 0 k b ∧ occ 0 k b ≤ 2 / nk := by
  refine ⟨h.physical.nonneg 0 k b, (h.physical.pauli 0 k b).trans_eq ?_⟩
  unfold Spec.kShare Spec.pauli
  rw [if_neg fun h => hm (Or.inr h), if_pos rfl]
  ring

theorem line_deriv {nk nb : ℕ} (occ : Occ 1 nk nb) (d : Fin nk → Fin nb → ℝ) (k : Fin nk) (b : Fin nb) :
    HasDerivAt (fun s : ℝ => (fun σ k b => occ σ k b + s * d k b : Occ 1 nk nb) 0 k b) (d k b) 0 := by
  simpa using ((hasDerivAt_id (0 : ℝ)).mul_const (d k b)).const_add (occ 0 k b)

theorem line_zero {nk nb : ℕ} (occ : Occ 1 nk nb) (d : Fin nk → Fin nb → ℝ) :
    (fun σ k b => occ σ k b + 0 * d k b : Occ 1 nk nb) = occ := by
  funext σ k b
  ring

namespace KohnSham
variable {n : Fin 3 → ℕ} {nk nb : ℕ} {κ : Type} [Fintype κ]

/-- A quadratic form of a wave given as a weighted sum of squares. -/
noncomputable def sqForm (w : κ → ℝ) (L : κ → Idx n → ℂ) (v : Idx n → ℂ) : ℝ :=
  ∑ i, w i * absoluteSquare (∑ x, L i x * v x)

/-- The local Kohn-Sham potential of a density in the potential `V`. -/
noncomputable def localPot (lib : XcLib) (xt : String) (V : Idx n → ℝ) (g : Idx n → Fin 3 → ℝ)
    (rho : Fin 1 → Idx n → ℝ) (j : Idx n) : ℝ :=
  V j + (hartreeRealSpace rho g true j).re + (xcDensity lib xt true g rho 0 j).re

/-- The energy of a wave in a quadratic form and a potential. -/
noncomputable def waveEnergy (w : κ → ℝ) (L : κ → Idx n → ℂ) (W : Idx n → ℝ) (vol : ℝ) (v : Idx n → ℂ) : ℝ :=
  sqForm w L v + vol / (gridCount n : ℝ) * ∑ j, W j * absoluteSquare (orbital v vol j)

theorem waveEnergy_smul (w : κ → ℝ) (L : κ → Idx n → ℂ) (W : Idx n → ℝ) (vol : ℝ) (z : ℂ) (v : Idx n → ℂ) :
    waveEnergy w L W vol (z • v) = ‖z‖ ^ 2 * waveEnergy w L W vol v := by
  have h2 : ∀ j, orbital (z • v) vol j = z * orbital v vol j := by
    intro j
    unfold orbital
    simp only [ifftn_eq, Pi.smul_apply, smul_eq_mul, mul_assoc]
    rw [← Finset.mul_sum]
    ring
  have h3 : ∀ i, ∑ x, L i x * (z • v) x = z * ∑ x, L i x * v x := by
    intro i
    rw [Finset.mul_sum]
    exact Finset.sum_congr rfl fun x _ => by rw [Pi.smul_apply, smul_eq_mul]; ring
  unfold waveEnergy sqForm
  simp only [h2, h3, absoluteSquare_eq, norm_mul, mul_pow]
  rw [mul_add, Finset.mul_sum, Finset.mul_sum, Finset.mul_sum, Finset.mul_sum]
  congr 1
  · exact Finset.sum_congr rfl fun i _ => by ring
  · exact Finset.sum_congr rfl fun j _ => by ring

theorem norm_of_unit {z : ℂ} (hz : conj z * z = 1) : ‖z‖ ^ 2 = 1 := by
  have : ((‖z‖ ^ 2 : ℝ) : ℂ) = 1 := by
    rw [Complex.ofReal_pow, ← Complex.mul_conj', mul_comm]
    exact hz
  exact_mod_cast this

section
variable (lib : XcLib) (xt : String) (hg : pyIn "gga" xt = false) (V : Idx n → ℝ) (g : Idx n → Fin 3 → ℝ) (vol : ℝ)
  (w : Fin nk → κ → ℝ) (L : Fin nk → κ → Idx n → ℂ)
  {energy : Coef 1 nk nb n → Occ 1 nk nb → ℝ → Prop}
  (hE : ∀ c occ e, energy c occ e ↔
    e = occEnergy lib xt (fun k b => sqForm (w k) (L k) (c 0 k b)) V g vol c occ)
  {t eps : ℝ} {mask : Idx n → Bool} {ne spin : ℤ} {method : String}
  (hm : ¬ (method = "uniform" ∨ method = "gamma")) {c : Coef 1 nk nb n} {occ : Occ 1 nk nb} {e : ℝ}
include hg hE hm

theorem fermiLevel_waves (heps : 0 < eps) (h : Spec.GroundWithin 0 t eps mask ne spin true method energy c occ e)
    (hd : ∀ j, ∀ x ∈ splitPlus xt, DifferentiableAt ℝ (lib.lda x) (densityGrid c vol occ 0 j)) :
    ∃ μ, Spec.FermiLevel t eps (2 / nk) (fun k b => waveEnergy (w k) (L k)
      (localPot lib xt V g (densityGrid c vol occ)) vol (c 0 k b)) (occ 0) μ := by
  refine fermiLevel_of_least
    (occEnergy lib xt (fun k b => sqForm (w k) (L k) (c 0 k b)) V g vol c) _ occ t eps (2 / nk)
    heps (fun k b => (ground_bounds hm h k b).1) (fun k b => (ground_bounds hm h k b).2)
    (fun d => by
      refine (hasDerivAt_occEnergy lib xt hg _ _ g vol c (line_deriv occ d)
        (by rw [line_zero]; exact hd)).congr_deriv ?_
      rw [line_zero]
      rfl)
    (fun occ' hb hs => by
      have h3 := ground_occupations hm h c h.physical.orthonormal h.physical.selected occ' hb hs _
        ((hE c occ' _).mpr rfl)
      rw [(hE c occ _).mp h.value] at h3
      exact h3)

omit hg hm in
/-- Changing empty bands only does not change the energy. -/
theorem occEnergy_same {c' : Coef 1 nk nb n} (hz : ∀ q a, occ 0 q a = 0 ∨ c' 0 q a = c 0 q a) :
    densityGrid c' vol occ = densityGrid c vol occ ∧ ∀ e, energy c occ e → energy c' occ e := by
  have hdens : densityGrid c' vol occ = densityGrid c vol occ := by
    funext s j
    rw [Subsingleton.elim s 0]
    refine Finset.sum_congr rfl fun q _ => Finset.sum_congr rfl fun a _ => ?_
    show absoluteSquare (orbital (c' 0 q a) vol j) * occ 0 q a = absoluteSquare (orbital (c 0 q a) vol j) * occ 0 q a
    rcases hz q a with h3 | h3
    · rw [h3, mul_zero, mul_zero]
    · rw [h3]
  refine ⟨hdens, fun e he => ?_⟩
  rw [hE] at he ⊢
  rw [he]
  unfold occEnergy
  rw [hdens]
  congr 3
  refine Finset.sum_congr rfl fun q _ => Finset.sum_congr rfl fun a _ => ?_
  beta_reduce
  rcases hz q a with h3 | h3
  · rw [h3, zero_mul, zero_mul]
  · rw [h3]

/-- Aufbau: no occupied band lies above a wave that could be occupied instead. -/
theorem aufbau_of_least (heps : 0 < eps) (h : Spec.GroundWithin 0 0 eps mask ne spin true method energy c occ e)
    (hd : ∀ j, ∀ x ∈ splitPlus xt, DifferentiableAt ℝ (lib.lda x) (densityGrid c vol occ 0 j))
    (k : Fin nk) (b : Fin nb) (hb : occ 0 k b = 0) (v : Idx n → ℂ) (hv : ∀ x, mask x = false → v x = 0)
    (hv1 : ∑ x, conj (v x) * v x = 1)
    (hvo : ∀ b', 0 < occ 0 k b' → ∑ x, conj (c 0 k b' x) * v x = 0) (k' : Fin nk) (b' : Fin nb)
    (hb' : 0 < occ 0 k' b') :
    waveEnergy (w k') (L k') (localPot lib xt V g (densityGrid c vol occ)) vol (c 0 k' b')
      ≤ waveEnergy (w k) (L k) (localPot lib xt V g (densityGrid c vol occ)) vol v := by
  -- the empty band is turned into the wave
  obtain ⟨U, hU1, hU2, ⟨z, hz, hU3⟩, hU4⟩ := exists_reflection (c 0 k b) v
    (by have := h.physical.orthonormal 0 k b b; rw [if_pos rfl] at this; exact this) hv1
  let c' : Coef 1 nk nb n := fun s q a => if q = k then U (c s q a) else c s q a
  have hc' : ∀ s q a, c' s q a = if q = k then U (c s q a) else c s q a := fun _ _ _ => rfl
  have hsame : ∀ q a, 0 < occ 0 q a → c' 0 q a = c 0 q a := by
    intro q a hqa
    rw [hc']
    by_cases hq : q = k
    · subst hq
      rw [if_pos rfl]
      refine hU2 _ ?_ ?_
      · have hne : b ≠ a := fun hba => by rw [← hba, hb] at hqa; exact lt_irrefl _ hqa
        have := h.physical.orthonormal 0 q b a
        rw [if_neg hne] at this
        exact this
      · have h3 := congrArg conj (hvo a hqa)
        rw [map_zero, map_sum] at h3
        rw [← h3]
        refine Finset.sum_congr rfl fun x _ => ?_
        rw [map_mul, Complex.conj_conj, mul_comm]
        rfl
    · rw [if_neg hq]
  have horth : ∀ s q i j, ∑ x, conj (c' s q i x) * c' s q j x = if i = j then 1 else 0 := by
    intro s q i j
    rw [hc', hc']
    by_cases hq : q = k
    · rw [if_pos hq, if_pos hq]
      exact (hU1 _ _).trans (h.physical.orthonormal s q i j)
    · rw [if_neg hq, if_neg hq]
      exact h.physical.orthonormal s q i j
  have hsel : ∀ s q a x, mask x = false → c' s q a x = 0 := by
    intro s q a x hx
    rw [hc']
    by_cases hq : q = k
    · rw [if_pos hq, hU4 _ _ (h.physical.selected 0 k b x hx) (hv x hx)]
      exact h.physical.selected s q a x hx
    · rw [if_neg hq]
      exact h.physical.selected s q a x hx
  have hz' : ∀ q a, occ 0 q a = 0 ∨ c' 0 q a = c 0 q a := fun q a => by
    rcases (h.physical.nonneg 0 q a).eq_or_lt with h3 | h3
    · exact Or.inl h3.symm
    · exact Or.inr (hsame q a h3)
  obtain ⟨hdens, hen⟩ := occEnergy_same lib xt V g vol w L hE hz'
  have hground : Spec.GroundWithin 0 0 eps mask ne spin true method energy c' occ e :=
    ⟨⟨horth, hsel, h.physical.channels, h.physical.nonneg, h.physical.pauli, h.physical.electrons,
      h.physical.polarisation⟩, hen e h.value, h.given, h.least⟩
  obtain ⟨μ, h4⟩ := fermiLevel_waves lib xt hg V g vol w L hE hm heps hground (by rw [hdens]; exact hd)
  have hk : 0 < nk := k.pos
  have h7 := (h4 k b).1 (by rw [hb]; positivity)
  have h8 := (h4 k' b').2 hb'
  simp only [zero_mul, sub_zero] at h7 h8
  rw [hdens] at h7 h8
  rw [hsame k' b' hb'] at h8
  rw [hc', if_pos rfl, hU3, waveEnergy_smul, norm_of_unit hz, one_mul] at h7
  exact h8.trans h7

/-- Aufbau for mixtures of bands with the same occupation. -/
theorem aufbau_mixed (heps : 0 < eps) (h : Spec.GroundWithin 0 0 eps mask ne spin true method energy c occ e)
    (hd : ∀ j, ∀ x ∈ splitPlus xt, DifferentiableAt ℝ (lib.lda x) (densityGrid c vol occ 0 j))
    (k : Fin nk) (b : Fin nb) (hb : occ 0 k b = 0) (v : Idx n → ℂ) (hv : ∀ x, mask x = false → v x = 0)
    (hv1 : ∑ x, conj (v x) * v x = 1)
    (hvo : ∀ b', 0 < occ 0 k b' → ∑ x, conj (c 0 k b' x) * v x = 0) (y : Fin nb → ℂ)
    (hy : ∑ a, conj (y a) * y a = 1) (f : ℝ) (hf : 0 < f) (hyf : ∀ a, y a ≠ 0 → occ 0 k a = f) :
    waveEnergy (w k) (L k) (localPot lib xt V g (densityGrid c vol occ)) vol (fun x => ∑ a, y a * c 0 k a x)
      ≤ waveEnergy (w k) (L k) (localPot lib xt V g (densityGrid c vol occ)) vol v := by
  -- rotate one of the bands into the mixture
  obtain ⟨b₀, hb₀⟩ : ∃ b₀, y b₀ ≠ 0 := by
    by_contra hne
    push Not at hne
    simp [hne] at hy
  obtain ⟨U, hU1, hU2, ⟨z, hz, hU3⟩, hU4⟩ := exists_reflection (Pi.single b₀ (1 : ℂ)) y
    (by simp [dotProduct, Pi.single_apply]) hy
  let R : Matrix (Fin nb) (Fin nb) ℂ := Matrix.of fun a => U (Pi.single a 1)
  have hR : R ∈ Matrix.unitaryGroup (Fin nb) ℂ := by
    rw [Matrix.mem_unitaryGroup_iff]
    ext i j
    rw [Matrix.mul_apply, Matrix.one_apply]
    have h1 := hU1 (Pi.single j 1) (Pi.single i 1)
    have h2 : star (Pi.single j (1 : ℂ) : Fin nb → ℂ) ⬝ᵥ Pi.single i 1 = if i = j then 1 else 0 := by
      rw [dotProduct_single, mul_one, Pi.star_apply, Pi.single_apply]
      split_ifs <;> simp
    rw [← h2, ← h1]
    refine Finset.sum_congr rfl fun a _ => ?_
    rw [mul_comm]
    rfl
  have hf₀ : occ 0 k b₀ = f := hyf b₀ hb₀
  have hout : ∀ a, occ 0 k a ≠ f → R a = Pi.single a 1 := by
    intro a ha
    refine hU2 _ ?_ ?_
    · have : b₀ ≠ a := fun hab => ha (by rw [← hab]; exact hf₀)
      rw [dotProduct_single, mul_one, Pi.star_apply, Pi.single_apply, if_neg this.symm, star_zero]
    · rw [dotProduct_single, mul_one, Pi.star_apply]
      have : y a = 0 := by
        by_contra hya
        exact ha (hyf a hya)
      rw [this, star_zero]
  have hin : ∀ a i, R a i ≠ 0 → occ 0 k a = occ 0 k i := by
    intro a i hai
    by_cases ha : occ 0 k a = f
    · by_contra hne
      have hi : occ 0 k i ≠ f := fun hi => hne (by rw [ha, hi])
      have h1 : (Pi.single b₀ (1 : ℂ) : Fin nb → ℂ) i = 0 := by
        rw [Pi.single_apply, if_neg fun hib => hi (by rw [hib]; exact hf₀)]
      have h2 : y i = 0 := by
        by_contra hyi
        exact hi (hyf i hyi)
      refine hai ((hU4 (Pi.single a 1) i h1 h2).trans ?_)
      rw [Pi.single_apply, if_neg fun hia => hi (by rw [hia]; exact ha)]
    · rw [hout a ha] at hai
      by_contra hne
      refine hai ?_
      rw [Pi.single_apply, if_neg fun hia => hne (by rw [hia])]
  let RR : Fin 1 → Fin nk → Matrix (Fin nb) (Fin nb) ℂ := fun _ q => if q = k then R else 1
  have hRR : ∀ s q, RR s q ∈ Matrix.unitaryGroup (Fin nb) ℂ := by
    intro s q
    by_cases hq : q = k
    · simp only [RR, if_pos hq]; exact hR
    · simp only [RR, if_neg hq]; exact one_mem _
  have hRocc : ∀ s q i j, RR s q i j ≠ 0 → occ s q i = occ s q j := by
    intro s q i j hij
    rw [Subsingleton.elim s 0]
    by_cases hq : q = k
    · simp only [RR, if_pos hq] at hij
      rw [hq]
      exact hin i j hij
    · simp only [RR, if_neg hq] at hij
      by_contra hne
      refine hij ?_
      rw [Matrix.one_apply, if_neg fun h => hne (by rw [h])]
  let c' : Coef 1 nk nb n := fun s q i x => ∑ j, RR s q i j * c s q j x
  have hdens : densityGrid c' vol occ = densityGrid c vol occ :=
    densityGrid_mix c c' vol occ RR hRR hRocc fun _ _ _ _ => rfl
  have hone : ∀ q, ∑ a, occ 0 q a * sqForm (w q) (L q) (c' 0 q a) = ∑ a, occ 0 q a * sqForm (w q) (L q) (c 0 q a) := by
    intro q
    unfold sqForm
    simp only [Finset.mul_sum]
    rw [Finset.sum_comm]
    conv_rhs => rw [Finset.sum_comm]
    refine Finset.sum_congr rfl fun i _ => ?_
    have h1 := mix_weighted (RR 0 q) (hRR 0 q) (occ 0 q) (hRocc 0 q) (fun j => ∑ x, L q i x * c 0 q j x)
    have h2 : ∀ a, ∑ x, L q i x * c' 0 q a x = ∑ j, RR 0 q a j * ∑ x, L q i x * c 0 q j x := by
      intro a
      simp only [c', Finset.mul_sum]
      rw [Finset.sum_comm]
      exact Finset.sum_congr rfl fun j _ => Finset.sum_congr rfl fun x _ => by ring
    have h3 : ∀ C : Coef 1 nk nb n, ∑ a, occ 0 q a * (w q i * absoluteSquare (∑ x, L q i x * C 0 q a x))
        = w q i * ∑ a, absoluteSquare (∑ x, L q i x * C 0 q a x) * occ 0 q a := by
      intro C
      rw [Finset.mul_sum]
      exact Finset.sum_congr rfl fun a _ => by ring
    rw [h3 c', h3 c, ← h1]
    congr 1
    exact Finset.sum_congr rfl fun a _ => by rw [h2]
  have hval : energy c' occ e := by
    have h1 := (hE c occ e).mp h.value
    rw [hE, h1]
    unfold occEnergy
    rw [hdens]
    congr 3
    exact Finset.sum_congr rfl fun q _ => (hone q).symm
  have horth : ∀ s q i j, ∑ x, conj (c' s q i x) * c' s q j x = if i = j then 1 else 0 := by
    intro s q i j
    have h1 : ∑ x, conj (c' s q i x) * c' s q j x
        = ∑ a, ∑ a', conj (RR s q i a) * RR s q j a' * ∑ x, conj (c s q a x) * c s q a' x := by
      simp only [c', map_sum, map_mul, Finset.sum_mul_sum]
      rw [Finset.sum_comm]
      refine Finset.sum_congr rfl fun a _ => ?_
      rw [Finset.sum_comm]
      refine Finset.sum_congr rfl fun a' _ => ?_
      rw [Finset.mul_sum]
      exact Finset.sum_congr rfl fun x _ => by ring
    rw [h1]
    simp only [h.physical.orthonormal, mul_ite, mul_one, mul_zero, Finset.sum_ite_eq, Finset.mem_univ, if_true]
    have h2 := congrFun (congrFun (Matrix.mem_unitaryGroup_iff.mp (hRR s q)) j) i
    rw [Matrix.mul_apply, Matrix.one_apply] at h2
    rw [show (if i = j then (1 : ℂ) else 0) = if j = i then 1 else 0 from if_congr ⟨Eq.symm, Eq.symm⟩ rfl rfl, ← h2]
    exact Finset.sum_congr rfl fun a _ => by rw [mul_comm]; rfl
  have hsel : ∀ s q a x, mask x = false → c' s q a x = 0 := by
    intro s q a x hx
    refine Finset.sum_eq_zero fun j _ => ?_
    rw [h.physical.selected s q j x hx, mul_zero]
  have hground : Spec.GroundWithin 0 0 eps mask ne spin true method energy c' occ e :=
    ⟨⟨horth, hsel, h.physical.channels, h.physical.nonneg, h.physical.pauli, h.physical.electrons,
      h.physical.polarisation⟩, hval, h.given, h.least⟩
  have hfin := aufbau_of_least lib xt hg V g vol w L hE hm heps hground (by rw [hdens]; exact hd) k b hb v hv hv1
    (fun b' hb' => by
      have h1 : ∑ x, conj (c' 0 k b' x) * v x = ∑ j, conj (R b' j) * ∑ x, conj (c 0 k j x) * v x := by
        simp only [c', RR, if_true, map_sum, map_mul, Finset.sum_mul, Finset.mul_sum]
        rw [Finset.sum_comm]
        exact Finset.sum_congr rfl fun j _ => Finset.sum_congr rfl fun x _ => by ring
      rw [h1]
      refine Finset.sum_eq_zero fun j _ => ?_
      by_cases hj : R b' j = 0
      · rw [hj, map_zero, zero_mul]
      · rw [hvo j (by rw [← hin b' j hj]; exact hb'), mul_zero]) k b₀ (by rw [hf₀]; exact hf)
  rw [hdens] at hfin
  have hc₀ : c' 0 k b₀ = z • fun x => ∑ a, y a * c 0 k a x := by
    funext x
    have : R b₀ = z • y := hU3
    simp only [c', RR, if_true, this, Pi.smul_apply, smul_eq_mul, Finset.mul_sum, mul_assoc]
  rw [hc₀, waveEnergy_smul, norm_of_unit hz, one_mul] at hfin
  exact hfin

/-- The occupied bands of a cold ground state have the lowest eigenvalues of the Hamiltonian that gives the energies
of waves. -/
theorem lowest_waves (heps : 0 < eps) (h : Spec.GroundWithin 0 0 eps mask ne spin true method energy c occ e)
    (hd : ∀ j, ∀ x ∈ splitPlus xt, DifferentiableAt ℝ (lib.lda x) (densityGrid c vol occ 0 j))
    (k : Fin nk) (b : Fin nb) (hb : occ 0 k b = 0)
    (F : Matrix (Fin (maskCount mask)) (Fin (maskCount mask)) ℂ)
    (hq : ∀ v : Idx n → ℂ, (∀ x, mask x = false → v x = 0) →
      waveEnergy (w k) (L k) (localPot lib xt V g (densityGrid c vol occ)) vol v
        = (star (fun G => v (maskPos mask G)) ⬝ᵥ (F *ᵥ fun G => v (maskPos mask G))).re)
    (hks : ∀ b, occ 0 k b ≠ 0 → ∀ G, (F * Matrix.of (gatherMask mask c 0 k)) G b
      = (Matrix.of (gatherMask mask c 0 k) *
        ((Matrix.of (gatherMask mask c 0 k))ᴴ * F * Matrix.of (gatherMask mask c 0 k))) G b)
    (hmix : ∀ a b, occ 0 k a ≠ occ 0 k b →
      ((Matrix.of (gatherMask mask c 0 k))ᴴ * F * Matrix.of (gatherMask mask c 0 k)) a b = 0)
    {lam : Fin (maskCount mask) → ℝ} (hlam : Spec.IsSpectrum F lam) {m : ℕ} (σ : Fin m → Fin nb)
    (hσ : Function.Injective σ) (hrange : ∀ b, 0 < occ 0 k b ↔ ∃ i, σ i = b) {mu : Fin m → ℝ}
    (hmu : Spec.IsSpectrum (((Matrix.of (gatherMask mask c 0 k))ᴴ * F * Matrix.of (gatherMask mask c 0 k)).submatrix
      σ σ) mu) : ∃ hm : m ≤ maskCount mask, ∀ j, mu j = lam (Fin.castLE hm j) := by
  have hc : expandCoefficient mask (gatherMask mask c) = c := (gather_expand mask).2 c h.physical.selected
  set C := Matrix.of (gatherMask mask c 0 k) with hCdef
  have hC : Cᴴ * C = 1 := by
    ext i j
    have h1 := h.physical.orthonormal 0 k i j
    rw [← hc, expandCoefficient_inner] at h1
    rw [Matrix.mul_apply, Matrix.one_apply]
    exact h1
  have hpos : ∀ b, occ 0 k b ≠ 0 ↔ 0 < occ 0 k b := fun b =>
    ⟨fun h1 => lt_of_le_of_ne (h.physical.nonneg 0 k b) h1.symm, ne_of_gt⟩
  have hle : m ≤ maskCount mask := by
    have h2 : (C.submatrix id σ)ᴴ * C.submatrix id σ = 1 := by
      ext i j
      have := congrFun (congrFun hC (σ i)) (σ j)
      rw [Matrix.mul_apply, Matrix.one_apply] at this
      rw [Matrix.mul_apply, Matrix.one_apply]
      refine this.trans ?_
      exact if_congr hσ.eq_iff rfl rfl
    have h3 := Matrix.rank_mul_le_right (C.submatrix id σ)ᴴ (C.submatrix id σ)
    rw [h2, Matrix.rank_one, Fintype.card_fin] at h3
    exact h3.trans ((Matrix.rank_le_card_height _).trans_eq (Fintype.card_fin _))
  refine ⟨hle, lowest_of_aufbau hlam hC (occ 0 k) hks hmix σ hσ (fun b => (hpos b).trans (hrange b)) ?_ hle hmu⟩
  intro u hu huo y f₀ hy hf₀ hyf
  have hmaskv : ∀ (q : Fin (maskCount mask) → ℂ), (fun G => scatterMask mask q (maskPos mask G)) = q :=
    fun q => funext fun G => scatterMask_get mask q G
  have hinner : ∀ (q q' : Fin (maskCount mask) → ℂ),
      ∑ x, conj (scatterMask mask q x) * scatterMask mask q' x = ∑ G, conj (q G) * q' G := scatterMask_inner mask
  obtain ⟨a₀, ha₀⟩ : ∃ a₀, y a₀ ≠ 0 := by
    by_contra hne
    push Not at hne
    have : y = 0 := funext hne
    simp [this] at hy
  have hf : 0 < f₀ := by
    rw [← hyf a₀ ha₀, ← hpos, hyf a₀ ha₀]
    exact hf₀
  have hfin := aufbau_mixed lib xt hg V g vol w L hE hm heps h hd k b hb (scatterMask mask u)
    (fun x hx => scatterMask_off mask u x hx) ((hinner u u).trans hu)
    (fun b' hb' => by
      have h1 : c 0 k b' = scatterMask mask (fun G => C G b') := by
        conv_lhs => rw [← hc]
        rfl
      rw [h1, hinner]
      exact huo b' ((hpos b').mpr hb')) y hy f₀ hf hyf
  rw [hq _ (fun x hx => Finset.sum_eq_zero fun a _ => by rw [h.physical.selected 0 k a x hx, mul_zero]),
    hq _ (fun x hx => scatterMask_off mask u x hx), hmaskv] at hfin
  refine le_of_eq_of_le ?_ hfin
  have h1 : (fun G => ∑ a, y a * c 0 k a (maskPos mask G)) = C *ᵥ y := by
    funext G
    exact Finset.sum_congr rfl fun a _ => mul_comm _ _
  rw [h1, Matrix.star_mulVec, ← Matrix.dotProduct_mulVec, Matrix.mulVec_mulVec, Matrix.mulVec_mulVec]

end

theorem sqForm_elim {κ' : Type} [Fintype κ'] (w : κ → ℝ) (L : κ → Idx n → ℂ) (w' : κ' → ℝ) (L' : κ' → Idx n → ℂ)
    (v : Idx n → ℂ) : sqForm (Sum.elim w w') (Sum.elim L L') v = sqForm w L v + sqForm w' L' v :=
  Fintype.sum_sum_type _

theorem kinetic_sqForm (g : Idx n → Fin 3 → ℝ) (k : Fin 3 → ℝ) (v : Idx n → ℂ) :
    (Spec.kineticElement g k v v).re = sqForm (fun x => Spec.kineticEnergy (fun d => g x d + k d))
      (fun x y => if y = x then 1 else 0) v := by
  unfold Spec.kineticElement sqForm
  rw [Complex.re_sum]
  refine Finset.sum_congr rfl fun x _ => ?_
  simp only [ite_mul, one_mul, zero_mul, Finset.sum_ite_eq', Finset.mem_univ, if_true]
  rw [Complex.re_ofReal_mul, absoluteSquare_eq, mul_comm (conj (v x)), Complex.mul_conj', ← Complex.ofReal_pow,
    Complex.ofReal_re]

theorem nonlocal_sqForm {ns M : ℕ} {ι : Type} [Fintype ι] (c : Coef ns nk nb n)
    (psi : Fin nk → ι → Fin M → Idx n → ℂ) (vol : ℝ) (s : Fin ns) (k : Fin nk) (b : Fin nb) :
    (hamiltonianNonlocal c psi vol s k b b).re
      = sqForm (fun _ : ι × Fin M => vol⁻¹) (fun i x => psi k i.1 i.2 x) (c s k b) := by
  unfold hamiltonianNonlocal sqForm
  rw [div_eq_mul_inv, ← Complex.ofReal_inv, Complex.re_mul_ofReal, Complex.re_sum, Finset.sum_mul,
    Fintype.sum_prod_type]
  refine Finset.sum_congr rfl fun β _ => ?_
  rw [Complex.re_sum, Finset.sum_mul]
  refine Finset.sum_congr rfl fun φ _ => ?_
  rw [absoluteSquare_eq, mul_comm (conj _), Complex.mul_conj', ← Complex.ofReal_pow, Complex.ofReal_re, mul_comm]
  simp only [mul_comm (psi k β φ _)]

theorem totalEnergy_sqForm (lib : XcLib) (xt : String) (hg : pyIn "gga" xt = false) {na : ℕ}
    (pos : Fin na → Fin 3 → ℝ) (charge : Fin na → ℝ) (g : Idx n → Fin 3 → ℝ)
    (kpts : Fin nk → Fin 3 → ℝ) (vol : ℝ) (c : Coef 1 nk nb n) (occ : Occ 1 nk nb) (e : ℝ) :
    totalEnergy lib c pos charge g kpts vol (some occ) false xt = .ok e ↔
      e = occEnergy lib xt (fun k b => sqForm ((fun k x => Spec.kineticEnergy (fun d => g x d + kpts k d)) k)
          ((fun _ x y => if y = x then 1 else 0 : Fin nk → Idx n → Idx n → ℂ) k) (c 0 k b))
        (fun j => (externalPotential pos charge g vol j).re) g vol c occ := by
  rw [totalEnergy_occEnergy lib xt hg]
  simp only [kinetic_sqForm]
  exact ⟨fun h => (Except.ok.inj h).symm, fun h => congrArg _ h.symm⟩

theorem energyNC_sqForm (lib : XcLib) (xt : String) (hg : pyIn "gga" xt = false) {M : ℕ} {ι : Type} [Fintype ι]
    (vloc : Idx n → ℂ) (psi : Fin nk → ι → Fin M → Idx n → ℂ) (g : Idx n → Fin 3 → ℝ)
    (kpts : Fin nk → Fin 3 → ℝ) (vol : ℝ) (c : Coef 1 nk nb n) (occ : Occ 1 nk nb) (e : ℝ) :
    Spec.EnergyNC lib xt vloc psi g kpts vol c occ e ↔
      e = occEnergy lib xt (fun k b => sqForm ((fun k => Sum.elim (fun x => Spec.kineticEnergy (fun d => g x d + kpts k d))
            (fun _ : ι × Fin M => vol⁻¹)) k)
          ((fun k => Sum.elim (fun x y => if y = x then 1 else 0) (fun i x => psi k i.1 i.2 x) :
            Fin nk → Idx n ⊕ (ι × Fin M) → Idx n → ℂ) k) (c 0 k b))
        (fun j => (ifftn vloc j).re) g vol c occ := by
  rw [energyNC_occEnergy lib xt hg]
  simp only [kinetic_sqForm, nonlocal_sqForm, sqForm_elim]

end KohnSham
end Jrystal
