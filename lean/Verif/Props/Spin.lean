import Verif.Spec.Driver
import Verif.Props.Xc
import Verif.Props.Energy

/- C81: the two spin channels.  Exchanging them, and doubling the only channel of a restricted state. -/
namespace Jrystal
open scoped BigOperators ComplexConjugate
open Matrix

private theorem sigmaPair_comm {n : Fin 3 → ℕ} (g : Idx n → Fin 3 → ℝ) (a b : Idx n → ℝ) (j : Idx n) :
    sigmaPair g a b j = sigmaPair g b a j := by
  unfold sigmaPair
  rw [Complex.re_sum, Complex.re_sum]
  refine Finset.sum_congr rfl fun d _ => ?_
  simp only [Complex.mul_re, Complex.conj_re, Complex.conj_im]
  ring

private theorem excDensity_swap (lib : XcLib) (xt : String)
    (hlda : ∀ x ∈ splitPlus xt, isExchange x = false → ∀ u v, lib.ldaPol x u v = lib.ldaPol x v u)
    (hgga : ∀ x ∈ splitPlus xt, isExchange x = false → ∀ u v suu suv svv,
      lib.ggaPol x u v suu suv svv = lib.ggaPol x v u svv suv suu)
    {n : Fin 3 → ℕ} (g : Idx n → Fin 3 → ℝ) (rho rho' : Fin 2 → Idx n → ℝ) (h0 : rho' 0 = rho 1)
    (h1 : rho' 1 = rho 0) (j : Idx n) : excDensity lib xt g rho' j = excDensity lib xt g rho j := by
  have e0 : ∀ r : Fin 2 → Idx n → ℝ, chan r 0 = r 0 := fun r => by simp [chan]
  have e1 : ∀ r : Fin 2 → Idx n → ℝ, chan r 1 = r 1 := fun r => by simp [chan]
  unfold excDensity
  simp only [if_true, e0, e1, h0, h1, sigma2]
  split
  · unfold excGga2
    refine congrArg List.sum (List.map_congr_left fun x hx => ?_)
    unfold ggaPoint2
    cases he : isExchange x with
    | true => simp only [if_true]; ring
    | false =>
      simp only [Bool.false_eq_true, if_false]
      rw [sigmaPair_comm g (rho 1) (rho 0)]
      exact hgga x hx he _ _ _ _ _
  · unfold excLda2
    refine congrArg List.sum (List.map_congr_left fun x hx => ?_)
    unfold ldaPoint2
    cases he : isExchange x with
    | true => simp only [if_true]; ring
    | false =>
      simp only [Bool.false_eq_true, if_false]
      exact hlda x hx he _ _

/-- The four energies depend on the channels only through the kinetic energy, the summed density and the
exchange-correlation energy. -/
private theorem split_congr (lib : XcLib) {ns ns' nk nb na : ℕ} {n : Fin 3 → ℕ} (c : Coef ns nk nb n)
    (c' : Coef ns' nk nb n) (pos : Fin na → Fin 3 → ℝ) (charge : Fin na → ℝ) (g : Idx n → Fin 3 → ℝ)
    (kpts : Fin nk → Fin 3 → ℝ) (vol : ℝ) (occ : Occ ns nk nb) (occ' : Occ ns' nk nb) (xt : String)
    (hk : kineticEnergyOcc g kpts c' occ' = kineticEnergyOcc g kpts c occ)
    (hd : ∀ j, ∑ s, waveToDensity (waveGrid c' vol) occ' s j = ∑ s, waveToDensity (waveGrid c vol) occ s j)
    (hx : xcEnergy lib xt false (waveToDensity (waveGrid c' vol) occ') g vol
      = xcEnergy lib xt false (waveToDensity (waveGrid c vol) occ) g vol) :
    totalEnergySplit lib c' pos charge g kpts vol (some occ') false xt
      = totalEnergySplit lib c pos charge g kpts vol (some occ) false xt := by
  have hG : ∀ x, ∑ s, waveToDensityReciprocal (waveGrid c' vol) occ' s x
      = ∑ s, waveToDensityReciprocal (waveGrid c vol) occ s x := by
    intro x
    have h1 : ∀ {m : ℕ} (r : Fin m → Idx n → ℝ), ∑ s, fftn (fun j => (r s j : ℂ)) x
        = fftn (fun j => ((∑ s, r s j : ℝ) : ℂ)) x := by
      intro m r
      unfold fftn
      rw [Finset.sum_comm]
      refine Finset.sum_congr rfl fun j _ => ?_
      rw [← Finset.sum_mul]
      push_cast
      rfl
    unfold waveToDensityReciprocal
    rw [h1, h1]
    simp only [hd]
  unfold totalEnergySplit
  dsimp only [occOrOnes]
  rw [hk, hx, hartreeEnergy_eq, hartreeEnergy_eq, externalEnergy_eq, externalEnergy_eq]
  simp only [hG]

/-- C81: exchanging the two spin channels, orbitals and occupations together, changes none of the four
energies and exchanges the two densities, for every functional whose correlation parts treat both spins
alike (a contract of the functional library; nothing is assumed of exchange parts). -/
theorem energies_spin_flip (lib : XcLib) (xt : String)
    (hlda : ∀ x ∈ splitPlus xt, isExchange x = false → ∀ u v, lib.ldaPol x u v = lib.ldaPol x v u)
    (hgga : ∀ x ∈ splitPlus xt, isExchange x = false → ∀ u v suu suv svv,
      lib.ggaPol x u v suu suv svv = lib.ggaPol x v u svv suv suu)
    {nk nb na : ℕ} {n : Fin 3 → ℕ} (c c' : Coef 2 nk nb n) (occ occ' : Occ 2 nk nb)
    (hc : c' 0 = c 1 ∧ c' 1 = c 0) (ho : occ' 0 = occ 1 ∧ occ' 1 = occ 0)
    (pos : Fin na → Fin 3 → ℝ) (charge : Fin na → ℝ) (g : Idx n → Fin 3 → ℝ) (kpts : Fin nk → Fin 3 → ℝ)
    (vol : ℝ) :
    totalEnergySplit lib c' pos charge g kpts vol (some occ') false xt
      = totalEnergySplit lib c pos charge g kpts vol (some occ) false xt ∧
    densityGrid c' vol occ' 0 = densityGrid c vol occ 1 ∧
    densityGrid c' vol occ' 1 = densityGrid c vol occ 0 := by
  have d0 : waveToDensity (waveGrid c' vol) occ' 0 = waveToDensity (waveGrid c vol) occ 1 := by
    unfold waveToDensity waveGrid
    rw [hc.1, ho.1]
  have d1 : waveToDensity (waveGrid c' vol) occ' 1 = waveToDensity (waveGrid c vol) occ 0 := by
    unfold waveToDensity waveGrid
    rw [hc.2, ho.2]
  have hs : ∀ j, ∑ s, waveToDensity (waveGrid c' vol) occ' s j = ∑ s, waveToDensity (waveGrid c vol) occ s j := by
    intro j
    rw [Fin.sum_univ_two, Fin.sum_univ_two, d0, d1, add_comm]
  refine ⟨split_congr lib c c' pos charge g kpts vol occ occ' xt ?_ hs ?_, ?_, ?_⟩
  · unfold kineticEnergyOcc
    rw [Fin.sum_univ_two, Fin.sum_univ_two, hc.1, hc.2, ho.1, ho.2, add_comm]
  · rw [xcEnergy_value, xcEnergy_value]
    refine congrArg (fun y : ℝ => Except.ok (vol / (gridCount n : ℝ) * y)) ?_
    refine Finset.sum_congr rfl fun j _ => ?_
    rw [hs, excDensity_swap lib xt hlda hgga g _ _ d0 d1]
  · rw [← waveToDensity_eq, ← waveToDensity_eq, d0]
  · rw [← waveToDensity_eq, ← waveToDensity_eq, d1]

/-- C81: a majority of `spin` electrons in the first channel and a majority of `spin` in the second one
reach the same energies. -/
theorem attainable_spin_flip (lib : XcLib) (xt : String)
    (hlda : ∀ x ∈ splitPlus xt, isExchange x = false → ∀ u v, lib.ldaPol x u v = lib.ldaPol x v u)
    (hgga : ∀ x ∈ splitPlus xt, isExchange x = false → ∀ u v suu suv svv,
      lib.ggaPol x u v suu suv svv = lib.ggaPol x v u svv suv suu)
    {nk nb na : ℕ} {n : Fin 3 → ℕ} (mask : Idx n → Bool) (ne spin : ℤ) (share : ℝ)
    (pos : Fin na → Fin 3 → ℝ) (charge : Fin na → ℝ) (g : Idx n → Fin 3 → ℝ) (kpts : Fin nk → Fin 3 → ℝ)
    (vol : ℝ) (e : ℝ) :
    (∃ (c : Coef 2 nk nb n) (occ : Occ 2 nk nb), Spec.PhysicalState mask ne (-spin) false share c occ ∧
      totalEnergy lib c pos charge g kpts vol (some occ) false xt = .ok e) ↔
    (∃ (c : Coef 2 nk nb n) (occ : Occ 2 nk nb), Spec.PhysicalState mask ne spin false share c occ ∧
      totalEnergy lib c pos charge g kpts vol (some occ) false xt = .ok e) := by
  have key : ∀ spin : ℤ, (∃ (c : Coef 2 nk nb n) (occ : Occ 2 nk nb), Spec.PhysicalState mask ne (-spin) false share c occ ∧
      totalEnergy lib c pos charge g kpts vol (some occ) false xt = .ok e) →
    (∃ (c : Coef 2 nk nb n) (occ : Occ 2 nk nb), Spec.PhysicalState mask ne spin false share c occ ∧
      totalEnergy lib c pos charge g kpts vol (some occ) false xt = .ok e) := by
    rintro spin ⟨c, occ, h, he⟩
    refine ⟨![c 1, c 0], ![occ 1, occ 0], ⟨fun s k i j => ?_, fun s k b x hx => ?_, rfl, fun s k b => ?_,
      fun s k b => ?_, ?_, ?_⟩, ?_⟩
    · fin_cases s
      · exact h.orthonormal 1 k i j
      · exact h.orthonormal 0 k i j
    · fin_cases s
      · exact h.selected 1 k b x hx
      · exact h.selected 0 k b x hx
    · fin_cases s
      · exact h.nonneg 1 k b
      · exact h.nonneg 0 k b
    · fin_cases s
      · exact h.pauli 1 k b
      · exact h.pauli 0 k b
    · rw [← h.electrons, Fin.sum_univ_two, Fin.sum_univ_two, add_comm]
      rfl
    · intro s s' h0 h1
      obtain rfl : s = 0 := Fin.ext h0
      obtain rfl : s' = 1 := Fin.ext h1
      have := h.polarisation 0 1 rfl rfl
      simp only [Matrix.cons_val_zero, Matrix.cons_val_one]
      push_cast at this
      linarith
    · rw [← he]
      unfold totalEnergy
      rw [(energies_spin_flip lib xt hlda hgga c ![c 1, c 0] occ ![occ 1, occ 0] ⟨rfl, rfl⟩ ⟨rfl, rfl⟩
        pos charge g kpts vol).1]
  refine ⟨key spin, fun h => key (-spin) ?_⟩
  rwa [neg_neg]

/-- C81: a spin-restricted state and the unrestricted state with these orbitals in both channels and half
of the occupation in each have the same four energies, and the two densities are half of the restricted
one. -/
theorem energies_restricted (lib : XcLib) (xt : String)
    (hlda : ∀ x ∈ splitPlus xt, isExchange x = false → ∀ u, lib.ldaPol x u u = lib.lda x (2 * u))
    (hgga : ∀ x ∈ splitPlus xt, isExchange x = false → ∀ u s, lib.ggaPol x u u s s s
      = lib.gga x (2 * u) (4 * s))
    {nk nb na : ℕ} {n : Fin 3 → ℕ} (c : Coef 1 nk nb n) (c' : Coef 2 nk nb n) (occ : Occ 1 nk nb)
    (occ' : Occ 2 nk nb) (hc : ∀ s, c' s = c 0) (ho : ∀ s k b, occ' s k b = occ 0 k b / 2)
    (pos : Fin na → Fin 3 → ℝ) (charge : Fin na → ℝ) (g : Idx n → Fin 3 → ℝ) (kpts : Fin nk → Fin 3 → ℝ)
    (vol : ℝ) :
    totalEnergySplit lib c' pos charge g kpts vol (some occ') false xt
      = totalEnergySplit lib c pos charge g kpts vol (some occ) false xt ∧
    ∀ s j, densityGrid c' vol occ' s j = densityGrid c vol occ 0 j / 2 := by
  have d : ∀ s j, waveToDensity (waveGrid c' vol) occ' s j = waveToDensity (waveGrid c vol) occ 0 j / 2 := by
    intro s j
    unfold waveToDensity waveGrid
    rw [Finset.sum_div]
    refine Finset.sum_congr rfl fun p _ => ?_
    rw [hc, ho]
    ring
  have hs : ∀ j, ∑ s, waveToDensity (waveGrid c' vol) occ' s j = ∑ s, waveToDensity (waveGrid c vol) occ s j := by
    intro j
    rw [Fin.sum_univ_two, Fin.sum_univ_one, d, d]
    ring
  refine ⟨split_congr lib c c' pos charge g kpts vol occ occ' xt ?_ hs ?_, fun s j => ?_⟩
  · unfold kineticEnergyOcc
    rw [Fin.sum_univ_two, Fin.sum_univ_one, hc, hc]
    simp only [ho]
    rw [← Finset.sum_add_distrib]
    refine congrArg (· / 2) (Finset.sum_congr rfl fun k _ => ?_)
    rw [← Finset.sum_add_distrib]
    refine Finset.sum_congr rfl fun b _ => ?_
    ring
  · have h1 : waveToDensity (waveGrid c' vol) occ'
        = ![fun j => waveToDensity (waveGrid c vol) occ 0 j / 2, fun j => waveToDensity (waveGrid c vol) occ 0 j / 2] := by
      funext s j
      rw [d]
      fin_cases s <;> rfl
    have h2 : waveToDensity (waveGrid c vol) occ = fun _ : Fin 1 => fun j =>
        waveToDensity (waveGrid c vol) occ 0 j / 2 + waveToDensity (waveGrid c vol) occ 0 j / 2 := by
      funext s j
      rw [Subsingleton.elim s 0]
      ring
    rw [h1]
    conv_rhs => rw [h2]
    exact (xc_unpolarised_limit lib xt hlda hgga g _ vol).2
  · rw [← waveToDensity_eq, ← waveToDensity_eq, d]

/-- C81: every energy of a restricted state is the energy of an unrestricted state without polarisation, so
allowing the spins to differ never raises the lowest energy. -/
theorem attainable_restricted (lib : XcLib) (xt : String)
    (hlda : ∀ x ∈ splitPlus xt, isExchange x = false → ∀ u, lib.ldaPol x u u = lib.lda x (2 * u))
    (hgga : ∀ x ∈ splitPlus xt, isExchange x = false → ∀ u s, lib.ggaPol x u u s s s
      = lib.gga x (2 * u) (4 * s))
    {nk nb na : ℕ} {n : Fin 3 → ℕ} (mask : Idx n → Bool) (ne spin : ℤ) (share : ℝ)
    (pos : Fin na → Fin 3 → ℝ) (charge : Fin na → ℝ) (g : Idx n → Fin 3 → ℝ) (kpts : Fin nk → Fin 3 → ℝ)
    (vol : ℝ) (e : ℝ)
    (h : ∃ (c : Coef 1 nk nb n) (occ : Occ 1 nk nb), Spec.PhysicalState mask ne spin true share c occ ∧
      totalEnergy lib c pos charge g kpts vol (some occ) false xt = .ok e) :
    ∃ (c : Coef 2 nk nb n) (occ : Occ 2 nk nb), Spec.PhysicalState mask ne 0 false share c occ ∧
      totalEnergy lib c pos charge g kpts vol (some occ) false xt = .ok e := by
  obtain ⟨c, occ, h, he⟩ := h
  refine ⟨fun _ => c 0, fun _ k b => occ 0 k b / 2, ⟨fun s k i j => h.orthonormal 0 k i j,
    fun s k b x hx => h.selected 0 k b x hx, rfl, fun s k b => ?_, fun s k b => ?_, ?_, fun s s' _ _ => ?_⟩, ?_⟩
  · have := h.nonneg 0 k b
    positivity
  · have := h.pauli 0 k b
    simp only [Spec.pauli, if_true, Bool.false_eq_true, if_false] at this ⊢
    linarith
  · rw [← h.electrons, Fin.sum_univ_two, Fin.sum_univ_one]
    simp only [← Finset.sum_add_distrib, add_halves]
  · simp
  · rw [← he]
    unfold totalEnergy
    rw [(energies_restricted lib xt hlda hgga c (fun _ => c 0) occ (fun _ k b => occ 0 k b / 2) (fun _ => rfl)
      (fun _ _ _ => rfl) pos charge g kpts vol).1]

/-- A library that meets both contracts and is not zero: energies per electron that depend on the summed
density and on the squared gradient of the sum; and a spin-polarised physical state. -/
example : ∃ lib : XcLib,
    (∀ x u v, lib.ldaPol x u v = lib.ldaPol x v u) ∧
    (∀ x u v suu suv svv, lib.ggaPol x u v suu suv svv = lib.ggaPol x v u svv suv suu) ∧
    (∀ x u, lib.ldaPol x u u = lib.lda x (2 * u)) ∧
    (∀ x u s, lib.ggaPol x u u s s s = lib.gga x (2 * u) (4 * s)) ∧
    lib.ldaPol "lda_c_pw" 1 2 ≠ 0 ∧ lib.ggaPol "gga_c_pbe" 0 0 1 0 0 ≠ 0 ∧
    isExchange "lda_c_pw" = false ∧ isExchange "gga_c_pbe" = false :=
  ⟨⟨fun _ r => r, fun _ u v => u + v, fun _ r s => r + s, fun _ u v suu suv svv => u + v + suu + 2 * suv + svv⟩,
    fun _ u v => add_comm u v, fun _ u v suu suv svv => by ring, fun _ u => by ring, fun _ u s => by ring,
    by norm_num, by norm_num, by decide +kernel, by decide +kernel⟩

example {n : Fin 3 → ℕ} (x₀ : Idx n) :
    Spec.PhysicalState (fun _ => true) 1 1 false 1
      (fun _ _ _ x => if x = x₀ then 1 else 0 : Coef 2 1 1 n) (fun s _ _ => if s = 0 then 1 else 0) := by
  refine ⟨fun s k i j => ?_, fun s k b x h => by simp at h, rfl, fun s _ _ => ?_, fun s _ _ => ?_, by simp, ?_⟩
  · rw [Subsingleton.elim i j]
    simp
  · split <;> norm_num
  · unfold Spec.pauli
    split <;> norm_num
  · intro s s' h h'
    obtain rfl : s = 0 := Fin.ext h
    obtain rfl : s' = 1 := Fin.ext h'
    simp

end Jrystal
