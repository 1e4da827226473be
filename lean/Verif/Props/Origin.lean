import Verif.Spec.Driver
import Verif.Props.Xc
import Verif.Props.Energy

/- C78: the origin of the FFT grid.  Moving all atoms by a vector of the FFT grid. -/
namespace Jrystal
open scoped BigOperators ComplexConjugate
open Matrix

private theorem normSq_phase {n : Fin 3 → ℕ} (x t : Idx n) (z : ℂ) :
    absoluteSquare (z * conj (omega x t)) = absoluteSquare z := by
  have h := omega_mul_conj x t
  have h2 : Complex.normSq (omega x t) = 1 := by
    have := congrArg Complex.re h
    rw [Complex.mul_conj] at this
    simpa using this
  unfold absoluteSquare
  simp only [Complex.mul_re, Complex.mul_im, Complex.conj_re, Complex.conj_im]
  rw [Complex.normSq_apply] at h2
  linear_combination (z.re ^ 2 + z.im ^ 2) * h2

private theorem density_shift {ns nk nb : ℕ} {n : Fin 3 → ℕ} (c c' : Coef ns nk nb n) (t : Idx n) (vol : ℝ)
    (occ : Occ ns nk nb) (hc : ∀ s k b x, c' s k b x = c s k b x * conj (omega x t)) (s : Fin ns) (j : Idx n) :
    waveToDensity (waveGrid c' vol) occ s (addIdx j t) = waveToDensity (waveGrid c vol) occ s j := by
  unfold waveToDensity waveGrid
  refine Finset.sum_congr rfl fun p _ => ?_
  rw [ifftn_translate (c s p.1 p.2) (c' s p.1 p.2) t (hc s p.1 p.2) j]

/-- C78: moving every atom by the same vector of the FFT grid, and the orbitals with them, changes none of
the four energies and moves the density by that vector. -/
theorem energies_grid_shift (lib : XcLib) {ns nk nb na : ℕ} (A : Matrix (Fin 3) (Fin 3) ℝ) (hA : A.det ≠ 0)
    {n : Fin 3 → ℕ} (t : Idx n) (c c' : Coef ns nk nb n)
    (hc : ∀ s k b x, c' s k b x = c s k b x *
      Complex.exp (-(Complex.I * ((∑ d, gVectors A n x d * rVectors A n t d : ℝ) : ℂ))))
    (pos : Fin na → Fin 3 → ℝ) (charge : Fin na → ℝ) (kpts : Fin nk → Fin 3 → ℝ) (vol : ℝ) (occ : Occ ns nk nb)
    (xt : String) :
    totalEnergySplit lib c' (fun a d => pos a d + rVectors A n t d) charge (gVectors A n) kpts vol (some occ) false xt
      = totalEnergySplit lib c pos charge (gVectors A n) kpts vol (some occ) false xt ∧
    ∀ s j j', Spec.IsShift t j j' → densityGrid c' vol occ s j' = densityGrid c vol occ s j := by
  have hc' : ∀ s k b x, c' s k b x = c s k b x * conj (omega x t) := fun s k b x => by
    rw [hc, exp_grid A hA]
  have hd := density_shift c c' t vol occ hc'
  have hd' : ∀ s j j', Spec.IsShift t j j' →
      waveToDensity (waveGrid c' vol) occ s j' = waveToDensity (waveGrid c vol) occ s j :=
    fun s j j' h => by rw [isShift_unique h]; exact hd s j
  have hk : kineticEnergyOcc (gVectors A n) kpts c' occ = kineticEnergyOcc (gVectors A n) kpts c occ := by
    unfold kineticEnergyOcc
    simp only [hc', normSq_phase]
  have hh : hartreeEnergy (waveToDensityReciprocal (waveGrid c' vol) occ) (gVectors A n) vol false
      = hartreeEnergy (waveToDensityReciprocal (waveGrid c vol) occ) (gVectors A n) vol false := by
    rw [hartreeEnergy_eq, hartreeEnergy_eq]
    refine congrArg (fun y : ℝ => Except.ok ((if false = true then 4 else 2) * Real.pi * vol / (gridCount n : ℝ) ^ 2 * y)) ?_
    refine Finset.sum_congr rfl fun x _ => ?_
    have : ∀ s, waveToDensityReciprocal (waveGrid c' vol) occ s x
        = waveToDensityReciprocal (waveGrid c vol) occ s x * conj (omega x t) := fun s =>
      fftn_translate _ _ t (fun j => by rw [hd s j]) x
    simp only [this]
    rw [← Finset.sum_mul, norm_mul]
    have h1 : ‖conj (omega x t)‖ = 1 := by
      have h := congrArg norm (omega_mul_conj x t)
      rw [norm_mul, RCLike.norm_conj, norm_one] at h
      rw [RCLike.norm_conj]
      nlinarith [norm_nonneg (omega x t)]
    rw [h1, mul_one]
  constructor
  · unfold totalEnergySplit
    dsimp only [occOrOnes]
    rw [hk, hh, (xc_translate lib xt (gVectors A n) _ _ vol t hd').2]
    have := external_translate A hA (waveToDensity (waveGrid c vol) occ)
      (waveToDensity (waveGrid c' vol) occ) pos charge vol t hd'
    unfold waveToDensityReciprocal
    rw [this]
  · intro s j j' h
    have h1 := hd' s j j' h
    rwa [waveToDensity_eq, waveToDensity_eq] at h1

/-- The phases of a grid vector turn physical states into physical states. -/
theorem physical_phase {ns nk nb : ℕ} {n : Fin 3 → ℕ} {mask : Idx n → Bool} {ne spin : ℤ} {r : Bool} {share : ℝ}
    {c : Coef ns nk nb n} {occ : Occ ns nk nb} (h : Spec.PhysicalState mask ne spin r share c occ) (w : Idx n → ℂ)
    (hw : ∀ x, w x * conj (w x) = 1) :
    Spec.PhysicalState mask ne spin r share (fun s k b x => c s k b x * w x) occ where
  orthonormal := fun s k i j => by
    rw [← h.orthonormal s k i j]
    refine Finset.sum_congr rfl fun x _ => ?_
    rw [map_mul]
    linear_combination (conj (c s k i x) * c s k j x) * hw x
  selected := fun s k b x hx => by rw [h.selected s k b x hx, zero_mul]
  channels := h.channels
  nonneg := h.nonneg
  pauli := h.pauli
  electrons := h.electrons
  polarisation := h.polarisation

/-- Two electrons in one plane wave: a physical state on every grid, and the states it is compared with
exist. -/
example {n : Fin 3 → ℕ} (x₀ t : Idx n) :
    Spec.PhysicalState (fun _ => true) 2 0 true 1
      (fun _ _ _ x => if x = x₀ then 1 else 0 : Coef 1 1 1 n) (fun _ _ _ => 2) ∧
    (∃ j', Spec.IsShift t x₀ j') ∧ (1 : Matrix (Fin 3) (Fin 3) ℝ).det ≠ 0 := by
  refine ⟨⟨fun s k i j => ?_, fun s k b x h => by simp at h, rfl, fun _ _ _ => by norm_num,
      fun _ _ _ => by norm_num [Spec.pauli], by simp, ?_⟩,
    ⟨_, isShift_addIdx x₀ t⟩, by simp⟩
  · rw [Subsingleton.elim i j]
    simp
  · intro s s' _ h
    omega

/-- C78: the energies that physical states can reach, and therefore their infimum, do not depend on which
point of the FFT grid the atoms are placed at: moving all atoms by a grid vector leaves the set of
attainable total energies as it is. -/
theorem attainable_grid_shift (lib : XcLib) {ns nk nb na : ℕ} (A : Matrix (Fin 3) (Fin 3) ℝ) (hA : A.det ≠ 0)
    {n : Fin 3 → ℕ} (t : Idx n) (mask : Idx n → Bool) (ne spin : ℤ) (r : Bool) (share : ℝ)
    (pos : Fin na → Fin 3 → ℝ) (charge : Fin na → ℝ) (kpts : Fin nk → Fin 3 → ℝ) (vol : ℝ) (xt : String) (e : ℝ) :
    (∃ (c : Coef ns nk nb n) (occ : Occ ns nk nb), Spec.PhysicalState mask ne spin r share c occ ∧
      totalEnergy lib c (fun a d => pos a d + rVectors A n t d) charge (gVectors A n) kpts vol (some occ) false xt
        = .ok e) ↔
    (∃ (c : Coef ns nk nb n) (occ : Occ ns nk nb), Spec.PhysicalState mask ne spin r share c occ ∧
      totalEnergy lib c pos charge (gVectors A n) kpts vol (some occ) false xt = .ok e) := by
  constructor
  · rintro ⟨c, occ, h, he⟩
    refine ⟨_, occ, physical_phase h (fun x => omega x t) (fun x => omega_mul_conj x t), ?_⟩
    rw [← he]
    unfold totalEnergy
    rw [(energies_grid_shift lib A hA t (fun s k b x => c s k b x * omega x t) c (fun s k b x => by
      rw [exp_grid A hA, mul_assoc, omega_mul_conj, mul_one]) pos charge kpts vol occ xt).1]
  · rintro ⟨c, occ, h, he⟩
    refine ⟨_, occ, physical_phase h (fun x => conj (omega x t)) (fun x => by
      rw [Complex.conj_conj, mul_comm, omega_mul_conj]), ?_⟩
    rw [← he]
    unfold totalEnergy
    rw [(energies_grid_shift lib A hA t c (fun s k b x => c s k b x * conj (omega x t)) (fun s k b x => by
      rw [exp_grid A hA]) pos charge kpts vol occ xt).1]

end Jrystal
