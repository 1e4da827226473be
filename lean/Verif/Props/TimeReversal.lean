import Verif.Spec.TimeReversal
import Verif.Spec.Driver
import Verif.Props.BandOpt
import Verif.Props.Mesh
import Verif.Props.Mask

/- C80: time reversal.  Complex conjugation of the orbitals takes k to -k. -/
namespace Jrystal
open scoped BigOperators ComplexConjugate
open Matrix

private theorem isNeg_negIdx {n : Fin 3 → ℕ} (x : Idx n) : Spec.IsNeg x (negIdx x) := by
  intro i
  have hx := (x i).2
  show n i ∣ (x i : ℕ) + (n i - (x i : ℕ)) % n i
  by_cases h0 : (x i : ℕ) = 0
  · rw [h0]; simp
  · rw [Nat.mod_eq_of_lt (by omega)]
    exact ⟨1, by omega⟩

private theorem gVectors_negIdx (A : Matrix (Fin 3) (Fin 3) ℝ) (n : Fin 3 → ℕ) (k : Idx n)
    (hk : ∀ i, 2 * (k i : ℕ) ≠ n i) : gVectors A n (negIdx k) = - gVectors A n k := by
  funext d
  rw [Pi.neg_apply, gVectors_apply, gVectors_apply, ← Finset.sum_neg_distrib]
  refine Finset.sum_congr rfl fun i _ => ?_
  have hlt := (k i).2
  have key : sfreq (n i) ((n i - (k i : ℕ)) % n i) = - sfreq (n i) (k i) := by
    rcases Nat.eq_zero_or_pos (k i : ℕ) with h0 | h0
    · rw [h0]; simp [sfreq_zero]
    · have := hk i
      rw [Nat.mod_eq_of_lt (by omega), sfreq_eq (by omega), sfreq_eq hlt]
      split_ifs <;> omega
  show (sfreq (n i) ((n i - (k i : ℕ)) % n i) : ℝ) * _ = _
  rw [key]
  push_cast
  ring

private theorem ifftn_reversed {n : Fin 3 → ℕ} (F F' : Idx n → ℂ) (h : ∀ x, F' (negIdx x) = conj (F x))
    (j : Idx n) : ifftn F' j = conj (ifftn F j) := by
  rw [ifftn_eq, ifftn_eq, map_div₀, map_sum, Complex.conj_natCast, ← Equiv.sum_comp (negEquiv n)]
  congr 1
  refine Finset.sum_congr rfl fun x _ => ?_
  show F' (negIdx x) * omega (negIdx x) j = _
  rw [h, omega_neg, map_mul]

private theorem absSq_conj (z : ℂ) : absoluteSquare (conj z) = absoluteSquare z := by
  rw [absoluteSquare_eq, absoluteSquare_eq, RCLike.norm_conj]

/-- C80: a state and its time-reversed partner, whose orbital at `-k` is the complex conjugate of the
orbital at `k`, have the same four energies and the same density, provided the plane waves are a set that
contains `-G` with every `G`. -/
theorem time_reversed_energies (lib : XcLib) {ns nk nb na : ℕ} (A : Matrix (Fin 3) (Fin 3) ℝ) {n : Fin 3 → ℕ}
    (mask : Idx n → Bool) (hmask : Spec.Reversible mask) (kpts : Fin nk → Fin 3 → ℝ)
    (σ : Equiv.Perm (Fin nk)) (hσ : ∀ k, kpts (σ k) = - kpts k)
    (c c' : Coef ns nk nb n) (occ occ' : Occ ns nk nb) (hsel : ∀ s k b x, mask x = false → c s k b x = 0)
    (hc : ∀ s k b x x', Spec.IsNeg x x' → c' s (σ k) b x' = conj (c s k b x))
    (hocc : ∀ s k b, occ' s (σ k) b = occ s k b)
    (pos : Fin na → Fin 3 → ℝ) (charge : Fin na → ℝ) (vol : ℝ) (xt : String) :
    totalEnergySplit lib c' pos charge (gVectors A n) kpts vol (some occ') false xt
      = totalEnergySplit lib c pos charge (gVectors A n) kpts vol (some occ) false xt ∧
    densityGrid c' vol occ' = densityGrid c vol occ := by
  have hc0 : ∀ s k b x, c' s (σ k) b (negIdx x) = conj (c s k b x) := fun s k b x =>
    hc s k b x _ (isNeg_negIdx x)
  have hw : ∀ s k b j, waveGrid c' vol s (σ k) b j = conj (waveGrid c vol s k b j) := by
    intro s k b j
    unfold waveGrid
    rw [ifftn_reversed (c s k b) (c' s (σ k) b) (hc0 s k b) j, map_mul, Complex.conj_ofReal]
  have hd : waveToDensity (waveGrid c' vol) occ' = waveToDensity (waveGrid c vol) occ := by
    funext s j
    unfold waveToDensity
    rw [Fintype.sum_prod_type, Fintype.sum_prod_type, ← Equiv.sum_comp σ]
    refine Finset.sum_congr rfl fun k _ => Finset.sum_congr rfl fun b _ => ?_
    rw [hw, absSq_conj, hocc]
  have hk : kineticEnergyOcc (gVectors A n) kpts c' occ' = kineticEnergyOcc (gVectors A n) kpts c occ := by
    unfold kineticEnergyOcc
    refine congrArg (· / 2) (Finset.sum_congr rfl fun s _ => ?_)
    rw [← Equiv.sum_comp σ]
    refine Finset.sum_congr rfl fun k _ => Finset.sum_congr rfl fun b _ => ?_
    rw [hocc, ← Equiv.sum_comp (negEquiv n)]
    refine congrArg (· * occ s k b) (Finset.sum_congr rfl fun x _ => ?_)
    show (∑ d, (gVectors A n (negIdx x) d + kpts (σ k) d) ^ 2) * absoluteSquare (c' s (σ k) b (negIdx x)) = _
    rw [hc0, absSq_conj, hσ]
    by_cases hx : mask x = true
    · rw [gVectors_negIdx A n x (hmask x hx).1]
      refine congrArg (· * absoluteSquare (c s k b x)) (Finset.sum_congr rfl fun d _ => ?_)
      rw [Pi.neg_apply, Pi.neg_apply]
      ring
    · rw [hsel s k b x (by simpa using hx)]
      simp [absoluteSquare]
  refine ⟨?_, ?_⟩
  · unfold totalEnergySplit
    dsimp only [occOrOnes]
    unfold waveToDensityReciprocal
    rw [hk, hd]
  · rw [← waveToDensity_eq, ← waveToDensity_eq, hd]

/-- C80: the time-reversed partner of a physical state is a physical state. -/
theorem time_reversed_state {ns nk nb : ℕ} {n : Fin 3 → ℕ} (mask : Idx n → Bool)
    (hmask : Spec.Reversible mask) (ne spin : ℤ) (r : Bool) (share : ℝ) (σ : Equiv.Perm (Fin nk))
    (c c' : Coef ns nk nb n) (occ occ' : Occ ns nk nb) (h : Spec.PhysicalState mask ne spin r share c occ)
    (hc : ∀ s k b x x', Spec.IsNeg x x' → c' s (σ k) b x' = conj (c s k b x))
    (hocc : ∀ s k b, occ' s (σ k) b = occ s k b) :
    Spec.PhysicalState mask ne spin r share c' occ' := by
  have hc0 : ∀ s k b x, c' s (σ k) b (negIdx x) = conj (c s k b x) := fun s k b x =>
    hc s k b x _ (isNeg_negIdx x)
  have hsum : ∀ s, ∑ k, ∑ b, occ' s k b = ∑ k, ∑ b, occ s k b := fun s => by
    rw [← Equiv.sum_comp σ]
    exact Finset.sum_congr rfl fun k _ => Finset.sum_congr rfl fun b _ => hocc s k b
  refine ⟨fun s k i j => ?_, fun s k b x hx => ?_, h.channels, fun s k b => ?_, fun s k b => ?_, ?_,
    fun s s' h0 h1 => ?_⟩
  · obtain ⟨k, rfl⟩ := σ.surjective k
    rw [← Equiv.sum_comp (negEquiv n)]
    have := congrArg conj (h.orthonormal s k i j)
    rw [map_sum] at this
    refine Eq.trans (Finset.sum_congr rfl fun x _ => ?_) (this.trans (by split_ifs <;> simp))
    show conj (c' s (σ k) i (negIdx x)) * c' s (σ k) j (negIdx x) = _
    rw [hc0, hc0, map_mul]
  · obtain ⟨k, rfl⟩ := σ.surjective k
    have h1 : c' s (σ k) b x = conj (c s k b (negIdx x)) := by
      have := hc0 s k b (negIdx x)
      rwa [negIdx_negIdx] at this
    rw [h1, h.selected s k b (negIdx x) ?_, map_zero]
    by_contra hm
    have h2 := (hmask (negIdx x) (by simpa using hm)).2 (negIdx (negIdx x)) (isNeg_negIdx _)
    rw [negIdx_negIdx, hx] at h2
    cases h2
  · obtain ⟨k, rfl⟩ := σ.surjective k
    rw [hocc]
    exact h.nonneg s k b
  · obtain ⟨k, rfl⟩ := σ.surjective k
    rw [hocc]
    exact h.pauli s k b
  · rw [← h.electrons]
    exact Finset.sum_congr rfl fun s _ => hsum s
  · rw [hsum, hsum]
    exact h.polarisation s s' h0 h1

/-- Every set of orbitals has a time-reversed partner, for any pairing of the k points. -/
example {ns nk nb : ℕ} {n : Fin 3 → ℕ} (c : Coef ns nk nb n) (occ : Occ ns nk nb) (σ : Equiv.Perm (Fin nk)) :
    ∃ (c' : Coef ns nk nb n) (occ' : Occ ns nk nb),
      (∀ s k b x x', Spec.IsNeg x x' → c' s (σ k) b x' = conj (c s k b x)) ∧
      ∀ s k b, occ' s (σ k) b = occ s k b :=
  ⟨fun s k b x => conj (c s (σ.symm k) b (negIdx x)), fun s k b => occ s (σ.symm k) b,
    fun s k b x x' h => by
      beta_reduce
      rw [isNeg_unique h, negIdx_negIdx, σ.symm_apply_apply], fun s k b => by
      beta_reduce; rw [σ.symm_apply_apply]⟩

/-- C80: the k points of every mesh can be paired by time reversal. -/
theorem mesh_paired (A : Matrix (Fin 3) (Fin 3) ℝ) (n : Fin 3 → ℕ) :
    ∃ σ : Equiv.Perm (Idx n), ∀ i, kVectors A n (σ i) = - kVectors A n i := by
  refine ⟨Equiv.piCongrRight fun l => Fin.revPerm, fun i => ?_⟩
  funext d
  rw [Pi.neg_apply]
  unfold kVectors
  rw [← Finset.sum_neg_distrib]
  refine Finset.sum_congr rfl fun l _ => ?_
  rw [← neg_mul]
  refine congrArg (· * reciprocalVectors A l d) ?_
  unfold monkhorstPack
  have h := (i l).2
  have hn : (n l : ℝ) ≠ 0 := by
    have : 0 < n l := by omega
    positivity
  show ((((Fin.rev (i l) : Fin (n l)) : ℕ) : ℝ) + 0.5) / (n l : ℝ) - 0.5 = _
  rw [Fin.val_rev, Nat.cast_sub (by omega)]
  push_cast
  field_simp
  ring

/-! ### Band energies -/

/-- C80: the eigenvalues at `-k` are those at `k` when the plane waves contain `-G` with every `G`. -/
theorem spectrum_time_reversal {N : ℕ} {n : Fin 3 → ℕ} (G : Fin N → Fin 3 → ℝ) (τ : Equiv.Perm (Fin N))
    (hτ : ∀ a, G (τ a) = - G a) (r : Idx n → Fin 3 → ℝ) (V : Idx n → ℝ) (k : Fin 3 → ℝ) (lam : Fin N → ℝ)
    (h : Spec.IsSpectrum (Spec.planeWaveHamiltonian G r V k) lam) :
    Spec.IsSpectrum (Spec.planeWaveHamiltonian G r V (-k)) lam := by
  obtain ⟨h1, U, hU, h2⟩ := h
  have hel : ∀ a b, Spec.planeWaveHamiltonian G r V (-k) (τ a) (τ b)
      = conj (Spec.planeWaveHamiltonian G r V k a b) := by
    intro a b
    unfold Spec.planeWaveHamiltonian
    rw [map_add, map_div₀, map_sum, Complex.conj_natCast]
    refine congrArg₂ (· + ·) ?_ (congrArg (· / _) (Finset.sum_congr rfl fun x _ => ?_))
    · by_cases hab : a = b
      · subst hab
        rw [if_pos rfl, if_pos rfl, Complex.conj_ofReal, hτ]
        congr 1
        have : Spec.dot (fun e => (-G a) e + (-k) e) (fun e => (-G a) e + (-k) e)
            = Spec.dot (fun e => G a e + k e) (fun e => G a e + k e) := by
          unfold Spec.dot
          refine Finset.sum_congr rfl fun d _ => ?_
          simp only [Pi.neg_apply]
          ring
        unfold Spec.kineticEnergy
        rw [this]
      · rw [if_neg hab, if_neg (fun h => hab (τ.injective h)), map_zero]
    · rw [map_mul, Complex.conj_ofReal, ← Complex.exp_conj, map_neg, map_mul, Complex.conj_I,
        Complex.conj_ofReal, hτ, hτ]
      congr 2
      have : Spec.dot (fun e => (-G a) e - (-G b) e) (r x) = - Spec.dot (fun e => G a e - G b e) (r x) := by
        unfold Spec.dot
        rw [← Finset.sum_neg_distrib]
        refine Finset.sum_congr rfl fun d _ => ?_
        simp only [Pi.neg_apply]
        ring
      rw [this]
      push_cast
      ring
  refine ⟨h1, (U.map conj).submatrix τ.symm id, ?_, ?_⟩
  · rw [Matrix.mem_unitaryGroup_iff']
    have h3 := Matrix.mem_unitaryGroup_iff'.1 hU
    ext i j
    have h4 := congrFun (congrFun h3 i) j
    rw [Matrix.mul_apply] at h4 ⊢
    rw [← Equiv.sum_comp τ]
    have h5 := congrArg conj h4
    rw [map_sum] at h5
    refine Eq.trans (Finset.sum_congr rfl fun a _ => ?_) (h5.trans ?_)
    · simp only [Matrix.star_apply, Matrix.submatrix_apply, Matrix.map_apply, Equiv.symm_apply_apply, id,
        RCLike.star_def, map_mul]
    · rw [Matrix.one_apply]
      split_ifs <;> simp
  · ext i j
    obtain ⟨a, rfl⟩ := τ.surjective i
    obtain ⟨b, rfl⟩ := τ.surjective j
    rw [hel, h2, Matrix.mul_apply, Matrix.mul_apply, map_sum]
    refine Finset.sum_congr rfl fun l _ => ?_
    rw [Matrix.mul_diagonal, Matrix.mul_diagonal, map_mul, map_mul, Complex.conj_ofReal]
    simp only [Matrix.conjTranspose_apply, Matrix.submatrix_apply, Matrix.map_apply,
      Equiv.symm_apply_apply, id, RCLike.star_def]

private theorem exists_reversal (A : Matrix (Fin 3) (Fin 3) ℝ) {n : Fin 3 → ℕ} (mask : Idx n → Bool)
    (hmask : Spec.Reversible mask) :
    ∃ τ : Equiv.Perm (Fin (maskCount mask)),
      ∀ a, gVectors A n (maskPos mask (τ a)) = - gVectors A n (maskPos mask a) := by
  have hex : ∀ a, ∃ b, maskPos mask b = negIdx (maskPos mask a) := fun a =>
    exists_maskPos mask ((hmask _ (maskPos_mask mask a)).2 _ (isNeg_negIdx _))
  choose f hf using hex
  have hff : ∀ a, f (f a) = a := fun a => maskList_get_inj mask (by rw [hf, hf, negIdx_negIdx])
  refine ⟨⟨f, f, hff, hff⟩, fun a => ?_⟩
  show gVectors A n (maskPos mask (f a)) = _
  rw [hf, gVectors_negIdx A n _ (hmask _ (maskPos_mask mask a)).1]

/-- C80: with as many bands as plane waves, and plane waves that contain `-G` with every `G`, the reported
band energies at `k` and `-k` are equal, whatever the orbital parameters are.  Missing: sets of plane waves
without this symmetry, see `band_time_reversal_cubic_wrong`; fewer bands than plane waves, where the
reported energies depend on how far the optimisation has come (`spectrum_time_reversal` and C72 cover the
converged case). -/
theorem band_time_reversal_partial {na ns nb : ℕ} {n : Fin 3 → ℕ} (E : BandEnv na 1 n)
    (A : Matrix (Fin 3) (Fin 3) ℝ) (hA : A.det ≠ 0) (hg : E.g = gVectors A n) (hvol : 0 < E.vol)
    (hmask : Spec.Reversible E.mask) (hnb : maskCount E.mask ≤ nb)
    (p p' : PwParams ns 1 (maskCount E.mask) nb) (k : Fin 3 → ℝ) (s : Fin ns) :
    ∃ e, bandEig E p k s = .ok e ∧ bandEig E p' (-k) s = .ok e := by
  obtain ⟨τ, hτ⟩ := exists_reversal A E.mask hmask
  obtain ⟨lam, hl⟩ := planeWaveHamiltonian_spectrum (fun a => gVectors A n (maskPos E.mask a)) (rVectors A n)
    (fun x => (hartreeRealSpace E.dens E.g true x + externalPotential E.pos E.charge E.g E.vol x
      + vxcDensity E.lib E.xc E.g E.dens 0 x).re) k
  obtain ⟨e, h1, -, -, h2⟩ := bandEig_variational E A hA hg hvol _ (fun x => rfl) p k lam hl s
  obtain ⟨e', h3, -, -, h4⟩ := bandEig_variational E A hA hg hvol _ (fun x => rfl) p' (-k) lam
    (spectrum_time_reversal _ τ hτ _ _ k lam hl) s
  have : e' = e := funext fun b => by rw [h2 hnb, h4 hnb]
  exact ⟨e, h1, this ▸ h3⟩

/-- C80: a spherical mask whose cutoff selects no index in the middle of an axis of even length contains
`-G` with every `G`. -/
theorem sphericalMask_reversible (A : Matrix (Fin 3) (Fin 3) ℝ) (n : Fin 3 → ℕ) (cutoff : ℝ)
    (h : ∀ x : Idx n, sphericalMask A n cutoff x = true → ∀ i, 2 * (x i : ℕ) ≠ n i) :
    Spec.Reversible (sphericalMask A n cutoff) := by
  intro x hx
  refine ⟨h x hx, fun x' hx' => ?_⟩
  rw [isNeg_unique hx', sphericalMask_neg A n cutoff x _ (gVectors_negIdx A n x (h x hx))]
  exact hx

/-- C80: in particular every spherical mask on a grid of odd sizes. -/
theorem sphericalMask_reversible_odd (A : Matrix (Fin 3) (Fin 3) ℝ) (n : Fin 3 → ℕ) (cutoff : ℝ)
    (h : ∀ i, n i % 2 = 1) : Spec.Reversible (sphericalMask A n cutoff) :=
  sphericalMask_reversible A n cutoff fun x _ i => by have := h i; omega

/-- C80: the cubic mask contains `-G` with every `G` exactly if half of the kept range, `⌊(n-1)/2⌋`, is even
on every axis (sizes other than 2). -/
theorem cubicMask_reversible_iff (n : Fin 3 → ℕ) (h0 : ∀ i, 0 < n i) (h2 : ∀ i, n i ≠ 2) :
    Spec.Reversible (cubicMask n) ↔ ∀ i, (n i - 1) / 2 % 2 = 0 := by
  have key : ∀ x : Idx n, cubicMask n x = true ↔ ∀ i, Spec.KeptFreq (n i) (sfreq (n i) (x i)) := by
    intro x
    rw [cubicMask_kept_partial n h2 x]
    exact ⟨fun h i => h i _ (sfreq_spec (x i).2), fun h i f hf => by
      rw [isSignedFreq_unique hf (sfreq_spec (x i).2)]; exact h i⟩
  constructor
  · intro h i
    by_contra hodd
    have hpos := h0 i
    let x : Idx n := Function.update (fun l => ⟨0, h0 l⟩) i
      ⟨n i - ((n i - 1) / 2 + 1) / 2, by omega⟩
    have hxi : (x i : ℕ) = n i - ((n i - 1) / 2 + 1) / 2 := by simp [x]
    have hxl : ∀ l, l ≠ i → (x l : ℕ) = 0 := fun l hl => by simp [x, hl]
    have hx : cubicMask n x = true := by
      rw [key]
      intro l
      by_cases hl : l = i
      · subst hl
        rw [hxi, sfreq_eq (by omega)]
        unfold Spec.KeptFreq
        split_ifs <;> omega
      · rw [hxl l hl, sfreq_zero]
        unfold Spec.KeptFreq
        omega
    have h3 := (key _).1 ((h x hx).2 (negIdx x) (isNeg_negIdx x)) i
    have h4 : (negIdx x i : ℕ) = ((n i - 1) / 2 + 1) / 2 := by
      show (n i - (x i : ℕ)) % n i = _
      rw [hxi, Nat.mod_eq_of_lt (by omega)]
      omega
    rw [h4, sfreq_eq (by omega)] at h3
    unfold Spec.KeptFreq at h3
    split_ifs at h3 <;> omega
  · intro h x hx
    rw [key] at hx
    refine ⟨fun i => ?_, fun x' hx' => ?_⟩
    · have h1 := hx i
      have h5 := (x i).2
      have h6 := h i
      intro h7
      rw [sfreq_eq h5] at h1
      unfold Spec.KeptFreq at h1
      split_ifs at h1 <;> omega
    · rw [isNeg_unique hx', key]
      intro i
      have h1 := hx i
      have h5 := (x i).2
      have h6 := h i
      rw [sfreq_eq h5] at h1
      show Spec.KeptFreq (n i) (sfreq (n i) ((n i - (x i : ℕ)) % n i))
      by_cases h0x : (x i : ℕ) = 0
      · rw [h0x]
        rw [h0x] at h1
        simp only [Nat.sub_zero, Nat.mod_self, sfreq_zero]
        unfold Spec.KeptFreq
        omega
      · rw [Nat.mod_eq_of_lt (by omega), sfreq_eq (by omega)]
        unfold Spec.KeptFreq at h1 ⊢
        split_ifs at h1 ⊢ <;> omega

/-- Reversible masks exist: the cubic mask of nine points per axis, which holds five frequencies per axis,
and every spherical mask on a grid of 3 × 5 × 9 points; the cubic mask of twelve points is not one. -/
example : Spec.Reversible (cubicMask ![9, 9, 9]) ∧ ¬ Spec.Reversible (cubicMask ![12, 12, 12]) ∧
    Spec.Reversible (sphericalMask 1 ![3, 5, 9] 7) ∧
    sphericalMask 1 ![3, 5, 9] 7 (mkIdx ⟨0, by decide⟩ ⟨0, by decide⟩ ⟨0, by decide⟩) = true := by
  refine ⟨(cubicMask_reversible_iff _ (by decide) (by decide)).2 (by decide),
    fun h => absurd ((cubicMask_reversible_iff _ (by decide) (by decide)).1 h 0) (by decide),
    sphericalMask_reversible_odd _ _ _ (by decide), ?_⟩
  rw [sphericalMask_zero _ _ _ _ (by decide)]
  norm_num

private theorem spectrum_le_diag {N : ℕ} {H : Matrix (Fin N) (Fin N) ℂ} {lam : Fin N → ℝ}
    (h : Spec.IsSpectrum H lam) (a i : Fin N) (hi : ∀ j, i ≤ j) : lam i ≤ (H a a).re := by
  obtain ⟨h1, U, hU, rfl⟩ := h
  have h3 := congrFun (congrFun (Matrix.mem_unitaryGroup_iff.1 hU) a) a
  rw [Matrix.mul_apply, Matrix.one_apply_eq] at h3
  have h4 : ∑ l, ‖U a l‖ ^ 2 = 1 := by
    have := congrArg Complex.re h3
    rw [Complex.re_sum, Complex.one_re] at this
    rw [← this]
    refine Finset.sum_congr rfl fun l _ => ?_
    rw [Matrix.star_apply, RCLike.star_def, Complex.mul_conj, Complex.ofReal_re,
      Complex.normSq_eq_norm_sq]
  have h5 : ((U * Matrix.diagonal (fun i => (lam i : ℂ)) * Uᴴ) a a).re = ∑ l, ‖U a l‖ ^ 2 * lam l := by
    rw [Matrix.mul_apply, Complex.re_sum]
    refine Finset.sum_congr rfl fun l _ => ?_
    rw [Matrix.mul_diagonal, Matrix.conjTranspose_apply, RCLike.star_def, mul_right_comm, Complex.mul_conj,
      Complex.normSq_eq_norm_sq, ← Complex.ofReal_mul, Complex.ofReal_re]
  rw [h5]
  calc lam i = ∑ l, ‖U a l‖ ^ 2 * lam i := by rw [← Finset.sum_mul, h4, one_mul]
    _ ≤ _ := Finset.sum_le_sum fun l _ => mul_le_mul_of_nonneg_left (h1 (hi l)) (by positivity)

private theorem diag_le_spectrum {N : ℕ} {f : Fin N → ℝ} {lam : Fin N → ℝ}
    (h : Spec.IsSpectrum (Matrix.diagonal fun a => (f a : ℂ)) lam) (m : ℝ) (hm : ∀ a, m ≤ f a) (i : Fin N) :
    m ≤ lam i := by
  obtain ⟨h1, U, hU, h2⟩ := h
  have h3 := Matrix.mem_unitaryGroup_iff'.1 hU
  have h6 : Uᴴ * Matrix.diagonal (fun a => (f a : ℂ)) * U = Matrix.diagonal fun i => (lam i : ℂ) := by
    have h3' : Uᴴ * U = 1 := h3
    rw [h2]
    calc Uᴴ * (U * Matrix.diagonal (fun i => (lam i : ℂ)) * Uᴴ) * U
        = (Uᴴ * U) * Matrix.diagonal (fun i => (lam i : ℂ)) * (Uᴴ * U) := by simp only [Matrix.mul_assoc]
      _ = _ := by rw [h3', Matrix.one_mul, Matrix.mul_one]
  have h4 : ∑ a, ‖U a i‖ ^ 2 = 1 := by
    have h7 := congrFun (congrFun h3 i) i
    rw [Matrix.mul_apply, Matrix.one_apply_eq] at h7
    have := congrArg Complex.re h7
    rw [Complex.re_sum, Complex.one_re] at this
    rw [← this]
    refine Finset.sum_congr rfl fun l _ => ?_
    rw [Matrix.star_apply, RCLike.star_def, mul_comm, Complex.mul_conj, Complex.ofReal_re,
      Complex.normSq_eq_norm_sq]
  have h5 : lam i = ∑ a, ‖U a i‖ ^ 2 * f a := by
    have h7 := congrArg Complex.re (congrFun (congrFun h6 i) i)
    rw [Matrix.diagonal_apply_eq, Complex.ofReal_re, Matrix.mul_apply, Complex.re_sum] at h7
    rw [← h7]
    refine Finset.sum_congr rfl fun a _ => ?_
    rw [Matrix.mul_diagonal, Matrix.conjTranspose_apply, RCLike.star_def, mul_right_comm, mul_comm (conj _),
      Complex.mul_conj, Complex.normSq_eq_norm_sq, ← Complex.ofReal_mul, Complex.ofReal_re]
  rw [h5]
  calc m = ∑ a, ‖U a i‖ ^ 2 * m := by rw [← Finset.sum_mul, h4, one_mul]
    _ ≤ _ := Finset.sum_le_sum fun a _ => mul_le_mul_of_nonneg_left (hm a) (by positivity)

/-- Free electrons in a unit cube, with the cubic mask of a grid of four points along one axis. -/
noncomputable def freeCubic : BandEnv 0 1 ![4, 1, 1] where
  lib := ⟨fun _ _ => 0, fun _ _ _ => 0, fun _ _ _ => 0, fun _ _ _ _ _ _ => 0⟩
  qr := keepingQR
  eigh := someEigvalsh
  mask := cubicMask ![4, 1, 1]
  pos := fun _ _ => 0
  charge := fun _ => 0
  dens := fun _ _ => 0
  g := gVectors 1 ![4, 1, 1]
  vol := 1
  xc := "lda_x"

private theorem free_potential (x : Idx ![4, 1, 1]) :
    (hartreeRealSpace freeCubic.dens freeCubic.g true x
      + externalPotential freeCubic.pos freeCubic.charge freeCubic.g freeCubic.vol x
      + vxcDensity freeCubic.lib freeCubic.xc freeCubic.g freeCubic.dens 0 x).re = 0 := by
  have h1 : hartreeRealSpace freeCubic.dens freeCubic.g true x = 0 := by
    unfold hartreeRealSpace
    rw [ifftn_eq]
    have : ∀ k, fftn (fun _ : Idx ![4, 1, 1] => (0 : ℂ)) k = 0 := fun k => by
      rw [fftn_eq]; simp
    simp [hartreeReciprocal_eq, freeCubic, this]
  have h2 : externalPotential freeCubic.pos freeCubic.charge freeCubic.g freeCubic.vol x = 0 := by
    unfold externalPotential
    rw [ifftn_eq]
    simp [externalReciprocal]
  have h3 : vxcDensity freeCubic.lib freeCubic.xc freeCubic.g freeCubic.dens 0 x = 0 := by
    have hg : pyIn "gga" "lda_x" = false := by decide +kernel
    have he : ∀ a, excLda1 freeCubic.lib (splitPlus "lda_x") a = 0 := by
      intro a
      unfold excLda1
      refine List.sum_eq_zero fun y hy => ?_
      obtain ⟨z, _, rfl⟩ := List.mem_map.mp hy
      simp [ldaPoint1, freeCubic]
    unfold vxcDensity
    have hx : freeCubic.xc = "lda_x" := rfl
    have he' : excLda1 freeCubic.lib (splitPlus "lda_x") = fun _ => 0 := funext he
    simp [hx, hg, vxcLda1, he']
  rw [h1, h2, h3]
  simp

private theorem free_g (x : Idx ![4, 1, 1]) (d : Fin 3) :
    gVectors 1 ![4, 1, 1] x d = if d = 0 then 2 * Real.pi * (sfreq 4 (x 0) : ℝ) else 0 := by
  have h1 : (x 1 : ℕ) = 0 := by have : (x 1 : ℕ) < 1 := (x 1).2; omega
  have h2 : (x 2 : ℕ) = 0 := by have : (x 2 : ℕ) < 1 := (x 2).2; omega
  rw [gVectors_apply, Fin.sum_univ_three, h1, h2, sfreq_zero, sfreq_zero]
  show (sfreq 4 (x 0) : ℝ) * _ + _ + _ = _
  unfold reciprocalVectors
  fin_cases d <;> simp [Matrix.smul_apply, mul_comm]

private theorem free_hamiltonian (k : Fin 3 → ℝ) :
    Spec.planeWaveHamiltonian (fun a => gVectors 1 ![4, 1, 1] (maskPos freeCubic.mask a))
      (rVectors 1 ![4, 1, 1]) (fun _ => 0) k
      = Matrix.diagonal fun a => (Spec.kineticEnergy (fun e => gVectors 1 ![4, 1, 1] (maskPos freeCubic.mask a) e + k e) : ℂ) := by
  ext a b
  unfold Spec.planeWaveHamiltonian
  rw [Matrix.diagonal_apply]
  simp

/-- C80 is false for the cubic mask: for free electrons with a complete set of bands, the lowest band
energy at `-k` is above the one at `k`, whatever the orbital parameters are.  The mask keeps the
frequencies -1 and 0 of an axis of four points. -/
theorem band_time_reversal_cubic_wrong :
    freeCubic.mask = cubicMask ![4, 1, 1] ∧ freeCubic.g = gVectors 1 ![4, 1, 1] ∧
    ∃ k : Fin 3 → ℝ, ∀ (nb : ℕ) (_ : maskCount freeCubic.mask ≤ nb)
      (p p' : PwParams 1 1 (maskCount freeCubic.mask) nb),
      ∃ e e', bandEig freeCubic p k 0 = .ok e ∧ bandEig freeCubic p' (-k) 0 = .ok e' ∧
        ∃ b : Fin (min (maskCount freeCubic.mask) nb), (b : ℕ) = 0 ∧ e b < e' b := by
  refine ⟨rfl, rfl, fun d => if d = 0 then 2 * Real.pi else 0, fun nb hnb p p' => ?_⟩
  generalize hk : (fun d : Fin 3 => if d = 0 then 2 * Real.pi else 0) = k
  obtain ⟨lam, hl⟩ := planeWaveHamiltonian_spectrum
    (fun a => gVectors 1 ![4, 1, 1] (maskPos freeCubic.mask a)) (rVectors 1 ![4, 1, 1]) (fun _ => 0) k
  obtain ⟨lam', hl'⟩ := planeWaveHamiltonian_spectrum
    (fun a => gVectors 1 ![4, 1, 1] (maskPos freeCubic.mask a)) (rVectors 1 ![4, 1, 1]) (fun _ => 0) (-k)
  obtain ⟨e, h1, -, -, h2⟩ := bandEig_variational freeCubic 1 (by simp) rfl (by norm_num [freeCubic])
    (fun _ => 0) (fun x => (free_potential x).symm) p k lam hl 0
  obtain ⟨e', h3, -, -, h4⟩ := bandEig_variational freeCubic 1 (by simp) rfl (by norm_num [freeCubic])
    (fun _ => 0) (fun x => (free_potential x).symm) p' (-k) lam' hl' 0
  have hpi := Real.pi_pos
  obtain ⟨a, ha⟩ := exists_maskPos freeCubic.mask (k := fun i => if h : i = 0 then ⟨3, by subst h; decide⟩ else ⟨0, by
    fin_cases i <;> simp⟩) (by decide +kernel)
  have h0 := a.pos
  refine ⟨e, e', h1, h3, ⟨0, by omega⟩, rfl, ?_⟩
  generalize hb' : (⟨0, by omega⟩ : Fin (min (maskCount freeCubic.mask) nb)) = b
  have hb : (b : ℕ) = 0 := by rw [← hb']
  rw [h2 hnb, h4 hnb]
  have hlow := spectrum_le_diag hl a (Fin.castLE (min_le_left _ _) b) (fun j => by
    rw [Fin.le_def]; simp [hb])
  have hz : (Spec.planeWaveHamiltonian (fun a => gVectors 1 ![4, 1, 1] (maskPos freeCubic.mask a))
      (rVectors 1 ![4, 1, 1]) (fun _ => 0) k a a).re = 0 := by
    rw [free_hamiltonian, Matrix.diagonal_apply_eq, Complex.ofReal_re, ha]
    have h3 : sfreq 4 3 = -1 := by decide
    unfold Spec.kineticEnergy Spec.dot
    simp only [free_g, ← hk, Fin.sum_univ_three]
    simp [h3]
  rw [hz] at hlow
  rw [free_hamiltonian] at hl'
  have hhigh := diag_le_spectrum hl' (2 * Real.pi ^ 2) (fun c => by
    have hc := maskPos_mask freeCubic.mask c
    generalize maskPos freeCubic.mask c = x at hc
    have hx : sfreq 4 (x 0) ≤ 0 := by
      have h5 := (cubicMask_kept_partial ![4, 1, 1] (fun i => by fin_cases i <;> simp) x).1 hc 0 _
        (sfreq_spec (x 0).2)
      exact h5.2
    have hx' : (sfreq 4 (x 0) : ℝ) ≤ 0 := by exact_mod_cast hx
    unfold Spec.kineticEnergy Spec.dot
    simp only [free_g, ← hk, Fin.sum_univ_three, Pi.neg_apply]
    simp
    nlinarith [mul_nonneg_of_nonpos_of_nonpos hx' hx', sq_nonneg Real.pi, mul_pos hpi hpi]) (Fin.castLE (min_le_left _ _) b)
  have : 0 < 2 * Real.pi ^ 2 := by positivity
  linarith

end Jrystal
