import Verif.Props.CellContinuity
import Verif.Props.Origin
import Verif.Lemmas.Supercell

/- Lemmas for C113: grids whose points and k points are listed in another order. -/
namespace Jrystal
open scoped BigOperators ComplexConjugate
open Matrix

/-- The points of one grid as the points of another: Fourier transforms, sizes and origin correspond. -/
structure Regrid {n n' : Fin 3 → ℕ} (e : Idx n ≃ Idx n') : Prop where
  wave : ∀ k j, omega (e k) (e j) = omega k j
  count : gridCount n' = gridCount n
  origin : ∀ k, isOrigin (e k) = isOrigin k

theorem Regrid.symm {n n' : Fin 3 → ℕ} {e : Idx n ≃ Idx n'} (h : Regrid e) : Regrid e.symm where
  wave := fun k j => by
    conv_rhs => rw [← e.apply_symm_apply k, ← e.apply_symm_apply j]
    rw [h.wave]
  count := h.count.symm
  origin := fun k => by
    conv_rhs => rw [← e.apply_symm_apply k]
    rw [h.origin]

variable {n n' : Fin 3 → ℕ} {e : Idx n ≃ Idx n'}

theorem Regrid.fftn (h : Regrid e) (f : Idx n' → ℂ) (k : Idx n) : Jrystal.fftn f (e k) = Jrystal.fftn (fun j => f (e j)) k := by
  rw [fftn_eq, fftn_eq, ← e.sum_comp]
  simp only [h.wave]

theorem Regrid.ifftn (h : Regrid e) (f : Idx n' → ℂ) (k : Idx n) :
    Jrystal.ifftn f (e k) = Jrystal.ifftn (fun j => f (e j)) k := by
  rw [ifftn_eq, ifftn_eq, ← e.sum_comp, h.count]
  simp only [h.wave]

theorem Regrid.braket (h : Regrid e) {a b : ℕ} (bra : Fin a → Idx n' → ℂ) (ket : Fin b → Idx n' → ℂ) (vol : ℝ) :
    reciprocalBraket bra ket vol = reciprocalBraket (fun s k => bra s (e k)) (fun s k => ket s (e k)) vol := by
  unfold reciprocalBraket
  cases broadcastPairs a b with
  | error er => rfl
  | ok ps =>
    have : ∀ p : Fin a × Fin b, ∑ k, conj (bra p.1 k) * ket p.2 k = ∑ k, conj (bra p.1 (e k)) * ket p.2 (e k) :=
      fun p => (e.sum_comp _).symm
    simp only [this, h.count]

theorem Regrid.density (h : Regrid e) {ns nk nk' nb : ℕ} (τ : Fin nk' ≃ Fin nk) {c : Coef ns nk nb n} {c' : Coef ns nk' nb n'}
    {occ : Occ ns nk nb} {occ' : Occ ns nk' nb} (hc : ∀ s k b x, c' s k b (e x) = c s (τ k) b x)
    (ho : ∀ s k b, occ' s k b = occ s (τ k) b) (vol : ℝ) (s : Fin ns) (j : Idx n) :
    densityGrid c' vol occ' s (e j) = densityGrid c vol occ s j := by
  unfold densityGrid densityGridBands waveGrid
  rw [← τ.sum_comp]
  refine Finset.sum_congr rfl fun k _ => Finset.sum_congr rfl fun b _ => ?_
  rw [h.ifftn, h.count, ho]
  simp only [hc]

theorem Regrid.densityR (h : Regrid e) {ns : ℕ} {r : Fin ns → Idx n → ℝ} {r' : Fin ns → Idx n' → ℝ}
    (hr : ∀ s j, r' s (e j) = r s j) (s : Fin ns) (k : Idx n) :
    Jrystal.fftn (fun j => (r' s j : ℂ)) (e k) = Jrystal.fftn (fun j => (r s j : ℂ)) k := by
  rw [h.fftn]
  simp only [hr]

theorem Regrid.gradRho (h : Regrid e) {g : Idx n → Fin 3 → ℝ} {g' : Idx n' → Fin 3 → ℝ} (hg : ∀ x, g' (e x) = g x)
    {r : Idx n → ℝ} {r' : Idx n' → ℝ} (hr : ∀ j, r' (e j) = r j) (d : Fin 3) (j : Idx n) :
    Jrystal.gradRho g' r' d (e j) = Jrystal.gradRho g r d j := by
  unfold Jrystal.gradRho
  rw [h.ifftn]
  simp only [h.fftn, hg, hr]

theorem Regrid.chan {ns : ℕ} {r : Fin ns → Idx n → ℝ} {r' : Fin ns → Idx n' → ℝ} (hr : ∀ s j, r' s (e j) = r s j) (i : ℕ)
    (j : Idx n) : Jrystal.chan r' i (e j) = Jrystal.chan r i j := by
  unfold Jrystal.chan
  split_ifs
  · exact hr _ j
  · rfl

theorem Regrid.excDensity (h : Regrid e) (lib : XcLib) (xt : String) {ns : ℕ} {g : Idx n → Fin 3 → ℝ}
    {g' : Idx n' → Fin 3 → ℝ} (hg : ∀ x, g' (e x) = g x) {r : Fin ns → Idx n → ℝ} {r' : Fin ns → Idx n' → ℝ}
    (hr : ∀ s j, r' s (e j) = r s j) (j : Idx n) :
    Jrystal.excDensity lib xt g' r' (e j) = Jrystal.excDensity lib xt g r j := by
  have hch := fun i => Regrid.chan (e := e) hr i
  unfold Jrystal.excDensity
  simp only [sigma2, sigmaPair, sigma1, hch, h.gradRho hg (hch _)]

theorem Regrid.xc (h : Regrid e) (lib : XcLib) (xt : String) {ns : ℕ} {g : Idx n → Fin 3 → ℝ}
    {g' : Idx n' → Fin 3 → ℝ} (hg : ∀ x, g' (e x) = g x) {r : Fin ns → Idx n → ℝ} {r' : Fin ns → Idx n' → ℝ}
    (hr : ∀ s j, r' s (e j) = r s j) (vol : ℝ) :
    xcEnergy lib xt false r' g' vol = xcEnergy lib xt false r g vol := by
  have : ∑ s, ∑ j, xcDensity lib xt false g' r' s j * (r' s j : ℂ) = ∑ s, ∑ j, xcDensity lib xt false g r s j * (r s j : ℂ) := by
    refine Finset.sum_congr rfl fun s _ => ?_
    rw [← e.sum_comp]
    refine Finset.sum_congr rfl fun j _ => ?_
    rw [hr]
    congr 1
    show ((Jrystal.excDensity lib xt g' r' (e j) : ℝ) : ℂ) = ((Jrystal.excDensity lib xt g r j : ℝ) : ℂ)
    rw [h.excDensity lib xt hg hr]
  unfold xcEnergy
  simp only [this, h.count]

theorem Regrid.kinetic (_h : Regrid e) {ns nk nk' nb : ℕ} (τ : Fin nk' ≃ Fin nk) {c : Coef ns nk nb n} {c' : Coef ns nk' nb n'}
    {occ : Occ ns nk nb} {occ' : Occ ns nk' nb} (hc : ∀ s k b x, c' s k b (e x) = c s (τ k) b x)
    (ho : ∀ s k b, occ' s k b = occ s (τ k) b) {g : Idx n → Fin 3 → ℝ} {g' : Idx n' → Fin 3 → ℝ} (hg : ∀ x, g' (e x) = g x)
    {kpts : Fin nk → Fin 3 → ℝ} {kpts' : Fin nk' → Fin 3 → ℝ} (hk : ∀ k, kpts' k = kpts (τ k)) :
    kineticEnergyOcc g' kpts' c' occ' = kineticEnergyOcc g kpts c occ := by
  unfold kineticEnergyOcc
  congr 1
  refine Finset.sum_congr rfl fun s _ => ?_
  rw [← τ.sum_comp]
  refine Finset.sum_congr rfl fun k _ => Finset.sum_congr rfl fun b _ => ?_
  rw [ho, ← e.sum_comp]
  simp only [hg, hk, hc]

theorem Regrid.hartree (h : Regrid e) {ns : ℕ} {R : Fin ns → Idx n → ℂ} {R' : Fin ns → Idx n' → ℂ}
    (hR : ∀ s j, R' s (e j) = R s j) {g : Idx n → Fin 3 → ℝ} {g' : Idx n' → Fin 3 → ℝ} (hg : ∀ x, g' (e x) = g x) (vol : ℝ) :
    hartreeEnergy R' g' vol false = hartreeEnergy R g vol false := by
  unfold hartreeEnergy
  rw [h.braket]
  have : ∀ k, hartreeReciprocal R' g' false (e k) = hartreeReciprocal R g false k := fun k => by
    simp only [hartreeReciprocal, h.origin, hg, hR]
  simp only [hR, this]

/-- The energies of a state and of the same state on the other grid. -/
theorem Regrid.energies (h : Regrid e) (lib : XcLib) (xt : String) {ns nk nk' nb na : ℕ} (τ : Fin nk' ≃ Fin nk)
    {c : Coef ns nk nb n} {c' : Coef ns nk' nb n'} {occ : Occ ns nk nb} {occ' : Occ ns nk' nb}
    (hc : ∀ s k b x, c' s k b (e x) = c s (τ k) b x) (ho : ∀ s k b, occ' s k b = occ s (τ k) b)
    {g : Idx n → Fin 3 → ℝ} {g' : Idx n' → Fin 3 → ℝ} (hg : ∀ x, g' (e x) = g x)
    {kpts : Fin nk → Fin 3 → ℝ} {kpts' : Fin nk' → Fin 3 → ℝ} (hk : ∀ k, kpts' k = kpts (τ k))
    (pos : Fin na → Fin 3 → ℝ) (charge : Fin na → ℝ) (vol : ℝ) :
    totalEnergySplit lib c' pos charge g' kpts' vol (some occ') false xt
      = totalEnergySplit lib c pos charge g kpts vol (some occ) false xt := by
  have hd : ∀ s j, waveToDensity (waveGrid c' vol) occ' s (e j) = waveToDensity (waveGrid c vol) occ s j := fun s j => by
    rw [waveToDensity_eq, waveToDensity_eq, h.density τ hc ho]
  have hD : ∀ s j, waveToDensityReciprocal (waveGrid c' vol) occ' s (e j)
      = waveToDensityReciprocal (waveGrid c vol) occ s j := fun s j => h.densityR hd s j
  have h1 : kineticEnergyOcc g' kpts' c' occ' = kineticEnergyOcc g kpts c occ := h.kinetic τ hc ho hg hk
  have h2 : externalEnergy (waveToDensityReciprocal (waveGrid c' vol) occ') pos charge g' vol
      = externalEnergy (waveToDensityReciprocal (waveGrid c vol) occ) pos charge g vol := by
    unfold externalEnergy
    rw [h.braket]
    have : ∀ k, externalReciprocal pos charge g' vol (e k) = externalReciprocal pos charge g vol k := fun k => by
      simp only [externalReciprocal, h.origin, h.count, hg]
    simp only [hD, this]
  have h3 : hartreeEnergy (waveToDensityReciprocal (waveGrid c' vol) occ') g' vol false
      = hartreeEnergy (waveToDensityReciprocal (waveGrid c vol) occ) g vol false := h.hartree hD hg vol
  unfold totalEnergySplit
  dsimp only [occOrOnes]
  rw [h1, h2, h3, h.xc lib xt hg hd]

theorem Regrid.physical (e : Idx n ≃ Idx n') {ns nk nk' nb : ℕ} (τ : Fin nk' ≃ Fin nk)
    {c : Coef ns nk nb n} {c' : Coef ns nk' nb n'} {occ : Occ ns nk nb} {occ' : Occ ns nk' nb}
    (hc : ∀ s k b x, c' s k b (e x) = c s (τ k) b x) (ho : ∀ s k b, occ' s k b = occ s (τ k) b)
    {mask : Idx n → Bool} {mask' : Idx n' → Bool} (hm : ∀ x, mask' (e x) = mask x) {ne spin : ℤ} {r : Bool} {share : ℝ}
    (hp : Spec.PhysicalState mask ne spin r share c occ) : Spec.PhysicalState mask' ne spin r share c' occ' where
  orthonormal := fun s k i j => by
    rw [← hp.orthonormal s (τ k) i j, ← e.sum_comp]
    simp only [hc]
  selected := fun s k b x hx => by
    obtain ⟨y, rfl⟩ := e.surjective x
    rw [hm] at hx
    rw [hc, hp.selected s _ b y hx]
  channels := hp.channels
  nonneg := fun s k b => by rw [ho]; exact hp.nonneg _ _ _
  pauli := fun s k b => by rw [ho]; exact hp.pauli _ _ _
  electrons := by
    rw [← hp.electrons]
    refine Finset.sum_congr rfl fun s _ => ?_
    rw [← τ.sum_comp]
    simp only [ho]
  polarisation := fun s s' h0 h1 => by
    rw [← hp.polarisation s s' h0 h1, ← τ.sum_comp, ← τ.sum_comp (fun k => ∑ b, occ s' k b)]
    simp only [ho]

theorem smearingEntropy_reorder {ns nk nk' nb : ℕ} (τ : Fin nk' ≃ Fin nk) {occ : Occ ns nk nb} {occ' : Occ ns nk' nb}
    (ho : ∀ s k b, occ' s k b = occ s (τ k) b) (eps top : ℝ) :
    Spec.smearingEntropy eps top occ' = Spec.smearingEntropy eps top occ := by
  unfold Spec.smearingEntropy
  congr 1
  refine Finset.sum_congr rfl fun s _ => ?_
  rw [← τ.sum_comp]
  simp only [ho]

/-! ### The axes in another order -/

/-- The points of a grid as the points of the grid with the axes in the order `σ`. -/
def axesIdx (σ : Equiv.Perm (Fin 3)) (n : Fin 3 → ℕ) : Idx n ≃ Idx (fun i => n (σ i)) where
  toFun x := fun i => x (σ i)
  invFun y := fun i => Fin.cast (by show n (σ (σ.symm i)) = n i; rw [Equiv.apply_symm_apply]) (y (σ.symm i))
  left_inv x := by
    funext i
    apply Fin.ext
    show ((x (σ (σ.symm i)) : ℕ)) = x i
    rw [Equiv.apply_symm_apply]
  right_inv y := by
    funext i
    apply Fin.ext
    show ((y (σ.symm (σ i)) : ℕ)) = y i
    rw [Equiv.symm_apply_apply]

theorem axesIdx_apply (σ : Equiv.Perm (Fin 3)) (n : Fin 3 → ℕ) (x : Idx n) (i : Fin 3) : axesIdx σ n x i = x (σ i) := rfl

theorem axesIdx_regrid (σ : Equiv.Perm (Fin 3)) (n : Fin 3 → ℕ) : Regrid (axesIdx σ n) where
  wave := fun k j => by
    unfold omega
    congr 2
    exact Equiv.sum_comp σ fun i => ((k i : ℕ) : ℂ) * ((j i : ℕ) : ℂ) / (n i : ℂ)
  count := Equiv.prod_comp σ n
  origin := fun k => by
    unfold isOrigin
    refine decide_eq_decide.2 ⟨fun h i => ?_, fun h i => h (σ i)⟩
    obtain ⟨j, rfl⟩ := σ.surjective i
    exact h j

theorem vectorGrid_axes (σ : Equiv.Perm (Fin 3)) (B : Matrix (Fin 3) (Fin 3) ℝ) (n : Fin 3 → ℕ) (nm : Bool) (x : Idx n) :
    vectorGrid (B.submatrix σ id) (fun i => n (σ i)) nm (axesIdx σ n x) = vectorGrid B n nm x := by
  funext d
  exact Equiv.sum_comp σ fun i => fftfreq (n i) (if nm then 1 else 1 / (n i : ℝ)) (x i) * B i d

theorem reciprocalVectors_axes (σ : Equiv.Perm (Fin 3)) (A : Matrix (Fin 3) (Fin 3) ℝ) :
    reciprocalVectors (A.submatrix σ id) = (reciprocalVectors A).submatrix σ id := by
  unfold reciprocalVectors
  have := Matrix.inv_submatrix_equiv A σ (Equiv.refl _)
  rw [show ⇑(Equiv.refl (Fin 3)) = id from rfl] at this
  rw [this]
  rfl

theorem gVectors_axes (σ : Equiv.Perm (Fin 3)) (A : Matrix (Fin 3) (Fin 3) ℝ) (n : Fin 3 → ℕ) (x : Idx n) :
    gVectors (A.submatrix σ id) (fun i => n (σ i)) (axesIdx σ n x) = gVectors A n x := by
  unfold gVectors
  rw [reciprocalVectors_axes, vectorGrid_axes]

theorem kVectors_axes (σ : Equiv.Perm (Fin 3)) (A : Matrix (Fin 3) (Fin 3) ℝ) (n : Fin 3 → ℕ) (x : Idx n) :
    kVectors (A.submatrix σ id) (fun i => n (σ i)) (axesIdx σ n x) = kVectors A n x := by
  funext d
  unfold kVectors
  rw [reciprocalVectors_axes]
  exact Equiv.sum_comp σ fun l => monkhorstPack n x l * reciprocalVectors A l d

theorem abs_det_axes (σ : Equiv.Perm (Fin 3)) (A : Matrix (Fin 3) (Fin 3) ℝ) : |(A.submatrix σ id).det| = |A.det| := by
  rw [Matrix.det_permute, abs_mul]
  rcases Int.units_eq_one_or (Equiv.Perm.sign σ) with h | h <;> simp [h]

theorem cubicMask_iff_all (n : Fin 3 → ℕ) (k : Idx n) : cubicMask n k = true ↔ ∀ i, cubicMask1 (n i) (k i) = true := by
  unfold cubicMask
  simp only [Bool.and_eq_true, Fin.forall_fin_succ, IsEmpty.forall_iff, and_true]
  exact ⟨fun h => ⟨h.1.1, h.1.2, h.2⟩, fun h => ⟨⟨h.1, h.2.1⟩, h.2.2⟩⟩

theorem createFreqMask_axes (σ : Equiv.Perm (Fin 3)) (cfg cfg' : RunConfig) (hm : cfg'.maskMethod = cfg.maskMethod)
    (hc : cfg'.cutoff = cfg.cutoff) (A : Matrix (Fin 3) (Fin 3) ℝ) (n : Fin 3 → ℕ) {mask : Idx n → Bool}
    (h : createFreqMask cfg A n = .ok mask) :
    createFreqMask cfg' (A.submatrix σ id) (fun i => n (σ i)) = .ok fun y => mask ((axesIdx σ n).symm y) := by
  unfold createFreqMask at h ⊢
  rw [hm, hc]
  split_ifs at h ⊢
  · cases Except.ok.inj h
    congr 1
    funext y
    obtain ⟨x, rfl⟩ := (axesIdx σ n).surjective y
    rw [Equiv.symm_apply_apply]
    refine Bool.eq_iff_iff.2 ?_
    rw [cubicMask_iff_all, cubicMask_iff_all]
    refine ⟨fun h i => ?_, fun h i => h (σ i)⟩
    obtain ⟨j, rfl⟩ := σ.surjective i
    exact h j
  · cases Except.ok.inj h
    congr 1
    funext y
    obtain ⟨x, rfl⟩ := (axesIdx σ n).surjective y
    rw [Equiv.symm_apply_apply]
    unfold sphericalMask
    rw [gVectors_axes]

/-- The list of k points in the other order. -/
def axesList (σ : Equiv.Perm (Fin 3)) (kn : Fin 3 → ℕ) :
    Fin (idxList (fun i => kn (σ i))).length ≃ Fin (idxList kn).length :=
  (idxEquiv _).trans ((axesIdx σ kn).symm.trans (idxEquiv kn).symm)

theorem flatRows_axes (σ : Equiv.Perm (Fin 3)) {kn : Fin 3 → ℕ} {X : Type*} {f : Idx kn → X} {f' : Idx (fun i => kn (σ i)) → X}
    (hf : ∀ x, f' (axesIdx σ kn x) = f x) (k : Fin (idxList (fun i => kn (σ i))).length) :
    flatRows f' k = flatRows f (axesList σ kn k) := by
  show f' (idxEquiv _ k) = f (idxEquiv kn ((idxEquiv kn).symm ((axesIdx σ kn).symm (idxEquiv _ k))))
  rw [Equiv.apply_symm_apply, ← hf, Equiv.apply_symm_apply]

theorem translationCount_axes (σ : Equiv.Perm (Fin 3)) (A : Matrix (Fin 3) (Fin 3) ℝ) (cut : ℝ) :
    translationCount (A.submatrix σ id) cut = translationCount A cut := by
  unfold translationCount
  have : (fun d => ∑ i, (A.submatrix σ id) i d) = fun d => ∑ i, A i d :=
    funext fun d => Equiv.sum_comp σ fun i => A i d
  rw [this]

theorem ewaldReciprocal_regrid (h : Regrid e) {g : Idx n → Fin 3 → ℝ} {g' : Idx n' → Fin 3 → ℝ} (hg : ∀ x, g' (e x) = g x)
    (vol eta : ℝ) (tau : Fin 3 → ℝ) : ewaldReciprocal g' vol eta tau = ewaldReciprocal g vol eta tau := by
  unfold ewaldReciprocal ewaldGSq
  rw [← e.sum_comp]
  simp only [hg, h.origin]

theorem ewaldOverlap_reorder (erfc : ℝ → ℝ) (eta : ℝ) {nt nt' : ℕ} (τ : Fin nt' ≃ Fin nt) {T : Fin nt → Fin 3 → ℝ}
    {T' : Fin nt' → Fin 3 → ℝ} (hT : ∀ t, T' t = T (τ t)) (tau : Fin 3 → ℝ) :
    ewaldOverlap erfc eta T' tau = ewaldOverlap erfc eta T tau := by
  unfold ewaldOverlap
  rw [← τ.sum_comp]
  simp only [hT]

end Jrystal
