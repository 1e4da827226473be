import Verif.Model.BandRunNC
import Verif.Lemmas.Symmetry
import Verif.Lemmas.Energy

/- Lemmas for Props/BandSymmetryNC.lean: when two norm-conserving band calculations agree. -/
namespace Jrystal
open scoped BigOperators ComplexConjugate
open Matrix

private theorem fineTune_comp {P κ V : Type*} (f : ℕ → κ) (fine : P → κ → P) (eig : P → κ → V) (p : P) (l : List ℕ) :
    fineTune fine eig p (l.map f) = fineTune (fun p i => fine p (f i)) (fun p i => eig p (f i)) p l := by
  induction l generalizing p with
  | nil => rfl
  | cons k ks ih => simp only [List.map_cons, fineTune, ih]

private theorem optimizeChunk_comp {P κ V : Type*} (f : ℕ → κ) (first fine : P → κ → P) (eig : P → κ → V) (p : P)
    (l : List ℕ) : optimizeChunk first fine eig p (l.map f) =
      optimizeChunk (fun p i => first p (f i)) (fun p i => fine p (f i)) (fun p i => eig p (f i)) p l := by
  cases l with
  | nil => rfl
  | cons k ks => simp only [List.map_cons, optimizeChunk, fineTune_comp]

private theorem chunk_comp {κ : Type*} {N : ℕ} (path : ℕ → κ) (u d : ℕ) :
    chunk N u path d = (chunk N u (fun i => i) d).map path := by
  unfold chunk reshapeC
  rw [List.map_map]
  rfl

/-- Two paths whose points have the same steps and energies. -/
theorem bandNormcons_points {P κ κ' : Type*} {first fine : P → κ → P} {first' fine' : P → κ' → P}
    {eig : P → κ → (ℕ → ℕ → ℝ)} {eig' : P → κ' → (ℕ → ℕ → ℝ)} (path : ℕ → κ) (path' : ℕ → κ')
    (h0 : ∀ p i, first' p (path' i) = first p (path i)) (h1 : ∀ p i, fine' p (path' i) = fine p (path i))
    (h2 : ∀ p i, eig' p (path' i) = eig p (path i)) (N devices : ℕ) (parallel : Bool) (K nb : ℕ) (p0 : P) :
    bandNormcons N devices parallel K nb first' fine' eig' p0 path' =
      bandNormcons N devices parallel K nb first fine eig p0 path := by
  have h : ∀ u d, optimizeChunk first' fine' eig' p0 (chunk N u path' d) =
      optimizeChunk first fine eig p0 (chunk N u path d) := by
    intro u d
    rw [chunk_comp, chunk_comp path, optimizeChunk_comp, optimizeChunk_comp]
    simp only [h0, h1, h2]
  unfold bandNormcons
  simp only [h]

/-- The matrix depends on the geometry through the nonlocal matrix, the squares of the wave vectors and the potential
of the density. -/
theorem ncHamiltonian_congr (lib : XcLib) (xt : String) {ns nk nb d M M' : ℕ} {ι ι' : Type} [Fintype ι] [Fintype ι']
    {n : Fin 3 → ℕ} (C : Coef ns nk nb n) (dens : Fin d → Idx n → ℝ) (vloc : Idx n → ℂ)
    {psi : Fin nk → ι → Fin M → Idx n → ℂ} {psi' : Fin nk → ι' → Fin M' → Idx n → ℂ} {g g' : Idx n → Fin 3 → ℝ}
    {k k' : Fin nk → Fin 3 → ℝ} {vol : ℝ}
    (hnl : hamiltonianNonlocal C psi' vol = hamiltonianNonlocal C psi vol)
    (hhar : hartreeRealSpace dens g' true = hartreeRealSpace dens g true)
    (hxc : ∀ s j, vxcDensity lib xt g' dens s j = vxcDensity lib xt g dens s j)
    (hkin : ∀ q x, ∑ e, (g' x e + k' q e) ^ 2 = ∑ e, (g x e + k q e) ^ 2) :
    ncHamiltonianMatrix lib xt true C dens vloc psi' g' k' vol = ncHamiltonianMatrix lib xt true C dens vloc psi g k vol ∧
    ncHamiltonianTrace lib xt true C dens vloc psi' g' k' vol = ncHamiltonianTrace lib xt true C dens vloc psi g k vol := by
  have hk : kineticOperator g' k' = kineticOperator g k := by
    funext q x
    simp only [kineticOperator, hkin]
  have ho : ncOperator lib xt true dens g' = ncOperator lib xt true dens g := by
    unfold ncOperator
    simp only [hhar, hxc, if_true]
  have hx : ncXcOperator lib xt true dens g' = ncXcOperator lib xt true dens g := by
    unfold ncXcOperator
    simp only [hxc, if_true]
  constructor
  · unfold ncHamiltonianMatrix
    rw [hnl, hk, ho]
  · unfold ncHamiltonianTrace energyNonlocal
    rw [hnl, hk, hx, hhar]

/-- The traces and matrices at one point of the path: what the calculation uses of the geometry. -/
private theorem bandLoopNC_closures {d M M' nb : ℕ} {ι ι' β β' : Type} [Fintype ι] [Fintype ι'] {n : Fin 3 → ℕ}
    {lib : XcLib} {qr : QR ℂ} {eigh : Eigvalsh} {mask : Idx n → Bool} {dens : Fin d → Idx n → ℝ} {vloc : Idx n → ℂ}
    {psi : (Fin 3 → ℝ) × β → ι → Fin M → Idx n → ℂ} {psi' : (Fin 3 → ℝ) × β' → ι' → Fin M' → Idx n → ℂ}
    {g g' : Idx n → Fin 3 → ℝ} {vol : ℝ} {xc : String} (pts : ℕ → (Fin 3 → ℝ) × β) (pts' : ℕ → (Fin 3 → ℝ) × β')
    (hhar : hartreeRealSpace dens g' true = hartreeRealSpace dens g true)
    (hxc : ∀ s j, vxcDensity lib xc g' dens s j = vxcDensity lib xc g dens s j)
    (hkin : ∀ i x, ∑ e, (g' x e + (pts' i).1 e) ^ 2 = ∑ e, (g x e + (pts i).1 e) ^ 2)
    (hnl : ∀ i {nb : ℕ} (C : Coef 1 1 nb n), hamiltonianNonlocal C (fun _ : Fin 1 => psi' (pts' i)) vol =
      hamiltonianNonlocal C (fun _ : Fin 1 => psi (pts i)) vol)
    (opt : BandOptimizer) :
    (∀ i (p : PwParams 1 1 (maskCount mask) nb × opt.State),
      bandUpdateNC opt (⟨lib, qr, eigh, mask, dens, vloc, psi', g', vol, xc⟩ : BandEnvNC d M' ι' β' n) (pts' i) p =
        bandUpdateNC opt (⟨lib, qr, eigh, mask, dens, vloc, psi, g, vol, xc⟩ : BandEnvNC d M ι β n) (pts i) p) ∧
    ∀ i (p : PwParams 1 1 (maskCount mask) nb),
      bandEigNC (⟨lib, qr, eigh, mask, dens, vloc, psi', g', vol, xc⟩ : BandEnvNC d M' ι' β' n) p (pts' i) =
        bandEigNC (⟨lib, qr, eigh, mask, dens, vloc, psi, g, vol, xc⟩ : BandEnvNC d M ι β n) p (pts i) := by
  have key := fun i {nb : ℕ} (C : Coef 1 1 nb n) => ncHamiltonian_congr lib xc C dens vloc (hnl i C) hhar hxc
    (k := fun _ => (pts i).1) (k' := fun _ => (pts' i).1) fun _ x => hkin i x
  constructor
  · intro i p
    refine congrArg (fun f => opt.step f p) (funext fun q => ?_)
    exact (key i _).2
  · intro i p
    unfold bandEigNC
    dsimp only
    rw [(key i _).1]
    cases ncHamiltonianMatrix lib xc true (pwCoeff qr mask p) dens vloc (fun _ : Fin 1 => psi (pts i)) g
      (fun _ => (pts i).1) vol <;> rfl

/-- `bandLoopNC` after the split over the devices. -/
private noncomputable def loopTail (L : NcLib) (b : BandConfig) (opt : BandOptimizer) (name : String) {d M : ℕ}
    {ι β : Type} [Fintype ι] {n : Fin 3 → ℕ} (E : BandEnvNC d M ι β n) (nb q : ℕ) (pts : ℕ → (Fin 3 → ℝ) × β) :
    Except PyErr BandFileNC :=
  match bandEigNC E (L.pwDraw 1 1 (maskCount E.mask) nb) (pts 0) with
  | .error e => .error e
  | .ok ⟨K, _⟩ =>
    match bandCalcNC E K q L.devices b.parallelPath (bandUpdateNC opt E) b.epoch b.fineEpoch
        (L.pwDraw 1 1 (maskCount E.mask) nb, opt.init (L.pwDraw 1 1 (maskCount E.mask) nb)) pts with
    | .error e => .error e
    | .ok r => .ok ⟨name, q * K, min (maskCount E.mask) nb, fun i j => r i j⟩

private theorem loopTail_congr (L : NcLib) (b : BandConfig) (opt : BandOptimizer) (name name' : String)
    {d M M' nb q : ℕ} {ι ι' β β' : Type} [Fintype ι] [Fintype ι'] {n : Fin 3 → ℕ}
    {lib : XcLib} {qr : QR ℂ} {eigh : Eigvalsh} {mask : Idx n → Bool} {dens : Fin d → Idx n → ℝ} {vloc : Idx n → ℂ}
    {psi : (Fin 3 → ℝ) × β → ι → Fin M → Idx n → ℂ} {psi' : (Fin 3 → ℝ) × β' → ι' → Fin M' → Idx n → ℂ}
    {g g' : Idx n → Fin 3 → ℝ} {vol : ℝ} {xc : String} (pts : ℕ → (Fin 3 → ℝ) × β) (pts' : ℕ → (Fin 3 → ℝ) × β')
    (hhar : hartreeRealSpace dens g' true = hartreeRealSpace dens g true)
    (hxc : ∀ s j, vxcDensity lib xc g' dens s j = vxcDensity lib xc g dens s j)
    (hkin : ∀ i x, ∑ e, (g' x e + (pts' i).1 e) ^ 2 = ∑ e, (g x e + (pts i).1 e) ^ 2)
    (hnl : ∀ i {nb : ℕ} (C : Coef 1 1 nb n), hamiltonianNonlocal C (fun _ : Fin 1 => psi' (pts' i)) vol =
      hamiltonianNonlocal C (fun _ : Fin 1 => psi (pts i)) vol) :
    loopTail L b opt name' (⟨lib, qr, eigh, mask, dens, vloc, psi', g', vol, xc⟩ : BandEnvNC d M' ι' β' n) nb q pts' =
      (loopTail L b opt name (⟨lib, qr, eigh, mask, dens, vloc, psi, g, vol, xc⟩ : BandEnvNC d M ι β n) nb q pts).map
        fun f => { f with name := name' } := by
  obtain ⟨hu, he⟩ := bandLoopNC_closures (lib := lib) (qr := qr) (eigh := eigh) (mask := mask) (vloc := vloc)
    (nb := nb) pts pts' hhar hxc hkin hnl opt
  have hc : ∀ K (p0 : PwParams 1 1 (maskCount mask) nb × opt.State), bandCalcNC
      (⟨lib, qr, eigh, mask, dens, vloc, psi', g', vol, xc⟩ : BandEnvNC d M' ι' β' n) K q L.devices b.parallelPath
      (bandUpdateNC opt ⟨lib, qr, eigh, mask, dens, vloc, psi', g', vol, xc⟩) b.epoch b.fineEpoch p0 pts' =
      bandCalcNC (⟨lib, qr, eigh, mask, dens, vloc, psi, g, vol, xc⟩ : BandEnvNC d M ι β n) K q L.devices b.parallelPath
      (bandUpdateNC opt ⟨lib, qr, eigh, mask, dens, vloc, psi, g, vol, xc⟩) b.epoch b.fineEpoch p0 pts := by
    intro K p0
    unfold bandCalcNC
    refine bandNormcons_points pts pts' (fun p i => ?_) (fun p i => ?_) (fun p i => ?_) _ _ _ _ _ _
    · rw [funext (hu i)]
    · rw [funext (hu i)]
    · funext s j
      unfold bandEigArrayNC
      rw [he]
      cases bandEigNC (⟨lib, qr, eigh, mask, dens, vloc, psi, g, vol, xc⟩ : BandEnvNC d M ι β n) p.1 (pts i) <;> rfl
  unfold loopTail
  dsimp only
  rw [he]
  cases bandEigNC (⟨lib, qr, eigh, mask, dens, vloc, psi, g, vol, xc⟩ : BandEnvNC d M ι β n)
      (L.pwDraw 1 1 (maskCount mask) nb) (pts 0) with
  | error e => rfl
  | ok r =>
    obtain ⟨K, e⟩ := r
    dsimp only
    rw [hc]
    cases bandCalcNC (⟨lib, qr, eigh, mask, dens, vloc, psi, g, vol, xc⟩ : BandEnvNC d M ι β n) K q L.devices
      b.parallelPath (bandUpdateNC opt ⟨lib, qr, eigh, mask, dens, vloc, psi, g, vol, xc⟩) b.epoch b.fineEpoch
      (L.pwDraw 1 1 (maskCount mask) nb, opt.init (L.pwDraw 1 1 (maskCount mask) nb)) pts <;> rfl

private theorem bandLoopNC_tail (L : NcLib) (T : BandTools) (cfg : NcConfig) (b : BandConfig) {m d q : ℕ}
    (c : Crystal m) (P : NcLists) (n : Fin 3 → ℕ) (mask : Idx n → Bool) (dens : Fin d → Idx n → ℝ)
    (vloc : Idx n → ℂ) (S : Fin m → NlSpecies q n) (path : Fin q → Fin 3 → ℝ) :
    bandLoopNC L T cfg b c P n mask dens vloc S path = match T.optimizer with
      | .error e => .error e
      | .ok opt =>
        if q % (if b.parallelPath then L.devices else 1) ≠ 0 then .error .typeError
        else loopTail L b opt
          (String.ofList (List.ofFn fun i => L.symbol (c.charges i)).flatten ++ "_band_structure.npy")
          (bandRunEnvNC L T cfg c n mask dens vloc S) (driverBands P.valence.sum.toNat b.emptyBands) q
          fun i => (pathAt path i, pathAt (fun j a => (S a).beta j) i) := by
  unfold bandLoopNC
  cases T.optimizer with
  | error e => rfl
  | ok opt =>
    simp only
    by_cases hq : q % (if b.parallelPath then L.devices else 1) ≠ 0
    · rw [if_pos hq, if_pos hq]
    rw [if_neg hq, if_neg hq]
    unfold loopTail
    cases bandEigNC (bandRunEnvNC L T cfg c n mask dens vloc S) (L.pwDraw 1 1 (maskCount
      (bandRunEnvNC L T cfg c n mask dens vloc S).mask) (driverBands P.valence.sum.toNat b.emptyBands))
      (pathAt path 0, pathAt (fun j a => (S a).beta j) 0) with
    | error e => rfl
    | ok r =>
      obtain ⟨K, e⟩ := r
      dsimp only
      generalize bandCalcNC (bandRunEnvNC L T cfg c n mask dens vloc S) K _ _ _ _ _ _ _ _ = bc
      cases bc <;> rfl

private theorem nonlocal_index {ns nb M M' : ℕ} {ι : Type} [Fintype ι] {n : Fin 3 → ℕ} (hM : M = M')
    (C : Coef ns 1 nb n) (psi : Fin 1 → ι → Fin M → Idx n → ℂ) (psi' : ι → Fin M' → Idx n → ℂ)
    (h : ∀ i j x, psi' i (Fin.cast hM j) x = psi 0 i j x) (vol : ℝ) :
    hamiltonianNonlocal C (fun _ : Fin 1 => psi') vol = hamiltonianNonlocal C psi vol := by
  subst hM
  congr 1
  funext k i j x
  rw [Subsingleton.elim k 0]
  exact h i j x

private theorem nonlocal_row (L : NcLib) {m q : ℕ} {n : Fin 3 → ℕ} (S : Fin m → NlSpecies q n) (row : BetaRow S)
    (pos : Fin m → Fin 3 → ℝ) (g : Idx n → Fin 3 → ℝ) (k : Fin 3 → ℝ) {ns nb : ℕ} (C : Coef ns 1 nb n) (vol : ℝ) :
    hamiltonianNonlocal C (fun _ : Fin 1 => (nlPsiAll L.eigh L.sph (rowSpecies S row) pos g (fun _ : Fin 1 => k) 0 :
      (Σ a, Fin (S a).nbeta) → Fin (2 * nlLMax S + 1) → Idx n → ℂ)) vol =
    hamiltonianNonlocal C (nlPsiAll L.eigh L.sph (rowSpecies S row) pos g fun _ : Fin 1 => k) vol :=
  nonlocal_index (ι := Σ a, Fin (S a).nbeta) (by rfl) C
    (nlPsiAll L.eigh L.sph (rowSpecies S row) pos g fun _ : Fin 1 => k) _ (fun _ _ _ => rfl) vol

/-- Two set-ups of the norm-conserving band driver with the same electrons, kinetic energies, potentials and nonlocal
matrices along their paths save the same values. -/
theorem bandLoopNC_congr (L : NcLib) (T : BandTools) (cfg : NcConfig) (b : BandConfig) {m m' d q : ℕ}
    (c : Crystal m) (c' : Crystal m') (P P' : NcLists) (n : Fin 3 → ℕ) (mask : Idx n → Bool)
    (dens : Fin d → Idx n → ℝ) (vloc : Idx n → ℂ) (S : Fin m → NlSpecies q n) (S' : Fin m' → NlSpecies q n)
    (path path' : Fin q → Fin 3 → ℝ) (hval : P'.valence.sum = P.valence.sum) (hvol : c'.vol = c.vol)
    (hhar : hartreeRealSpace dens (gVectors c'.cell n) true = hartreeRealSpace dens (gVectors c.cell n) true)
    (hxc : ∀ s j, vxcDensity L.xc cfg.xc (gVectors c'.cell n) dens s j =
      vxcDensity L.xc cfg.xc (gVectors c.cell n) dens s j)
    (hkin : ∀ j x, ∑ e, (gVectors c'.cell n x e + path' j e) ^ 2 = ∑ e, (gVectors c.cell n x e + path j e) ^ 2)
    (hkin0 : ∀ x, ∑ e, gVectors c'.cell n x e ^ 2 = ∑ e, gVectors c.cell n x e ^ 2)
    (hnl : ∀ j {nb : ℕ} (C : Coef 1 1 nb n),
      hamiltonianNonlocal C (nlPsiAll L.eigh L.sph (rowSpecies S' fun a => (S' a).beta j) c'.positions
        (gVectors c'.cell n) fun _ : Fin 1 => path' j) c.vol =
      hamiltonianNonlocal C (nlPsiAll L.eigh L.sph (rowSpecies S fun a => (S a).beta j) c.positions
        (gVectors c.cell n) fun _ : Fin 1 => path j) c.vol) :
    bandLoopNC L T cfg b c' P' n mask dens vloc S' path' =
      (bandLoopNC L T cfg b c P n mask dens vloc S path).map fun f =>
        { f with name := String.ofList (List.ofFn fun i => L.symbol (c'.charges i)).flatten ++ "_band_structure.npy" } := by
  rw [bandLoopNC_tail, bandLoopNC_tail]
  cases T.optimizer with
  | error e => rfl
  | ok opt =>
    simp only
    by_cases hq : q % (if b.parallelPath then L.devices else 1) ≠ 0
    · rw [if_pos hq, if_pos hq]
      rfl
    rw [if_neg hq, if_neg hq, hval]
    have hpsi0 : ∀ {m : ℕ} (S : Fin m → NlSpecies q n) (pos : Fin m → Fin 3 → ℝ) (g : Idx n → Fin 3 → ℝ) {nb : ℕ}
        (C : Coef 1 1 nb n) (v : ℝ), hamiltonianNonlocal C (nlPsiAll L.eigh L.sph
          (rowSpecies S default) pos g fun _ : Fin 1 => default) v = 0 := by
      intro m S pos g nb C v
      have hz : nlPsiAll L.eigh L.sph (rowSpecies S default) pos g (fun _ : Fin 1 => default) = fun _ _ _ _ => 0 := by
        funext q ab k x
        have hd : (default : ℝ) = 0 := rfl
        simp [nlPsiAll, nlPsi, rowSpecies, hd]
      rw [hz]
      funext s k i j
      simp [hamiltonianNonlocal]
    unfold bandRunEnvNC
    rw [hvol]
    refine loopTail_congr L b opt _ _ _ _ hhar hxc (fun i x => ?_) (fun i {nb} C => ?_)
    · unfold pathAt
      by_cases h : i < q
      · simp only [dif_pos h]
        exact hkin _ x
      · simp only [dif_neg h]
        have hd : (default : ℝ) = 0 := rfl
        simpa [hd] using hkin0 x
    · refine (nonlocal_row L S' _ _ _ _ C _).trans (Eq.trans ?_ (nonlocal_row L S _ _ _ _ C _).symm)
      by_cases h : i < q
      · have h1 : ∀ {X : Type} [Inhabited X] (f : Fin q → X), pathAt f i = f ⟨i, h⟩ := fun f => dif_pos h
        dsimp only
        rw [h1, h1, h1, h1]
        exact hnl ⟨i, h⟩ C
      · have h1 : ∀ {X : Type} [Inhabited X] (f : Fin q → X), pathAt f i = default := fun f => dif_neg h
        dsimp only
        rw [h1, h1, h1, h1]
        exact (hpsi0 S' c'.positions (gVectors c'.cell n) C c.vol).trans
          (hpsi0 S c.positions (gVectors c.cell n) C c.vol).symm

end Jrystal
