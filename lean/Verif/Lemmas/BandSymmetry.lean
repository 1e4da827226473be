import Verif.Model.BandRun
import Verif.Lemmas.Symmetry
import Verif.Lemmas.Energy

/- Lemmas for Props/BandSymmetry.lean: when two band calculations agree. -/
namespace Jrystal
open scoped BigOperators ComplexConjugate
open Matrix

private theorem fineTune_map {P κ V : Type*} (φ : κ → κ) {fine fine' : P → κ → P} {eig eig' : P → κ → V}
    (h1 : ∀ p k, fine' p (φ k) = fine p k) (h2 : ∀ p k, eig' p (φ k) = eig p k) (p : P) (l : List κ) :
    fineTune fine' eig' p (l.map φ) = fineTune fine eig p l := by
  induction l generalizing p with
  | nil => rfl
  | cons k ks ih => simp only [List.map_cons, fineTune, h1, h2, ih]

private theorem optimizeChunk_map {P κ V : Type*} (φ : κ → κ) {first first' fine fine' : P → κ → P}
    {eig eig' : P → κ → V} (h0 : ∀ p k, first' p (φ k) = first p k)
    (h1 : ∀ p k, fine' p (φ k) = fine p k) (h2 : ∀ p k, eig' p (φ k) = eig p k) (p : P) (l : List κ) :
    optimizeChunk first' fine' eig' p (l.map φ) = optimizeChunk first fine eig p l := by
  cases l with
  | nil => rfl
  | cons k ks => simp only [List.map_cons, optimizeChunk, h0, h2, fineTune_map φ h1 h2]

private theorem chunk_map {κ : Type*} (φ : κ → κ) (N dev : ℕ) (path : ℕ → κ) (d : ℕ) :
    chunk N dev (fun i => φ (path i)) d = (chunk N dev path d).map φ := by
  unfold chunk reshapeC
  rw [List.map_map]
  rfl

/-- Two paths that correspond to each other, with steps that agree on corresponding points. -/
theorem bandAllElectrons_map {P κ : Type*} (φ : κ → κ) {first first' fine fine' : P → κ → P}
    {eig eig' : P → κ → (ℕ → ℕ → ℝ)} (h0 : ∀ p k, first' p (φ k) = first p k)
    (h1 : ∀ p k, fine' p (φ k) = fine p k) (h2 : ∀ p k, eig' p (φ k) = eig p k)
    (N devices : ℕ) (parallel : Bool) (ns nb num nout : ℕ) (p0 : P) (path : ℕ → κ) :
    bandAllElectrons N devices parallel ns nb num nout first' fine' eig' p0 (fun i => φ (path i)) =
      bandAllElectrons N devices parallel ns nb num nout first fine eig p0 path := by
  unfold bandAllElectrons
  simp only [chunk_map, optimizeChunk_map φ h0 h1 h2]

/-- The set-up of a band calculation with another geometry. -/
def reband {na na' d : ℕ} {n : Fin 3 → ℕ} (E : BandEnv na d n) (g : Idx n → Fin 3 → ℝ)
    (pos : Fin na' → Fin 3 → ℝ) (charge : Fin na' → ℝ) (vol : ℝ) : BandEnv na' d n :=
  { lib := E.lib, qr := E.qr, eigh := E.eigh, mask := E.mask, pos := pos, charge := charge, dens := E.dens, g := g,
    vol := vol, xc := E.xc }

/-- A band calculation sees the geometry only through the traces. -/
theorem bandCalc_reband {na na' d ns nb : ℕ} {n : Fin 3 → ℕ} (E : BandEnv na d n) (g : Idx n → Fin 3 → ℝ)
    (pos : Fin na' → Fin 3 → ℝ) (charge : Fin na' → ℝ) (vol : ℝ) (φ : (Fin 3 → ℝ) → Fin 3 → ℝ)
    (h : ∀ {ns nb : ℕ} (C : Coef ns 1 nb n) k,
      hamiltonianTrace E.lib E.xc true false C pos charge E.dens g (fun _ : Fin 1 => φ k) vol =
      hamiltonianTrace E.lib E.xc true false C E.pos E.charge E.dens E.g (fun _ : Fin 1 => k) E.vol)
    (opt : BandOptimizer) (N num devices : ℕ) (parallel : Bool) (epoch fineEpoch : ℕ)
    (p0 : PwParams ns 1 (maskCount E.mask) nb × opt.State) (path : ℕ → Fin 3 → ℝ) :
    bandCalc (reband E g pos charge vol) N num devices parallel (bandUpdate opt (reband E g pos charge vol)) epoch
        fineEpoch p0 (fun i => φ (path i)) =
      bandCalc E N num devices parallel (bandUpdate opt E) epoch fineEpoch p0 path := by
  obtain ⟨lib, qr, eigh, mask, pos₀, charge₀, dens, g₀, vol₀, xc⟩ := E
  dsimp only [reband] at *
  have ht : ∀ (p : PwParams ns 1 (maskCount mask) nb) k,
      bandTrace (⟨lib, qr, eigh, mask, pos, charge, dens, g, vol, xc⟩ : BandEnv na' d n) p (φ k) =
        bandTrace ⟨lib, qr, eigh, mask, pos₀, charge₀, dens, g₀, vol₀, xc⟩ p k := by
    intro p k
    unfold bandTrace
    simp only [h]
  have hK : ∀ {nb : ℕ} (c : Fin nb → Idx n → ℂ) k, hamilK lib xc true c pos charge dens g (φ k) vol =
      hamilK lib xc true c pos₀ charge₀ dens g₀ k vol₀ := by
    intro nb c k
    unfold hamilK
    simp only [h]
  have he : ∀ (p : PwParams ns 1 (maskCount mask) nb) k s,
      bandEig (⟨lib, qr, eigh, mask, pos, charge, dens, g, vol, xc⟩ : BandEnv na' d n) p (φ k) s =
        bandEig ⟨lib, qr, eigh, mask, pos₀, charge₀, dens, g₀, vol₀, xc⟩ p k s := by
    intro p k s
    unfold bandEig hamiltonianMatrix
    dsimp only
    rw [hK]
    cases hamilK lib xc true (pwCoeff qr mask p s 0) pos₀ charge₀ dens g₀ k vol₀ <;> rfl
  have hu : ∀ k (p : PwParams ns 1 (maskCount mask) nb × opt.State),
      bandUpdate opt (⟨lib, qr, eigh, mask, pos, charge, dens, g, vol, xc⟩ : BandEnv na' d n) (φ k) p =
        bandUpdate opt ⟨lib, qr, eigh, mask, pos₀, charge₀, dens, g₀, vol₀, xc⟩ k p := by
    intro k p
    exact congrArg (fun f => opt.step f p) (funext fun q => ht q k)
  unfold bandCalc
  refine bandAllElectrons_map φ (fun p k => ?_) (fun p k => ?_) (fun p k => ?_) _ _ _ _ _ _ _ _ _
  · rw [funext (hu k)]
  · rw [funext (hu k)]
  · funext s j
    unfold bandEigArray
    by_cases hj : s < ns ∧ j < min (maskCount mask) nb
    · rw [dif_pos hj, dif_pos hj, he]
      cases bandEig ⟨lib, qr, eigh, mask, pos₀, charge₀, dens, g₀, vol₀, xc⟩ p.1 k ⟨s, hj.1⟩ <;> rfl
    · rw [dif_neg hj, dif_neg hj]

/-- The trace depends on the geometry through the potential of the nuclei, the squares of the wave vectors and
the potential of the density. -/
theorem hamiltonianTrace_congr (lib : XcLib) (xt : String) {ns nb d na na' : ℕ} {n : Fin 3 → ℕ}
    (C : Coef ns 1 nb n) (dens : Fin d → Idx n → ℝ) {pos : Fin na → Fin 3 → ℝ} {charge : Fin na → ℝ}
    {pos' : Fin na' → Fin 3 → ℝ} {charge' : Fin na' → ℝ} {g g' : Idx n → Fin 3 → ℝ} {k k' : Fin 3 → ℝ} {vol : ℝ}
    (hext : externalReciprocal pos' charge' g' vol = externalReciprocal pos charge g vol)
    (hhar : hartreeRealSpace dens g' true = hartreeRealSpace dens g true)
    (hxc : ∀ s j, vxcDensity lib xt g' dens s j = vxcDensity lib xt g dens s j)
    (hkin : ∀ x, ∑ e, (g' x e + k' e) ^ 2 = ∑ e, (g x e + k e) ^ 2) :
    hamiltonianTrace lib xt true false C pos' charge' dens g' (fun _ : Fin 1 => k') vol =
      hamiltonianTrace lib xt true false C pos charge dens g (fun _ : Fin 1 => k) vol := by
  have hv : effectivePotential lib xt true dens pos' charge' g' vol =
      effectivePotential lib xt true dens pos charge g vol := by
    unfold effectivePotential externalPotential
    simp only [hext, hhar, hxc, if_true]
  have hk : kineticOperator g' (fun _ : Fin 1 => k') = kineticOperator g (fun _ : Fin 1 => k) := by
    funext q x
    simp only [kineticOperator, hkin]
  unfold hamiltonianTrace
  rw [hv]
  unfold hamiltonianTerms
  rw [hk]

end Jrystal
