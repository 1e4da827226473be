import Verif.Lemmas.SpinGradient2
import Verif.Props.XcPotential
import Verif.Props.FermiLevel
import Verif.Props.Reach

/- C126: the gradient of the minimised energy and the Kohn-Sham equations, for spin channels and every functional. -/
namespace Jrystal
open scoped BigOperators ComplexConjugate Matrix
open KohnSham

private theorem projectorMatrix_empty {N : ℕ} (vol : ℝ) (f : Fin 0 × Fin 0 → Fin N → ℂ) : Spec.projectorMatrix vol f = 0 := by
  funext a b
  simp [Spec.projectorMatrix]

private theorem gradient_shift {ns nk g nb : ℕ} {f h : PwParams ns nk g nb → ℝ} (c : ℝ) (e : ∀ q, f q = h q - c)
    (p G : PwParams ns nk g nb) : Spec.IsFullGradient f p G ↔ Spec.IsFullGradient h p G := by
  have e1 : f = fun q => h q - c := funext e
  have e2 : h = fun q => f q + c := by funext q; rw [e]; ring
  constructor
  · intro hf P d h0 h1 h2
    rw [e2]
    exact (hf P d h0 h1 h2).add_const c
  · intro hf P d h0 h1 h2
    rw [e1]
    exact (hf P d h0 h1 h2).sub_const c

private theorem sum_recast {B m : ℕ} (h : B = m) (t : ℝ) (d : Fin m → ℝ) (e : Fin B → ℝ) (q : Fin m → ℝ) :
    ∑ b, d (Fin.cast h b) * e b - t * ∑ b, d b * q b = ∑ b, d b * (e (Fin.cast h.symm b) - t * q b) := by
  subst h
  rw [Finset.mul_sum, ← Finset.sum_sub_distrib]
  exact Finset.sum_congr rfl fun b _ => by
    rw [Fin.cast_eq_self]
    ring

section
variable {ns nk nb : ℕ} {n : Fin 3 → ℕ}

/-- C126: for any number of spin channels and every functional with a functional derivative `v`, `total_energy` of the
bands that `pw.coeff` makes of independent parameters has a gradient, and the gradient vanishes exactly where the
occupied bands solve the Kohn-Sham equations.  The Hamiltonian `F` is the textbook one: kinetic energy and, for each
spin channel, the potential of the nuclei, of the electrons' charge and of exchange and correlation. -/
theorem energy_gradient_spin (lib : XcLib) (xt : String) (qr : QR ℂ) (ht : Spec.Triangular qr) {na : ℕ}
    (mask : Idx n → Bool) (hm : nb ≤ maskCount mask) (pos : Fin na → Fin 3 → ℝ) (charge : Fin na → ℝ)
    (A : Matrix (Fin 3) (Fin 3) ℝ) (hA : A.det ≠ 0) (kpts : Fin nk → Fin 3 → ℝ) (vol : ℝ) (hvol : 0 < vol)
    (X : (Fin ns → Idx n → ℝ) → ℝ) (hX : ∀ r, xcEnergy lib xt false r (gVectors A n) vol = .ok (X r))
    (occ : Occ ns nk (min (maskCount mask) nb)) (f : PwParams ns nk (maskCount mask) nb → ℝ)
    (hf : ∀ q, totalEnergy lib (pwCoeff qr mask q) pos charge (gVectors A n) kpts vol (some occ) false xt = .ok (f q))
    (p : PwParams ns nk (maskCount mask) nb) (hp : Spec.Independent p) (v : Fin ns → Idx n → ℝ)
    (hv : Spec.IsDensityGradient vol X (densityGrid (pwCoeff qr mask p) vol occ) v) (U : Fin ns → Idx n → ℝ)
    (hU : ∀ s j, U s j = (externalPotential pos charge (gVectors A n) vol j).re
      + (hartreeRealSpace (densityGrid (pwCoeff qr mask p) vol occ) (gVectors A n) true j).re + v s j)
    (F : Fin ns → Fin nk → Matrix (Fin (maskCount mask)) (Fin (maskCount mask)) ℂ)
    (hF : ∀ s k, F s k
      = Spec.planeWaveHamiltonian (fun a => gVectors A n (maskPos mask a)) (rVectors A n) (U s) (kpts k)) :
    (∃ G, Spec.IsFullGradient f p G) ∧
    ∀ G, Spec.IsFullGradient f p G →
      (Spec.Vanishes G ↔ Spec.KohnShamBands F occ fun s k b y => pwCoeff qr mask p s k b (maskPos mask y)) := by
  have key := spinSum_gradient lib xt X qr ht mask hm (fun j => (externalPotential pos charge (gVectors A n) vol j).re)
    (fun _ (_ : Fin 0) (_ : Fin 0) _ => 0) A hA kpts vol hvol hX occ p hp v hv U hU F
    (fun s k => by rw [hF, projectorMatrix_empty, add_zero])
  have hfE : f = _ := funext fun q =>
    Except.ok.inj ((hf q).symm.trans (totalEnergy_spinSum lib xt pos charge (gVectors A n) kpts vol X hX occ _))
  rw [hfE]
  exact key

/-- C126 for valence electrons, with the projectors of a norm-conserving pseudopotential. -/
theorem energyNC_gradient_spin (lib : XcLib) (xt : String) (qr : QR ℂ) (ht : Spec.Triangular qr) {M : ℕ} {ι : Type}
    [Fintype ι] (mask : Idx n → Bool) (hm : nb ≤ maskCount mask) (vloc : Idx n → ℂ) (psi : Fin nk → ι → Fin M → Idx n → ℂ)
    (A : Matrix (Fin 3) (Fin 3) ℝ) (hA : A.det ≠ 0) (kpts : Fin nk → Fin 3 → ℝ) (vol : ℝ) (hvol : 0 < vol)
    (X : (Fin ns → Idx n → ℝ) → ℝ) (hX : ∀ r, xcEnergy lib xt false r (gVectors A n) vol = .ok (X r))
    (occ : Occ ns nk (min (maskCount mask) nb)) (f : PwParams ns nk (maskCount mask) nb → ℝ)
    (hf : ∀ q, Spec.EnergyNC lib xt vloc psi (gVectors A n) kpts vol (pwCoeff qr mask q) occ (f q))
    (p : PwParams ns nk (maskCount mask) nb) (hp : Spec.Independent p) (v : Fin ns → Idx n → ℝ)
    (hv : Spec.IsDensityGradient vol X (densityGrid (pwCoeff qr mask p) vol occ) v) (U : Fin ns → Idx n → ℝ)
    (hU : ∀ s j, U s j = (ifftn vloc j).re
      + (hartreeRealSpace (densityGrid (pwCoeff qr mask p) vol occ) (gVectors A n) true j).re + v s j)
    (F : Fin ns → Fin nk → Matrix (Fin (maskCount mask)) (Fin (maskCount mask)) ℂ)
    (hF : ∀ s k, F s k = Spec.planeWaveHamiltonian (fun a => gVectors A n (maskPos mask a)) (rVectors A n) (U s) (kpts k)
      + Spec.projectorMatrix vol (fun (i : ι × Fin M) a => psi k i.1 i.2 (maskPos mask a))) :
    (∃ G, Spec.IsFullGradient f p G) ∧
    ∀ G, Spec.IsFullGradient f p G →
      (Spec.Vanishes G ↔ Spec.KohnShamBands F occ fun s k b y => pwCoeff qr mask p s k b (maskPos mask y)) := by
  have key := spinSum_gradient lib xt X qr ht mask hm (fun j => (ifftn vloc j).re) psi A hA kpts vol hvol hX occ p hp v hv
    U hU F hF
  have hfE : f = _ := funext fun q =>
    energyNC_unique (hf q) (energyNC_spinSum lib xt vloc psi (gVectors A n) kpts vol X hX occ _)
  rw [hfE]
  exact key

/-- C126, all-electron driver: the function that a run minimises, restricted or not, at any temperature, with any
occupation method whose parameters are held fixed, and with every functional that has a functional derivative. -/
theorem driver_gradient_spin {na : ℕ} (E : GsEnv na nk n) (ht : Spec.Triangular E.qrC) (hm : nb ≤ maskCount E.mask)
    (q : OccParams nk nb) (o : OccArr nk nb ℝ)
    (ho : occupation E.qrR q E.ne E.spin E.method E.restricted = .ok o) (hl : o.length = ns)
    (occ : Occ ns nk (min (maskCount E.mask) nb))
    (hocc : ∀ s k b, occ s k b = o.get (Fin.cast hl.symm s) k (Fin.castLE (min_le_right _ _) b))
    (A : Matrix (Fin 3) (Fin 3) ℝ) (hA : A.det ≠ 0) (hgA : E.g = gVectors A n) (hvol : 0 < E.vol)
    (X : (Fin ns → Idx n → ℝ) → ℝ) (hX : ∀ r, xcEnergy E.lib E.xc false r E.g E.vol = .ok (X r))
    (temp : ℝ) (f : PwParams ns nk (maskCount E.mask) nb → ℝ)
    (hf : ∀ w, (gsFree E temp ⟨w, q⟩).map (fun r => r.1) = .ok (f w))
    (p : PwParams ns nk (maskCount E.mask) nb) (hp : Spec.Independent p) (v : Fin ns → Idx n → ℝ)
    (hv : Spec.IsDensityGradient E.vol X (densityGrid (pwCoeff E.qrC E.mask p) E.vol occ) v) (U : Fin ns → Idx n → ℝ)
    (hU : ∀ s j, U s j = (externalPotential E.pos E.charge E.g E.vol j).re
      + (hartreeRealSpace (densityGrid (pwCoeff E.qrC E.mask p) E.vol occ) E.g true j).re + v s j)
    (F : Fin ns → Fin nk → Matrix (Fin (maskCount E.mask)) (Fin (maskCount E.mask)) ℂ)
    (hF : ∀ s k, F s k
      = Spec.planeWaveHamiltonian (fun a => E.g (maskPos E.mask a)) (rVectors A n) (U s) (E.kpts k)) :
    gsDensity E ⟨p, q⟩ = .ok ⟨ns, densityGrid (pwCoeff E.qrC E.mask p) E.vol occ⟩ ∧
    (∃ G, Spec.IsFullGradient f p G) ∧
    ∀ G, Spec.IsFullGradient f p G →
      (Spec.Vanishes G ↔ Spec.KohnShamBands F occ fun s k b y => pwCoeff E.qrC E.mask p s k b (maskPos E.mask y)) := by
  have hs := fun w => gsState_eq E ⟨w, q⟩ o ho hl hm occ hocc
  choose h hh using fun w => totalEnergy_succeeds E.lib (pwCoeff E.qrC E.mask w) E.pos E.charge E.g E.kpts E.vol
    (some occ) false E.xc (Or.inl rfl)
  have hsub : ∀ w, f w = h w - temp * fermiDirac (fun s : Fin o.length => o.get s) E.eps := by
    intro w
    have h1 := hf w
    unfold gsFree gsEntropy at h1
    rw [gsTotal_of_state E ⟨w, q⟩ _ _ (hs w), hh w] at h1
    simp only [ho] at h1
    exact (Except.ok.inj h1).symm
  rw [hgA] at hh hX hU hF
  obtain ⟨⟨G, hG⟩, h2⟩ := energy_gradient_spin E.lib E.xc E.qrC ht E.mask hm E.pos E.charge A hA E.kpts E.vol hvol X hX occ h
    hh p hp v hv U hU F hF
  refine ⟨?_, ⟨G, (gradient_shift _ hsub p G).2 hG⟩, fun G hG => h2 G ((gradient_shift _ hsub p G).1 hG)⟩
  unfold gsDensity
  rw [hs]

/-- C126, norm-conserving driver. -/
theorem driverNC_gradient_spin {na M : ℕ} {ι : Type} [Fintype ι] (E : GsEnv na nk n) (vloc : Idx n → ℂ)
    (psi : Fin nk → ι → Fin M → Idx n → ℂ) (ht : Spec.Triangular E.qrC) (hm : nb ≤ maskCount E.mask)
    (q : OccParams nk nb) (o : OccArr nk nb ℝ)
    (ho : occupation E.qrR q E.ne E.spin E.method E.restricted = .ok o) (hl : o.length = ns)
    (occ : Occ ns nk (min (maskCount E.mask) nb))
    (hocc : ∀ s k b, occ s k b = o.get (Fin.cast hl.symm s) k (Fin.castLE (min_le_right _ _) b))
    (A : Matrix (Fin 3) (Fin 3) ℝ) (hA : A.det ≠ 0) (hgA : E.g = gVectors A n) (hvol : 0 < E.vol)
    (X : (Fin ns → Idx n → ℝ) → ℝ) (hX : ∀ r, xcEnergy E.lib E.xc false r E.g E.vol = .ok (X r))
    (temp : ℝ) (f : PwParams ns nk (maskCount E.mask) nb → ℝ)
    (hf : ∀ w, (gsFreeNC E vloc psi temp ⟨w, q⟩).map (fun r => r.1) = .ok (f w))
    (p : PwParams ns nk (maskCount E.mask) nb) (hp : Spec.Independent p) (v : Fin ns → Idx n → ℝ)
    (hv : Spec.IsDensityGradient E.vol X (densityGrid (pwCoeff E.qrC E.mask p) E.vol occ) v) (U : Fin ns → Idx n → ℝ)
    (hU : ∀ s j, U s j = (ifftn vloc j).re
      + (hartreeRealSpace (densityGrid (pwCoeff E.qrC E.mask p) E.vol occ) E.g true j).re + v s j)
    (F : Fin ns → Fin nk → Matrix (Fin (maskCount E.mask)) (Fin (maskCount E.mask)) ℂ)
    (hF : ∀ s k, F s k
      = Spec.planeWaveHamiltonian (fun a => E.g (maskPos E.mask a)) (rVectors A n) (U s) (E.kpts k)
      + Spec.projectorMatrix E.vol (fun (i : ι × Fin M) a => psi k i.1 i.2 (maskPos E.mask a))) :
    gsDensity E ⟨p, q⟩ = .ok ⟨ns, densityGrid (pwCoeff E.qrC E.mask p) E.vol occ⟩ ∧
    (∃ G, Spec.IsFullGradient f p G) ∧
    ∀ G, Spec.IsFullGradient f p G →
      (Spec.Vanishes G ↔ Spec.KohnShamBands F occ fun s k b y => pwCoeff E.qrC E.mask p s k b (maskPos E.mask y)) := by
  have hs := fun w => gsState_eq E ⟨w, q⟩ o ho hl hm occ hocc
  choose h hh using fun w => energyNC_exists E.lib E.xc vloc psi E.g E.kpts E.vol (pwCoeff E.qrC E.mask w) occ
  have hsub : ∀ w, f w = h w - temp * fermiDirac (fun s : Fin o.length => o.get s) E.eps := by
    intro w
    have h1 := hf w
    unfold gsFreeNC gsEntropy at h1
    rw [gsTotalNC_of_state E vloc psi ⟨w, q⟩ _ _ (hs w) _ (hh w)] at h1
    simp only [ho] at h1
    exact (Except.ok.inj h1).symm
  rw [hgA] at hh hX hU hF
  obtain ⟨⟨G, hG⟩, h2⟩ := energyNC_gradient_spin E.lib E.xc E.qrC ht E.mask hm vloc psi A hA E.kpts E.vol hvol X hX occ h
    hh p hp v hv U hU F hF
  refine ⟨?_, ⟨G, (gradient_shift _ hsub p G).2 hG⟩, fun G hG => h2 G ((gradient_shift _ hsub p G).1 hG)⟩
  unfold gsDensity
  rw [hs]

private theorem simplex_rows {na : ℕ} (E : GsEnv na nk n) (hmeth : E.method = "simplex-projector")
    (hns : ns = if E.restricted then 1 else 2) (hm : nb ≤ maskCount E.mask)
    (P : (Fin nk → Fin nb → ℝ) × (Fin nk → Fin nb → ℝ)) :
    ∃ (o : OccArr nk nb ℝ) (hl : o.length = ns),
      occupation E.qrR (.simplex P.1 P.2) E.ne E.spin E.method E.restricted = .ok o ∧
      ∀ (s : Fin ns) k (b : Fin (min (maskCount E.mask) nb)),
        Spec.occEntry E.ne E.spin E.restricted s k (Fin.cast (min_eq_right hm) b) P
          = o.get (Fin.cast hl.symm s) k (Fin.castLE (min_le_right _ _) b) := by
  have hlen : (simplexProjector P.1 P.2 E.ne E.spin E.restricted).length = ns := by
    rw [hns]
    cases E.restricted <;> simp [simplexProjector, sumSpin]
  refine ⟨simplexProjector P.1 P.2 E.ne E.spin E.restricted, hlen, by simp [occupation, hmeth], fun s k b => ?_⟩
  unfold Spec.occEntry
  rw [List.getD_eq_getElem _ _ (by rw [hlen]; exact s.isLt)]
  rfl

/-- The free energy as a function of the occupations. -/
private theorem occ_key {na M : ℕ} {ι : Type} [Fintype ι] (E : GsEnv na nk n)
    (psi : Fin nk → ι → Fin M → Idx n → ℂ) (V : Idx n → ℝ) (hk : 0 < nk)
    (hns : ns = if E.restricted then 1 else 2) (hm : nb ≤ maskCount E.mask) (heps : 0 < E.eps)
    (hpar : E.ne % 2 = E.spin % 2) (h0 : |E.spin| < E.ne) (hb : E.ne + |E.spin| < 2 * nb)
    (A : Matrix (Fin 3) (Fin 3) ℝ) (hA : A.det ≠ 0) (hgA : E.g = gVectors A n) (hvol : 0 < E.vol)
    (X : (Fin ns → Idx n → ℝ) → ℝ) (temp : ℝ)
    (f : (Fin nk → Fin nb → ℝ) × (Fin nk → Fin nb → ℝ) → ℝ) (p : PwParams ns nk (maskCount E.mask) nb)
    (hf : ∀ P, f P = spinSum X V psi E.g E.kpts E.vol
        (fun (s : Fin ns) k b => Spec.occEntry E.ne E.spin E.restricted s k (Fin.cast (min_eq_right hm) b) P)
        (pwCoeff E.qrC E.mask p)
      - temp * Spec.smearingEntropy E.eps ((3 - (ns : ℝ)) / nk)
        fun (s : Fin ns) k (b : Fin (min (maskCount E.mask) nb)) =>
          Spec.occEntry E.ne E.spin E.restricted s k (Fin.cast (min_eq_right hm) b) P)
    (P : (Fin nk → Fin nb → ℝ) × (Fin nk → Fin nb → ℝ))
    (hP : ∀ sp k b, DifferentiableAt ℝ (Spec.occEntry E.ne E.spin E.restricted sp k b) P)
    (occ : Occ ns nk (min (maskCount E.mask) nb))
    (hocc : ∀ s k b, occ s k b = Spec.occEntry E.ne E.spin E.restricted s k (Fin.cast (min_eq_right hm) b) P)
    (v : Fin ns → Idx n → ℝ)
    (hv : Spec.IsDensityGradient E.vol X (densityGrid (pwCoeff E.qrC E.mask p) E.vol occ) v) (U : Fin ns → Idx n → ℝ)
    (hU : ∀ s j, U s j = V j
      + (hartreeRealSpace (densityGrid (pwCoeff E.qrC E.mask p) E.vol occ) E.g true j).re + v s j)
    (F : Fin ns → Fin nk → Matrix (Fin (maskCount E.mask)) (Fin (maskCount E.mask)) ℂ)
    (hF : ∀ s k, F s k
      = Spec.planeWaveHamiltonian (fun a => E.g (maskPos E.mask a)) (rVectors A n) (U s) (E.kpts k)
      + Spec.projectorMatrix E.vol (fun (i : ι × Fin M) a => psi k i.1 i.2 (maskPos E.mask a))) :
    (∃ K, Spec.IsOccGradient f P K) ∧ ∀ K, Spec.IsOccGradient f P K → (K = 0 ↔
      ∃ μ, Spec.ChannelLevels E.ne E.spin E.restricted P temp E.eps ((3 - (ns : ℝ)) / nk)
        (fun s k b => Spec.bandEnergy (F s k) fun y =>
          pwCoeff E.qrC E.mask p s k (Fin.cast (min_eq_right hm).symm b) (maskPos E.mask y))
        (fun s k b => Spec.occEntry E.ne E.spin E.restricted s k b P) μ) := by
  have hbd := rows_bounds hk E.ne E.spin hpar h0 hb E.restricted hns P
  have key := occGradient_rows hk E.ne E.spin hpar h0 hb E.restricted hns P hP
    (fun o => spinSum X V psi E.g E.kpts E.vol (fun s k b => o s k (Fin.cast (min_eq_right hm) b)) (pwCoeff E.qrC E.mask p)
      - temp * Spec.smearingEntropy E.eps ((3 - (ns : ℝ)) / nk)
        fun s k (b : Fin (min (maskCount E.mask) nb)) => o s k (Fin.cast (min_eq_right hm) b)) f hf
    (fun s k b => (Spec.bandEnergy (F s k) fun y =>
        pwCoeff E.qrC E.mask p s k (Fin.cast (min_eq_right hm).symm b) (maskPos E.mask y))
      - temp * Spec.entropySlope E.eps ((3 - (ns : ℝ)) / nk) (Spec.occEntry E.ne E.spin E.restricted s k b P))
    (fun o d ho hod => by
      have hocc0 : (fun s k b => o 0 s k (Fin.cast (min_eq_right hm) b)) = occ := by
        funext s k b
        rw [hocc, ho]
      have d1 := spinSum_occ X E.qrC E.mask V psi A hA E.kpts E.vol hvol p
        (fun t s k b => o t s k (Fin.cast (min_eq_right hm) b)) (fun s k b => d s k (Fin.cast (min_eq_right hm) b))
        (fun s k b => hod s k _) v (by rw [hocc0]; exact hv) U (by rw [hocc0, ← hgA]; exact hU) F
        (by rw [← hgA]; exact hF)
      rw [← hgA] at d1
      have d2 := hasDerivAt_entropy (min_eq_right hm) E.eps ((3 - (ns : ℝ)) / nk) heps o d hod
        (fun s k b => by rw [ho]; exact (hbd s k b).1) (fun s k b => by rw [ho]; exact (hbd s k b).2.1)
      refine (d1.fun_sub (d2.const_mul temp)).congr_deriv ?_
      rw [ho, Finset.mul_sum, ← Finset.sum_sub_distrib]
      refine Finset.sum_congr rfl fun s _ => ?_
      rw [Finset.mul_sum, ← Finset.sum_sub_distrib]
      refine Finset.sum_congr rfl fun k _ => ?_
      exact sum_recast (min_eq_right hm) temp (d s k)
        (fun b => Spec.bandEnergy (F s k) fun y => pwCoeff E.qrC E.mask p s k b (maskPos E.mask y)) _)
  refine ⟨key.1, fun G hG => (key.2 G hG).trans ?_⟩
  exact levels_of_equal E.ne E.spin E.restricted P temp E.eps ((3 - (ns : ℝ)) / nk) _ _

theorem free_rows {na : ℕ} (E : GsEnv na nk n) (hmeth : E.method = "simplex-projector")
    (hns : ns = if E.restricted then 1 else 2) (hm : nb ≤ maskCount E.mask) (X : (Fin ns → Idx n → ℝ) → ℝ)
    (hX : ∀ r, xcEnergy E.lib E.xc false r E.g E.vol = .ok (X r)) (temp : ℝ)
    (w : PwParams ns nk (maskCount E.mask) nb) (P : (Fin nk → Fin nb → ℝ) × (Fin nk → Fin nb → ℝ)) :
    (gsFree E temp ⟨w, .simplex P.1 P.2⟩).map (fun r => r.1) = .ok
      (spinSum X (fun j => (externalPotential E.pos E.charge E.g E.vol j).re) (fun _ (_ : Fin 0) (_ : Fin 0) _ => 0) E.g
        E.kpts E.vol
        (fun (s : Fin ns) k b => Spec.occEntry E.ne E.spin E.restricted s k (Fin.cast (min_eq_right hm) b) P)
        (pwCoeff E.qrC E.mask w)
      - temp * Spec.smearingEntropy E.eps ((3 - (ns : ℝ)) / nk)
        fun (s : Fin ns) k (b : Fin (min (maskCount E.mask) nb)) =>
          Spec.occEntry E.ne E.spin E.restricted s k (Fin.cast (min_eq_right hm) b) P) := by
  obtain ⟨o, hl, ho, hy⟩ := simplex_rows E hmeth hns hm P
  have hs := gsState_eq E ⟨w, .simplex P.1 P.2⟩ o ho hl hm _ hy
  have he := gsEntropy_eq E ⟨w, .simplex P.1 P.2⟩ o ho hl hm _ hy
  unfold gsFree
  rw [gsTotal_of_state E ⟨w, .simplex P.1 P.2⟩ _ _ hs, totalEnergy_spinSum E.lib E.xc E.pos E.charge E.g E.kpts E.vol X hX,
    he]
  rfl

theorem freeNC_rows {na M : ℕ} {ι : Type} [Fintype ι] (E : GsEnv na nk n) (vloc : Idx n → ℂ)
    (psi : Fin nk → ι → Fin M → Idx n → ℂ) (hmeth : E.method = "simplex-projector")
    (hns : ns = if E.restricted then 1 else 2) (hm : nb ≤ maskCount E.mask) (X : (Fin ns → Idx n → ℝ) → ℝ)
    (hX : ∀ r, xcEnergy E.lib E.xc false r E.g E.vol = .ok (X r)) (temp : ℝ)
    (w : PwParams ns nk (maskCount E.mask) nb) (P : (Fin nk → Fin nb → ℝ) × (Fin nk → Fin nb → ℝ)) :
    (gsFreeNC E vloc psi temp ⟨w, .simplex P.1 P.2⟩).map (fun r => r.1) = .ok
      (spinSum X (fun j => (ifftn vloc j).re) psi E.g E.kpts E.vol
        (fun (s : Fin ns) k b => Spec.occEntry E.ne E.spin E.restricted s k (Fin.cast (min_eq_right hm) b) P)
        (pwCoeff E.qrC E.mask w)
      - temp * Spec.smearingEntropy E.eps ((3 - (ns : ℝ)) / nk)
        fun (s : Fin ns) k (b : Fin (min (maskCount E.mask) nb)) =>
          Spec.occEntry E.ne E.spin E.restricted s k (Fin.cast (min_eq_right hm) b) P) := by
  obtain ⟨o, hl, ho, hy⟩ := simplex_rows E hmeth hns hm P
  have hs := gsState_eq E ⟨w, .simplex P.1 P.2⟩ o ho hl hm _ hy
  have he := gsEntropy_eq E ⟨w, .simplex P.1 P.2⟩ o ho hl hm _ hy
  unfold gsFreeNC
  rw [gsTotalNC_of_state E vloc psi ⟨w, .simplex P.1 P.2⟩ _ _ hs _
    (energyNC_spinSum E.lib E.xc vloc psi E.g E.kpts E.vol X hX _ _), he]
  rfl

/-- C126: the gradient of the function that an all-electron run with `simplex-projector` minimises, restricted or with
two spin channels and with every functional that has a functional derivative, vanishes in the plane-wave and in the
occupation parameters exactly at self-consistent solutions: the occupied bands solve the Kohn-Sham equations of their
own density, and the partly filled bands of each spin channel share a Fermi level.  Missing: parameters where the
occupations have no derivative, a set of measure zero (`simplexProjector_differentiable_ae`). -/
theorem driver_selfConsistent_spin_partial {na : ℕ} (E : GsEnv na nk n) (hk : 0 < nk)
    (ht : Spec.Triangular E.qrC) (hmeth : E.method = "simplex-projector") (hns : ns = if E.restricted then 1 else 2)
    (hm : nb ≤ maskCount E.mask) (heps : 0 < E.eps) (hpar : E.ne % 2 = E.spin % 2) (h0 : |E.spin| < E.ne)
    (hb : E.ne + |E.spin| < 2 * nb) (A : Matrix (Fin 3) (Fin 3) ℝ) (hA : A.det ≠ 0) (hgA : E.g = gVectors A n)
    (hvol : 0 < E.vol) (X : (Fin ns → Idx n → ℝ) → ℝ) (hX : ∀ r, xcEnergy E.lib E.xc false r E.g E.vol = .ok (X r))
    (temp : ℝ) (f : PwParams ns nk (maskCount E.mask) nb → (Fin nk → Fin nb → ℝ) × (Fin nk → Fin nb → ℝ) → ℝ)
    (hf : ∀ w P, (gsFree E temp ⟨w, .simplex P.1 P.2⟩).map (fun r => r.1) = .ok (f w P))
    (p : PwParams ns nk (maskCount E.mask) nb) (hp : Spec.Independent p)
    (P : (Fin nk → Fin nb → ℝ) × (Fin nk → Fin nb → ℝ))
    (hP : ∀ sp k b, DifferentiableAt ℝ (Spec.occEntry E.ne E.spin E.restricted sp k b) P)
    (occ : Occ ns nk (min (maskCount E.mask) nb))
    (hocc : ∀ s k b, occ s k b = Spec.occEntry E.ne E.spin E.restricted s k (Fin.cast (min_eq_right hm) b) P)
    (v : Fin ns → Idx n → ℝ)
    (hv : Spec.IsDensityGradient E.vol X (densityGrid (pwCoeff E.qrC E.mask p) E.vol occ) v) (U : Fin ns → Idx n → ℝ)
    (hU : ∀ s j, U s j = (externalPotential E.pos E.charge E.g E.vol j).re
      + (hartreeRealSpace (densityGrid (pwCoeff E.qrC E.mask p) E.vol occ) E.g true j).re + v s j)
    (F : Fin ns → Fin nk → Matrix (Fin (maskCount E.mask)) (Fin (maskCount E.mask)) ℂ)
    (hF : ∀ s k, F s k
      = Spec.planeWaveHamiltonian (fun a => E.g (maskPos E.mask a)) (rVectors A n) (U s) (E.kpts k)) :
    gsDensity E ⟨p, .simplex P.1 P.2⟩ = .ok ⟨ns, densityGrid (pwCoeff E.qrC E.mask p) E.vol occ⟩ ∧
    (∃ G, Spec.IsFullGradient (fun w => f w P) p G) ∧ (∃ K, Spec.IsOccGradient (f p) P K) ∧
    ∀ G K, Spec.IsFullGradient (fun w => f w P) p G → Spec.IsOccGradient (f p) P K →
      (Spec.Vanishes G ∧ K = 0 ↔
        (Spec.KohnShamBands F occ fun s k b y => pwCoeff E.qrC E.mask p s k b (maskPos E.mask y)) ∧
        ∃ μ, Spec.ChannelLevels E.ne E.spin E.restricted P temp E.eps ((3 - (ns : ℝ)) / nk)
          (fun s k b => Spec.bandEnergy (F s k) fun y =>
            pwCoeff E.qrC E.mask p s k (Fin.cast (min_eq_right hm).symm b) (maskPos E.mask y))
          (fun s k b => Spec.occEntry E.ne E.spin E.restricted s k b P) μ) := by
  obtain ⟨o, hl, ho, hy⟩ := simplex_rows E hmeth hns hm P
  obtain ⟨h1, h2, h3⟩ := driver_gradient_spin E ht hm (.simplex P.1 P.2) o ho hl occ
    (fun s k b => (hocc s k b).trans (hy s k b)) A hA hgA hvol X hX temp (fun w => f w P) (fun w => hf w P) p hp v hv U hU
    F hF
  obtain ⟨h4, h5⟩ := occ_key E (fun _ (_ : Fin 0) (_ : Fin 0) _ => 0)
    (fun j => (externalPotential E.pos E.charge E.g E.vol j).re) hk hns hm heps hpar h0 hb A hA hgA hvol X temp (f p) p
    (fun P => Except.ok.inj ((hf p P).symm.trans (free_rows E hmeth hns hm X hX temp p P))) P hP occ hocc v hv U hU F
    (fun s k => by rw [hF, projectorMatrix_empty, add_zero])
  exact ⟨h1, h2, h4, fun G K hG hK => by rw [h3 G hG, h5 K hK]⟩

/-- C126, norm-conserving driver.  Missing: as in `driver_selfConsistent_spin_partial`. -/
theorem driverNC_selfConsistent_spin_partial {na M : ℕ} {ι : Type} [Fintype ι] (E : GsEnv na nk n) (vloc : Idx n → ℂ)
    (psi : Fin nk → ι → Fin M → Idx n → ℂ) (hk : 0 < nk)
    (ht : Spec.Triangular E.qrC) (hmeth : E.method = "simplex-projector") (hns : ns = if E.restricted then 1 else 2)
    (hm : nb ≤ maskCount E.mask) (heps : 0 < E.eps) (hpar : E.ne % 2 = E.spin % 2) (h0 : |E.spin| < E.ne)
    (hb : E.ne + |E.spin| < 2 * nb) (A : Matrix (Fin 3) (Fin 3) ℝ) (hA : A.det ≠ 0) (hgA : E.g = gVectors A n)
    (hvol : 0 < E.vol) (X : (Fin ns → Idx n → ℝ) → ℝ) (hX : ∀ r, xcEnergy E.lib E.xc false r E.g E.vol = .ok (X r))
    (temp : ℝ) (f : PwParams ns nk (maskCount E.mask) nb → (Fin nk → Fin nb → ℝ) × (Fin nk → Fin nb → ℝ) → ℝ)
    (hf : ∀ w P, (gsFreeNC E vloc psi temp ⟨w, .simplex P.1 P.2⟩).map (fun r => r.1) = .ok (f w P))
    (p : PwParams ns nk (maskCount E.mask) nb) (hp : Spec.Independent p)
    (P : (Fin nk → Fin nb → ℝ) × (Fin nk → Fin nb → ℝ))
    (hP : ∀ sp k b, DifferentiableAt ℝ (Spec.occEntry E.ne E.spin E.restricted sp k b) P)
    (occ : Occ ns nk (min (maskCount E.mask) nb))
    (hocc : ∀ s k b, occ s k b = Spec.occEntry E.ne E.spin E.restricted s k (Fin.cast (min_eq_right hm) b) P)
    (v : Fin ns → Idx n → ℝ)
    (hv : Spec.IsDensityGradient E.vol X (densityGrid (pwCoeff E.qrC E.mask p) E.vol occ) v) (U : Fin ns → Idx n → ℝ)
    (hU : ∀ s j, U s j = (ifftn vloc j).re
      + (hartreeRealSpace (densityGrid (pwCoeff E.qrC E.mask p) E.vol occ) E.g true j).re + v s j)
    (F : Fin ns → Fin nk → Matrix (Fin (maskCount E.mask)) (Fin (maskCount E.mask)) ℂ)
    (hF : ∀ s k, F s k
      = Spec.planeWaveHamiltonian (fun a => E.g (maskPos E.mask a)) (rVectors A n) (U s) (E.kpts k)
      + Spec.projectorMatrix E.vol (fun (i : ι × Fin M) a => psi k i.1 i.2 (maskPos E.mask a))) :
    gsDensity E ⟨p, .simplex P.1 P.2⟩ = .ok ⟨ns, densityGrid (pwCoeff E.qrC E.mask p) E.vol occ⟩ ∧
    (∃ G, Spec.IsFullGradient (fun w => f w P) p G) ∧ (∃ K, Spec.IsOccGradient (f p) P K) ∧
    ∀ G K, Spec.IsFullGradient (fun w => f w P) p G → Spec.IsOccGradient (f p) P K →
      (Spec.Vanishes G ∧ K = 0 ↔
        (Spec.KohnShamBands F occ fun s k b y => pwCoeff E.qrC E.mask p s k b (maskPos E.mask y)) ∧
        ∃ μ, Spec.ChannelLevels E.ne E.spin E.restricted P temp E.eps ((3 - (ns : ℝ)) / nk)
          (fun s k b => Spec.bandEnergy (F s k) fun y =>
            pwCoeff E.qrC E.mask p s k (Fin.cast (min_eq_right hm).symm b) (maskPos E.mask y))
          (fun s k b => Spec.occEntry E.ne E.spin E.restricted s k b P) μ) := by
  obtain ⟨o, hl, ho, hy⟩ := simplex_rows E hmeth hns hm P
  obtain ⟨h1, h2, h3⟩ := driverNC_gradient_spin E vloc psi ht hm (.simplex P.1 P.2) o ho hl occ
    (fun s k b => (hocc s k b).trans (hy s k b)) A hA hgA hvol X hX temp (fun w => f w P) (fun w => hf w P) p hp v hv U hU
    F hF
  obtain ⟨h4, h5⟩ := occ_key E psi (fun j => (ifftn vloc j).re) hk hns hm heps hpar h0 hb A hA hgA hvol X temp (f p) p
    (fun P => Except.ok.inj ((hf p P).symm.trans (freeNC_rows E vloc psi hmeth hns hm X hX temp p P))) P hP occ hocc v hv U
    hU F hF
  exact ⟨h1, h2, h4, fun G K hG hK => by rw [h3 G hG, h5 K hK]⟩

/-- C126, what the shared level means: with smearing, a band that a spin channel fills partly has the occupation of the
Fermi-Dirac distribution at the level of the channel, with an error in the exponent that is proportional to `eps`;
without smearing its energy is the level. -/
theorem channelLevels_fermiDirac (hk : 0 < nk) (ne spin : ℤ) (hpar : ne % 2 = spin % 2) (h0 : |spin| < ne)
    (hb : ne + |spin| < 2 * nb) (r : Bool) (hns : ns = if r then 1 else 2)
    (P : (Fin nk → Fin nb → ℝ) × (Fin nk → Fin nb → ℝ)) {t eps : ℝ} (heps : 0 < eps)
    {e : Fin ns → Fin nk → Fin nb → ℝ} {μ : Fin 2 → ℝ}
    (h : Spec.ChannelLevels ne spin r P t eps ((3 - (ns : ℝ)) / nk) e (fun s k b => Spec.occEntry ne spin r s k b P) μ)
    (sp : Fin 2) (s : Fin ns) (hs : (s : ℕ) = Spec.rowOf r sp) (k : Fin nk) (b : Fin nb)
    (hf : Spec.Fractional ne spin P sp k b) :
    (t = 0 → e s k b = μ sp) ∧
    (0 < t → ∃ x, |x| ≤ eps / Spec.occEntry ne spin r s k b P
        + eps / ((3 - (ns : ℝ)) / nk - Spec.occEntry ne spin r s k b P) ∧
      Spec.occEntry ne spin r s k b P = (3 - (ns : ℝ)) / nk / (1 + Real.exp ((e s k b - μ sp) / t + x))) := by
  have h1 := h sp s hs k b hf
  obtain ⟨f0, f1⟩ := (rows_bounds hk ne spin hpar h0 hb r hns P s k b).2.2 sp hs hf
  refine ⟨fun ht => ?_, fun ht => ?_⟩
  · rw [← h1, ht]
    ring
  · have h2 : Spec.FermiLevel t eps ((3 - (ns : ℝ)) / nk) (fun (_ : Fin 1) (_ : Fin 1) => e s k b)
        (fun _ _ => Spec.occEntry ne spin r s k b P) (μ sp) := fun _ _ => ⟨fun _ => h1.ge, fun _ => h1.le⟩
    exact fermiLevel_fermiDirac ht heps h2 0 0 f0 f1

end

/-- Two plane waves and two bands in each of two spin channels, with a functional that depends on the densities and on
their gradients. -/
noncomputable def spinTwoWaves : GsEnv 0 1 ![2, 1, 1] :=
  { trainedTwoWaves with
    restricted := false
    xc := "gga_c"
    lib := ⟨fun _ r => -r, fun _ u d => u * d, fun _ r s => r * s, fun _ u d suu sud sdd => u * d + suu * sdd + sud⟩ }

/-- The hypotheses of the theorems above are met: two spin channels, two electrons, smearing, a GGA functional, and
parameters where the occupations have derivatives; for valence electrons one projector. -/
example : ∃ (X : (Fin 2 → Idx ![2, 1, 1] → ℝ) → ℝ)
    (f f' : PwParams 2 1 (maskCount spinTwoWaves.mask) 2 → (Fin 1 → Fin 2 → ℝ) × (Fin 1 → Fin 2 → ℝ) → ℝ)
    (p : PwParams 2 1 (maskCount spinTwoWaves.mask) 2) (P : (Fin 1 → Fin 2 → ℝ) × (Fin 1 → Fin 2 → ℝ)),
    Spec.Triangular spinTwoWaves.qrC ∧ spinTwoWaves.method = "simplex-projector" ∧
    2 = (if spinTwoWaves.restricted then 1 else 2) ∧ 2 ≤ maskCount spinTwoWaves.mask ∧
    0 < spinTwoWaves.eps ∧ spinTwoWaves.ne % 2 = spinTwoWaves.spin % 2 ∧
    |spinTwoWaves.spin| < spinTwoWaves.ne ∧ spinTwoWaves.ne + |spinTwoWaves.spin| < 2 * ((2 : ℕ) : ℤ) ∧
    (1 : Matrix (Fin 3) (Fin 3) ℝ).det ≠ 0 ∧ spinTwoWaves.g = gVectors 1 ![2, 1, 1] ∧ 0 < spinTwoWaves.vol ∧
    (∀ r, xcEnergy spinTwoWaves.lib spinTwoWaves.xc false r spinTwoWaves.g spinTwoWaves.vol = .ok (X r)) ∧
    (∀ w P, (gsFree spinTwoWaves 1 ⟨w, .simplex P.1 P.2⟩).map (fun r => r.1) = .ok (f w P)) ∧
    (∀ w P, (gsFreeNC spinTwoWaves (fun _ => 1) (fun _ (_ : Fin 1) (_ : Fin 1) _ => 1) 1
      ⟨w, .simplex P.1 P.2⟩).map (fun r => r.1) = .ok (f' w P)) ∧
    Spec.Independent p ∧
    (∀ sp k b, DifferentiableAt ℝ (Spec.occEntry spinTwoWaves.ne spinTwoWaves.spin false sp k b) P) ∧
    ∀ occ, ∃ v, Spec.IsDensityGradient spinTwoWaves.vol X
      (densityGrid (pwCoeff spinTwoWaves.qrC spinTwoWaves.mask p) spinTwoWaves.vol occ) v := by
  have hm : 2 ≤ maskCount spinTwoWaves.mask := (by decide : 2 ≤ maskCount (n := ![2, 1, 1]) fun _ => true)
  have m1 : (MeasureTheory.volume : MeasureTheory.Measure (Fin 2 → ℝ)).IsAddHaarMeasure :=
    MeasureTheory.isAddHaarMeasure_volume_pi _
  have m2 : (MeasureTheory.volume : MeasureTheory.Measure (Fin 1 → Fin 2 → ℝ)).IsAddHaarMeasure :=
    inferInstanceAs (MeasureTheory.Measure.pi
      fun _ : Fin 1 => (MeasureTheory.volume : MeasureTheory.Measure (Fin 2 → ℝ))).IsAddHaarMeasure
  have m3 : (MeasureTheory.volume : MeasureTheory.Measure ((Fin 1 → Fin 2 → ℝ) × (Fin 1 → Fin 2 → ℝ))).IsAddHaarMeasure :=
    MeasureTheory.Measure.prod.instIsAddHaarMeasure _ _
  obtain ⟨P, hP⟩ := (simplexProjector_differentiable_ae (nk := 1) (nb := 2) Nat.one_pos 2 0 rfl (by norm_num)
    (by norm_num) false).exists
  obtain ⟨C, hC⟩ := orthonormalBands_nonempty (nk := 1) (min_le_left (maskCount spinTwoWaves.mask) 2)
  obtain ⟨q, -, hq, -⟩ := params_of_bands hm C hC
  have hX : ∀ r : Fin 2 → Idx ![2, 1, 1] → ℝ, xcEnergy spinTwoWaves.lib spinTwoWaves.xc false r spinTwoWaves.g
    spinTwoWaves.vol = .ok _ := fun r => xcEnergy_value _ _ _ _ _
  have h2 : splitPlus "gga_c" = ["gga_c"] := by decide +kernel
  have h4 : isExchange "gga_c" = false := by decide +kernel
  refine ⟨_, _, _, ⟨fun _ => q.re 0, fun _ => q.im 0⟩, P, gramSchmidtQR_triangular ℂ, rfl, rfl, hm,
    by norm_num [spinTwoWaves, trainedTwoWaves], rfl,
    by norm_num [spinTwoWaves, trainedTwoWaves], by norm_num [spinTwoWaves, trainedTwoWaves], by simp, rfl,
    by norm_num [spinTwoWaves, trainedTwoWaves], hX,
    fun w P => free_rows spinTwoWaves rfl rfl hm _ hX 1 w P,
    fun w P => freeNC_rows spinTwoWaves _ _ rfl rfl hm _ hX 1 w P, fun _ k => hq 0 k, hP, fun occ => ?_⟩
  refine ⟨_, xcEnergy_derivative_gga2 spinTwoWaves.lib spinTwoWaves.xc (by decide +kernel) spinTwoWaves.g spinTwoWaves.vol _
    hX _ _ (fun x => rfl) _ (fun j => rfl) (fun j => ?_) _ (fun i j => rfl)⟩
  simp only [excGga2, spinTwoWaves, h2, List.map_cons, List.map_nil, List.sum_cons, List.sum_nil, ggaPoint2, h4,
    Bool.false_eq_true, if_false]
  fun_prop

end Jrystal
