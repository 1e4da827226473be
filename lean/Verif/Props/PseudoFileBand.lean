import Verif.Props.BandRunNC
import Verif.Props.PseudoFile

/- C130 for band structures: the bands are those of the potentials that the files describe. -/
namespace Jrystal
open scoped BigOperators ComplexConjugate
open Matrix

/-- C130: a norm-conserving band calculation saves, for each k point of the path and each channel, upper bounds of
the eigenvalues of the Kohn-Sham Hamiltonian with the local potential and the projectors of the files of its atoms
(the nonlocal part as the code builds it, see C93), and these eigenvalues for a complete set of bands. -/
theorem bandNC_from_files (L : NcLib) (T : BandTools) (cfg : NcConfig) (b : BandConfig) {m : ℕ} (a : AseAtoms m)
    (size ksize : Fin 3 → ℤ) (P : NcLists) (ne spin : ℤ) {q : ℕ} {frac : Matrix (Fin q) (Fin 3) ℝ}
    (H : Spec.AdmissibleBandNC L T cfg b a size ksize P ne spin q frac)
    (A : Matrix (Fin 3) (Fin 3) ℝ) (hA : A = (angstrom2bohr : ℝ) • a.cell)
    (pos : Fin m → Fin 3 → ℝ) (hpos : ∀ i d, pos i d = angstrom2bohr * a.positions i d)
    (k : Fin q → Fin 3 → ℝ) (hk : Spec.HasCoordinates A frac k) :
    ∃ (files : Fin m → PpDict) (Z : Fin m → ℤ), (∀ i, Spec.FileOfAtom L cfg (a.numbers i) (files i)) ∧
      (∀ i, Spec.ValenceOfFile L.rd (files i) (Z i)) ∧ ne = ∑ i, Z i ∧
      ∃ n rep, ∃ mask : Idx n → Bool, ∃ vloc, ∃ S : Fin m → NlSpecies q n, ∃ values,
        runAtomsNC L cfg a = .ok ⟨n, rep⟩ ∧ Spec.LeastGrid size n ∧ createFreqMask cfg.toRunConfig A n = .ok mask ∧
        Spec.LocalOfFiles L.jn L.csLoc files Z pos (gVectors A n) |A.det| vloc ∧
        (∀ i, Spec.SpeciesOfFile L.rd L.jn L.csBeta (files i) (gVectors A n) k (S i)) ∧
        bandAtomsNC L T cfg b false a = .ok
          ⟨String.ofList (List.ofFn fun i => L.symbol (a.numbers i)).flatten ++ "_band_structure.npy",
            q * rep.density.1, (ne.toNat + 1) / 2 + b.emptyBands, values⟩ ∧
        ∃ hb : (ne.toNat + 1) / 2 + b.emptyBands ≤ maskCount mask,
          ∀ V, Spec.KohnShamPotentialNC L.xc cfg.xc vloc (gVectors A n) rep.density.2 V →
          ∀ (σ : Fin rep.density.1) (i : Fin q) (row : Fin (q * rep.density.1)) lam, (row : ℕ) = i + q * σ →
            Spec.IsSpectrum (Spec.planeWaveHamiltonian (fun x => gVectors A n (maskPos mask x)) (rVectors A n)
              (V σ) (k i) + Spec.nonlocalMatrix (sphericalRow L.sph) S
                (fun a => Matrix.diagonal fun j => |L.eigh.vals (symmetrize (S a).dmat) j|) (-pos) |A.det|
                (2 * nlLMax S + 1) (gVectors A n) (maskPos mask) k i) lam →
            Monotone (values row) ∧ (∀ j, lam (Fin.castLE hb j) ≤ values row j) ∧
            ((ne.toNat + 1) / 2 + b.emptyBands = maskCount mask → ∀ j, values row j = lam (Fin.castLE hb j)) := by
  obtain ⟨files, Z, h1, h2, h3, h4, h5⟩ := potentials_from_files L cfg H.atoms a.numbers P H.loaded H.mesh
  obtain ⟨n, rep, mask, vloc, bs, values, hrun, -, hn, hmask, hv, hbs, hband, hb, hrest⟩ :=
    bandRunNC_channels L T cfg b a size ksize P ne spin H A hA pos hpos k hk
  exact ⟨files, Z, h1, h2, H.electrons.trans h3, n, rep, mask, vloc, fun i => ncSpecies P bs i, values, hrun, hn,
    hmask, h4 _ _ _ _ hv, h5 _ _ _ hbs, hband, hb, hrest⟩

example (ε : ℝ) (xc : XcLib) (eigh : Eigh) (jn : SphBessel) (csLoc csBeta : Spline) :
    ∃ P frac k, Spec.AdmissibleBandNC (siliconLib xc eigh jn csLoc csBeta) (lithiumTools ε) siliconConfig lithiumBands
      siliconAtoms (fun _ => 4) (fun _ => 2) P 4 0 16 frac ∧
      Spec.HasCoordinates ((angstrom2bohr : ℝ) • siliconAtoms.cell) frac k := by
  obtain ⟨P, frac, H⟩ := silicon_band ε xc eigh jn csLoc csBeta
  obtain ⟨k, hk⟩ := coordinates_exist (fromAse_det siliconAtoms none (by simp [siliconAtoms])) frac
  exact ⟨P, frac, k, H, hk⟩

end Jrystal
