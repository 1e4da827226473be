import Verif.Model.RunNC
import Verif.Spec.Grid

/- Specification vocabulary for what a pseudopotential file says (C130). -/
namespace Jrystal.Spec

/-- The mesh points of positive radius of a file with the values that the file has there. -/
def fileMesh (r x : List ℚ) : List (ℝ × ℝ) :=
  ((r.zip x).filter fun p => decide (0 < p.1)).map fun p => ((p.1 : ℝ), (p.2 : ℝ))

/-- Left Riemann sum of `w` over a mesh: each point but the last times the distance to the next. -/
def riemann (w : ℝ → ℝ → ℝ) : List (ℝ × ℝ) → ℝ
  | p :: q :: t => w p.1 p.2 * (q.1 - p.1) + riemann w (q :: t)
  | _ => 0

/-- The `j`-th of `N` equidistant points from `0.0001` to `kmax`. -/
noncomputable def radialNode (N : ℕ) (kmax : ℝ) (j : ℕ) : ℝ :=
  0.0001 + j * ((kmax - 0.0001) / ((N : ℝ) - 1))

/-- Radial transform of tabulated values: the sums of `w` times the kernel at twice as many equidistant
wave numbers as there are mesh points, interpolated by `spline`. -/
noncomputable def radialTransform (spline : ℕ → (ℕ → ℝ) → (ℕ → ℝ) → ℝ → ℝ) (kernel : ℝ → ℝ)
    (w : ℝ → ℝ → ℝ) (kmax : ℝ) (mesh : List (ℝ × ℝ)) (q : ℝ) : ℝ :=
  spline (2 * mesh.length) (radialNode (2 * mesh.length) kmax)
    (fun j => riemann (fun r v => w r v * r ^ 2 * kernel (radialNode (2 * mesh.length) kmax j * r)) mesh) q

/-- `pp` is the content of the file of the element with atomic number `z`, in the requested directory or in the
one of the package for the requested type. -/
def FileOfAtom (L : NcLib) (cfg : NcConfig) (z : ℤ) (pp : PpDict) : Prop :=
  ∃ kind path root,
    ((kind = "normconserving" ∧ ∃ t, cfg.ppType = some t ∧ t ∈ ["normcons", "normconserving", "nc"]) ∨
      (kind = "ultrasoft" ∧ ∃ t, cfg.ppType = some t ∧ t ∈ ["ultrasoft", "us"])) ∧
    findUpf L.listdir (some (cfg.ppDir.getD (L.pkgPath ++ ("/pseudopotential/" ++ kind ++ "/"))).toList)
      (L.symbol z) = .ok path ∧
    L.parse path = .ok root ∧ parseUpf L.rd root = .ok pp

/-- `Z` is the valence that the header of the file announces. -/
def ValenceOfFile (rd : NumReader) (pp : PpDict) (Z : ℤ) : Prop :=
  ∃ w z, pp.header.lookup "z_valence".toList = some w ∧ rd.float (String.ofList w) = some z ∧ Z = truncQ z

/-- `v` is the local potential of the files in reciprocal space: zero at the origin, elsewhere the sum over the
atoms of the radial transform of the potential in the file (in Rydberg) with the Coulomb tail of the valence
charge treated exactly, times the phase of the position. -/
def LocalOfFiles (jn : SphBessel) (spline : Spline) {m : ℕ} (files : Fin m → PpDict) (Z : Fin m → ℤ)
    (pos : Fin m → Fin 3 → ℝ) {n : Fin 3 → ℕ} (g : Idx n → Fin 3 → ℝ) (vol : ℝ) (v : Idx n → ℂ) : Prop :=
  ∀ kmax, IsGreatest (Set.range fun k => Real.sqrt (Spec.dot (g k) (g k))) kmax → ∀ k : Idx n,
    ((∀ i, (k i : ℕ) = 0) → v k = 0) ∧
    ((∃ i, (k i : ℕ) ≠ 0) → v k = ((∏ i, n i : ℕ) : ℂ) / (vol : ℂ) * ∑ i,
      ((4 * Real.pi * radialTransform spline (jn 0) (fun r v => v / 2 + (Z i : ℝ) / r) kmax
          (fileMesh (files i).r (files i).loc) (Real.sqrt (Spec.dot (g k) (g k)))
        - 4 * Real.pi * ((Z i : ℝ) / Spec.dot (g k) (g k)) : ℝ) : ℂ) *
      Complex.exp (-(Complex.I * (Spec.dot (g k) (pos i) : ℂ))))

/-- The projectors, angular momenta and strengths (in Rydberg) in `sp` are those of the file: one of each for
every entry of the file, in its order; the projectors, which the file multiplies with the radius, are transformed
with the Bessel function of their angular momentum.  A file without projectors has one of strength zero. -/
def SpeciesOfFile (rd : NumReader) (jn : SphBessel) (spline : Spline) (pp : PpDict) {nk : ℕ} {n : Fin 3 → ℕ}
    (g : Idx n → Fin 3 → ℝ) (kpts : Fin nk → Fin 3 → ℝ) (sp : NlSpecies nk n) : Prop :=
  (pp.nl.beta = none → sp.nbeta = 1 ∧ ∀ x y, sp.dmat x y = 0) ∧
  ∀ betas, pp.nl.beta = some betas → sp.nbeta = betas.length ∧
    (∃ d, pp.nl.dij = some d ∧ ∀ x y : Fin sp.nbeta,
      ∃ z, d[(x : ℕ) * betas.length + y]? = some z ∧ sp.dmat x y = (z : ℝ) / 2) ∧
    ∀ b : Fin sp.nbeta, ∃ e w l, betas[(b : ℕ)]? = some e ∧ e.angularMomentum = some w ∧
      rd.int (String.ofList w) = some l ∧ sp.ang b = l.toNat ∧
      ∀ kmax, IsGreatest (Set.range fun p : Fin nk × Idx n => Real.sqrt
          (Spec.dot (fun d => kpts p.1 d + g p.2 d) fun d => kpts p.1 d + g p.2 d)) kmax →
        ∀ k x, sp.beta k b x = radialTransform spline (jn l) (fun r y => y / r) kmax
          (fileMesh pp.r e.values)
          (Real.sqrt (Spec.dot (fun d => kpts k d + g x d) fun d => kpts k d + g x d))

end Jrystal.Spec
