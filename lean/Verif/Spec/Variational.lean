import Verif.Spec.GroundState
import Verif.Spec.RunNC

/- Specification vocabulary for C97: when one calculation searches among more states than another. -/
namespace Jrystal

/-- `cfg'` asks for the same crystal, grid, k mesh, functional and repulsion as `cfg` and for at least as many
states: the cutoff is not lower, there are at least as many empty bands, the occupations are of the same kind or
free, and a single channel may have become two. -/
structure Spec.Enlarges (cfg cfg' : RunConfig) : Prop where
  spin : cfg'.spin = cfg.spin
  grid : cfg'.gridSizes = cfg.gridSizes
  kmesh : cfg'.kGridSizes = cfg.kGridSizes
  xc : cfg'.xc = cfg.xc
  eta : cfg'.ewaldEta = cfg.ewaldEta
  ewald : cfg'.ewaldCutoff = cfg.ewaldCutoff
  maskMethod : cfg'.maskMethod = cfg.maskMethod
  cutoff : cfg.cutoff ≤ cfg'.cutoff
  bands : cfg.emptyBands ≤ cfg'.emptyBands
  occupation : cfg'.occupation = cfg.occupation ∨ cfg'.occupation = "idempotent" ∨
    cfg'.occupation = "simplex-projector"
  channels : cfg'.restricted = cfg.restricted ∨ (cfg.restricted = true ∧ cfg'.restricted = false)

/-- A correlation functional with two equal spin densities is the one for their sum. -/
structure Spec.UnpolarisedLimit (lib : XcLib) (xt : String) : Prop where
  lda : ∀ x ∈ splitPlus xt, isExchange x = false → ∀ u, lib.ldaPol x u u = lib.lda x (2 * u)
  gga : ∀ x ∈ splitPlus xt, isExchange x = false → ∀ u s, lib.ggaPol x u u s s s = lib.gga x (2 * u) (4 * s)

end Jrystal
