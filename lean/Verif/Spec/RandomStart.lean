import Mathlib.MeasureTheory.Constructions.Pi
import Mathlib.MeasureTheory.Measure.Lebesgue.Basic
import Verif.Model.Planewave

/- C132: random parameters, written without reference to the model's helpers. -/
namespace Jrystal
open MeasureTheory

/-- An array of numbers, one for each spin, k point, plane wave and band. -/
abbrev Spec.WaveArray (ns nk g nb : ℕ) : Type := Fin ns × Fin nk × Fin g × Fin nb → ℝ

/-- The distribution of an array of numbers that are drawn from `[0, 1)`, uniformly and independently of each other. -/
noncomputable def Spec.uniformArray (ns nk g nb : ℕ) : Measure (Spec.WaveArray ns nk g nb) :=
  Measure.pi fun _ => (MeasureTheory.volume : Measure ℝ).restrict (Set.Ico 0 1)

/-- The distribution of two such arrays, `w_re` and `w_im`. -/
noncomputable def Spec.uniformDraw (ns nk g nb : ℕ) :
    Measure (Spec.WaveArray ns nk g nb × Spec.WaveArray ns nk g nb) :=
  (Spec.uniformArray ns nk g nb).prod (Spec.uniformArray ns nk g nb)

/-- The plane-wave parameters with given real and imaginary parts. -/
def Spec.paramsOf {ns nk g nb : ℕ} (w : Spec.WaveArray ns nk g nb × Spec.WaveArray ns nk g nb) : PwParams ns nk g nb :=
  ⟨fun s k a b => w.1 (s, k, a, b), fun s k a b => w.2 (s, k, a, b)⟩

end Jrystal
