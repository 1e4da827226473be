import Verif.Model.Occupation
import Mathlib.Analysis.Calculus.Deriv.Basic

/- C133: gradients in the parameters of idempotent occupations, written without reference to the model's helpers. -/
namespace Jrystal
open scoped BigOperators Matrix

/-- `G` is the gradient of `f` at the parameters `W` of the two spin channels: along every differentiable curve of
parameters through `W` the derivative of `f` is the product of `G` with the derivative `d` of the curve. -/
def Spec.IsPairGradient {N mu md : ℕ} (f : Matrix (Fin N) (Fin mu) ℝ × Matrix (Fin N) (Fin md) ℝ → ℝ)
    (W G : Matrix (Fin N) (Fin mu) ℝ × Matrix (Fin N) (Fin md) ℝ) : Prop :=
  ∀ (c : ℝ → Matrix (Fin N) (Fin mu) ℝ × Matrix (Fin N) (Fin md) ℝ)
    (d : Matrix (Fin N) (Fin mu) ℝ × Matrix (Fin N) (Fin md) ℝ), c 0 = W →
    (∀ i j, HasDerivAt (fun t => (c t).1 i j) (d.1 i j) 0) →
    (∀ i j, HasDerivAt (fun t => (c t).2 i j) (d.2 i j) 0) →
    HasDerivAt (fun t => f (c t)) (∑ i, ∑ j, G.1 i j * d.1 i j + ∑ i, ∑ j, G.2 i j * d.2 i j) 0

/-- `P` is the orthogonal projector onto the columns of `W`. -/
def Spec.IsColumnProjector {N m : ℕ} (W : Matrix (Fin N) (Fin m) ℝ) (P : Matrix (Fin N) (Fin N) ℝ) : Prop :=
  Pᵀ = P ∧ P * P = P ∧ P * W = W ∧ ∃ Y, P = W * Y

/-- The matrix `P`, with a row and a column for every k point and band, connects bands of equal `e` only. -/
def Spec.KeepsLevels {nk nb : ℕ} (e : Fin nk → Fin nb → ℝ) (P : Matrix (Fin (nk * nb)) (Fin (nk * nb)) ℝ) : Prop :=
  ∀ k b k' b', e k b ≠ e k' b' → P (finProdFinEquiv (k, b)) (finProdFinEquiv (k', b')) = 0

/-- The occupation of a band in row `s` of the result of `idempotent`. -/
noncomputable def Spec.idemEntry {nk nb mu md : ℕ} (qr : QR ℝ)
    (W : Matrix (Fin (nk * nb)) (Fin mu) ℝ × Matrix (Fin (nk * nb)) (Fin md) ℝ) (r : Bool) (s : ℕ) (k : Fin nk)
    (b : Fin nb) : ℝ :=
  (idempotentOcc qr ⟨mu, md, W.1, W.2⟩ r).getD s 0 k b

end Jrystal
