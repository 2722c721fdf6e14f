import Verif.Model.Fmm
import Mathlib.Analysis.Calculus.Deriv.Basic

/-!
Gradients in the convention of jax: the differential of a real function `L` of complex arrays is `dL = Re Σ g dX`.
-/

namespace Fmmax.Spec

open Matrix

variable {n : Type} [Fintype n] [DecidableEq n]

/-- `Re Σ g dX`. -/
def gradientPairing (g dX : Matrix n n ℂ) : ℝ := (∑ i, ∑ j, g i j * dX i j).re

/-- `g` is the gradient of the loss `L` at the matrix `X`. -/
def IsGradient (L : Matrix n n ℂ → ℝ) (X g : Matrix n n ℂ) : Prop :=
  ∀ (Y : ℝ → Matrix n n ℂ) (dY : Matrix n n ℂ), Y 0 = X → (∀ i j, HasDerivAt (fun t => Y t i j) (dY i j) 0) →
    HasDerivAt (fun t => L (Y t)) (gradientPairing g dY) 0

/-- `gl` and `gV` are the gradients of the loss `L` with respect to eigenvalues and eigenvectors. -/
def IsModeGradient (L : (n → ℂ) → Matrix n n ℂ → ℝ) (l : n → ℂ) (V : Matrix n n ℂ) (gl : n → ℂ) (gV : Matrix n n ℂ) : Prop :=
  ∀ (dl : n → ℂ) (dV : Matrix n n ℂ),
    HasDerivAt (fun t : ℝ => L (fun i => l i + t * dl i) (V + (t : ℂ) • dV)) ((∑ j, gl j * dl j).re + gradientPairing gV dV) 0

/-- The eigenvalues of a layer, found from those of the eigenproblem. -/
noncomputable def forwardRoots (l : n → ℂ) (i : n) : ℂ := selectEigenvaluesSign (csqrt (l i))

/-- The matrix by which forward waves propagate, `exp(i X z)`: scattering matrices and fields depend on the modes of inner layers through
this matrix only, and it does not depend on norms, phases, order and, for degenerate modes, the choice of eigenvectors. -/
noncomputable def propagationMatrix (l : n → ℂ) (V : Matrix n n ℂ) : Matrix n n ℂ := V * diagonal (forwardRoots l) * V⁻¹

end Fmmax.Spec
