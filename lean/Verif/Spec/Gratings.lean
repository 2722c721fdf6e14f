import Verif.Spec.Fourier
import Mathlib.Data.Matrix.Mul
import Mathlib.Analysis.Complex.Basic
import Mathlib.Analysis.SpecialFunctions.Pow.Real

/-!
Factorization rules: how the product of a permittivity and an electric field is to be expanded.  The component along the lines
of a grating is continuous, so that its product is expanded by convolution with the coefficients of the permittivity; for the
component across the lines the displacement is continuous, so that the field is the convolution of the displacement with the
coefficients of the reciprocal permittivity.
-/

namespace Fmmax.Spec

open Matrix

variable {ι : Type}

/-- The electric field with direction `d` in the plane and coefficients `f`, stacked as `[-Ey; Ex]`. -/
def stacked (d : ℂ × ℂ) (f : ι → ℂ) : ι ⊕ ι → ℂ := Sum.elim (fun i => -(d.2 * f i)) (fun i => d.1 * f i)

/-- The matrix `E` takes the electric field to the displacement by the rules for lines of direction `t` with normal `n`:
`eps` and `eta` are the convolution matrices of the permittivity and of its reciprocal. -/
structure FactorizationRules [Fintype ι] (E : Matrix (ι ⊕ ι) (ι ⊕ ι) ℂ) (eps eta : Matrix ι ι ℂ) (t n : ℂ × ℂ) : Prop where
  /-- Along the lines the displacement is the convolution of the permittivity and the field. -/
  tangential : ∀ f, E *ᵥ stacked t f = stacked t (eps *ᵥ f)
  /-- Across the lines the field is the convolution of the reciprocal permittivity and the displacement. -/
  normal : ∀ f g, eta *ᵥ g = f → E *ᵥ stacked n f = stacked n g

/-- A pattern of lines along the second lattice vector. -/
def linesY {nx ny : ℕ} (f : Fin nx → ℂ) : Matrix (Fin nx) (Fin ny) ℂ := Matrix.of fun r _ => f r

/-- A pattern of lines along the first lattice vector. -/
def linesX {nx ny : ℕ} (f : Fin ny → ℂ) : Matrix (Fin nx) (Fin ny) ℂ := Matrix.of fun _ s => f s

/-- The slope of a periodic sequence by central differences, per period. -/
noncomputable def profileSlope {n : ℕ} [NeZero n] (g : Fin n → ℝ) (i : Fin n) : ℝ := n * ((g (i + 1) - g (i - 1)) / 2)

/-- A function on the grid, cut down to the orders of the expansion, exceeds `1e-8` somewhere on a grid of `mx` by `my` points. -/
def Visible {ι : Type} [Fintype ι] {nx ny : ℕ} (G : ι → ℤ × ℤ) (d : Matrix (Fin nx) (Fin ny) ℝ) (mx my : ℕ) : Prop :=
  ∃ r s, 1e-8 < ‖fourierSeries G (fun k => fourierCoefficient (d.map Complex.ofReal) (G k)) mx my r s‖

/-- The mean of a function on the grid. -/
noncomputable def gridMean {nx ny : ℕ} (x : Matrix (Fin nx) (Fin ny) ℂ) : ℂ := (∑ r, ∑ s, x r s) / (nx * ny)

end Fmmax.Spec
