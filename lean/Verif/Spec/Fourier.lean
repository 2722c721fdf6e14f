import Mathlib.Analysis.SpecialFunctions.Complex.Log
import Mathlib.LinearAlgebra.Matrix.NonsingularInverse

/-! Specification of Fourier coefficients and series on a grid. -/

namespace Fmmax.Spec

/-- The plane wave of order `(m, n)` at grid point `(r, s)` of an `nx × ny` grid covering one unit cell. -/
noncomputable def planeWave (nx ny : ℕ) (g : ℤ × ℤ) (r s : ℕ) : ℂ :=
  Complex.exp (2 * Real.pi * Complex.I * (g.1 * r / nx + g.2 * s / ny))

/-- The Fourier coefficient of order `g` of a function sampled on the grid. -/
noncomputable def fourierCoefficient {nx ny : ℕ} (x : Matrix (Fin nx) (Fin ny) ℂ) (g : ℤ × ℤ) : ℂ :=
  (∑ r : Fin nx, ∑ s : Fin ny, x r s * planeWave nx ny (-g) r s) / (nx * ny)

/-- The Fourier series with coefficients `y`, sampled on the grid. -/
noncomputable def fourierSeries {ι : Type} [Fintype ι] (G : ι → ℤ × ℤ) (y : ι → ℂ) (nx ny : ℕ) :
    Matrix (Fin nx) (Fin ny) ℂ :=
  Matrix.of fun r s => ∑ j, y j * planeWave nx ny (G j) r s

/-- The grid resolves the expansion: at least `2 |m| + 1` and `2 |n| + 1` points for every order, and there is an order. -/
def Resolves {ι : Type} (nx ny : ℕ) (G : ι → ℤ × ℤ) : Prop :=
  Nonempty ι ∧ ∀ i, 2 * |(G i).1| + 1 ≤ nx ∧ 2 * |(G i).2| + 1 ≤ ny

end Fmmax.Spec
