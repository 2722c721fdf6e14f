import Verif.Spec.Fourier
import Verif.Spec.VectorField
import Verif.Spec.Symmetry

/-! Specification: vector fields in other coordinates. -/

namespace Fmmax.Spec

open Matrix

variable {nx ny : ℕ}

/-- The lattice turned (or mirrored) by the matrix `O`. -/
def turnLattice (O : Matrix (Fin 2) (Fin 2) ℝ) (l : LatticeVectors) : LatticeVectors :=
  ⟨(O 0 0 * l.u.1 + O 0 1 * l.u.2, O 1 0 * l.u.1 + O 1 1 * l.u.2), (O 0 0 * l.v.1 + O 0 1 * l.v.2, O 1 0 * l.v.1 + O 1 1 * l.v.2)⟩

/-- The vector field turned (or mirrored) by the matrix `O`, its points moved along `γ`, and multiplied by the number `p`. -/
def turnField (p : ℂ) (O : Matrix (Fin 2) (Fin 2) ℝ) (γ : Fin nx × Fin ny → Fin nx × Fin ny) (f : Fin nx → Fin ny → Fin 2 → ℂ) : Fin nx → Fin ny → Fin 2 → ℂ :=
  fun i j k => p * (O k 0 * f (γ (i, j)).1 (γ (i, j)).2 0 + O k 1 * f (γ (i, j)).1 (γ (i, j)).2 1)

/-- The field is sampled along both axes, is not negligible, and has clearly different directions at two points: the angle between the lines through
`(f 0, f 1)` at these points has a sine of more than `1 / 20`.  Complex fields have two angles, those of `f 0 ± i f 1`; for real fields they are opposite. -/
structure TwoDirections (f : Fin nx → Fin ny → Fin 2 → ℂ) : Prop where
  axes : 1 < nx ∧ 1 < ny
  large : ∃ i j, 1e-8 < magnitude (f i j)
  directions : ∀ w : ℂ, w = Complex.I ∨ w = -Complex.I → ∃ p q : Fin nx × Fin ny,
    (∀ i j, 2e-8 * magnitude (f i j) < ‖f p.1 p.2 0 + w * f p.1 p.2 1‖) ∧ (∀ i j, 2e-8 * magnitude (f i j) < ‖f q.1 q.2 0 + w * f q.1 q.2 1‖) ∧
    ‖f p.1 p.2 0 + w * f p.1 p.2 1‖ * ‖f q.1 q.2 0 + w * f q.1 q.2 1‖ <
      20 * |((f p.1 p.2 0 + w * f p.1 p.2 1) * star (f q.1 q.2 0 + w * f q.1 q.2 1)).im|

/-- At every point the field either vanishes or is not negligible, and is then not nearly circularly polarized in the direction in which `f 0 + i f 1`
vanishes. -/
def Unambiguous (f : Fin nx → Fin ny → Fin 2 → ℂ) : Prop :=
  ∀ i j, f i j = 0 ∨ (1e-8 < magnitude (f i j) ∧ (∀ r s, 1e-8 * magnitude (f r s) < magnitude (f i j)) ∧
    1e-8 * magnitude (f i j) < ‖f i j 0 + Complex.I * f i j 1‖)

/-- The part of a vector field in the orders of the expansion, on another grid. -/
noncomputable abbrev bandLimited {ι : Type} [Fintype ι] (G : ι → ℤ × ℤ) (f : Fin nx → Fin ny → Fin 2 → ℂ) (mx my : ℕ) : Fin mx → Fin my → Fin 2 → ℂ :=
  fun r s e => fourierSeries G (fun k => fourierCoefficient (Matrix.of fun i j => f i j e) (G k)) mx my r s

/-- A shift of the grid of the array by `a` and `b` points is a shift of the other grid by whole numbers of points. -/
def CommonShift (nx ny mx my : ℕ) (a b : ℤ) : Prop := (nx : ℤ) ∣ a * mx ∧ (ny : ℤ) ∣ b * my

end Fmmax.Spec
