import Verif.Spec.Stack
import Verif.Spec.Lattice

/-! Specification of a field in an xy plane as a sum of plane waves. -/

namespace Fmmax.Spec

/-- The sum of plane waves `∑ cᵢ exp(i kᵢ·r)` over the orders of a layer, at the point `r`. -/
noncomputable def planeWaveSum {ι : Type} [Fintype ι] (l : LayerSolveResult ι) (c : ι → ℂ) (r : ℝ × ℝ) : ℂ :=
  ∑ i, c i * Complex.exp (Complex.I * (dot (orderWavevector l i) r : ℝ))

/-- The point at fractions `s`, `t` of the lattice vectors. -/
def latticePoint (l : LatticeVectors) (s t : ℝ) : ℝ × ℝ := s • l.u + t • l.v

end Fmmax.Spec
