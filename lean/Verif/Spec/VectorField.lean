import Mathlib.Analysis.Complex.Basic
import Mathlib.Analysis.SpecialFunctions.Pow.NNReal

/-! Specification of vector fields: magnitudes and polarisations of complex two-component vectors. -/

namespace Fmmax.Spec

/-- The Euclidean magnitude of a complex two-component vector. -/
noncomputable def magnitude (t : Fin 2 → ℂ) : ℝ := Real.sqrt (‖t 0‖ ^ 2 + ‖t 1‖ ^ 2)

/-- The two components have a common phase (up to sign): the vector is linearly polarised. -/
def LinearlyPolarized (t : Fin 2 → ℂ) : Prop := ∃ (w : ℂ) (a b : ℝ), t 0 = w * a ∧ t 1 = w * b

/-- The two components have equal magnitude and a phase difference of a quarter turn. -/
def CircularlyPolarized (t : Fin 2 → ℂ) : Prop := t ≠ 0 ∧ t 1 = Complex.I * t 0

end Fmmax.Spec
