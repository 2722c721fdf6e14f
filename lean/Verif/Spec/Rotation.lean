import Mathlib.LinearAlgebra.CrossProduct
import Mathlib.Analysis.Calculus.FDeriv.Basic
import Mathlib.Analysis.Complex.Basic
import Mathlib.Analysis.SpecialFunctions.Trigonometric.Basic

/-! Specification of rotations and of the curl. -/

namespace Fmmax.Spec

open Matrix

/-- Rotation of `v` by the angle `a` about the unit vector `u`. -/
noncomputable def rotateAbout (u : Fin 3 → ℝ) (a : ℝ) (v : Fin 3 → ℝ) : Fin 3 → ℝ :=
  Real.cos a • v + Real.sin a • (u ⨯₃ v) + ((1 - Real.cos a) * (u ⬝ᵥ v)) • u

/-- The direction with the given polar and azimuthal angle. -/
noncomputable def direction (polar azimuthal : ℝ) : Fin 3 → ℝ :=
  ![Real.sin polar * Real.cos azimuthal, Real.sin polar * Real.sin azimuthal, Real.cos polar]

/-- `J` is the matrix of partial derivatives of the vector field `F` at `x`. -/
def HasJacobian (F : (Fin 3 → ℝ) → Fin 3 → ℂ) (J : Matrix (Fin 3) (Fin 3) ℂ) (x : Fin 3 → ℝ) : Prop :=
  ∀ i, HasFDerivAt (fun y => F y i)
    (∑ j, (ContinuousLinearMap.proj (R := ℝ) (φ := fun _ : Fin 3 => ℝ) j).smulRight (J i j)) x

/-- The curl, from the matrix of partial derivatives. -/
def curlOf (J : Matrix (Fin 3) (Fin 3) ℂ) : Fin 3 → ℂ := ![J 2 1 - J 1 2, J 0 2 - J 2 0, J 1 0 - J 0 1]

/-- Maxwell's equations at angular frequency `omega` in a homogeneous medium. -/
def SolvesMaxwell (omega : ℝ) (permittivity : ℂ) (E H : (Fin 3 → ℝ) → Fin 3 → ℂ) : Prop :=
  ∀ x, ∃ JE JH, HasJacobian E JE x ∧ HasJacobian H JH x ∧
    curlOf JE = (Complex.I * omega) • H x ∧ curlOf JH = (-Complex.I * omega * permittivity) • E x

end Fmmax.Spec
