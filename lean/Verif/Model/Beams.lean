import Verif.Model.Basic
import Mathlib.LinearAlgebra.Matrix.Notation

/-!
beams.py: reorientation of beams.  The points at which fields are evaluated are indexed by `P` (the common shape of `x`, `y`
and `z`, which is asserted), vectors by `Fin 3`.
-/

namespace Fmmax

open Matrix

/-- `jnp.linalg.solve` for real arrays. -/
noncomputable def solveReal {n β : Type} [Fintype n] [DecidableEq n] (A : Matrix n n ℝ) (B : Matrix n β ℝ) :
    Res (Matrix n β ℝ) :=
  open Classical in
  if IsUnit A.det then .ok (A⁻¹ * B) else .error .nonFinite

/-- beams.py 133-140 `rotation_y_matrix`. -/
noncomputable def rotationY (polar : ℝ) : Matrix (Fin 3) (Fin 3) ℝ :=
  !![Real.cos polar, 0, Real.sin polar; 0, 1, 0; -Real.sin polar, 0, Real.cos polar]

/-- beams.py 143-150 `rotation_z_matrix`. -/
noncomputable def rotationZ (azimuthal : ℝ) : Matrix (Fin 3) (Fin 3) ℝ :=
  !![Real.cos azimuthal, -Real.sin azimuthal, 0; Real.sin azimuthal, Real.cos azimuthal, 0; 0, 0, 1]

/-- beams.py 154-178 `rotation_p_matrix`, for given axis and cosine and sine of the angle. -/
def rotationP (ux uy uz c s : ℝ) : Matrix (Fin 3) (Fin 3) ℝ :=
  !![c + ux ^ 2 * (1 - c), ux * uy * (1 - c) - uz * s, ux * uz * (1 - c) + uy * s;
     uy * ux * (1 - c) + uz * s, c + uy ^ 2 * (1 - c), uy * uz * (1 - c) - ux * s;
     uz * ux * (1 - c) - uy * s, uz * uy * (1 - c) + ux * s, c + uz ^ 2 * (1 - c)]

/-- beams.py 103-179 `rotation_matrix`. -/
noncomputable def rotationMatrix (polar azimuthal polarization : ℝ) : Matrix (Fin 3) (Fin 3) ℝ :=
  let ux := Real.cos azimuthal * Real.sin polar
  let uy := Real.sin azimuthal * Real.sin polar
  let uz := Real.cos polar
  rotationP ux uy uz (Real.cos polarization) (Real.sin polarization) * rotationZ azimuthal * rotationY polar

/-- Electric and magnetic vectors at points. -/
abbrev VectorFields (P : Type) := (P → Fin 3 → ℂ) × (P → Fin 3 → ℂ)

/-- beams.py 20-100 `shifted_rotated_fields`.  The field function receives all coordinates at once. -/
noncomputable def shiftedRotatedFields {P : Type} (fieldFn : (P → Fin 3 → ℝ) → VectorFields P) (coords : P → Fin 3 → ℝ)
    (origin : Fin 3 → ℝ) (polar azimuthal polarization : ℝ) : Res (VectorFields P) := do
  let mat := rotationMatrix polar azimuthal polarization
  let rotated ← solveReal mat (Matrix.of fun i (p : P) => coords p i)
  let rotatedOrigin ← solveReal mat (Matrix.of fun i (_ : Unit) => origin i)
  let (e, h) := fieldFn fun p i => rotated i p - rotatedOrigin i ()
  let cmat := mat.map (algebraMap ℝ ℂ)
  .ok (fun p => cmat *ᵥ e p, fun p => cmat *ᵥ h p)

end Fmmax
