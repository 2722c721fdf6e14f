import Mathlib.LinearAlgebra.Matrix.NonsingularInverse
import Mathlib.Analysis.SpecialFunctions.Trigonometric.Basic

/-!
Shared conventions of the model: errors as values, guarded division and linear solves.
-/

namespace Fmmax

open Matrix

/-- Ways in which a python function of the library fails.  `nonFinite` stands for "the returned array would
contain `inf` or `nan`" (singular linear solve, division by zero), which python does not raise. -/
inductive Err
  | valueError
  | assertionError
  | indexError
  | typeError
  | zeroDivision
  | nonFinite
  deriving DecidableEq, Repr

/-- Result of a python function: a value or an `Err`. -/
abbrev Res (α : Type) := Except Err α

/-- Models `jnp.linalg.solve(a, b)` (used through scattering.py 595-601 `solve`, and directly in
fmm_matrices.py 64-65, 82-83).  Exact arithmetic; `force_x64_solve` only changes precision and is not modelled.
A singular `A` gives non-finite entries. -/
noncomputable def solve {n β : Type} [Fintype n] [DecidableEq n]
    (A : Matrix n n ℂ) (B : Matrix n β ℂ) : Res (Matrix n β ℂ) :=
  open Classical in
  if IsUnit A.det then .ok (A⁻¹ * B) else .error .nonFinite

/-- Models `1 / q` for an array `q` (e.g. scattering.py 431): non-finite if some entry is zero. -/
noncomputable def recip {n : Type} (q : n → ℂ) : Res (n → ℂ) :=
  open Classical in
  if ∀ i, q i ≠ 0 then .ok (fun i => 1 / q i) else .error .nonFinite

/-- Models `v[..., jnp.newaxis] * A`: row scaling by a vector. -/
def rowScale {m n : Type} (v : m → ℂ) (A : Matrix m n ℂ) : Matrix m n ℂ :=
  Matrix.of fun i j => v i * A i j

/-- Models `A * v[..., jnp.newaxis, :]`: column scaling by a vector. -/
def colScale {m n : Type} (A : Matrix m n ℂ) (v : n → ℂ) : Matrix m n ℂ :=
  Matrix.of fun i j => A i j * v j

/-- Models `utils.diag` (utils.py 27-32) for one batch element: a square matrix with the given diagonal. -/
def diag {n : Type} [DecidableEq n] (v : n → ℂ) : Matrix n n ℂ :=
  Matrix.of fun i j => if i = j then v i else 0

/-- Models `utils.angular_frequency_for_wavelength` (utils.py 35-37): `2 π / wavelength`. -/
noncomputable def angularFrequency (wavelength : ℝ) : Res ℝ :=
  if wavelength = 0 then .error .nonFinite else .ok (2 * Real.pi / wavelength)

end Fmmax
