import Mathlib.Data.Real.Basic
import Mathlib.Analysis.Real.Sqrt
import Mathlib.Analysis.Real.Pi.Bounds
import Mathlib.Tactic.FieldSimp
import Mathlib.Tactic.LinearCombination

/-! Specification vocabulary for plane lattices. -/

namespace Fmmax.Spec

/-- Dot product of plane vectors. -/
def dot (x y : ℝ × ℝ) : ℝ := x.1 * y.1 + x.2 * y.2

/-- Two plane vectors are linearly independent iff their signed area is nonzero. -/
def Independent (u v : ℝ × ℝ) : Prop := u.1 * v.2 - u.2 * v.1 ≠ 0

/-- The reciprocal-space vector `K` (in units of `2π`) of the order `(m, n)`: the vector with `K·u = m`, `K·v = n`
(see `orderVector_dot`). -/
noncomputable def orderVector (u v : ℝ × ℝ) (g : ℤ × ℤ) : ℝ × ℝ :=
  ((g.1 * v.2 - g.2 * u.2) / (u.1 * v.2 - u.2 * v.1), (g.2 * u.1 - g.1 * v.1) / (u.1 * v.2 - u.2 * v.1))

/-- Euclidean length of a plane vector. -/
noncomputable def length (x : ℝ × ℝ) : ℝ := Real.sqrt (x.1 ^ 2 + x.2 ^ 2)

theorem orderVector_dot {u v : ℝ × ℝ} (h : Independent u v) (g : ℤ × ℤ) :
    dot (orderVector u v g) u = g.1 ∧ dot (orderVector u v g) v = g.2 := by
  obtain ⟨D, hD⟩ : ∃ D, u.1 * v.2 - u.2 * v.1 = D := ⟨_, rfl⟩
  have hD0 : D ≠ 0 := hD ▸ h
  simp only [dot, orderVector, hD]
  constructor
  · field_simp
    linear_combination (g.1 : ℝ) * hD
  · field_simp
    linear_combination (g.2 : ℝ) * hD

end Fmmax.Spec
