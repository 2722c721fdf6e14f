import Mathlib.Data.Int.Notation
import Mathlib.Data.List.Forall2

/-! Specification of the arrangement of Brillouin-zone results. -/

namespace Fmmax.Spec

/-- The least and greatest coefficients of the orders of an expansion, along each direction. -/
structure OrderBounds {ι : Type} (G : ι → ℤ × ℤ) (lo hi : ℤ × ℤ) : Prop where
  lo_mem1 : ∃ t, (G t).1 = lo.1
  lo_mem2 : ∃ t, (G t).2 = lo.2
  hi_mem1 : ∃ t, (G t).1 = hi.1
  hi_mem2 : ∃ t, (G t).2 = hi.2
  le1 : ∀ t, lo.1 ≤ (G t).1 ∧ (G t).1 ≤ hi.1
  le2 : ∀ t, lo.2 ≤ (G t).2 ∧ (G t).2 ≤ hi.2

/-- A multi-index inside a shape. -/
def ValidIndex (shape idx : List ℕ) : Prop := List.Forall₂ (· < ·) idx shape

/-- The cell `(r, c)` of the merged grid that belongs to Brillouin point `(p, q)` and order `g`: the zones of the orders are
laid out side by side. -/
def IsMergedCell (lo : ℤ × ℤ) (nx ny : ℕ) (g : ℤ × ℤ) (p q r c : ℕ) : Prop :=
  (r : ℤ) = (g.1 - lo.1) * nx + p ∧ (c : ℤ) = (g.2 - lo.2) * ny + q

end Fmmax.Spec
