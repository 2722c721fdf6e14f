import Verif.Spec.Shapes

/-! Specification of Brillouin grid axes. -/

namespace Fmmax.Spec

/-- `grid` is the shape of the Brillouin grid for the given axes: these are two distinct axes, counted from the first axis if
non-negative and from the end of an array of rank `rank` otherwise; without axes there is a single point. -/
def IsGridShape (axes : Option (ℤ × ℤ)) (rank : ℕ) (batch : List ℕ) (grid : ℕ × ℕ) : Prop :=
  match axes with
  | none => grid = (1, 1)
  | some (i, j) => ∃ a b : ℕ, a ≠ b ∧ a < rank ∧ b < rank ∧ (i = a ∨ i = (a : ℤ) - rank) ∧ (j = b ∨ j = (b : ℤ) - rank) ∧
      batch[a]? = some grid.1 ∧ batch[b]? = some grid.2

end Fmmax.Spec
