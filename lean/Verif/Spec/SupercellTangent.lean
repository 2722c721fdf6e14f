import Verif.Spec.Symmetry

/-! Specification: vector fields and Fourier expansions of supercells. -/

namespace Fmmax.Spec

variable {ι κ : Type} {nx ny : ℕ}

/-- The vector field repeated in the cells of a supercell of `m × n` cells. -/
def tileField (m n : ℕ) (f : Fin nx → Fin ny → Fin 2 → ℂ) : Fin (m * nx) → Fin (n * ny) → Fin 2 → ℂ := fun i j =>
  f (tile m n (i, j)).1 (tile m n (i, j)).2

/-- `G'` is the expansion for the supercell of `m × n` cells which corresponds to the expansion `G` for a single cell: there are
`m n` times as many orders, and those which are orders of a single cell are the orders of `G`. -/
structure SupercellExpansion [Fintype ι] [Fintype κ] (m n : ℕ) (G : ι → ℤ × ℤ) (G' : κ → ℤ × ℤ) : Prop where
  terms : Fintype.card κ = m * n * Fintype.card ι
  placed : ∀ i, ∃ k, G' k = (m * (G i).1, n * (G i).2)
  others : ∀ k, (m : ℤ) ∣ (G' k).1 → (n : ℤ) ∣ (G' k).2 → ∃ i, G' k = (m * (G i).1, n * (G i).2)

/-- The expansion consists of the orders `(m, n)` with `|m| ≤ K` and `|n| ≤ L`, each once. -/
structure IsBox (K L : ℕ) (G : ι → ℤ × ℤ) : Prop where
  injective : Function.Injective G
  orders : ∀ p, (∃ i, G i = p) ↔ |p.1| ≤ K ∧ |p.2| ≤ L

end Fmmax.Spec
