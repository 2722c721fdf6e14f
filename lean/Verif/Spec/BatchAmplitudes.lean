import Verif.Spec.BatchFields
import Verif.Spec.Farfield

/-! Specification of averages over the Brillouin zone of fields with batch dimensions. -/

namespace Fmmax.Spec

/-- The batch index `i` with the positions along the axes `a` and `b` replaced by a point of the Brillouin grid. -/
def zoneIndex (a b : ℕ) (i : List ℕ) {b₁ b₂ : ℕ} (p : Fin b₁ × Fin b₂) : List ℕ := (i.set a p.1).set b p.2

/-- `field` is the average of `bloch` over the Brillouin grid, which lies along the axes `a` and `b` of the batch shape `t`: at every
gridpoint of the supercell, and for every batch index.  `field` may have length one along these axes. -/
def IsZoneAverage (t : List ℕ) (a b : ℕ) {b₁ b₂ m : ℕ} {shape : ℕ × ℕ}
    (bloch : Batch (Fin (b₁ * shape.1) × Fin (b₂ * shape.2) → Fin m → ℂ)) (field : Batch (ℕ → ℕ → Fin m → ℂ)) : Prop :=
  ∀ i, ValidIndex t i → ∀ v : Fin b₁ × Fin b₂ → Fin (b₁ * shape.1) × Fin (b₂ * shape.2) → Fin m → ℂ,
    (∀ p, bloch.elementAt (zoneIndex a b i p) = .ok (v p)) →
      ∃ f, field.elementAt i = .ok f ∧ ∀ r c, f r.1 r.2 c = (∑ p, v p r c) / (b₁ * b₂)

end Fmmax.Spec
