import Verif.Spec.Maxwell
import Verif.Spec.SMatrix

/-!
Specification of layers in which forward waves carry energy forward, and of stacks without resonances.
-/

namespace Fmmax.Spec

open Matrix

variable {ι : Type} [Fintype ι] [DecidableEq ι] {β : Type}

/-- The modes of the layer span all magnetic fields and none has a vanishing propagation constant. -/
def CompleteModes (l : LayerSolveResult ι) : Prop := IsUnit l.eigenvectors.det ∧ ∀ i, l.eigenvalues i ≠ 0

/-- The layer `l` was solved, at a positive wavelength, for a material which absorbs every electric field and has no gain; its
modes span all magnetic fields, and the stored roots do not grow along `+z`. -/
structure AbsorbingLayer (l : LayerSolveResult ι) : Prop where
  wavelength : 0 < l.wavelength
  solved : ∃ E, SolvedFor l E ∧ Absorbing E
  zPermittivity : Absorbing l.zPermittivityMatrix
  permeability : Passive l.transversePermeabilityMatrix ∧ IsUnit l.transversePermeabilityMatrix.det
  zPermeability : Passive l.zPermeabilityMatrix
  independent : IsUnit l.eigenvectors.det
  forward : ∀ i, 0 ≤ (l.eigenvalues i).im

/-- A layer without gain in which forward waves alone never carry energy backward. -/
structure OutwardLayer (l : LayerSolveResult ι) : Prop where
  passive : PassiveLayer l
  modes : CompleteModes l
  outward : ∀ {β : Type} (a : Matrix (ι ⊕ ι) β ℂ) (e h : Matrix (ι ⊕ ι) β ℂ) (c : β),
    FieldsAt { layer := l, thickness := 0, a := a, b := 0 } 0 e h → 0 ≤ netFlux e h c

/-- No resonance: amplitudes with continuous tangential fields and without incoming waves vanish. -/
def NoResonance (layers : List (LayerSolveResult ι × ℝ)) : Prop :=
  ∀ (st : List (LayerState ι Unit)) (first last : LayerState ι Unit), geometry st = layers → Consistent st →
    st.head? = some first → st.getLast? = some last → first.a = 0 → last.b = 0 → ∀ s ∈ st, s.a = 0 ∧ s.b = 0

end Fmmax.Spec
