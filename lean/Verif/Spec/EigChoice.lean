import Verif.Spec.SupercellEmission

/-! Fields in stacks illuminated from outside, from the descriptions of the layers. -/

namespace Fmmax.Spec

open Matrix

variable {ι γ : Type} [Fintype ι] [DecidableEq ι] {n : ℕ}

/-- `gs` are the fields at depths `zs` computed for a stack illuminated by the waves `a` from the first layer and `b` from the last one:
layers are solved, and the functions for interior scattering matrices, interior amplitudes and three-dimensional fields are applied. -/
def ComputedIllumination (eig : Matrix (ι ⊕ ι) (ι ⊕ ι) ℂ → (ι ⊕ ι → ℂ) × Matrix (ι ⊕ ι) (ι ⊕ ι) ℂ) (c : Setup ι) (layers : List (StackLayer ι))
    (a b : Matrix (ι ⊕ ι) (Fin n) ℂ) (znum : List ℕ) (xy : γ → ℝ × ℝ) (gs : List (Fields (γ → Fin n → ℂ))) (zs : List ℝ) : Prop :=
  ∃ solved interior amplitudes,
    List.Forall₂ (fun p r => p.solve eig c = .ok r) layers solved ∧
    stackSMatricesInterior solved (layers.map StackLayer.thickness) = .ok interior ∧
    stackAmplitudesInterior a b interior = .ok amplitudes ∧
    stackFields3d amplitudes solved (layers.map StackLayer.thickness) znum (coordinateSlice xy) = .ok (gs, zs, xy)

end Fmmax.Spec
