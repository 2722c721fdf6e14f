import Verif.Spec.Supercell
import Verif.Model.Sources

/-! Specification: the fields of sources inside a structure, from solving its layers to fields at points in space. -/

namespace Fmmax.Spec

open Matrix

variable {ι γ : Type} [Fintype ι] [DecidableEq ι] {n : ℕ}

/-- The fields `gs` in the planes `zs`, at the points `xy`, of currents with the Fourier coefficients `jx`, `jy`, `jz` between the layers `before` and `after`,
as calculated: layers are solved, `stack_s_matrix` and `stack_s_matrices_interior` are applied to both parts of the structure, then `amplitudes_for_source`,
`stack_amplitudes_interior_with_source` and `stack_fields_3d_on_coordinates`. -/
def ComputedEmission (eig : Matrix (ι ⊕ ι) (ι ⊕ ι) ℂ → (ι ⊕ ι → ℂ) × Matrix (ι ⊕ ι) (ι ⊕ ι) ℂ) (c : Setup ι) (before after : List (StackLayer ι))
    (jx jy jz : Matrix ι (Fin n) ℂ) (znum : List ℕ) (xy : γ → ℝ × ℝ) (gs : List (Fields (γ → Fin n → ℂ))) (zs : List ℝ) : Prop :=
  ∃ lb la sb sa ib ia source amplitudes,
    List.Forall₂ (fun p r => p.solve eig c = .ok r) before lb ∧ List.Forall₂ (fun p r => p.solve eig c = .ok r) after la ∧
    stackSMatrix lb (before.map StackLayer.thickness) = .ok sb ∧ stackSMatrix la (after.map StackLayer.thickness) = .ok sa ∧
    stackSMatricesInterior lb (before.map StackLayer.thickness) = .ok ib ∧ stackSMatricesInterior la (after.map StackLayer.thickness) = .ok ia ∧
    amplitudesForSource jx jy jz sb sa = .ok source ∧
    stackAmplitudesInteriorWithSource ib ia source.backwardBeforeEnd source.forwardAfterStart = .ok amplitudes ∧
    stackFields3d amplitudes (lb ++ la) (before.map StackLayer.thickness ++ after.map StackLayer.thickness) znum (coordinateSlice xy) = .ok (gs, zs, xy)

/-- The sum of fields. -/
def sumFields {σ α : Type} [Fintype σ] [AddCommMonoid α] (F : σ → Fields α) : Fields α :=
  { ex := ∑ t, (F t).ex, ey := ∑ t, (F t).ey, ez := ∑ t, (F t).ez, hx := ∑ t, (F t).hx, hy := ∑ t, (F t).hy, hz := ∑ t, (F t).hz }

/-- Plane by plane, `gs'` is the sum of the fields `gs t`. -/
def IsSumOfFields {σ : Type} [Fintype σ] (gs' : List (Fields (γ → Fin n → ℂ))) (gs : σ → List (Fields (γ → Fin n → ℂ))) : Prop :=
  (∀ t, (gs t).length = gs'.length) ∧
    ∀ (i : ℕ) (F' : Fields (γ → Fin n → ℂ)), gs'[i]? = some F' → ∃ F, (∀ t, (gs t)[i]? = some (F t)) ∧ F' = sumFields F

/-- Plane by plane, `gs'` is the average of the fields `gs t`. -/
def IsMeanOfFields {σ : Type} [Fintype σ] (gs' : List (Fields (γ → Fin n → ℂ))) (gs : σ → List (Fields (γ → Fin n → ℂ))) : Prop :=
  (∀ t, (gs t).length = gs'.length) ∧
    ∀ (i : ℕ) (F' : Fields (γ → Fin n → ℂ)), gs'[i]? = some F' → ∃ F, (∀ t, (gs t)[i]? = some (F t)) ∧
      F' = (sumFields F).map fun f p j => f p j / (Fintype.card σ : ℂ)

end Fmmax.Spec
