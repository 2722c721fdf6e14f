import Verif.Spec.SupercellEmission
import Verif.Spec.Reciprocity

/-! Specification of reciprocity of emission: fields at the end of a layer, their reaction with currents, point currents. -/

namespace Fmmax.Spec

open Matrix

variable {ι : Type} [Fintype ι] [DecidableEq ι] {β γ : Type}

/-- The integral of `E · J` over the unit cell (divided by its area), for fields with the Fourier coefficients `F` of a calculation with
reversed orders and currents with the Fourier coefficients `jx`, `jy`, `jz`: one entry for every pair of a field and a current. -/
def reaction (F : Fields (Matrix ι γ ℂ)) (jx jy jz : Matrix ι β ℂ) : Matrix γ β ℂ := F.exᵀ * jx + F.eyᵀ * jy + F.ezᵀ * jz

/-- `F` are the Fourier coefficients of the fields at the end of layer number `n` emitted by currents between the layers `before` and `after`, as
calculated: layers are solved, `stack_s_matrix` and `stack_s_matrices_interior` are applied to both parts of the structure, then
`amplitudes_for_source`, `stack_amplitudes_interior_with_source`, `colocate_amplitudes` and `fields_from_wave_amplitudes`. -/
def EmittedFields (eig : Matrix (ι ⊕ ι) (ι ⊕ ι) ℂ → (ι ⊕ ι → ℂ) × Matrix (ι ⊕ ι) (ι ⊕ ι) ℂ) (c : Setup ι) (before after : List (StackLayer ι))
    (jx jy jz : Matrix ι β ℂ) (n : ℕ) (F : Fields (Matrix ι β ℂ)) : Prop :=
  ∃ lb la sb sa ib ia source amplitudes l d x,
    List.Forall₂ (fun p r => p.solve eig c = .ok r) before lb ∧ List.Forall₂ (fun p r => p.solve eig c = .ok r) after la ∧
    stackSMatrix lb (before.map StackLayer.thickness) = .ok sb ∧ stackSMatrix la (after.map StackLayer.thickness) = .ok sa ∧
    stackSMatricesInterior lb (before.map StackLayer.thickness) = .ok ib ∧ stackSMatricesInterior la (after.map StackLayer.thickness) = .ok ia ∧
    amplitudesForSource jx jy jz sb sa = .ok source ∧
    stackAmplitudesInteriorWithSource ib ia source.backwardBeforeEnd source.forwardAfterStart = .ok amplitudes ∧
    (lb ++ la)[n]? = some l ∧ ((before ++ after).map StackLayer.thickness)[n]? = some d ∧ amplitudes[n]? = some x ∧
    fieldsFromWaveAmplitudes (colocateAmplitudes x.1 x.2 (fun _ => d) l d).1 (colocateAmplitudes x.1 x.2 (fun _ => d) l d).2 l = .ok F

/-- Point currents: the coefficients `δ` returned by `dirac_delta_source` times one component of the moment of each source. -/
def pointCurrent {n : ℕ} (δ : Matrix ι (Fin n) ℂ) (moment : Fin n → ℂ) : Matrix ι (Fin n) ℂ := Matrix.of fun i s => moment s * δ i s

/-- Number of the last plane of layer number `n`, among the planes of all layers. -/
def lastPlane (znum : List ℕ) (n : ℕ) : ℕ := (znum.take (n + 1)).sum - 1

end Fmmax.Spec
