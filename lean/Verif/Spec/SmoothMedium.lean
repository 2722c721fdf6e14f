import Verif.Spec.Smooth
import Verif.Model.Fmm

/-!
Layers whose materials depend smoothly on a parameter, without any assumption about their eigenvectors: these are determined only up
to normalisation and, for degenerate modes, up to a change of basis, so that a numerical eigensolver may return eigenvectors and an
order of modes that jump from one parameter to the next.
-/

namespace Fmmax.Spec

open Topology Matrix

variable {E : Type} [NormedAddCommGroup E] [NormedSpace ℝ E] {ι : Type}

/-- All numbers of the layer other than those concerning its eigenmodes depend smoothly on the parameter. -/
structure SmoothMaterial (k : WithTop ℕ∞) (x : E) (L : E → LayerSolveResult ι) : Prop where
  wavelength : ContDiffAt ℝ k (fun y => (L y).wavelength) x
  inPlaneWavevector : SmoothPair k x fun y => (L y).inPlaneWavevector
  latticeU : SmoothPair k x fun y => (L y).primitiveLatticeVectors.u
  latticeV : SmoothPair k x fun y => (L y).primitiveLatticeVectors.v
  expansion : ∀ y, (L y).expansion = (L x).expansion
  zPermittivity : SmoothMat k x fun y => (L y).zPermittivityMatrix
  inverseZPermittivity : SmoothMat k x fun y => (L y).inverseZPermittivityMatrix
  zPermeability : SmoothMat k x fun y => (L y).zPermeabilityMatrix
  inverseZPermeability : SmoothMat k x fun y => (L y).inverseZPermeabilityMatrix
  transversePermeability : SmoothMat k x fun y => (L y).transversePermeabilityMatrix

variable [Fintype ι] [DecidableEq ι]

/-- A layer of smoothly varying material: eigenvectors and squared eigenvalues are those of a matrix with smooth entries, the
eigenvectors are linearly independent at the point `x`, and the chosen roots lie in a fixed open half-plane. -/
structure SmoothMedium (k : WithTop ℕ∞) (x : E) (L : E → LayerSolveResult ι) : Prop extends SmoothMaterial k x L where
  matrix : ∃ M : E → Matrix (ι ⊕ ι) (ι ⊕ ι) ℂ, SmoothMat k x M ∧
    ∀ᶠ y in 𝓝 x, M y * (L y).eigenvectors = (L y).eigenvectors * diagonal fun i => (L y).eigenvalues i ^ 2
  independent : IsUnit (L x).eigenvectors.det
  halfPlane : ∃ c : ℂ, ∀ᶠ y in 𝓝 x, ∀ i, 0 < (c * (L y).eigenvalues i).re

/-- Wherever the computation succeeds, its value at nearby parameters in `D` is that of a smooth function. -/
def DependsSmoothlyOn {α : Type} (D : Set E) (P : (E → α) → Prop) (x : E) (f : E → Res α) : Prop :=
  ∀ v, f x = .ok v → ∃ g : E → α, g x = v ∧ P g ∧ ∀ᶠ y in 𝓝 x, y ∈ D → f y = .ok (g y)

/-- The parameters for which all layers have linearly independent eigenvectors. -/
def Diagonalisable (layers : List (E → LayerSolveResult ι)) : Set E :=
  {y | ∀ L ∈ layers, IsUnit (L y).eigenvectors.det}

/-- Either the layer including its modes depends smoothly on the parameter, or its material does. -/
def SmoothlyVarying (k : WithTop ℕ∞) (x : E) (L : E → LayerSolveResult ι) : Prop :=
  (SmoothLayer k x L ∧ IsUnit (L x).eigenvectors.det) ∨ SmoothMedium k x L

/-- Smooth Fourier matrices of a material. -/
structure SmoothFourierMatrices (k : WithTop ℕ∞) (x : E) (m : E → FourierMatrices ι) : Prop where
  inverseZPermittivity : SmoothMat k x fun y => (m y).inverseZPermittivity
  zPermittivity : SmoothMat k x fun y => (m y).zPermittivity
  transversePermittivity : SmoothMat k x fun y => (m y).transversePermittivity
  inverseZPermeability : SmoothMat k x fun y => (m y).inverseZPermeability
  zPermeability : SmoothMat k x fun y => (m y).zPermeability
  transversePermeability : SmoothMat k x fun y => (m y).transversePermeability

/-- The fields at depths `z` in the layer with index `i` of a stack excited by the waves `a₀` and `bₙ`, following the usual sequence
of calls: interior scattering matrices, interior amplitudes, `colocate_amplitudes`, `fields_from_wave_amplitudes`. -/
noncomputable def fieldsInStack {β : Type} (layers : List (LayerSolveResult ι)) (ds : List ℝ) (a₀ bₙ : Matrix (ι ⊕ ι) β ℂ)
    (i : ℕ) (z : β → ℝ) : Res (Fields (Matrix ι β ℂ)) := do
  let ss ← stackSMatricesInterior layers ds
  let abs ← stackAmplitudesInterior a₀ bₙ ss
  match abs[i]?, layers[i]?, ds[i]? with
  | some ab, some l, some d =>
    let c := colocateAmplitudes ab.1 ab.2 z l d
    fieldsFromWaveAmplitudes c.1 c.2 l
  | _, _, _ => .error .indexError

end Fmmax.Spec
