import Verif.Model.Fields
import Mathlib.Analysis.Calculus.ContDiff.Operations

/-!
Smooth dependence of arrays, layers and results on a parameter `y` near a point `x` of a real normed space `E`; `k` is the
order of differentiability (`∞` for smooth, `ω` for analytic functions).  Arrays depend smoothly if every entry does.
-/

namespace Fmmax.Spec

open Topology

variable {E : Type} [NormedAddCommGroup E] [NormedSpace ℝ E] {ι : Type}

/-- A vector with smooth entries. -/
def SmoothVec {n : Type} (k : WithTop ℕ∞) (x : E) (v : E → n → ℂ) : Prop :=
  ∀ i, ContDiffAt ℝ k (fun y => v y i) x

/-- A matrix with smooth entries. -/
def SmoothMat {m n : Type} (k : WithTop ℕ∞) (x : E) (A : E → Matrix m n ℂ) : Prop :=
  ∀ i j, ContDiffAt ℝ k (fun y => A y i j) x

/-- A real vector in the plane with smooth entries. -/
def SmoothPair (k : WithTop ℕ∞) (x : E) (p : E → ℝ × ℝ) : Prop :=
  ContDiffAt ℝ k (fun y => (p y).1) x ∧ ContDiffAt ℝ k (fun y => (p y).2) x

/-- A layer all of whose numbers depend smoothly on the parameter; the expansion is fixed. -/
structure SmoothLayer (k : WithTop ℕ∞) (x : E) (L : E → LayerSolveResult ι) : Prop where
  wavelength : ContDiffAt ℝ k (fun y => (L y).wavelength) x
  inPlaneWavevector : SmoothPair k x fun y => (L y).inPlaneWavevector
  latticeU : SmoothPair k x fun y => (L y).primitiveLatticeVectors.u
  latticeV : SmoothPair k x fun y => (L y).primitiveLatticeVectors.v
  expansion : ∀ y, (L y).expansion = (L x).expansion
  eigenvalues : SmoothVec k x fun y => (L y).eigenvalues
  eigenvectors : SmoothMat k x fun y => (L y).eigenvectors
  zPermittivity : SmoothMat k x fun y => (L y).zPermittivityMatrix
  inverseZPermittivity : SmoothMat k x fun y => (L y).inverseZPermittivityMatrix
  zPermeability : SmoothMat k x fun y => (L y).zPermeabilityMatrix
  inverseZPermeability : SmoothMat k x fun y => (L y).inverseZPermeabilityMatrix
  transversePermeability : SmoothMat k x fun y => (L y).transversePermeabilityMatrix

/-- The four blocks of a scattering matrix depend smoothly on the parameter. -/
structure SmoothBlocks (k : WithTop ℕ∞) (x : E) (s : E → Blocks ι) : Prop where
  s11 : SmoothMat k x fun y => (s y).s11
  s12 : SmoothMat k x fun y => (s y).s12
  s21 : SmoothMat k x fun y => (s y).s21
  s22 : SmoothMat k x fun y => (s y).s22

/-- A scattering matrix, with the layers it records, depends smoothly on the parameter. -/
structure SmoothScattering (k : WithTop ℕ∞) (x : E) (s : E → ScatteringMatrix ι) : Prop where
  blocks : SmoothBlocks k x fun y => (s y).toBlocks
  startLayer : SmoothLayer k x fun y => (s y).startLayer
  startThickness : ContDiffAt ℝ k (fun y => (s y).startThickness) x
  endLayer : SmoothLayer k x fun y => (s y).endLayer
  endThickness : ContDiffAt ℝ k (fun y => (s y).endThickness) x

/-- Six field components, each an array of smooth entries. -/
structure SmoothFields {m n : Type} (k : WithTop ℕ∞) (x : E) (F : E → Fields (Matrix m n ℂ)) : Prop where
  ex : SmoothMat k x fun y => (F y).ex
  ey : SmoothMat k x fun y => (F y).ey
  ez : SmoothMat k x fun y => (F y).ez
  hx : SmoothMat k x fun y => (F y).hx
  hy : SmoothMat k x fun y => (F y).hy
  hz : SmoothMat k x fun y => (F y).hz

/-- Lists of a fixed length whose elements satisfy `P`. -/
def SmoothList {α : Type} (P : (E → α) → Prop) (g : E → List α) : Prop :=
  ∃ gs : List (E → α), (∀ y, g y = gs.map fun h => h y) ∧ ∀ h ∈ gs, P h

/-- Wherever the computation succeeds it also succeeds at all nearby parameters, and its value there is a smooth function. -/
def DependsSmoothly {α : Type} (P : (E → α) → Prop) (x : E) (f : E → Res α) : Prop :=
  ∀ v, f x = .ok v → ∃ g : E → α, g x = v ∧ P g ∧ ∀ᶠ y in 𝓝 x, f y = .ok (g y)

end Fmmax.Spec
