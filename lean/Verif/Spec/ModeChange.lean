import Verif.Model.Scattering

/-! Specification: two eigensolve results that describe the same layer with a different choice of eigenmodes. -/

namespace Fmmax.Spec

open Matrix

variable {ι : Type} [Fintype ι] [DecidableEq ι]

/-- `l'` is the same physical layer as `l`, but its eigenmodes are the combinations of the modes of `l` given by the
columns of the invertible matrix `T`; only modes with equal eigenvalue are mixed. -/
structure ModeChange (l l' : LayerSolveResult ι) (T : Matrix (ι ⊕ ι) (ι ⊕ ι) ℂ) : Prop where
  wavelength : l'.wavelength = l.wavelength
  inPlane : l'.inPlaneWavevector = l.inPlaneWavevector
  lattice : l'.primitiveLatticeVectors = l.primitiveLatticeVectors
  expansion : l'.expansion = l.expansion
  zPermittivity : l'.zPermittivityMatrix = l.zPermittivityMatrix
  transversePermeability : l'.transversePermeabilityMatrix = l.transversePermeabilityMatrix
  eigenvectors : l'.eigenvectors = l.eigenvectors * T
  eigenvalues : ∀ i j, T i j ≠ 0 → l.eigenvalues i = l'.eigenvalues j
  isUnit : IsUnit T.det

/-- The layer `l` with its modes listed in the order `σ` and rescaled by `c`. -/
def reorderModes (l : LayerSolveResult ι) (σ : Equiv.Perm (ι ⊕ ι)) (c : ι ⊕ ι → ℂ) : LayerSolveResult ι :=
  { l with
    eigenvalues := fun j => l.eigenvalues (σ j)
    eigenvectors := Matrix.of fun i j => c j * l.eigenvectors i (σ j) }

end Fmmax.Spec
