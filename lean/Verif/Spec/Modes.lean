import Verif.Spec.Stack

/-!
Specification of the modes of a layer: which square root is the forward one, and the eigenvalue equation of
2012 Liu (equations 26-29, extended to magnetic media) that eigenvectors and eigenvalues must satisfy.
-/

namespace Fmmax.Spec

open Matrix

variable {ι : Type} [Fintype ι] [DecidableEq ι]

/-- `q` is the forward propagation constant for the squared propagation constant `w`: it decays along `+z`, or propagates
towards `+z` without decay. -/
def IsForwardRoot (w q : ℂ) : Prop := q ^ 2 = w ∧ 0 ≤ q.im ∧ (q.im = 0 → 0 ≤ q.re)

/-- `K = [[kx μz⁻¹ kx, kx μz⁻¹ ky], [ky μz⁻¹ kx, ky μz⁻¹ ky]]`. -/
noncomputable def divergenceMatrix (l : LayerSolveResult ι) : Matrix (ι ⊕ ι) (ι ⊕ ι) ℂ :=
  let kx : Matrix ι ι ℂ := Matrix.diagonal fun i => ((orderWavevector l i).1 : ℂ)
  let ky : Matrix ι ι ℂ := Matrix.diagonal fun i => ((orderWavevector l i).2 : ℂ)
  let ν := l.zPermeabilityMatrix⁻¹
  Matrix.fromBlocks (kx * ν * kx) (kx * ν * ky) (ky * ν * kx) (ky * ν * ky)

/-- The eigenvalue equation `(E (ω² M - 𝒦) - K M) φ = φ q²` for the eigenvectors and eigenvalues stored in a layer, `E`
being the transverse permittivity matrix. -/
def ModeEquation (l : LayerSolveResult ι) (E : Matrix (ι ⊕ ι) (ι ⊕ ι) ℂ) : Prop :=
  (E * magneticToElectric l - divergenceMatrix l * l.transversePermeabilityMatrix) * l.eigenvectors =
    l.eigenvectors * Matrix.diagonal fun i => l.eigenvalues i ^ 2

end Fmmax.Spec
