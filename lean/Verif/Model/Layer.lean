import Verif.Model.Matrices

/-!
fmm.py: the `LayerSolveResult` record.
-/

namespace Fmmax

open Matrix

/-- fmm.py 227-265 `LayerSolveResult`, one batch element; `ι = Fin num_terms` indexes Fourier orders and
`ι ⊕ ι` the `2 * num_terms` eigenmodes.  The shape validation of `__post_init__` (285-369) is carried by the types here
and modelled separately on shapes.  `tangent_vector_field` (a diagnostic output) is omitted. -/
structure LayerSolveResult (ι : Type) where
  wavelength : ℝ
  inPlaneWavevector : ℝ × ℝ
  primitiveLatticeVectors : LatticeVectors
  expansion : ι → ℤ × ℤ
  eigenvalues : ι ⊕ ι → ℂ
  eigenvectors : Matrix (ι ⊕ ι) (ι ⊕ ι) ℂ
  zPermittivityMatrix : Matrix ι ι ℂ
  inverseZPermittivityMatrix : Matrix ι ι ℂ
  zPermeabilityMatrix : Matrix ι ι ℂ
  inverseZPermeabilityMatrix : Matrix ι ι ℂ
  transversePermeabilityMatrix : Matrix (ι ⊕ ι) (ι ⊕ ι) ℂ

/-- fmm.py 271-283 property `omega_script_k_matrix`. -/
noncomputable def LayerSolveResult.omegaScriptKMatrix {ι : Type} [Fintype ι] [DecidableEq ι]
    (l : LayerSolveResult ι) : Res (Matrix (ι ⊕ ι) (ι ⊕ ι) ℂ) := do
  let k ← transverseWavevectors l.inPlaneWavevector l.primitiveLatticeVectors l.expansion
  omegaScriptKMatrixPatterned l.wavelength l.zPermittivityMatrix l.transversePermeabilityMatrix k

end Fmmax
