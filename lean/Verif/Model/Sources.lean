import Verif.Model.Fields
import Mathlib.Analysis.SpecialFunctions.Log.Basic

/-!
sources.py: amplitudes of given fields, coefficients of point and Gaussian sources, emission of sources inside a stack.

One batch element; the trailing batch axis is the column type `β` (or `κ` for sources).  The validation of array ranks and
batch shapes is modelled in `Verif/Model/Shapes.lean`.
-/

namespace Fmmax

open Matrix

variable {ι : Type} [Fintype ι] [DecidableEq ι] {β κ : Type}

/-- sources.py 96-109 `_process_field`, for a field on `cells * shape` gridpoints (row `c * shape + r` is gridpoint `r` of
cell `c`): remove the Bloch phase, split into unit cells, transform each and sum over cells. -/
noncomputable def processField (l : LayerSolveResult ι) (shape cells : ℕ × ℕ) (field : ℕ → ℕ → β → ℂ) :
    Res (Matrix ι β ℂ) := do
  let phase := fun (i : Fin (cells.1 * shape.1)) (j : Fin (cells.2 * shape.2)) =>
    let xy := unitCellCoordinates l.primitiveLatticeVectors shape cells i j
    Complex.exp (Complex.I * (l.inPlaneWavevector.1 * xy.1 + l.inPlaneWavevector.2 * xy.2))
  validateShapeForExpansion shape l.expansion
  let f ← allOk fun p : (Fin cells.1 × Fin cells.2) × β =>
    fft (Matrix.of fun (r : Fin shape.1) (s : Fin shape.2) =>
      field (flatIndex p.1.1 r) (flatIndex p.1.2 s) p.2 / phase (flatIndex p.1.1 r) (flatIndex p.1.2 s)) l.expansion
  .ok (Matrix.of fun i b => ∑ c, f (c, b) i)

/-- sources.py 13-119 `amplitudes_for_fields`: fields on an `N.1 × N.2` grid covering `grid.1 × grid.2` unit cells.  The
Brillouin grid shape `grid` is inferred from batch shapes in 64-72. -/
noncomputable def amplitudesForFields (N : ℕ × ℕ) (ex ey hx hy : ℕ → ℕ → β → ℂ) (l : LayerSolveResult ι) (grid : ℕ × ℕ) :
    Res (Matrix (ι ⊕ ι) β ℂ × Matrix (ι ⊕ ι) β ℂ) :=
  if grid.1 = 0 ∨ grid.2 = 0 then .error .zeroDivision
  else if N.1 % grid.1 ≠ 0 ∨ N.2 % grid.2 ≠ 0 then .error .valueError
  else do
    let shape := (N.1 / grid.1, N.2 / grid.2)
    let ex ← processField l shape grid ex
    let ey ← processField l shape grid ey
    let hx ← processField l shape grid hx
    let hy ← processField l shape grid hy
    let matrix ← fieldConversionMatrix l
    let amplitudes ← solve matrix (Matrix.fromRows (Matrix.fromRows (-ey) ex) (Matrix.fromRows hx hy))
    .ok (Matrix.of fun i b => amplitudes (.inl i) b, Matrix.of fun i b => amplitudes (.inr i) b)

/-- sources.py 127-171 `dirac_delta_source`. -/
noncomputable def diracDeltaSource (location : κ → ℝ × ℝ) (inPlane : ℝ × ℝ) (l : LatticeVectors) (G : ι → ℤ × ℤ) :
    Res (Matrix ι κ ℂ) := do
  let k ← transverseWavevectors inPlane l G
  let kx := kxOf k
  let ky := kyOf k
  .ok (Matrix.of fun i s => Complex.exp (-Complex.I * (kx i * (location s).1 + ky i * (location s).2)))

/-- sources.py 174-223 `gaussian_source`. -/
noncomputable def gaussianSource (fwhm : ℝ) (location : κ → ℝ × ℝ) (inPlane : ℝ × ℝ) (l : LatticeVectors)
    (G : ι → ℤ × ℤ) : Res (Matrix ι κ ℂ) := do
  let k ← transverseWavevectors inPlane l G
  let kx := kxOf k
  let ky := kyOf k
  let coeffs : Matrix ι κ ℂ :=
    Matrix.of fun i s => Complex.exp (-Complex.I * (kx i * (location s).1 + ky i * (location s).2))
  let sigma := fwhm / (2 * Real.sqrt (2 * Real.log 2))
  .ok (Matrix.of fun i s => coeffs i s * Complex.exp (-((sigma : ℂ) ^ 2) * (kx i ^ 2 + ky i ^ 2) / 2))

/-- sources.py 310-363 `polarization_terms`. -/
noncomputable def polarizationTerms (jx jy jz : Matrix ι β ℂ) (l : LayerSolveResult ι) :
    Res (Matrix ((ι ⊕ ι) ⊕ (ι ⊕ ι)) β ℂ) := do
  let pParallel := Matrix.fromRows jy (-jx)
  let k ← transverseWavevectors l.inPlaneWavevector l.primitiveLatticeVectors l.expansion
  let pzy := rowScale (kyOf k) l.inverseZPermittivityMatrix * jz
  let pzx := rowScale (kxOf k) l.inverseZPermittivityMatrix * jz
  let pz := Matrix.fromRows (-pzy) pzx
  .ok (Matrix.fromRows pz pParallel)

/-- sources.py 366-417 `emission_matrix`. -/
noncomputable def emissionMatrix (before after : ScatteringMatrix ι) :
    Res (Matrix ((ι ⊕ ι) ⊕ (ι ⊕ ι)) ((ι ⊕ ι) ⊕ (ι ⊕ ι)) ℂ) := do
  let q := before.endLayer.eigenvalues
  let phi := before.endLayer.eigenvectors
  let omegaK ← before.endLayer.omegaScriptKMatrix
  let nextQ := after.startLayer.eigenvalues
  let nextPhi := after.startLayer.eigenvectors
  let nextOmegaK ← after.startLayer.omegaScriptKMatrix
  let fd := phase q before.endThickness
  let nextFd := phase nextQ after.startThickness
  let fdS12 := diag fd * before.s12
  let fdS21 := diag nextFd * after.s21
  let eye : ModeMatrix ι := diag fun _ => 1
  let invNextQ ← recip nextQ
  let invQ ← recip q
  .ok (Matrix.fromBlocks
    (nextOmegaK * nextPhi * diag invNextQ * (eye - fdS21)) (omegaK * phi * diag invQ * (eye - fdS12))
    (nextPhi * (eye + fdS21)) (-phi * (eye + fdS12)))

/-- The six amplitudes returned by `amplitudes_for_source`. -/
structure SourceAmplitudes (ι β : Type) where
  backward0End : Matrix (ι ⊕ ι) β ℂ
  forwardBeforeStart : Matrix (ι ⊕ ι) β ℂ
  backwardBeforeEnd : Matrix (ι ⊕ ι) β ℂ
  forwardAfterStart : Matrix (ι ⊕ ι) β ℂ
  backwardAfterEnd : Matrix (ι ⊕ ι) β ℂ
  forwardNStart : Matrix (ι ⊕ ι) β ℂ

/-- sources.py 226-307 `amplitudes_for_source`. -/
noncomputable def amplitudesForSource (jx jy jz : Matrix ι β ℂ) (before after : ScatteringMatrix ι) :
    Res (SourceAmplitudes ι β) := do
  let pol ← polarizationTerms jx jy jz before.endLayer
  let matrix ← emissionMatrix before after
  let ab ← solve matrix pol
  let a : Matrix (ι ⊕ ι) β ℂ := Matrix.of fun i c => ab (.inl i) c
  let b : Matrix (ι ⊕ ι) β ℂ := Matrix.of fun i c => ab (.inr i) c
  .ok { backward0End := before.s22 * b, forwardBeforeStart := before.s12 * b, backwardBeforeEnd := b,
        forwardAfterStart := a, backwardAfterEnd := after.s21 * a, forwardNStart := after.s11 * a }

end Fmmax
