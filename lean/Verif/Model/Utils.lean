import Verif.Model.Fmm
import Mathlib.Analysis.SpecialFunctions.Pow.Complex
import Mathlib.LinearAlgebra.Matrix.Hadamard
import Mathlib.Data.Finset.Lattice.Fold

/-!
utils.py: permittivity interpolation and the backward rule of the eigendecomposition.
-/

namespace Fmmax

open Matrix

/-- utils.py 78-103 `interpolate_permittivity`, elementwise, for arrays of complex dtype.
(Signed zeros are not modelled: `jnp.sqrt` takes the other root of a negative number whose imaginary part is `-0.0`.) -/
noncomputable def interpolatePermittivity (solid void : ℂ) (density : ℝ) : ℂ :=
  let nSolid := (csqrt solid).re
  let kSolid := (csqrt solid).im
  let nVoid := (csqrt void).re
  let kVoid := (csqrt void).im
  let n := density * nSolid + (1 - density) * nVoid
  let k := density * kSolid + (1 - density) * kVoid
  (n + Complex.I * k) ^ 2

variable {n : Type} [Fintype n] [DecidableEq n]

/-- utils.py 23-24 `EIG_EPS_MINIMUM`. -/
noncomputable def eigEpsMinimum : ℝ := 1e-24

/-- utils.py 216-218 `delta_eig`: rows are `j` and columns are `i`. -/
def deltaEig (eigenvalues : n → ℂ) : Matrix n n ℂ := Matrix.of fun r c => eigenvalues c - eigenvalues r

/-- utils.py 219-220: the broadening.  (A maximum over no elements is taken to be zero; python raises for empty matrices.) -/
noncomputable def eigEps (epsRelative : ℝ) (eigenvalues : n → ℂ) : ℝ :=
  let range := ((Finset.univ : Finset (n × n)).sup fun p => (‖deltaEig eigenvalues p.1 p.2‖₊) ^ 2 : NNReal)
  max (epsRelative * range) eigEpsMinimum

/-- utils.py 221-225 `f_broadened`, for given broadening. -/
noncomputable def fBroadened (eps : ℝ) (eigenvalues : n → ℂ) : Matrix n n ℂ :=
  let delta := deltaEig eigenvalues
  Matrix.of fun r c => if r = c then 0 else star (delta r c) / ((‖delta r c‖ ^ 2 + eps : ℝ) : ℂ)

/-- utils.py 227-250: the backward rule, for a given matrix `f` of inverse differences. -/
noncomputable def eigBwdWith (f : Matrix n n ℂ) (eigenvectors : Matrix n n ℂ) (gradEigenvalues : n → ℂ)
    (gradEigenvectors : Matrix n n ℂ) : Res (Matrix n n ℂ) := do
  let gradEigenvaluesConj : n → ℂ := fun i => star (gradEigenvalues i)
  let gradEigenvectorsConj := gradEigenvectors.map star
  let eigenvectorsH := eigenvectors.conjTranspose
  let rhs := (diag gradEigenvaluesConj
      + f.map star ⊙ (eigenvectorsH * gradEigenvectorsConj)
      - (f.map star ⊙ (eigenvectorsH * eigenvectors)) *
        Matrix.of fun i j => if i = j then (((eigenvectorsH * gradEigenvectorsConj) i j).re : ℂ) else 0) * eigenvectorsH
  let gradMatrix ← solve eigenvectorsH rhs
  .ok (gradMatrix.map star)

/-- utils.py 178-253 `_eig_bwd`.  The denominators are positive when `epsRelative` is not negative, see `C70_denominators`. -/
noncomputable def eigBwd (epsRelative : ℝ) (eigenvalues : n → ℂ) (eigenvectors : Matrix n n ℂ) (gradEigenvalues : n → ℂ)
    (gradEigenvectors : Matrix n n ℂ) : Res (Matrix n n ℂ) :=
  eigBwdWith (fBroadened (eigEps epsRelative eigenvalues) eigenvalues) eigenvectors gradEigenvalues gradEigenvectors

end Fmmax
