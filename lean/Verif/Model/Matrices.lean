import Verif.Model.Lattice
import Mathlib.Data.Matrix.Block

/-!
fmm_matrices.py: k-matrices and the omega-script-k matrix.
Blocks of a `2 * num_terms` axis are indexed by `ι ⊕ ι`.
-/

namespace Fmmax

open Matrix

variable {ι : Type} [Fintype ι] [DecidableEq ι]

/-- x-components of the transverse wavevectors, cast to complex (`kx` in fmm_matrices.py 62, 80). -/
def kxOf (k : ι → ℝ × ℝ) : ι → ℂ := fun i => ((k i).1 : ℂ)

/-- y-components of the transverse wavevectors, cast to complex (`ky` in fmm_matrices.py 63, 81). -/
def kyOf (k : ι → ℝ × ℝ) : ι → ℂ := fun i => ((k i).2 : ℂ)

/-- fmm_matrices.py 35-53 `script_k_matrix_uniform`. -/
noncomputable def scriptKMatrixUniform (permittivity : ℂ) (k : ι → ℝ × ℝ) :
    Res (Matrix (ι ⊕ ι) (ι ⊕ ι) ℂ) :=
  let kx := kxOf k
  let ky := kyOf k
  open Classical in
  if permittivity = 0 then .error .nonFinite
  else .ok <| Matrix.fromBlocks
    (diag fun i => ky i / permittivity * ky i) (diag fun i => -ky i / permittivity * kx i)
    (diag fun i => -kx i / permittivity * ky i) (diag fun i => kx i / permittivity * kx i)

/-- fmm_matrices.py 56-71 `script_k_matrix_patterned`. -/
noncomputable def scriptKMatrixPatterned (zPermittivity : Matrix ι ι ℂ) (k : ι → ℝ × ℝ) :
    Res (Matrix (ι ⊕ ι) (ι ⊕ ι) ℂ) := do
  let kx := kxOf k
  let ky := kyOf k
  let zInvKx ← solve zPermittivity (diag kx)
  let zInvKy ← solve zPermittivity (diag ky)
  .ok <| Matrix.fromBlocks
    (rowScale ky zInvKy) (rowScale (fun i => -ky i) zInvKx)
    (rowScale (fun i => -kx i) zInvKy) (rowScale kx zInvKx)

/-- fmm_matrices.py 74-89 `k_matrix_patterned`. -/
noncomputable def kMatrixPatterned (zPermeability : Matrix ι ι ℂ) (k : ι → ℝ × ℝ) :
    Res (Matrix (ι ⊕ ι) (ι ⊕ ι) ℂ) := do
  let kx := kxOf k
  let ky := kyOf k
  let zInvKx ← solve zPermeability (diag kx)
  let zInvKy ← solve zPermeability (diag ky)
  .ok <| Matrix.fromBlocks
    (rowScale kx zInvKx) (rowScale kx zInvKy)
    (rowScale ky zInvKx) (rowScale ky zInvKy)

/-- fmm_matrices.py 14-27 `omega_script_k_matrix_patterned`. -/
noncomputable def omegaScriptKMatrixPatterned (wavelength : ℝ) (zPermittivity : Matrix ι ι ℂ)
    (transversePermeability : Matrix (ι ⊕ ι) (ι ⊕ ι) ℂ) (k : ι → ℝ × ℝ) :
    Res (Matrix (ι ⊕ ι) (ι ⊕ ι) ℂ) := do
  let scriptK ← scriptKMatrixPatterned zPermittivity k
  let w ← angularFrequency wavelength
  .ok (((w : ℂ) ^ 2) • transversePermeability - scriptK)

end Fmmax
