import Verif.Model.Shapes
import Verif.Model.Basis
import Mathlib.Analysis.SpecialFunctions.Log.Basic

/-!
Shapes and batch dimensions in sources.py: the validation in `amplitudes_for_fields`, point and Gaussian sources with batch
dimensions.
-/

namespace Fmmax

/-- sources.py 43-88: the validation of `amplitudes_for_fields` on the shapes of the fields and the batch shape of the layer;
returns the Brillouin grid shape and the unit cell shape.  The checks of divisibility raise ZeroDivisionError for grids with an
axis of length zero, the second one is made only if the first one passes. -/
def fieldGridShapes (ex ey hx hy : List ℕ) (batchShape : List ℕ) (axes : Option (ℤ × ℤ)) : Res ((ℕ × ℕ) × (ℕ × ℕ)) :=
  if ¬(ex = ey ∧ ey = hx ∧ hx = hy) ∨ ex.length < 3 then .error .valueError
  else do
    let compatible ← batchCompatibleShapes [batchShape, dropLastN 3 ex, dropLastN 3 ey, dropLastN 3 hx, dropLastN 3 hy]
    if ¬compatible then .error .valueError
    else do
      let grid ← inferBrillouinGridShape axes ex.length batchShape
      let nx := ex.getD (ex.length - 3) 0
      let ny := ex.getD (ex.length - 2) 0
      if grid.1 = 0 then .error .zeroDivision
      else if nx % grid.1 ≠ 0 then .error .valueError
      else if grid.2 = 0 then .error .zeroDivision
      else if ny % grid.2 ≠ 0 then .error .valueError
      else .ok (grid, (nx / grid.1, ny / grid.2))

/-- sources.py 151-161 and 200-210: the validation of `location` and `in_plane_wavevector`. -/
def validateSourceShapes (location inPlane : List ℕ) : Res Unit :=
  if location.length ≠ 2 ∨ location.getLast? ≠ some 2 then .error .valueError
  else
    match inPlane.getLast? with
    | none => .error .indexError
    | some d => if d ≠ 2 then .error .valueError else .ok ()

/-- `x[:, k]` of a rank-2 array. -/
def NDArray.column {α : Type} (a : NDArray α) (k : ℕ) : NDArray α :=
  { shape := a.shape.take 1, get := fun idx => a.get (idx ++ [k]) }

/-- sources.py 163-171 and 212-220: `jnp.exp(-1j * (kx * x + ky * y))` with `kx`, `ky` and the coefficients. -/
noncomputable def pointSourceTerms {n : ℕ} (location inPlane u v : NDArray ℝ) (G : Fin n → ℤ × ℤ) :
    Res (NDArray ℝ × NDArray ℝ × NDArray ℂ) := do
  let k ← transverseWavevectorsBatch inPlane u v G
  let kx := (k.selectLast 0).expandLast
  let ky := (k.selectLast 1).expandLast
  let x := location.column 0
  let y := location.column 1
  let kxx ← kx.zipWith (· * ·) x
  let kyy ← ky.zipWith (· * ·) y
  let phase ← kxx.zipWith (· + ·) kyy
  .ok (kx, ky, phase.map fun p : ℝ => Complex.exp (-Complex.I * (p : ℂ)))

/-- sources.py 127-171 `dirac_delta_source` with batch dimensions. -/
noncomputable def diracDeltaSourceBatch {n : ℕ} (location inPlane u v : NDArray ℝ) (G : Fin n → ℤ × ℤ) : Res (NDArray ℂ) := do
  validateSourceShapes location.shape inPlane.shape
  let (_, _, coeffs) ← pointSourceTerms location inPlane u v G
  .ok coeffs

/-- sources.py 174-223 `gaussian_source` with batch dimensions; `fwhm` may be an array. -/
noncomputable def gaussianSourceBatch {n : ℕ} (fwhm location inPlane u v : NDArray ℝ) (G : Fin n → ℤ × ℤ) : Res (NDArray ℂ) := do
  validateSourceShapes location.shape inPlane.shape
  let (kx, ky, coeffs) ← pointSourceTerms location inPlane u v G
  let sigma := fwhm.map fun f => f / (2 * Real.sqrt (2 * Real.log 2))
  let square ← (kx.map (· ^ 2)).zipWith (· + ·) (ky.map (· ^ 2))
  let exponent ← (sigma.map fun s => -(s ^ 2)).zipWith (· * ·) square
  coeffs.zipWith (· * ·) (exponent.map fun e => Complex.exp ((e / 2 : ℝ) : ℂ))

end Fmmax
