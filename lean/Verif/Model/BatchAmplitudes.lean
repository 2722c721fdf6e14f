import Verif.Model.BatchFields3d
import Verif.Model.SourceShapes
import Verif.Model.Sources
import Verif.Model.FluxBatch

/-!
`amplitudes_for_fields` and `stack_fields_3d_auto_grid` on arrays with batch dimensions.

The axes of the grid and the amplitude axis of a field belong to the elements, of type `ℕ → ℕ → Fin m → ℂ` as in
`Verif/Model/Sources.lean`.
-/

namespace Fmmax

variable {n m : ℕ}

/-- sources.py 96-109 `_process_field`: the phase is divided out with broadcasting, the grid of every batch element is split into
unit cells, these are transformed and summed. -/
noncomputable def processFieldBatch (G : Fin n → ℤ × ℤ) (shape cells : ℕ × ℕ)
    (phase : Batch (Fin (cells.1 * shape.1) × Fin (cells.2 * shape.2) → ℂ)) (field : Batch (ℕ → ℕ → Fin m → ℂ)) :
    Res (Batch (Matrix (Fin n) (Fin m) ℂ)) := do
  let split : Batch (Fin cells.1 × Fin cells.2 → Fin m → Matrix (Fin shape.1) (Fin shape.2) ℂ) ←
    field.zip (fun f phase => .ok fun c b => Matrix.of fun r s =>
      f (flatIndex c.1 r) (flatIndex c.2 s) b / phase (flatIndex c.1 r, flatIndex c.2 s)) phase
  validateShapeForExpansion shape G
  .ok (split.map fun f => do
    let f ← allOk fun p : (Fin cells.1 × Fin cells.2) × Fin m => fft (f p.1 p.2) G
    .ok (Matrix.of fun i b => ∑ c, f (c, b) i))

/-- sources.py 13-119 `amplitudes_for_fields` for fields on an `N.1 × N.2` grid.  The batch shape of the layer is that of its
eigenvectors (fmm.py 267-270). -/
noncomputable def amplitudesForFieldsBatch (N : ℕ × ℕ) (ex ey hx hy : Batch (ℕ → ℕ → Fin m → ℂ)) (l : BatchLayer n)
    (axes : Option (ℤ × ℤ)) : Res (Amplitudes n m × Amplitudes n m) := do
  let (grid, shape) ← fieldGridShapes (ex.shape ++ [N.1, N.2, m]) (ey.shape ++ [N.1, N.2, m]) (hx.shape ++ [N.1, N.2, m])
    (hy.shape ++ [N.1, N.2, m]) l.eigenvectors.shape axes
  let xy ← unitCellCoordinatesBatch l.u l.v shape grid
  let phase ← (vectorsOf l.inPlaneWavevector).zip (fun k xy => .ok fun p => Complex.exp (Complex.I * (k.1 * (xy p).1 + k.2 * (xy p).2))) xy
  let ex ← processFieldBatch l.expansion shape grid phase ex
  let ey ← processFieldBatch l.expansion shape grid phase ey
  let hx ← processFieldBatch l.expansion shape grid phase hx
  let hy ← processFieldBatch l.expansion shape grid phase hy
  let minus : Batch (Matrix (Fin n) (Fin m) ℂ) := ey.map fun y => .ok (-y)
  let upper ← minus.concatRows ex
  let lower ← hx.concatRows hy
  let stacked ← upper.concatRows lower
  let matrix ← fieldConversionMatrixBatch l
  let amplitudes ← matrix.solve stacked
  .ok (amplitudes.rows fun i => .inl i, amplitudes.rows fun i => .inr i)

/-- A grid shape chosen by `stack_fields_3d_auto_grid`, with the fields, z coordinates and xy coordinates on that grid. -/
structure AutoGridFieldsBatch (m : ℕ) (cells : ℕ × ℕ) where
  shape : ℕ × ℕ
  znum : List ℕ
  fields : List (Fields (Batch (Fin (cells.1 * shape.1) × Fin (cells.2 * shape.2) → Fin m → ℂ)))
  z : List ℝ
  xy : Batch (Fin (cells.1 * shape.1) × Fin (cells.2 * shape.2) → ℝ × ℝ)

/-- `jnp.linalg.norm(x)` without axes: the root of the sum of the squares of all entries. -/
noncomputable def NDArray.norm (x : NDArray ℝ) : ℝ := Real.sqrt (x.map (· ^ 2)).sumAll

/-- fields.py 701-739 `stack_fields_3d_auto_grid`; the thicknesses are scalars. -/
noncomputable def stackFields3dAutoGridBatch (amplitudes : List (Amplitudes n m × Amplitudes n m)) (layers : List (BatchLayer n))
    (thicknesses : List ℝ) (spacing : ℝ) (cells : ℕ × ℕ) : Res (AutoGridFieldsBatch m cells) :=
  match layers with
  | [] => .error .indexError
  | l :: _ => do
    let nu ← numGridpoints l.u.norm spacing
    let nv ← numGridpoints l.v.norm spacing
    let znum ← layerGridpoints spacing thicknesses
    let (g, z, xy) ← stackFields3dBatch amplitudes layers thicknesses znum (gridSliceBatch (nu, nv) cells)
    .ok { shape := (nu, nv), znum := znum, fields := g, z := z, xy := xy }

end Fmmax
