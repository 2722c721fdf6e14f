import Verif.Model.BatchFields

/-!
fields.py on arrays with batch dimensions: fields in an xy plane, on a grid or at coordinates, and in three dimensions.

The axes of the grid or of the coordinates and the amplitude axis belong to the elements, of type `κ → Fin m → ℂ`.
-/

namespace Fmmax

variable {n m : ℕ} {κ : Type}

/-! ### Propagation -/

/-- fields.py 14-40 `propagate_amplitude`; one distance for each amplitude. -/
noncomputable def propagateAmplitudesBatch (a : Amplitudes n m) (distance : Fin m → ℝ) (l : BatchLayer n) : Res (Amplitudes n m) := do
  validateAmplitudesShape [a.shape ++ [2 * n, m]] (2 * n)
  let fd : Amplitudes n m := l.eigenvalues.map fun q => .ok (Matrix.of fun i c => Complex.exp (Complex.I * q i * distance c))
  a.zip (fun a fd => .ok (Matrix.of fun i c => a i c * fd i c)) fd

/-- fields.py 43-83 `colocate_amplitudes`. -/
noncomputable def colocateAmplitudesBatch (forwardStart backwardEnd : Amplitudes n m) (zOffset : Fin m → ℝ) (l : BatchLayer n)
    (thickness : ℝ) : Res (Amplitudes n m × Amplitudes n m) := do
  validateAmplitudesBatch forwardStart backwardEnd
  let f ← propagateAmplitudesBatch forwardStart zOffset l
  let b ← propagateAmplitudesBatch backwardEnd (fun c => thickness - zOffset c) l
  .ok (f, b)

/-! ### Fields in an xy plane -/

/-- An array of shape `(..., 2)`, by batch element. -/
def vectorsOf (x : NDArray ℝ) : Batch (ℝ × ℝ) := { shape := dropLastN 1 x.shape, get := fun b => .ok (x.get (b ++ [0]), x.get (b ++ [1])) }

/-- basis.py 132-155 `unit_cell_coordinates`. -/
noncomputable def unitCellCoordinatesBatch (u v : NDArray ℝ) (shape cells : ℕ × ℕ) :
    Res (Batch (Fin (cells.1 * shape.1) × Fin (cells.2 * shape.2) → ℝ × ℝ)) :=
  (vectorsOf u).zip (fun u v => .ok fun p => unitCellCoordinates { u := u, v := v } shape cells p.1 p.2) (vectorsOf v)

/-- The check of the six components (fields.py 446-449, 526-529). -/
def validateFieldsBatch (F : Fields (Batch (Matrix (Fin n) (Fin m) ℂ))) : Res Unit :=
  validateAmplitudesShape [F.ex.shape ++ [n, m], F.ey.shape ++ [n, m], F.ez.shape ++ [n, m], F.hx.shape ++ [n, m], F.hy.shape ++ [n, m],
    F.hz.shape ++ [n, m]] n

/-- fields.py 393-486 `fields_on_grid`, `_fields_on_grid`. -/
noncomputable def fieldsOnGridBatch (F : Fields (Batch (Matrix (Fin n) (Fin m) ℂ))) (l : BatchLayer n) (shape cells : ℕ × ℕ) :
    Res (Fields (Batch (Fin (cells.1 * shape.1) × Fin (cells.2 * shape.2) → Fin m → ℂ)) ×
      Batch (Fin (cells.1 * shape.1) × Fin (cells.2 * shape.2) → ℝ × ℝ)) := do
  validateFieldsBatch F
  let xy ← unitCellCoordinatesBatch l.u l.v shape cells
  let phase ← (vectorsOf l.inPlaneWavevector).zip (fun k xy => .ok fun p => Complex.exp (Complex.I * (k.1 * (xy p).1 + k.2 * (xy p).2))) xy
  let onGrid := fun y : Batch (Matrix (Fin n) (Fin m) ℂ) => do
    validateShapeForExpansion shape l.expansion
    let f : Batch (Fin m → Matrix (Fin shape.1) (Fin shape.2) ℂ) := y.map fun y => ifftColumns y l.expansion shape.1 shape.2
    f.zip (fun f phase => .ok fun (p : Fin (cells.1 * shape.1) × Fin (cells.2 * shape.2)) b =>
      f b (tileIndex p.1) (tileIndex p.2) * phase p) phase
  let g ← F.mapM onGrid
  .ok (g, xy)

/-- `jnp.reshape` of the batch axes; the other axes are kept and not empty. -/
def Batch.reshapeTo {α : Type} (x : Batch α) (shape : List ℕ) : Res (Batch α) :=
  if x.shape = shape then .ok x
  else if x.shape.prod = shape.prod then .ok (x.reshape shape)
  else .error .typeError

/-- fields.py 489-560 `fields_on_coordinates`; `κ` indexes the (flattened) coordinate arrays, and the fields have the batch shape of
`ex`. -/
noncomputable def fieldsOnCoordinatesBatch (F : Fields (Batch (Matrix (Fin n) (Fin m) ℂ))) (l : BatchLayer n) (xy : κ → ℝ × ℝ) :
    Res (Fields (Batch (κ → Fin m → ℂ)) × Batch (κ → ℝ × ℝ)) := do
  validateFieldsBatch F
  let kt ← transverseWavevectorsBatch l.inPlaneWavevector l.u l.v l.expansion
  let at' := fun y : Batch (Matrix (Fin n) (Fin m) ℂ) => do
    let f ← y.zip (fun y k => .ok fun (p : κ) b =>
      ∑ i, y i b * Complex.exp (Complex.I * (kxOf k i * (xy p).1 + kyOf k i * (xy p).2))) (waveVectors kt)
    f.reshapeTo F.ex.shape
  let g ← F.mapM at'
  .ok (g, { shape := [], get := fun _ => .ok xy })

/-! ### Fields in three dimensions -/

/-- fields.py 379-390 `FieldsXYSliceFn`, for any number of amplitudes. -/
abbrev BatchSliceFn (n : ℕ) (κ : Type) : Type :=
  ∀ m : ℕ, Fields (Batch (Matrix (Fin n) (Fin m) ℂ)) → BatchLayer n → Res (Fields (Batch (κ → Fin m → ℂ)) × Batch (κ → ℝ × ℝ))

/-- `jnp.asarray` of the three components of each field: their shapes must agree. -/
def fieldsAsArray {α : Type} (F : Fields (Batch α)) : Res Unit :=
  if F.ex.shape = F.ey.shape ∧ F.ex.shape = F.ez.shape ∧ F.hx.shape = F.hy.shape ∧ F.hx.shape = F.hz.shape then .ok ()
  else .error .valueError

/-- fields.py 953-1033 `_layer_fields_3d`. -/
noncomputable def layerFields3dBatch (a b : Amplitudes n m) (l : BatchLayer n) (thickness : ℝ) (znum : ℕ) (slice : BatchSliceFn n κ) :
    Res (Fields (Batch (κ → Fin znum → Fin m → ℂ)) × Batch (κ → ℝ × ℝ) × (Fin znum → ℝ)) :=
  if a.shape ≠ b.shape then .error .assertionError
  else do
    let zOffset := linspace thickness znum
    let zFlat : Fin (znum * m) → ℝ := fun c => zOffset c.divNat
    let aFlat : Amplitudes n (znum * m) := a.map fun a => .ok (Matrix.of fun i c => a i c.modNat)
    let bFlat : Amplitudes n (znum * m) := b.map fun b => .ok (Matrix.of fun i c => b i c.modNat)
    let (forward, backward) ← colocateAmplitudesBatch aFlat bFlat zFlat l thickness
    let f ← fieldsFromWaveAmplitudesBatch forward backward l
    let (g, xy) ← slice (znum * m) f l
    fieldsAsArray g
    .ok (g.map fun x => x.map fun x => .ok fun p k j => x p (flatIndex k j), xy, zOffset)

/-- One layer of the loop in fields.py 892-950. -/
structure BatchLayerRequest (n m : ℕ) where
  a : Amplitudes n m
  b : Amplitudes n m
  layer : BatchLayer n
  thickness : ℝ
  znum : ℕ

/-- The loop of fields.py 918-945: the batch shapes of the electric and magnetic fields of every layer, the field slices along z, the z
coordinates and the coordinates `(x, y)` of the last layer. -/
noncomputable def stackFieldsLoopBatch (slice : BatchSliceFn n κ) (z0 : ℝ) (xy0 : Option (Batch (κ → ℝ × ℝ))) :
    List (BatchLayerRequest n m) →
      Res (List (List ℕ × List ℕ) × List (Fields (Batch (κ → Fin m → ℂ))) × List ℝ × Option (Batch (κ → ℝ × ℝ)))
  | [] => .ok ([], [], [], xy0)
  | r :: rest => do
    let (g, xy, zOffset) ← layerFields3dBatch r.a r.b r.layer r.thickness r.znum slice
    let (shapes, gs, zs, xy') ← stackFieldsLoopBatch slice (z0 + r.thickness) (some xy) rest
    .ok ((g.ex.shape, g.hx.shape) :: shapes,
      List.ofFn (fun k : Fin r.znum => g.map fun x => x.map fun x => .ok fun p j => x p k j) ++ gs,
      List.ofFn (fun k : Fin r.znum => zOffset k + z0) ++ zs, xy')

/-- `zip(..., strict=True)` of the four sequences. -/
def zipRequestsBatch : List (Amplitudes n m × Amplitudes n m) → List (BatchLayer n) → List ℝ → List ℕ → List (BatchLayerRequest n m)
  | ab :: abs, l :: ls, d :: ds, z :: zs =>
    { a := ab.1, b := ab.2, layer := l, thickness := d, znum := z } :: zipRequestsBatch abs ls ds zs
  | _, _, _, _ => []

/-- fields.py 888-950 `_stack_fields_3d`, with the length check 1036-1040; `jnp.concatenate` along z needs one batch shape and a
nonempty sequence. -/
noncomputable def stackFields3dBatch (amplitudes : List (Amplitudes n m × Amplitudes n m)) (layers : List (BatchLayer n))
    (thicknesses : List ℝ) (znum : List ℕ) (slice : BatchSliceFn n κ) :
    Res (List (Fields (Batch (κ → Fin m → ℂ))) × List ℝ × Batch (κ → ℝ × ℝ)) :=
  if layers.length ≠ amplitudes.length ∨ thicknesses.length ≠ amplitudes.length ∨ znum.length ≠ amplitudes.length then
    .error .valueError
  else do
    let (shapes, gs, zs, xy) ← stackFieldsLoopBatch slice 0 none (zipRequestsBatch amplitudes layers thicknesses znum)
    match shapes, xy with
    | s :: rest, some xy => if ∀ s' ∈ rest, s' = s then .ok (gs, zs, xy) else .error .typeError
    | _, _ => .error .valueError

/-- `functools.partial(fields_on_grid, shape=shape, num_unit_cells=cells)` (fields.py 771-775). -/
noncomputable def gridSliceBatch (shape cells : ℕ × ℕ) : BatchSliceFn n (Fin (cells.1 * shape.1) × Fin (cells.2 * shape.2)) :=
  fun _ F l => fieldsOnGridBatch F l shape cells

/-- `functools.partial(fields_on_coordinates, x=x, y=y)` (fields.py 806). -/
noncomputable def coordinateSliceBatch (xy : κ → ℝ × ℝ) : BatchSliceFn n κ := fun _ F l => fieldsOnCoordinatesBatch F l xy

end Fmmax
