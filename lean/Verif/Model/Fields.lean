import Verif.Model.Scattering
import Verif.Model.Fft
import Verif.Model.Basis
import Mathlib.Data.Matrix.ColumnRowPartitioned

/-!
fields.py: propagation of amplitudes, Poynting flux, fields in the Fourier basis, on a grid, at coordinates and in 3D, interior
amplitudes of a stack.

One batch element (leading batch axes); the trailing batch axis of amplitudes is the column type `β`.
`_validate_amplitudes_shape` (86-98) is carried by the types.
-/

namespace Fmmax

open Matrix

variable {ι : Type} [Fintype ι] [DecidableEq ι] {β κ : Type}

/-- The six components `((ex, ey, ez), (hx, hy, hz))`. -/
@[ext] structure Fields (α : Type) where
  ex : α
  ey : α
  ez : α
  hx : α
  hy : α
  hz : α

/-- The same operation applied to every component. -/
def Fields.map {α γ : Type} (f : α → γ) (F : Fields α) : Fields γ :=
  { ex := f F.ex, ey := f F.ey, ez := f F.ez, hx := f F.hx, hy := f F.hy, hz := f F.hz }

/-- The same operation, which may fail, applied to every component. -/
def Fields.mapM {α γ : Type} (f : α → Res γ) (F : Fields α) : Res (Fields γ) := do
  let ex ← f F.ex
  let ey ← f F.ey
  let ez ← f F.ez
  let hx ← f F.hx
  let hy ← f F.hy
  let hz ← f F.hz
  .ok { ex := ex, ey := ey, ez := ez, hx := hx, hy := hy, hz := hz }

/-! ### Propagation -/

/-- fields.py 14-40 `propagate_amplitude`; `distance` is broadcast against the trailing batch axis (a scalar distance is a
constant function). -/
noncomputable def propagateAmplitude (amplitude : Matrix (ι ⊕ ι) β ℂ) (distance : β → ℝ) (l : LayerSolveResult ι) :
    Matrix (ι ⊕ ι) β ℂ :=
  Matrix.of fun i b => amplitude i b * Complex.exp (Complex.I * l.eigenvalues i * distance b)

/-- fields.py 43-83 `colocate_amplitudes`. -/
noncomputable def colocateAmplitudes (forwardStart backwardEnd : Matrix (ι ⊕ ι) β ℂ) (zOffset : β → ℝ)
    (l : LayerSolveResult ι) (thickness : ℝ) : Matrix (ι ⊕ ι) β ℂ × Matrix (ι ⊕ ι) β ℂ :=
  (propagateAmplitude forwardStart zOffset l, propagateAmplitude backwardEnd (fun b => thickness - zOffset b) l)

/-! ### Poynting flux -/

/-- fields.py 262-274 `_poynting_flux_a_matrix` (the same expression as `mat` in 352-370). -/
noncomputable def poyntingFluxAMatrix (l : LayerSolveResult ι) : Res (ModeMatrix ι) := do
  let omegaK ← l.omegaScriptKMatrix
  let w ← angularFrequency l.wavelength
  let r ← recip fun i => (w : ℂ) * l.eigenvalues i
  .ok (omegaK * l.eigenvectors * diag r)

/-- fields.py 101-153 `amplitude_poynting_flux`: `(s_forward, s_backward)` per order. -/
noncomputable def amplitudePoyntingFlux (a b : Matrix (ι ⊕ ι) β ℂ) (l : LayerSolveResult ι) :
    Res (Matrix (ι ⊕ ι) β ℝ × Matrix (ι ⊕ ι) β ℝ) := do
  let alphaH := l.eigenvectors * a
  let betaH := l.eigenvectors * b
  let A ← poyntingFluxAMatrix l
  let alphaE := A * a
  let betaE := A * b
  let sForward : Matrix (ι ⊕ ι) β ℂ := Matrix.of fun i c => (1 / 2 : ℂ) *
    ((star (alphaE i c) * alphaH i c + star (alphaH i c) * alphaE i c) +
      (star (betaH i c) * alphaE i c - star (betaE i c) * alphaH i c))
  let sBackward : Matrix (ι ⊕ ι) β ℂ := Matrix.of fun i c => (1 / 2 : ℂ) *
    (-(star (betaE i c) * betaH i c + star (betaH i c) * betaE i c) +
      star (star (betaH i c) * alphaE i c - star (betaE i c) * alphaH i c))
  .ok (Matrix.of fun i c => (sForward i c).re, Matrix.of fun i c => (sBackward i c).re)

/-- fields.py 237-259 `eigenmode_poynting_flux`. -/
noncomputable def eigenmodePoyntingFlux (l : LayerSolveResult ι) : Res (ι ⊕ ι → ℝ) := do
  let alphaH := l.eigenvectors
  let alphaE ← poyntingFluxAMatrix l
  .ok fun j => ∑ i, ((1 / 2 : ℂ) * (star (alphaE i j) * alphaH i j + star (alphaH i j) * alphaE i j)).re

/-- fields.py 213-222 `_poynting_flux_subset`. -/
noncomputable def poyntingFluxSubset (A phi : ModeMatrix ι) (aTotal bTotal aSubset bSubset : Matrix (ι ⊕ ι) β ℂ) :
    Matrix (ι ⊕ ι) β ℂ :=
  Matrix.of fun i c => (1 / 2 : ℂ) *
    (star ((A * (aTotal - bTotal)) i c) * (phi * (aSubset + bSubset)) i c +
      star ((phi * (aTotal + bTotal)) i c) * (A * (aSubset - bSubset)) i c)

open Classical in
/-- `jnp.where(mask[..., jnp.newaxis], x, 0.0)`. -/
noncomputable def maskRows (mask : ι ⊕ ι → Prop) (x : Matrix (ι ⊕ ι) β ℂ) : Matrix (ι ⊕ ι) β ℂ :=
  Matrix.of fun i c => if mask i then x i c else 0

/-- fields.py 156-234 `directional_poynting_flux`. -/
noncomputable def directionalPoyntingFlux (a b : Matrix (ι ⊕ ι) β ℂ) (l : LayerSolveResult ι) :
    Res (Matrix (ι ⊕ ι) β ℝ × Matrix (ι ⊕ ι) β ℝ) := do
  let flux ← eigenmodePoyntingFlux l
  let forward : ι ⊕ ι → Prop := fun i => 0 < flux i
  let aFwd := maskRows forward a
  let aBwd := maskRows (fun i => ¬forward i) a
  let bFwd := maskRows (fun i => ¬forward i) b
  let bBwd := maskRows forward b
  let A ← poyntingFluxAMatrix l
  let sForward := poyntingFluxSubset A l.eigenvectors a b aFwd bFwd
  let sBackward := poyntingFluxSubset A l.eigenvectors a b aBwd bBwd
  .ok (Matrix.of fun i c => (sForward i c).re, Matrix.of fun i c => (sBackward i c).re)

/-! ### Fields in the Fourier basis -/

/-- fields.py 352-370 `field_conversion_matrix`. -/
noncomputable def fieldConversionMatrix (l : LayerSolveResult ι) :
    Res (Matrix ((ι ⊕ ι) ⊕ (ι ⊕ ι)) ((ι ⊕ ι) ⊕ (ι ⊕ ι)) ℂ) := do
  let mat ← poyntingFluxAMatrix l
  .ok (Matrix.fromBlocks mat (-mat) l.eigenvectors l.eigenvectors)

/-- fields.py 277-349 `fields_from_wave_amplitudes`. -/
noncomputable def fieldsFromWaveAmplitudes (a b : Matrix (ι ⊕ ι) β ℂ) (l : LayerSolveResult ι) :
    Res (Fields (Matrix ι β ℂ)) := do
  let matrix ← fieldConversionMatrix l
  let amplitudes := Matrix.fromRows a b
  let fields := matrix * amplitudes
  let negativeEy : Matrix ι β ℂ := Matrix.of fun i c => fields (.inl (.inl i)) c
  let ex : Matrix ι β ℂ := Matrix.of fun i c => fields (.inl (.inr i)) c
  let hx : Matrix ι β ℂ := Matrix.of fun i c => fields (.inr (.inl i)) c
  let hy : Matrix ι β ℂ := Matrix.of fun i c => fields (.inr (.inr i)) c
  let ey := -negativeEy
  let k ← transverseWavevectors l.inPlaneWavevector l.primitiveLatticeVectors l.expansion
  let kx := kxOf k
  let ky := kyOf k
  let w ← angularFrequency l.wavelength
  let curlH : Matrix ι β ℂ := Matrix.of fun i c => Complex.I * kx i * hy i c - Complex.I * ky i * hx i c
  let curlE : Matrix ι β ℂ := Matrix.of fun i c => Complex.I * kx i * ey i c - Complex.I * ky i * ex i c
  let ez : Matrix ι β ℂ := Matrix.of fun i c => (-l.inverseZPermittivityMatrix * curlH) i c / (Complex.I * w)
  let hz : Matrix ι β ℂ := Matrix.of fun i c => (l.inverseZPermeabilityMatrix * curlE) i c / (Complex.I * w)
  .ok { ex := ex, ey := ey, ez := ez, hx := hx, hy := hy, hz := hz }

/-! ### Fields in an xy plane -/

/-- fields.py 466-468 `_field_on_grid` without the tiling: the inverse transform of every column. -/
noncomputable def ifftColumns (y : Matrix ι β ℂ) (G : ι → ℤ × ℤ) (nx ny : ℕ) :
    Res (β → Matrix (Fin nx) (Fin ny) ℂ) := do
  validateShapeForExpansion (nx, ny) G
  allOk fun b => ifft (fun i => y i b) G nx ny

/-- `jnp.tile` along one axis: entry `i` of the repeated array is entry `i % n`. -/
def tileIndex {c n : ℕ} (i : Fin (c * n)) : Fin n :=
  ⟨i % n, Nat.mod_lt _ (Nat.pos_of_ne_zero fun h => by subst h; exact i.elim0)⟩

/-- fields.py 393-486 `fields_on_grid`, `_fields_on_grid`: field values and coordinates on the
`num_unit_cells * shape` grid. -/
noncomputable def fieldsOnGrid (F : Fields (Matrix ι β ℂ)) (l : LayerSolveResult ι) (shape cells : ℕ × ℕ) :
    Res (Fields (Fin (cells.1 * shape.1) × Fin (cells.2 * shape.2) → β → ℂ) ×
      (Fin (cells.1 * shape.1) × Fin (cells.2 * shape.2) → ℝ × ℝ)) := do
  let xy := fun p : Fin (cells.1 * shape.1) × Fin (cells.2 * shape.2) =>
    unitCellCoordinates l.primitiveLatticeVectors shape cells p.1 p.2
  let phase := fun p => Complex.exp
    (Complex.I * (l.inPlaneWavevector.1 * (xy p).1 + l.inPlaneWavevector.2 * (xy p).2))
  let onGrid := fun y : Matrix ι β ℂ => do
    let f ← ifftColumns y l.expansion shape.1 shape.2
    .ok fun (p : Fin (cells.1 * shape.1) × Fin (cells.2 * shape.2)) b => f b (tileIndex p.1) (tileIndex p.2) * phase p
  let g ← F.mapM onGrid
  .ok (g, xy)

/-- fields.py 489-560 `fields_on_coordinates`; `κ` indexes the (flattened) coordinate arrays. -/
noncomputable def fieldsOnCoordinates (F : Fields (Matrix ι β ℂ)) (l : LayerSolveResult ι) (xy : κ → ℝ × ℝ) :
    Res (Fields (κ → β → ℂ) × (κ → ℝ × ℝ)) := do
  let k ← transverseWavevectors l.inPlaneWavevector l.primitiveLatticeVectors l.expansion
  let kx := kxOf k
  let ky := kyOf k
  let at' := fun (y : Matrix ι β ℂ) (p : κ) (b : β) =>
    ∑ i, y i b * Complex.exp (Complex.I * (kx i * (xy p).1 + ky i * (xy p).2))
  .ok (F.map at', xy)

/-! ### Amplitudes inside a stack -/

/-- fields.py 648-693 `amplitudes_interior`. -/
noncomputable def amplitudesInterior (before after : Blocks ι) (a0 bN : Matrix (ι ⊕ ι) β ℂ) :
    Res (Matrix (ι ⊕ ι) β ℂ × Matrix (ι ⊕ ι) β ℂ) := do
  let rhs := before.s11 * a0 + before.s12 * after.s22 * bN
  let mat := 1 - before.s12 * after.s21
  let ai ← solve mat rhs
  let bi := after.s21 * ai + after.s22 * bN
  .ok (ai, bi)

/-- fields.py 568-605 `stack_amplitudes_interior`. -/
noncomputable def stackAmplitudesInterior (a0 bN : Matrix (ι ⊕ ι) β ℂ) :
    List (ScatteringMatrix ι × ScatteringMatrix ι) → Res (List (Matrix (ι ⊕ ι) β ℂ × Matrix (ι ⊕ ι) β ℂ))
  | [] => .ok []
  | (before, after) :: rest => do
    let ab ← amplitudesInterior before.toBlocks after.toBlocks a0 bN
    let tail ← stackAmplitudesInterior a0 bN rest
    .ok (ab :: tail)

/-- fields.py 608-645 `stack_amplitudes_interior_with_source`. -/
noncomputable def stackAmplitudesInteriorWithSource (before after : List (ScatteringMatrix ι × ScatteringMatrix ι))
    (bBeforeEnd aAfterStart : Matrix (ι ⊕ ι) β ℂ) : Res (List (Matrix (ι ⊕ ι) β ℂ × Matrix (ι ⊕ ι) β ℂ)) := do
  let x ← stackAmplitudesInterior 0 bBeforeEnd before
  let y ← stackAmplitudesInterior aAfterStart 0 after
  .ok (x ++ y)

/-! ### Fields in three dimensions -/

/-- `jnp.linspace(0, d, n)`. -/
noncomputable def linspace (d : ℝ) (n : ℕ) (k : Fin n) : ℝ := if n = 1 then 0 else d * ((k : ℕ) : ℝ) / ((n : ℝ) - 1)

/-- Position `k * n + j` of element `(k, j)` after flattening the last two axes of an array of shape `(..., m, n)`. -/
def flatIndex {m n : ℕ} (k : Fin m) (j : Fin n) : Fin (m * n) :=
  ⟨k * n + j, by
    have hk := k.2
    have hj := j.2
    calc (k : ℕ) * n + j < k * n + n := by omega
      _ = (k + 1) * n := by ring
      _ ≤ m * n := Nat.mul_le_mul_right _ hk⟩

/-- Fields and coordinates of an xy slice, for any number of columns (fields.py 379-390 `FieldsXYSliceFn`). -/
abbrev FieldsXYSliceFn (ι κ : Type) : Type :=
  ∀ m : ℕ, Fields (Matrix ι (Fin m) ℂ) → LayerSolveResult ι → Res (Fields (κ → Fin m → ℂ) × (κ → ℝ × ℝ))

/-- fields.py 953-1033 `_layer_fields_3d`. -/
noncomputable def layerFields3d {n : ℕ} (a b : Matrix (ι ⊕ ι) (Fin n) ℂ) (l : LayerSolveResult ι) (thickness : ℝ)
    (znum : ℕ) (slice : FieldsXYSliceFn ι κ) :
    Res (Fields (κ → Fin znum → Fin n → ℂ) × (κ → ℝ × ℝ) × (Fin znum → ℝ)) := do
  let zOffset := linspace thickness znum
  let zFlat : Fin (znum * n) → ℝ := fun m => zOffset m.divNat
  let aFlat : Matrix (ι ⊕ ι) (Fin (znum * n)) ℂ := Matrix.of fun i m => a i m.modNat
  let bFlat : Matrix (ι ⊕ ι) (Fin (znum * n)) ℂ := Matrix.of fun i m => b i m.modNat
  let (forward, backward) := colocateAmplitudes aFlat bFlat zFlat l thickness
  let f ← fieldsFromWaveAmplitudes forward backward l
  let (g, xy) ← slice (znum * n) f l
  .ok (g.map fun x p k j => x p (flatIndex k j), xy, zOffset)

/-- One layer of the loop in fields.py 892-950: amplitudes, layer, thickness, number of z points. -/
structure LayerRequest (ι : Type) (n : ℕ) where
  a : Matrix (ι ⊕ ι) (Fin n) ℂ
  b : Matrix (ι ⊕ ι) (Fin n) ℂ
  layer : LayerSolveResult ι
  thickness : ℝ
  znum : ℕ

/-- The loop of fields.py 918-945; the third component holds the coordinates `(x, y)` of the last processed layer.  Field
slices along the concatenated z axis form a list. -/
noncomputable def stackFieldsLoop {n : ℕ} (slice : FieldsXYSliceFn ι κ) (z0 : ℝ) (xy0 : Option (κ → ℝ × ℝ)) :
    List (LayerRequest ι n) → Res (List (Fields (κ → Fin n → ℂ)) × List ℝ × Option (κ → ℝ × ℝ))
  | [] => .ok ([], [], xy0)
  | r :: rest => do
    let (g, xy, zOffset) ← layerFields3d r.a r.b r.layer r.thickness r.znum slice
    let (gs, zs, xy') ← stackFieldsLoop slice (z0 + r.thickness) (some xy) rest
    .ok (List.ofFn (fun k : Fin r.znum => g.map fun x p j => x p k j) ++ gs,
      List.ofFn (fun k : Fin r.znum => zOffset k + z0) ++ zs, xy')

/-- `zip(..., strict=True)` of the four sequences. -/
def zipRequests {n : ℕ} : List (Matrix (ι ⊕ ι) (Fin n) ℂ × Matrix (ι ⊕ ι) (Fin n) ℂ) → List (LayerSolveResult ι) →
    List ℝ → List ℕ → List (LayerRequest ι n)
  | ab :: abs, l :: ls, d :: ds, z :: zs =>
    { a := ab.1, b := ab.2, layer := l, thickness := d, znum := z } :: zipRequests abs ls ds zs
  | _, _, _, _ => []

/-- fields.py 888-950 `_stack_fields_3d`, with the length check 1036-1040; concatenating an empty sequence raises
ValueError. -/
noncomputable def stackFields3d {n : ℕ} (amplitudes : List (Matrix (ι ⊕ ι) (Fin n) ℂ × Matrix (ι ⊕ ι) (Fin n) ℂ))
    (layers : List (LayerSolveResult ι)) (thicknesses : List ℝ) (znum : List ℕ) (slice : FieldsXYSliceFn ι κ) :
    Res (List (Fields (κ → Fin n → ℂ)) × List ℝ × (κ → ℝ × ℝ)) :=
  if layers.length ≠ amplitudes.length ∨ thicknesses.length ≠ amplitudes.length ∨ znum.length ≠ amplitudes.length then
    .error .valueError
  else do
    let (gs, zs, xy) ← stackFieldsLoop slice 0 none (zipRequests amplitudes layers thicknesses znum)
    match xy with
    | none => .error .valueError
    | some xy => .ok (gs, zs, xy)

/-- `functools.partial(fields_on_grid, shape=shape, num_unit_cells=cells)` (fields.py 771-775). -/
noncomputable def gridSlice (shape cells : ℕ × ℕ) : FieldsXYSliceFn ι (Fin (cells.1 * shape.1) × Fin (cells.2 * shape.2)) :=
  fun _ F l => fieldsOnGrid F l shape cells

/-- `functools.partial(fields_on_coordinates, x=x, y=y)` (fields.py 806). -/
noncomputable def coordinateSlice (xy : κ → ℝ × ℝ) : FieldsXYSliceFn ι κ := fun _ F l => fieldsOnCoordinates F l xy

/-- A grid shape chosen by `stack_fields_3d_auto_grid`, with the fields, z coordinates and xy coordinates on that grid. -/
structure AutoGridFields (ι : Type) (n : ℕ) (cells : ℕ × ℕ) where
  shape : ℕ × ℕ
  znum : List ℕ
  fields : List (Fields (Fin (cells.1 * shape.1) × Fin (cells.2 * shape.2) → Fin n → ℂ))
  z : List ℝ
  xy : Fin (cells.1 * shape.1) × Fin (cells.2 * shape.2) → ℝ × ℝ

/-- `int(jnp.round(x / spacing))`, where a division by zero gives `inf` or `nan`, for which `int` raises.  A negative number
of points raises in the functions it is passed to (`jnp.linspace` and the shape check of `fft.ifft`); here it raises at
once. -/
noncomputable def numGridpoints (x spacing : ℝ) : Res ℕ :=
  if spacing = 0 then .error .nonFinite
  else if roundHalfEven (x / spacing) < 0 then .error .valueError
  else .ok (roundHalfEven (x / spacing)).toNat

/-- fields.py 730, the number of gridpoints of each layer. -/
noncomputable def layerGridpoints (spacing : ℝ) : List ℝ → Res (List ℕ)
  | [] => .ok []
  | t :: ts => do
    let n ← numGridpoints t spacing
    let ns ← layerGridpoints spacing ts
    .ok (n :: ns)

/-- fields.py 701-739 `stack_fields_3d_auto_grid`, for a lattice without batch dimensions. -/
noncomputable def stackFields3dAutoGrid {n : ℕ} (amplitudes : List (Matrix (ι ⊕ ι) (Fin n) ℂ × Matrix (ι ⊕ ι) (Fin n) ℂ))
    (layers : List (LayerSolveResult ι)) (thicknesses : List ℝ) (spacing : ℝ) (cells : ℕ × ℕ) :
    Res (AutoGridFields ι n cells) :=
  match layers with
  | [] => .error .indexError
  | l :: _ => do
    let nu ← numGridpoints (Real.sqrt (l.primitiveLatticeVectors.u.1 ^ 2 + l.primitiveLatticeVectors.u.2 ^ 2)) spacing
    let nv ← numGridpoints (Real.sqrt (l.primitiveLatticeVectors.v.1 ^ 2 + l.primitiveLatticeVectors.v.2 ^ 2)) spacing
    let znum ← layerGridpoints spacing thicknesses
    let (g, z, xy) ← stackFields3d amplitudes layers thicknesses znum (gridSlice (nu, nv) cells)
    .ok { shape := (nu, nv), znum := znum, fields := g, z := z, xy := xy }

end Fmmax
