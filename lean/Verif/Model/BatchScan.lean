import Verif.Model.BatchStack

/-!
`stack_s_matrix_scan` (scattering.py 213-280): the layers and thicknesses are slices along the leading axis of every array of one
`LayerSolveResult`.  Dtypes are not modelled.  Of the tangent vector field only the rank is kept, so its leading axis is not checked.
-/

namespace Fmmax

variable {α : Type} {n : ℕ}

/-- `x[j, ...]`.  Arrays without axes, and arrays that are too short, raise IndexError. -/
def NDArray.sliceFirst (a : NDArray α) (j : ℕ) : Res (NDArray α) :=
  match a.shape with
  | [] => .error .indexError
  | d :: s => if j < d then .ok { shape := s, get := fun i => a.get (j :: i) } else .error .indexError

/-- `x[1:]`. -/
def NDArray.dropFirst (a : NDArray α) : Res (NDArray α) :=
  match a.shape with
  | [] => .error .indexError
  | d :: s => .ok { shape := (d - 1) :: s, get := fun i => match i with
      | [] => a.get []
      | j :: i => a.get ((j + 1) :: i) }

/-- `tree_map` of a function on arrays over a `LayerSolveResult`.  The expansion is not an array of the tree (basis.py 426-430).  The new
`LayerSolveResult` is validated by `__post_init__`. -/
def BatchLayer.mapLeaves (f : ∀ {α : Type}, NDArray α → Res (NDArray α)) (rank : ℕ → ℕ) (l : BatchLayer n) : Res (BatchLayer n) := do
  let wavelength ← f l.wavelength
  let inPlaneWavevector ← f l.inPlaneWavevector
  let u ← f l.u
  let v ← f l.v
  let eigenvalues ← f l.eigenvalues
  let eigenvectors ← f l.eigenvectors
  let zPermittivity ← f l.zPermittivity
  let inverseZPermittivity ← f l.inverseZPermittivity
  let zPermeability ← f l.zPermeability
  let inverseZPermeability ← f l.inverseZPermeability
  let transversePermeability ← f l.transversePermeability
  BatchLayer.build
    { wavelength := wavelength, inPlaneWavevector := inPlaneWavevector, u := u, v := v, expansion := l.expansion,
      eigenvalues := eigenvalues, eigenvectors := eigenvectors, zPermittivity := zPermittivity,
      inverseZPermittivity := inverseZPermittivity, zPermeability := zPermeability, inverseZPermeability := inverseZPermeability,
      transversePermeability := transversePermeability, tangentNdim := l.tangentNdim.map rank }

/-- `tree_map(lambda x: x[j, ...], layer_solve_results)`. -/
def BatchLayer.sliceFirst (l : BatchLayer n) (j : ℕ) : Res (BatchLayer n) := l.mapLeaves (fun a => a.sliceFirst j) (· - 1)

/-- `tree_map(lambda x: x[1:], layer_solve_results)`. -/
def BatchLayer.dropFirst (l : BatchLayer n) : Res (BatchLayer n) := l.mapLeaves (fun a => a.dropFirst) id

/-- The shapes of the arrays of a layer, without the axes of matrices and modes. -/
def BatchLayer.leafShapes (l : BatchLayer n) : List (List ℕ) :=
  [l.wavelength.shape, l.inPlaneWavevector.shape, l.u.shape, l.v.shape, l.eigenvalues.shape, l.eigenvectors.shape,
    l.zPermittivity.shape, l.inverseZPermittivity.shape, l.zPermeability.shape, l.inverseZPermeability.shape,
    l.transversePermeability.shape]

/-- The shapes of the arrays of a scattering matrix. -/
def BatchScatteringMatrix.leafShapes (s : BatchScatteringMatrix n) : List (List ℕ) :=
  [s.s11.shape, s.s12.shape, s.s21.shape, s.s22.shape] ++ s.startLayer.leafShapes ++ s.endLayer.leafShapes

/-- `jax.lax.scan(append_layer, init, xs)` (scattering.py 262-280), final carry only.  Arrays `xs` with different leading axes raise
ValueError.  The function is traced once, with the shapes of a slice, here those of `slice`; a carry whose shapes change raises
TypeError. -/
noncomputable def scanLayers (init : BatchScatteringMatrix n) (slice : BatchLayer n) (xs : BatchLayer n) (thicknesses : List ℝ) :
    Res (BatchScatteringMatrix n) :=
  if ¬xs.leafShapes.all (fun s => s.head? == some thicknesses.length) then .error .valueError
  else do
    let traced ← appendLayerBatch init slice init.startThickness
    if traced.leafShapes ≠ init.leafShapes then .error .typeError
    else do
      let layers ← (List.range thicknesses.length).mapM xs.sliceFirst
      appendLoopBatch init (layers.zip thicknesses)

/-- scattering.py 213-280 `stack_s_matrix_scan`. -/
noncomputable def stackSMatrixScanBatch (l : BatchLayer n) (thicknesses : NDArray ℝ) : Res (BatchScatteringMatrix n) :=
  if thicknesses.shape.length ≠ 1 then .error .assertionError
  else
    let ds := (List.range (thicknesses.shape.headD 0)).map fun j => thicknesses.get [j]
    match l.eigenvectors.shape with
    | [] => .error .indexError
    | m :: _ =>
      if m ≠ ds.length then .error .valueError
      else do
        let start ← l.sliceFirst 0
        let xs ← l.dropFirst
        match ds with
        | [] => .error .indexError
        | d :: ds => scanLayers (identitySMatrixBatch start d) start xs ds

end Fmmax
