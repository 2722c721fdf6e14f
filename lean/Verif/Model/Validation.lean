import Verif.Model.Shapes

/-!
Validation of shapes when objects are constructed: basis.py, fmm.py, fields.py.
-/

namespace Fmmax

/-- basis.py 37-44 `LatticeVectors.__post_init__`, on the shapes of `u` and `v`; the check is made only if `u` is a jax array.
`shape[-1]` of a scalar raises IndexError. -/
def latticeVectorsPostInit (jaxArray : Bool) (u v : List ℕ) : Res Unit :=
  if jaxArray then
    match u.getLast? with
    | none => .error .indexError
    | some a =>
      if a ≠ 2 then .error .valueError
      else
        match v.getLast? with
        | none => .error .indexError
        | some b => if b ≠ 2 then .error .valueError else .ok ()
  else .ok ()

/-- basis.py 66-71 `Expansion.__post_init__`, on the shape of the coefficients. -/
def expansionPostInit (coefficients : List ℕ) : Res Unit :=
  if coefficients.length ≠ 2 ∨ coefficients.getLast? ≠ some 2 then .error .valueError else .ok ()

/-- The shapes of the attributes of a `LayerSolveResult` (fmm.py 256-267), its number of terms and the rank of the first
component of the tangent vector field, if there is one. -/
structure LayerShapes where
  wavelength : List ℕ
  inPlaneWavevector : List ℕ
  u : List ℕ
  v : List ℕ
  numTerms : ℕ
  eigenvalues : List ℕ
  eigenvectors : List ℕ
  zPermittivity : List ℕ
  inverseZPermittivity : List ℕ
  zPermeability : List ℕ
  inverseZPermeability : List ℕ
  transversePermeability : List ℕ
  tangentNdim : Option ℕ

/-- fmm.py 269-271 `batch_shape`. -/
def LayerShapes.batchShape (s : LayerShapes) : List ℕ := dropLastN 2 s.eigenvectors

/-- fmm.py 288-291 `_incompatible`. -/
def incompatible (shape reference : List ℕ) : Res Bool := do
  let ndimMismatch := decide (shape.length ≠ reference.length)
  let batchCompatible ← batchCompatibleShapes [shape, reference]
  .ok (ndimMismatch || !batchCompatible)

/-- One of the checks `if _incompatible(...): raise ValueError`. -/
def checkCompatible (shape reference : List ℕ) : Res Unit := do
  let bad ← incompatible shape reference
  if bad then .error .valueError else .ok ()

/-- fmm.py 285-369 `LayerSolveResult.__post_init__`. -/
def layerSolveResultPostInit (s : LayerShapes) : Res Unit := do
  checkCompatible s.wavelength s.batchShape
  checkCompatible s.inPlaneWavevector (s.batchShape ++ [2])
  checkCompatible s.u (s.batchShape ++ [2])
  checkCompatible s.v (s.batchShape ++ [2])
  match s.eigenvectors.getLast? with
  | none => .error .indexError
  | some m =>
    if s.numTerms * 2 ≠ m then .error .valueError
    else if s.eigenvalues ≠ s.eigenvectors.dropLast then .error .valueError
    else do
      let expected := s.batchShape ++ [s.numTerms, s.numTerms]
      checkCompatible s.inverseZPermittivity expected
      checkCompatible s.zPermittivity expected
      checkCompatible s.inverseZPermeability expected
      checkCompatible s.zPermeability expected
      checkCompatible s.transversePermeability s.eigenvectors
      match s.tangentNdim with
      | none => .ok ()
      | some d => if d ≠ s.eigenvectors.length then .error .valueError else .ok ()

/-- fields.py 86-98 `_validate_amplitudes_shape`.  `amplitudes[0]` of an empty tuple raises IndexError. -/
def validateAmplitudesShape (amplitudes : List (List ℕ)) (numTerms : ℕ) : Res Unit :=
  match amplitudes with
  | [] => .error .indexError
  | a :: _ =>
    if a.length < 2 then .error .valueError
    else if a.getD (a.length - 2) 0 ≠ numTerms then .error .valueError
    else do
      let compatible ← batchCompatibleShapes amplitudes
      if !compatible then .error .valueError else .ok ()

end Fmmax
