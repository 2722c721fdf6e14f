import Verif.Model.BatchSolve

/-!
The other functions of scattering.py on arrays with batch dimensions: interior scattering matrices, prepended layers, the star
product and changes of the thickness of the outer layers.  Thicknesses are scalars.
-/

namespace Fmmax

variable {n : ℕ}

/-- scattering.py 119-139: a scattering matrix seen from the other side. -/
def BatchScatteringMatrix.reverse (s : BatchScatteringMatrix n) : BatchScatteringMatrix n :=
  { s11 := s.s22, s12 := s.s21, s21 := s.s12, s22 := s.s11, startLayer := s.endLayer, startThickness := s.endThickness,
    endLayer := s.startLayer, endThickness := s.startThickness }

/-- scattering.py 174-187: the identity with the batch axes of the eigenvalues. -/
noncomputable def identitySMatrixBatch (l : BatchLayer n) (d : ℝ) : BatchScatteringMatrix n :=
  let eye : Batch (ModeMatrix (Fin n)) := l.eigenvalues.map fun _ => .ok (diag fun _ => 1)
  let zeros : Batch (ModeMatrix (Fin n)) := l.eigenvalues.map fun _ => .ok 0
  { s11 := eye, s12 := zeros, s21 := zeros, s22 := eye, startLayer := l, startThickness := d, endLayer := l, endThickness := d }

/-- The loop of scattering.py 197-209. -/
noncomputable def appendAllBatch (s : BatchScatteringMatrix n) : List (BatchLayer n × ℝ) → Res (List (BatchScatteringMatrix n))
  | [] => .ok []
  | (l, d) :: rest => do
    let s' ← appendLayerBatch s l d
    let tail ← appendAllBatch s' rest
    .ok (s' :: tail)

/-- scattering.py 147-210 `_stack_s_matrices`. -/
noncomputable def stackSMatricesBatch (layers : List (BatchLayer n)) (thicknesses : List ℝ) : Res (List (BatchScatteringMatrix n)) :=
  if layers.length ≠ thicknesses.length then .error .valueError
  else match layers.zip thicknesses with
    | [] => .error .indexError
    | [(l0, d0)] => .ok [identitySMatrixBatch l0 d0]
    | (l0, d0) :: (l1, d1) :: rest => do
      let s1 ← pairSMatrixBatch l0 d0 l1 d1
      let tail ← appendAllBatch s1 rest
      .ok (identitySMatrixBatch l0 d0 :: s1 :: tail)

/-- scattering.py 94-144 `stack_s_matrices_interior`. -/
noncomputable def stackSMatricesInteriorBatch (layers : List (BatchLayer n)) (thicknesses : List ℝ) :
    Res (List (BatchScatteringMatrix n × BatchScatteringMatrix n)) := do
  let before ← stackSMatricesBatch layers thicknesses
  let rev ← stackSMatricesBatch layers.reverse thicknesses.reverse
  let after := rev.reverse.map BatchScatteringMatrix.reverse
  .ok (before.zip after)

/-- scattering.py 350-388 `prepend_layer`: `_extend_s_matrix` on the reordered blocks. -/
noncomputable def prependLayerBatch (s : BatchScatteringMatrix n) (next : BatchLayer n) (nextThickness : ℝ) :
    Res (BatchScatteringMatrix n) := do
  let b ← appendLayerBatch s.reverse next nextThickness
  .ok { s11 := b.s22, s12 := b.s21, s21 := b.s12, s22 := b.s11, startLayer := next, startThickness := nextThickness,
        endLayer := s.endLayer, endThickness := s.endThickness }

/-- scattering.py 283-310 `redheffer_star_product`. -/
noncomputable def redhefferStarProductBatch (a b : BatchScatteringMatrix n) : Res (BatchScatteringMatrix n) := do
  let ae ← appendLayerBatch a b.startLayer b.startThickness
  let eye : Batch (ModeMatrix (Fin n)) := ae.s11.map fun _ => .ok (diag fun _ => 1)
  let x ← ae.s12.mul b.s21
  let x ← eye.sub x
  let y ← b.s21.mul ae.s12
  let y ← eye.sub y
  let x11 ← x.solve ae.s11
  let s11 ← b.s11.mul x11
  let z ← ae.s12.mul b.s22
  let x12 ← x.solve z
  let z ← b.s11.mul x12
  let s12 ← b.s12.add z
  let z ← b.s21.mul ae.s11
  let x21 ← y.solve z
  let z ← ae.s22.mul x21
  let s21 ← ae.s21.add z
  let x22 ← y.solve b.s22
  let s22 ← ae.s22.mul x22
  .ok { s11 := s11, s12 := s12, s21 := s21, s22 := s22, startLayer := a.startLayer, startThickness := a.startThickness,
        endLayer := b.endLayer, endThickness := b.endThickness }

/-- scattering.py 517-541 `set_end_layer_thickness`. -/
noncomputable def setEndLayerThicknessBatch (s : BatchScatteringMatrix n) (thickness : ℝ) : Res (BatchScatteringMatrix n) := do
  let fd := phaseBatch s.endLayer.eigenvalues (thickness - s.endThickness)
  let s12 ← s.s12.colScale fd
  let s22 ← s.s22.colScale fd
  .ok { s with s12 := s12, s22 := s22, endThickness := thickness }

/-- scattering.py 544-568 `set_start_layer_thickness`. -/
noncomputable def setStartLayerThicknessBatch (s : BatchScatteringMatrix n) (thickness : ℝ) : Res (BatchScatteringMatrix n) := do
  let fd := phaseBatch s.startLayer.eigenvalues (thickness - s.startThickness)
  let s11 ← s.s11.colScale fd
  let s21 ← s.s21.colScale fd
  .ok { s with s11 := s11, s21 := s21, startThickness := thickness }

end Fmmax
