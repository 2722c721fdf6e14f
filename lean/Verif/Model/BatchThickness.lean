import Verif.Model.BatchStack

/-!
Scattering matrices of stacks with arrays of thicknesses (scattering.py 71-210, 313-568).  The functions are those of
`Model/BatchSolve.lean` and `Model/BatchStack.lean`, where the thicknesses are scalars.
-/

namespace Fmmax

variable {n : ℕ}

/-- An array of thicknesses as a factor of eigenvalues of shape `(..., 2 * num_terms)`: a scalar, or an array whose last axis is
broadcast against the axis of the modes (the product in scattering.py 445-446, 494-495). -/
def modeThickness (d : NDArray ℝ) : Res (Batch (Fin n ⊕ Fin n → ℝ)) :=
  if d.shape = [] then .ok { shape := [], get := fun _ => .ok fun _ => d.get [] }
  else if d.shape.getLastD 0 = 1 then .ok { shape := d.shape.dropLast, get := fun b => .ok fun _ => d.get (b ++ [0]) }
  else if d.shape.getLastD 0 = 2 * n then
    .ok { shape := d.shape.dropLast, get := fun b => .ok fun j => d.get (b ++ [modePosition j]) }
  else .error .typeError

/-- `jnp.exp(1j * q * layer_thickness)` (scattering.py 445-446, 494-495). -/
noncomputable def phaseSweep (q : Batch (Fin n ⊕ Fin n → ℂ)) (d : NDArray ℝ) : Res (Batch (Fin n ⊕ Fin n → ℂ)) := do
  let d ← modeThickness d
  q.zip (fun q d => .ok fun j => Complex.exp (Complex.I * q j * (d j : ℂ))) d

/-- scattering.py 21-64 `ScatteringMatrix`, with arrays of thicknesses. -/
structure SweepScatteringMatrix (n : ℕ) where
  s11 : Batch (ModeMatrix (Fin n))
  s12 : Batch (ModeMatrix (Fin n))
  s21 : Batch (ModeMatrix (Fin n))
  s22 : Batch (ModeMatrix (Fin n))
  startLayer : BatchLayer n
  startThickness : NDArray ℝ
  endLayer : BatchLayer n
  endThickness : NDArray ℝ

/-- scattering.py 467-514 `_pair_s_matrix`. -/
noncomputable def pairSMatrixSweep (layer : BatchLayer n) (thickness : NDArray ℝ) (next : BatchLayer n) (nextThickness : NDArray ℝ) :
    Res (SweepScatteringMatrix n) := do
  let (i11, i12) ← interfaceMatricesBatch layer next
  let fd ← phaseSweep layer.eigenvalues thickness
  let fdNext ← phaseSweep next.eigenvalues nextThickness
  let fdDiag : Batch (ModeMatrix (Fin n)) := fd.map fun v => .ok (diag v)
  let s11 ← i11.solve (fdDiag.atleastNd i11.shape.length)
  let x ← (i12.map fun x => .ok (-x)).colScale fdNext
  let s12 ← i11.solve x
  let s21 ← i12.mul s11
  let y ← i12.mul s12
  let z ← i11.colScale fdNext
  let s22 ← y.add z
  .ok { s11 := s11, s12 := s12, s21 := s21, s22 := s22, startLayer := layer, startThickness := thickness,
        endLayer := next, endThickness := nextThickness }

/-- scattering.py 391-464 `_extend_s_matrix`, called by `append_layer` (313-347). -/
noncomputable def appendLayerSweep (s : SweepScatteringMatrix n) (next : BatchLayer n) (nextThickness : NDArray ℝ) :
    Res (SweepScatteringMatrix n) := do
  let (i11, i12) ← interfaceMatricesBatch s.endLayer next
  let fd ← phaseSweep s.endLayer.eigenvalues s.endThickness
  let fdNext ← phaseSweep next.eigenvalues nextThickness
  let x ← fd.rowScale s.s12
  let y ← x.mul i12
  let term3 ← i11.sub y
  let f ← fd.rowScale s.s11
  let s11Next ← term3.solve f
  let g ← x.mul i11
  let g ← g.sub i12
  let g ← g.colScale fdNext
  let s12Next ← term3.solve g
  let h ← s.s22.mul i12
  let h1 ← h.mul s11Next
  let s21Next ← h1.add s.s21
  let h2 ← h.mul s12Next
  let h3 ← s.s22.mul i11
  let h3 ← h3.colScale fdNext
  let s22Next ← h2.add h3
  .ok { s11 := s11Next, s12 := s12Next, s21 := s21Next, s22 := s22Next, startLayer := s.startLayer,
        startThickness := s.startThickness, endLayer := next, endThickness := nextThickness }

/-- scattering.py 119-139: a scattering matrix seen from the other side. -/
def SweepScatteringMatrix.reverse (s : SweepScatteringMatrix n) : SweepScatteringMatrix n :=
  { s11 := s.s22, s12 := s.s21, s21 := s.s12, s22 := s.s11, startLayer := s.endLayer, startThickness := s.endThickness,
    endLayer := s.startLayer, endThickness := s.startThickness }

/-- scattering.py 174-187: the identity with the batch axes of the eigenvalues. -/
noncomputable def identitySMatrixSweep (l : BatchLayer n) (d : NDArray ℝ) : SweepScatteringMatrix n :=
  let eye : Batch (ModeMatrix (Fin n)) := l.eigenvalues.map fun _ => .ok (diag fun _ => 1)
  let zeros : Batch (ModeMatrix (Fin n)) := l.eigenvalues.map fun _ => .ok 0
  { s11 := eye, s12 := zeros, s21 := zeros, s22 := eye, startLayer := l, startThickness := d, endLayer := l, endThickness := d }

/-- The loop of scattering.py 197-209. -/
noncomputable def appendAllSweep (s : SweepScatteringMatrix n) :
    List (BatchLayer n × NDArray ℝ) → Res (List (SweepScatteringMatrix n))
  | [] => .ok []
  | (l, d) :: rest => do
    let s' ← appendLayerSweep s l d
    let tail ← appendAllSweep s' rest
    .ok (s' :: tail)

/-- scattering.py 147-210 `_stack_s_matrices`. -/
noncomputable def stackSMatricesSweep (layers : List (BatchLayer n)) (thicknesses : List (NDArray ℝ)) :
    Res (List (SweepScatteringMatrix n)) :=
  if layers.length ≠ thicknesses.length then .error .valueError
  else match layers.zip thicknesses with
    | [] => .error .indexError
    | [(l0, d0)] => .ok [identitySMatrixSweep l0 d0]
    | (l0, d0) :: (l1, d1) :: rest => do
      let s1 ← pairSMatrixSweep l0 d0 l1 d1
      let tail ← appendAllSweep s1 rest
      .ok (identitySMatrixSweep l0 d0 :: s1 :: tail)

/-- scattering.py 71-91 `stack_s_matrix`. -/
noncomputable def stackSMatrixSweep (layers : List (BatchLayer n)) (thicknesses : List (NDArray ℝ)) :
    Res (SweepScatteringMatrix n) := do
  let ss ← stackSMatricesSweep layers thicknesses
  match ss.getLast? with
  | some s => .ok s
  | none => .error .indexError

/-- scattering.py 94-144 `stack_s_matrices_interior`. -/
noncomputable def stackSMatricesInteriorSweep (layers : List (BatchLayer n)) (thicknesses : List (NDArray ℝ)) :
    Res (List (SweepScatteringMatrix n × SweepScatteringMatrix n)) := do
  let before ← stackSMatricesSweep layers thicknesses
  let rev ← stackSMatricesSweep layers.reverse thicknesses.reverse
  let after := rev.reverse.map SweepScatteringMatrix.reverse
  .ok (before.zip after)

/-- scattering.py 350-388 `prepend_layer`: `_extend_s_matrix` on the reordered blocks. -/
noncomputable def prependLayerSweep (s : SweepScatteringMatrix n) (next : BatchLayer n) (nextThickness : NDArray ℝ) :
    Res (SweepScatteringMatrix n) := do
  let b ← appendLayerSweep s.reverse next nextThickness
  .ok { s11 := b.s22, s12 := b.s21, s21 := b.s12, s22 := b.s11, startLayer := next, startThickness := nextThickness,
        endLayer := s.endLayer, endThickness := s.endThickness }

/-- scattering.py 517-541 `set_end_layer_thickness`. -/
noncomputable def setEndLayerThicknessSweep (s : SweepScatteringMatrix n) (thickness : NDArray ℝ) : Res (SweepScatteringMatrix n) := do
  let change ← thickness.zipWith (fun a b => a - b) s.endThickness
  let fd ← phaseSweep s.endLayer.eigenvalues change
  let s12 ← s.s12.colScale fd
  let s22 ← s.s22.colScale fd
  .ok { s with s12 := s12, s22 := s22, endThickness := thickness }

/-- scattering.py 544-568 `set_start_layer_thickness`. -/
noncomputable def setStartLayerThicknessSweep (s : SweepScatteringMatrix n) (thickness : NDArray ℝ) :
    Res (SweepScatteringMatrix n) := do
  let change ← thickness.zipWith (fun a b => a - b) s.startThickness
  let fd ← phaseSweep s.startLayer.eigenvalues change
  let s11 ← s.s11.colScale fd
  let s21 ← s.s21.colScale fd
  .ok { s with s11 := s11, s21 := s21, startThickness := thickness }

end Fmmax
