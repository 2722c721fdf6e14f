import Verif.Model.BatchThickness
import Verif.Model.Scattering
import Verif.Spec.BatchFields

/-! Batch elements of scattering matrices with arrays of thicknesses. -/

namespace Fmmax

open Spec

variable {n : ℕ}

/-- The thickness at a batch index: thicknesses are scalars, or arrays of shape `(..., 1)`. -/
def thicknessAt (d : NDArray ℝ) (i : List ℕ) : ℝ := d.elementAt (i ++ [0])

/-- A scalar thickness, or thicknesses of shape `T + (1,)` with a batch shape `T` that can be broadcast to `t`. -/
def ThicknessFits (t : List ℕ) (d : NDArray ℝ) : Prop := d.shape = [] ∨ ∃ T, d.shape = T ++ [1] ∧ BroadcastsTo T t

/-- The batch rank of thicknesses. -/
def thicknessRank (d : NDArray ℝ) : ℕ := d.shape.length - 1

/-- A batch element of a scattering matrix with arrays of thicknesses. -/
def SweepScatteringMatrix.elementAt (s : SweepScatteringMatrix n) (i : List ℕ) : Res (ScatteringMatrix (Fin n)) := do
  let s11 ← s.s11.elementAt i
  let s12 ← s.s12.elementAt i
  let s21 ← s.s21.elementAt i
  let s22 ← s.s22.elementAt i
  let start ← s.startLayer.elementAt i
  let last ← s.endLayer.elementAt i
  .ok { s11 := s11, s12 := s12, s21 := s21, s22 := s22, startLayer := start, startThickness := thicknessAt s.startThickness i,
        endLayer := last, endThickness := thicknessAt s.endThickness i }

/-- The blocks, the layers and the thicknesses can be broadcast to shape `t`.  The layers have batch rank `r`; the rank of every
block is that of the other block with the same outgoing side, apart from the batch axes of the thickness on its incoming side. -/
structure SweepFits (t : List ℕ) (r : ℕ) (s : SweepScatteringMatrix n) : Prop where
  s11 : BroadcastsTo s.s11.shape t
  s12 : BroadcastsTo s.s12.shape t
  s21 : BroadcastsTo s.s21.shape t
  s22 : BroadcastsTo s.s22.shape t
  start : ∃ lat, LayerFits t r lat s.startLayer
  last : ∃ lat, LayerFits t r lat s.endLayer
  startThickness : ThicknessFits t s.startThickness
  endThickness : ThicknessFits t s.endThickness
  rank12 : s.s12.shape.length ≤ max (max r (thicknessRank s.endThickness)) s.s11.shape.length
  rank22 : s.s22.shape.length ≤ max (max r (thicknessRank s.endThickness)) s.s11.shape.length
  rank21 : s.s21.shape.length ≤ max (max r (thicknessRank s.startThickness)) s.s22.shape.length
  rank11 : s.s11.shape.length ≤ max (max r (thicknessRank s.startThickness)) s.s22.shape.length

end Fmmax
