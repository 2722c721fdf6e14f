import Verif.Model.Fields

/-! fields.py: the public functions for fields in three dimensions, on a grid and at coordinates. -/

namespace Fmmax

variable {ι : Type} [Fintype ι] [DecidableEq ι] {κ : Type}

/-- fields.py 742-775 `stack_fields_3d`. -/
noncomputable def stackFields3dOnGrid {n : ℕ} (amplitudes : List (Matrix (ι ⊕ ι) (Fin n) ℂ × Matrix (ι ⊕ ι) (Fin n) ℂ))
    (layers : List (LayerSolveResult ι)) (thicknesses : List ℝ) (znum : List ℕ) (shape cells : ℕ × ℕ) :=
  stackFields3d amplitudes layers thicknesses znum (gridSlice shape cells)

/-- fields.py 778-807 `stack_fields_3d_on_coordinates`. -/
noncomputable def stackFields3dOnCoordinates {n : ℕ}
    (amplitudes : List (Matrix (ι ⊕ ι) (Fin n) ℂ × Matrix (ι ⊕ ι) (Fin n) ℂ)) (layers : List (LayerSolveResult ι))
    (thicknesses : List ℝ) (znum : List ℕ) (xy : κ → ℝ × ℝ) :=
  stackFields3d amplitudes layers thicknesses znum (coordinateSlice xy)

/-- fields.py 810-849 `layer_fields_3d`. -/
noncomputable def layerFields3dOnGrid {n : ℕ} (a b : Matrix (ι ⊕ ι) (Fin n) ℂ) (l : LayerSolveResult ι) (thickness : ℝ)
    (znum : ℕ) (shape cells : ℕ × ℕ) :=
  layerFields3d a b l thickness znum (gridSlice shape cells)

/-- fields.py 852-887 `layer_fields_3d_on_coordinates`. -/
noncomputable def layerFields3dOnCoordinates {n : ℕ} (a b : Matrix (ι ⊕ ι) (Fin n) ℂ) (l : LayerSolveResult ι) (thickness : ℝ)
    (znum : ℕ) (xy : κ → ℝ × ℝ) :=
  layerFields3d a b l thickness znum (coordinateSlice xy)

end Fmmax
