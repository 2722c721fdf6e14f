import Verif.Model.Fmm
import Verif.Model.Vector

/-!
fmm.py 893-899 and 984-993: the named vector formulations, as the functions that the vector branch of the eigensolves calls.
-/

namespace Fmmax

variable {nx ny : ℕ} {ι : Type} [Fintype ι] [DecidableEq ι]

/-- vector.py 20-96: the pair `(tx, ty)` which the tangent field functions return for one batch element, the two components of
the field. -/
noncomputable def tangentPair (method : VectorMethod) (fourierWeight smoothnessWeight : ℝ) (x : Grid nx ny)
    (G : ι → ℤ × ℤ) (l : LatticeVectors) : Res (Grid nx ny × Grid nx ny) := do
  let t ← computeField method x G l fourierWeight smoothnessWeight
  .ok (Matrix.of fun i j => t i j 0, Matrix.of fun i j => t i j 1)

/-- fmm.py 893-899: `vector.VECTOR_FIELD_SCHEMES[formulation.value]`, a formulation given by an entry of the table. -/
noncomputable def Formulation.ofScheme (scheme : String × VectorMethod × ℝ × ℝ) : Formulation nx ny ι :=
  .vector (tangentPair scheme.2.1 scheme.2.2.1 scheme.2.2.2)

end Fmmax
