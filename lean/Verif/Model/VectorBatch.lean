import Verif.Model.Shapes
import Verif.Model.Vector

/-!
vector.py: the batch dimensions of the tangent vector field.
-/

namespace Fmmax

/-- vector.py 154-163: `broadcast_to(a.reshape((-1, 2)), (num, 2))`, for each lattice vector.  An odd size cannot be
reshaped. -/
def latticeRows (a : NDArray ℝ) (num : ℕ) : Res (NDArray ℝ) :=
  if a.shape.prod % 2 ≠ 0 then .error .typeError
  else
    let rows := a.shape.prod / 2
    if rows ≠ 1 ∧ rows ≠ num then .error .valueError
    else .ok { shape := [num, 2], get := fun idx => (a.reshape [rows, 2]).get (broadcastIndex [rows, 2] idx) }

/-- The lattice vectors in one row of two arrays of shape `(num, 2)`. -/
def latticeRow (u v : NDArray ℝ) (k : ℕ) : LatticeVectors :=
  { u := (u.get [k, 0], u.get [k, 1]), v := (v.get [k, 0], v.get [k, 1]) }

/-- vector.py 165-179: the mapped function, for `num` arrays of shape `(nx, ny)` and `num` lattices.  In the model the call
fails if one of the evaluations fails (in python, the entries of that batch element are not finite). -/
noncomputable def mapTangentField {ι : Type} [Fintype ι] [DecidableEq ι] (num nx ny : ℕ) (flat : NDArray ℂ) (G : ι → ℤ × ℤ)
    (us vs : NDArray ℝ) (jonesDirect : Bool) (fourierWeight smoothnessWeight : ℝ) (steps : ℕ) : Res (NDArray ℂ) := do
  let fields ← allOk fun k : Fin num =>
    computeTangentFieldNoBatch (Matrix.of fun (i : Fin nx) (j : Fin ny) => flat.get [(k : ℕ), (i : ℕ), (j : ℕ)]) G
      (latticeRow us vs k) jonesDirect fourierWeight smoothnessWeight steps
  .ok { shape := [num, nx, ny, 2],
        get := fun idx =>
          if h : idx.getD 0 0 < num ∧ idx.getD 1 0 < nx ∧ idx.getD 2 0 < ny then
            fields ⟨_, h.1⟩ ⟨_, h.2.1⟩ ⟨_, h.2.2⟩ (if idx.getD 3 0 = 0 then 0 else 1)
          else 0 }

/-- vector.py 104-183 `compute_tangent_field`, the arrays `tx` and `ty`.  Reshaping an array with empty trailing axes divides by
zero. -/
noncomputable def computeTangentField {ι : Type} [Fintype ι] [DecidableEq ι] (arr : NDArray ℂ) (G : ι → ℤ × ℤ)
    (u v : NDArray ℝ) (jonesDirect : Bool) (fourierWeight smoothnessWeight : ℝ) (steps : ℕ) :
    Res (NDArray ℂ × NDArray ℂ) := do
  let batch := arr.shape.take (arr.shape.length - 2)
  let arr3 := arr.atleastNd 3
  let nx := arr3.shape.getD (arr3.shape.length - 2) 0
  let ny := arr3.shape.getD (arr3.shape.length - 1) 0
  if nx * ny = 0 then .error .zeroDivision else
  let num := arr3.shape.prod / (nx * ny)
  let us ← latticeRows u num
  let vs ← latticeRows v num
  let field ← mapTangentField num nx ny (arr3.reshape [num, nx, ny]) G us vs jonesDirect fourierWeight smoothnessWeight steps
  let out := field.reshape (batch ++ [nx, ny, 2])
  .ok (out.selectLast 0, out.selectLast 1)

end Fmmax
