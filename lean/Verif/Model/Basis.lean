import Verif.Model.Lattice
import Verif.Model.NDArray
import Mathlib.Algebra.Order.Floor.Ring
import Mathlib.Analysis.Real.Sqrt
import Mathlib.Algebra.Order.Archimedean.Real.Basic

/-!
basis.py: generation of Fourier expansions, Brillouin-zone sampling, batched reciprocal.
-/

namespace Fmmax

/-- Division of nd-arrays with broadcasting, a zero denominator is non-finite. -/
noncomputable def NDArray.div (a b : NDArray ℝ) : Res (NDArray ℝ) := a.zipWith (· / ·) b

/-- basis.py 391-393 `_cross_product` on arrays. -/
noncomputable def crossProductBatch (x y : NDArray ℝ) : Res (NDArray ℝ) := do
  let p ← (x.selectLast 0).zipWith (· * ·) (y.selectLast 1)
  let q ← (x.selectLast 1).zipWith (· * ·) (y.selectLast 0)
  p.zipWith (· - ·) q

/-- basis.py 118-129 `reciprocal` on arrays, with the broadcasting that numpy performs.  The value of a division by zero
is not modelled here (theorems assume nonzero cross products). -/
noncomputable def reciprocalBatch (u v : NDArray ℝ) : Res (NDArray ℝ × NDArray ℝ) := do
  let c ← crossProductBatch u v
  let a ← (v.selectLast 1).stackLast { (v.selectLast 0) with get := fun i => -(v.selectLast 0).get i }
  let uprime ← a.div c
  let b ← NDArray.stackLast { (u.selectLast 1) with get := fun i => -(u.selectLast 1).get i } (u.selectLast 0)
  let vprime ← b.div c
  .ok (uprime, vprime)

/-- basis.py 240-264 `transverse_wavevectors` on arrays, with the broadcasting that numpy performs. -/
noncomputable def transverseWavevectorsBatch {n : ℕ} (inPlane u v : NDArray ℝ) (G : Fin n → ℤ × ℤ) : Res (NDArray ℝ) := do
  let r ← reciprocalBatch u v
  let c1 : NDArray ℝ := { shape := [n], get := fun idx => if h : idx.headD 0 < n then ((G ⟨idx.headD 0, h⟩).1 : ℝ) else 0 }
  let c2 : NDArray ℝ := { shape := [n], get := fun idx => if h : idx.headD 0 < n then ((G ⟨idx.headD 0, h⟩).2 : ℝ) else 0 }
  let component : ℕ → Res (NDArray ℝ) := fun k => do
    let a ← c1.zipWith (· * ·) (r.1.selectLast k)
    let b ← c2.zipWith (· * ·) (r.2.selectLast k)
    let s ← a.zipWith (· + ·) b
    (inPlane.selectLast k).expandLast.zipWith (· + ·) (s.map fun x => 2 * Real.pi * x)
  let kx ← component 0
  let ky ← component 1
  kx.stackLast ky

/-- basis.py 78-83 `Truncation`. -/
inductive Truncation
  | circular
  | parallelogramic
  deriving DecidableEq

/-- `onp.arange(start, stop)` for integers. -/
def arangeInt (start stop : ℤ) : List ℤ := (List.range (stop - start).toNat).map fun i => start + (i : ℕ)

/-- `onp.meshgrid(a, b, indexing="ij")`, both flattened, and stacked along the last axis. -/
def meshgridFlat (a b : List ℤ) : List (ℤ × ℤ) := a.flatMap fun x => b.map fun y => (x, y)

/-- Euclidean norm of `m u + n v` (basis.py 297-301, 380-384). -/
noncomputable def latticeMagnitude (l : LatticeVectors) (g : ℤ × ℤ) : ℝ :=
  Real.sqrt ((g.1 * l.u.1 + g.2 * l.v.1) ^ 2 + (g.1 * l.u.2 + g.2 * l.v.2) ^ 2)

/-- Models `onp.argsort` (unstable quicksort): any function returning for every list of keys a permutation of its
positions that orders the keys. -/
structure IsArgsort (argsort : List ℝ → List ℕ) : Prop where
  perm : ∀ keys, (argsort keys).Perm (List.range keys.length)
  sorted : ∀ keys, ((argsort keys).map fun i => keys.getD i 0).Pairwise (· ≤ ·)

/-- `G[order, :]`. -/
def takeRows (g : List (ℤ × ℤ)) (order : List ℕ) : List (ℤ × ℤ) := order.map fun i => g.getD i (0, 0)

open Classical in
/-- basis.py 272-324 `_basis_coefficients_circular`; python `//` with divisor 2 is `Int` division.  For negative counts
the square root is `nan` and the mask is empty; here the square root is 0 and the mask is empty as well. -/
noncomputable def basisCoefficientsCircular (argsort : List ℝ → List ℕ) (l : LatticeVectors) (num : ℤ) :
    List (ℤ × ℤ) :=
  let g := arangeInt (-num / 2) (num / 2 + 1)
  let candidates := meshgridFlat g g
  let maxMagnitude := Real.sqrt (num * |crossProduct l.u l.v| / Real.pi)
  let kept := candidates.filter fun c => latticeMagnitude l c < maxMagnitude
  takeRows kept (argsort (kept.map (latticeMagnitude l)))

open Classical in
/-- `int(onp.around(x))`: rounding to nearest, ties to even. -/
noncomputable def roundHalfEven (x : ℝ) : ℤ :=
  if x - ⌊x⌋ < 1 / 2 then ⌊x⌋
  else if 1 / 2 < x - ⌊x⌋ then ⌊x⌋ + 1
  else if Even ⌊x⌋ then ⌊x⌋ else ⌊x⌋ + 1

/-- basis.py 361-366 `_solve_quadratic`.  A zero ratio divides by zero and a negative discriminant gives `nan`, for which
`int` raises ValueError. -/
noncomputable def solveQuadratic (num : ℤ) (ratio : ℝ) : Res ℤ :=
  let a := 4 * ratio
  let b := 2 * (ratio + 1)
  let c : ℝ := 1 - num
  if a = 0 ∨ b ^ 2 - 4 * a * c < 0 then .error .valueError
  else .ok (roundHalfEven ((-b + Real.sqrt (b ^ 2 - 4 * a * c)) / (2 * a)))

/-- basis.py 327-388 `_basis_coefficients_parallelogramic`. -/
noncomputable def basisCoefficientsParallelogramic (argsort : List ℝ → List ℕ) (l : LatticeVectors) (num : ℤ) :
    Res (List (ℤ × ℤ)) := do
  let ku := Real.sqrt (|l.u.1| ^ 2 + |l.u.2| ^ 2)
  let kv := Real.sqrt (|l.v.1| ^ 2 + |l.v.2| ^ 2)
  let nu ← solveQuadratic num (ku / kv)
  let nv ← solveQuadratic num (kv / ku)
  let g := meshgridFlat (arangeInt (-nu) (nu + 1)) (arangeInt (-nv) (nv + 1))
  .ok (takeRows g (argsort (g.map (latticeMagnitude l))))

/-- basis.py 86-115 `generate_expansion`; the rows of `basis_coefficients` as a list. -/
noncomputable def generateExpansion (argsort : List ℝ → List ℕ) (l : LatticeVectors) (num : ℤ)
    (truncation : Truncation) : Res (List (ℤ × ℤ)) := do
  let r ← reciprocal l
  match truncation with
  | .circular => .ok (basisCoefficientsCircular argsort r num)
  | .parallelogramic => basisCoefficientsParallelogramic argsort r num

/-- `jnp.arange(start, stop, step)` for floats: `ceil((stop - start) / step)` points. -/
noncomputable def arangeReal (start stop step : ℝ) : List ℝ :=
  (List.range ⌈(stop - start) / step⌉₊).map fun i => start + (i : ℕ) * step

/-- Python's lexicographic comparison of a tuple with `(1, 1)` for length-2 tuples (basis.py 213). -/
def tupleLtOnes (a b : ℤ) : Prop := a < 1 ∨ (a = 1 ∧ b < 1)

open Classical in
/-- basis.py 197-237 `brillouin_zone_in_plane_wavevector`; the grid as a list of rows.  `1 / 0` raises
ZeroDivisionError (python ints, 219-220). -/
noncomputable def brillouinZoneInPlaneWavevector (shape : List ℤ) (l : LatticeVectors) :
    Res (List (List (ℝ × ℝ))) :=
  match shape with
  | [a, b] =>
    if tupleLtOnes a b then .error .valueError
    else if a = 0 ∨ b = 0 then .error .zeroDivision
    else do
      let si : ℝ := 1 / a
      let sj : ℝ := 1 / b
      let is := arangeReal (-0.5 + si / 2) 0.5 si
      let js := arangeReal (-0.5 + sj / 2) 0.5 sj
      let r ← reciprocal l
      .ok (is.map fun i => js.map fun j =>
        (2 * Real.pi * (i * r.u.1 + j * r.v.1), 2 * Real.pi * (i * r.u.2 + j * r.v.2)))
  | _ => .error .valueError

end Fmmax
