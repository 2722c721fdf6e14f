import Verif.Model.Basic
import Mathlib.Analysis.SpecialFunctions.Pow.Real

/-!
pml.py: perfectly matched layers.  Leading batch axes of the permittivity are one element.
-/

namespace Fmmax

/-- The trailing two axes of an array: its shape and the element at each index.  Only indices inside the shape are meaningful. -/
structure Grid2D (α : Type) where
  rows : ℕ
  cols : ℕ
  get : ℕ → ℕ → α

/-- pml.py 13-29 `PMLParams`. -/
structure PMLParams where
  numX : ℤ
  numY : ℤ
  aMax : ℝ
  p : ℝ
  sigmaMax : ℝ

/-- The position to which python resolves a bound of the slice of an axis of length `n`. -/
def sliceBound (n : ℕ) (a : ℤ) : ℕ := if a < 0 then (a + n).toNat else min a.toNat n

/-- `arr[a:b, c:d]` with step one. -/
def Grid2D.slice {α : Type} (g : Grid2D α) (a b c d : ℤ) : Grid2D α :=
  { rows := sliceBound g.rows b - sliceBound g.rows a
    cols := sliceBound g.cols d - sliceBound g.cols c
    get := fun i j => g.get (sliceBound g.rows a + i) (sliceBound g.cols c + j) }

/-- `jnp.pad(arr, ((i, i), (j, j)), mode="edge")`: negative widths and padding of an empty axis raise ValueError. -/
def Grid2D.padEdge {α : Type} (g : Grid2D α) (i j : ℤ) : Res (Grid2D α) :=
  if i < 0 ∨ j < 0 then .error .valueError
  else if (g.rows = 0 ∧ 0 < i) ∨ (g.cols = 0 ∧ 0 < j) then .error .valueError
  else .ok { rows := g.rows + 2 * i.toNat
             cols := g.cols + 2 * j.toNat
             get := fun a b => g.get (min (a - i.toNat) (g.rows - 1)) (min (b - j.toNat) (g.cols - 1)) }

/-- pml.py 101-123 `_crop_and_edge_pad_pml_region`.  The comparison of tuples is lexicographic. -/
def cropAndEdgePad (g : Grid2D ℂ) (i j : ℤ) : Res (Grid2D ℂ) :=
  if i * 2 > g.rows ∨ (i * 2 = g.rows ∧ j * 2 ≥ g.cols) then .error .valueError
  else (g.slice i (g.rows - i) j (g.cols - j)).padEdge i j

/-- pml.py 126-146 `_normalized_distance_into_pml`, along one axis of length `n` with width `w`. -/
noncomputable def normalizedDistance (n : ℕ) (w : ℤ) (i : ℕ) : ℝ :=
  let distance : ℤ := max (w - i) 0
  let distance := max distance (i - (n - w - 1))
  let scale : ℝ := if w = 0 then 1 else 1 / (if w = 0 then 1 else (w : ℝ))
  distance * scale

/-- pml.py 64-69: the stretching factor; `0 ** p` is infinite for negative `p`. -/
noncomputable def pmlStretch (params : PMLParams) (d : ℝ) : Res ℂ :=
  if d = 0 ∧ params.p < 0 then .error .nonFinite
  else .ok ((1 + params.aMax * (d ^ params.p : ℝ)) *
    (1 + Complex.I * params.sigmaMax * (Real.sin (Real.pi / 2 * d) ^ 2 : ℝ)))

/-- The tensor elements at one location. -/
structure PmlTensor where
  xx : ℂ
  xy : ℂ
  yx : ℂ
  yy : ℂ
  zz : ℂ

open Classical in
/-- pml.py 64-98 at one location with distances `dx`, `dy` and permittivity `e`: the permittivity and permeability tensors. -/
noncomputable def pmlCell (params : PMLParams) (dx dy : ℝ) (e : ℂ) : Res (PmlTensor × PmlTensor) := do
  let sx ← pmlStretch params dx
  let sy ← pmlStretch params dy
  let sz : ℂ := 1
  if sx = 0 ∨ sy = 0 then .error .nonFinite
  else .ok (
     { xx := sy * sz / sx * e, xy := 0, yx := 0, yy := sx * sz / sy * e, zz := sx * sy / sz * e },
     { xx := sy * sz / sx * 1, xy := 0, yx := 0, yy := sx * sz / sy * 1, zz := sx * sy / sz * 1 })

/-- The value of a result; only used where the result is a success. -/
noncomputable def Res.get {α : Type} [Inhabited α] (r : Res α) : α :=
  match r with
  | .ok a => a
  | .error _ => default

noncomputable instance : Inhabited PmlTensor := ⟨⟨0, 0, 0, 0, 0⟩⟩

open Classical in
/-- pml.py 32-98 `apply_uniaxial_pml`; `nonFinite` if some element of the result is not finite. -/
noncomputable def applyUniaxialPml (g : Grid2D ℂ) (params : PMLParams) : Res (Grid2D (PmlTensor × PmlTensor)) := do
  let e ← cropAndEdgePad g params.numX params.numY
  let cell : ℕ → ℕ → Res (PmlTensor × PmlTensor) := fun i j =>
    pmlCell params (normalizedDistance e.rows params.numX i) (normalizedDistance e.cols params.numY j) (e.get i j)
  if ∀ i < e.rows, ∀ j < e.cols, ∃ t, cell i j = .ok t then
    .ok { rows := e.rows, cols := e.cols, get := fun i j => (cell i j).get }
  else .error .nonFinite

end Fmmax
