import Verif.Model.Fft
import Verif.Model.Lattice
import Mathlib.Analysis.Calculus.Deriv.Basic
import Mathlib.Data.List.MinMax
import Mathlib.Data.List.FinRange
import Mathlib.Data.List.ProdSigma

/-!
vector.py: tangent vector fields.

One batch element (the reshaping, broadcasting and `vmap` of `compute_tangent_field` are not modelled).  A vector field on a
grid is a function `Fin nx → Fin ny → Fin 2 → ℂ`.  Exact arithmetic; `jax.lax.stop_gradient` is the identity.
-/

namespace Fmmax

open Matrix

variable {nx ny : ℕ} {ι : Type}

/-- A complex vector field sampled on a grid: an array of shape `(nx, ny, 2)`. -/
abbrev VectorField (nx ny : ℕ) := Fin nx → Fin ny → Fin 2 → ℂ

/-- `jnp.isclose(a, b, atol=atol)` for finite values, with the default `rtol = 1e-5` (and default `atol = 1e-8`). -/
def IsClose {E : Type} [SeminormedAddCommGroup E] (a b : E) (atol : ℝ := 1e-8) : Prop :=
  ‖a - b‖ ≤ atol + 1e-5 * ‖b‖

open Classical in
/-- vector.py 297-302 `_field_magnitude`. -/
noncomputable def fieldMagnitude (f : VectorField nx ny) (i : Fin nx) (j : Fin ny) : ℝ :=
  let squared := ∑ c, ‖f i j c‖ ^ 2
  let safe := if squared = 0 then 1 else squared
  if squared = 0 then 0 else Real.sqrt safe

open Classical in
/-- vector.py 305-307 `_max_field_magnitude`: `amax` over both axes, which raises for an empty array. -/
noncomputable def maxFieldMagnitude (f : VectorField nx ny) : Res ℝ :=
  if h : (Finset.univ : Finset (Fin nx × Fin ny)).Nonempty then
    .ok (Finset.univ.sup' h fun p => fieldMagnitude f p.1 p.2)
  else .error .valueError

open Classical in
/-- vector.py 290-294 `normalize`. -/
noncomputable def normalize (f : VectorField nx ny) : Res (VectorField nx ny) := do
  let m ← maxFieldMagnitude f
  let safe : ℝ := if IsClose m 0 then 1 else m
  .ok fun i j c => f i j c / (safe : ℂ)

open Classical in
/-- vector.py 283-287 `normalize_elementwise`. -/
noncomputable def normalizeElementwise (f : VectorField nx ny) : VectorField nx ny := fun i j c =>
  let magnitude := fieldMagnitude f i j
  let safe : ℝ := if IsClose magnitude 0 then 1 else magnitude
  f i j c / (safe : ℂ)

open Classical in
/-- vector.py 310-316 `_angle`. -/
noncomputable def angleSafe (x : ℂ) : ℝ :=
  let safe : ℂ := if IsClose x 0 then 1 else x
  Complex.arg safe

open Classical in
/-- vector.py 256-280 `normalize_jones`.  The assertion on the final axis is built into the type. -/
noncomputable def normalizeJones (field : VectorField nx ny) : Res (VectorField nx ny) := do
  let f ← normalize field
  .ok fun i j =>
    let magnitude := fieldMagnitude f i j
    let safe : ℝ := if IsClose magnitude 0 then 1 else magnitude
    let tx : ℂ := if IsClose magnitude 0 then ((1 / Real.sqrt 2 : ℝ) : ℂ) else f i j 0 / (safe : ℂ)
    let ty : ℂ := if IsClose magnitude 0 then ((1 / Real.sqrt 2 : ℝ) : ℂ) else f i j 1 / (safe : ℂ)
    let phi : ℝ := Real.pi / 8 * (1 + Real.cos (Real.pi * magnitude))
    let theta : ℝ := angleSafe (tx + Complex.I * ty)
    let jx := Complex.exp (Complex.I * theta) * (tx * Real.cos phi - ty * Complex.I * Real.sin phi)
    let jy := Complex.exp (Complex.I * theta) * (ty * Real.cos phi + tx * Complex.I * Real.sin phi)
    ![jx, jy]

/-! ### Gradients -/

/-- `jnp.pad(arr, ((1, 1), (1, 1)), mode="wrap")` (vector.py 534-536); numpy rejects wrapping an empty axis. -/
def padWrap (x : Matrix (Fin nx) (Fin ny) ℂ) : Res (Matrix (Fin (nx + 2)) (Fin (ny + 2)) ℂ) :=
  if h : 0 < nx ∧ 0 < ny then
    .ok (Matrix.of fun i j =>
      x ⟨((i : ℕ) + nx - 1) % nx, Nat.mod_lt _ h.1⟩ ⟨((j : ℕ) + ny - 1) % ny, Nat.mod_lt _ h.2⟩)
  else .error .valueError

/-- `jnp.gradient` of a one dimensional array with at least two entries: central differences inside, one-sided
differences at the ends. -/
noncomputable def npGradient {n : ℕ} (x : Fin (n + 2) → ℂ) (i : Fin (n + 2)) : ℂ :=
  if h0 : (i : ℕ) = 0 then x ⟨1, by omega⟩ - x ⟨0, by omega⟩
  else if h1 : (i : ℕ) = n + 1 then x ⟨n + 1, by omega⟩ - x ⟨n, by omega⟩
  else (x ⟨i + 1, by omega⟩ - x ⟨i - 1, by omega⟩) / 2

/-- vector.py 627-630 `_unpad` for one row of padding on every side. -/
def unpad (x : Matrix (Fin (nx + 2)) (Fin (ny + 2)) ℂ) : Matrix (Fin nx) (Fin ny) ℂ :=
  Matrix.of fun i j => x ⟨i + 1, by omega⟩ ⟨j + 1, by omega⟩

/-- `jnp.stack([u, v], axis=-1)`: the matrix with columns `u`, `v`. -/
def basisMatrix (l : LatticeVectors) : Matrix (Fin 2) (Fin 2) ℝ := !![l.u.1, l.v.1; l.u.2, l.v.2]

/-- vector.py 527-533, 566-572: the basis vectors divided by the square root of the cell area.  A vanishing area gives
non-finite entries. -/
noncomputable def normalizedBasis (l : LatticeVectors) : Res (Matrix (Fin 2) (Fin 2) ℝ) :=
  let area := |(basisMatrix l).det|
  if area = 0 then .error .nonFinite else .ok (Matrix.of fun a b => basisMatrix l a b / Real.sqrt area)

/-- vector.py 622-624 `_metric_tensor`. -/
def metricTensor (b : Matrix (Fin 2) (Fin 2) ℝ) : Matrix (Fin 2) (Fin 2) ℝ := bᵀ * b

open Classical in
/-- vector.py 610-619 `_transform_gradient`. -/
noncomputable def transformGradient (p : VectorField nx ny) (b : Matrix (Fin 2) (Fin 2) ℝ) : Res (VectorField nx ny) :=
  let metric : Matrix (Fin 2) (Fin 2) ℂ := (metricTensor b).map Complex.ofReal
  if IsUnit metric.det then
    .ok fun i j => (p i j) ᵥ* metric⁻¹ ᵥ* (bᵀ).map Complex.ofReal
  else .error .nonFinite

/-- vector.py 512-546 `compute_gradient`, without batch axes. -/
noncomputable def computeGradient (x : Matrix (Fin nx) (Fin ny) ℂ) (l : LatticeVectors) : Res (VectorField nx ny) := do
  let b ← normalizedBasis l
  let padded ← padWrap x
  let g0 := unpad (Matrix.of fun i j => npGradient (fun k => padded k j) i)
  let g1 := unpad (Matrix.of fun i j => npGradient (fun k => padded i k) j)
  transformGradient (fun i j => ![g0 i j * (nx : ℂ), g1 i j * (ny : ℂ)]) b

/-- vector.py 604-607 `_periodic_forward_difference` along the first axis; `jnp.roll(field, -1)`. -/
noncomputable def forwardDifference0 (f : Matrix (Fin nx) (Fin ny) ℂ) : Matrix (Fin nx) (Fin ny) ℂ :=
  Matrix.of fun i j => (f ⟨(i + 1) % nx, Nat.mod_lt _ (by have := i.2; omega)⟩ j - f i j) * (nx : ℂ)

/-- vector.py 604-607 `_periodic_forward_difference` along the second axis. -/
noncomputable def forwardDifference1 (f : Matrix (Fin nx) (Fin ny) ℂ) : Matrix (Fin nx) (Fin ny) ℂ :=
  Matrix.of fun i j => (f i ⟨(j + 1) % ny, Nat.mod_lt _ (by have := j.2; omega)⟩ - f i j) * (ny : ℂ)

/-- vector.py 580-601 `_scalar_field_forward_difference_gradient`. -/
noncomputable def scalarForwardGradient (f : Matrix (Fin nx) (Fin ny) ℂ) (b : Matrix (Fin 2) (Fin 2) ℝ) :
    Res (VectorField nx ny) :=
  transformGradient (fun i j => ![forwardDifference0 f i j, forwardDifference1 f i j]) b

/-- vector.py 549-577 `_vector_field_forward_difference_gradient`: the pair of gradients, as a function of the component. -/
noncomputable def vectorForwardGradient (f : VectorField nx ny) (l : LatticeVectors) :
    Res (Fin 2 → VectorField nx ny) := do
  let b ← normalizedBasis l
  let g0 ← scalarForwardGradient (Matrix.of fun i j => f i j 0) b
  let g1 ← scalarForwardGradient (Matrix.of fun i j => f i j 1) b
  .ok ![g0, g1]

/-! ### Transforms between grids and orders -/

/-- `fft.fft(field, expansion, axes=(-3, -2))` of a vector field: componentwise, shape `(num_terms, 2)`. -/
noncomputable def fftVector [Fintype ι] (f : VectorField nx ny) (G : ι → ℤ × ℤ) : Res (ι × Fin 2 → ℂ) := do
  let y0 ← fft (Matrix.of fun i j => f i j 0) G
  let y1 ← fft (Matrix.of fun i j => f i j 1) G
  .ok fun k => ![y0 k.1, y1 k.1] k.2

/-- `fft.ifft(fourier_field, expansion, shape, axis=-2)` of an array of shape `(num_terms, 2)`: componentwise. -/
noncomputable def ifftVector [Fintype ι] (y : ι × Fin 2 → ℂ) (G : ι → ℤ × ℤ) (nx ny : ℕ) : Res (VectorField nx ny) := do
  let f0 ← ifft (fun i => y (i, 0)) G nx ny
  let f1 ← ifft (fun i => y (i, 1)) G nx ny
  .ok fun i j => ![f0 i j, f1 i j]

/-- vector.py 326-331: twice the minimal shape, singleton axes not doubled. -/
def doubledMinShape [Fintype ι] (G : ι → ℤ × ℤ) (nx ny : ℕ) : Res (ℕ × ℕ) := do
  let m ← minArrayShapeForExpansion G
  .ok (m.1 * (if 1 < nx then 2 else 1), m.2 * (if 1 < ny then 2 else 1))

/-- vector.py 319-332 `_filter_and_adjust_resolution`; `mx`, `my` is the doubled minimal shape. -/
noncomputable def filterAndAdjustResolution [Fintype ι] (x : Matrix (Fin nx) (Fin ny) ℂ) (G : ι → ℤ × ℤ) (mx my : ℕ) :
    Res (Matrix (Fin mx) (Fin my) ℂ) := do
  let y ← fft x G
  ifft y G mx my

/-! ### The loss and its derivatives -/

/-- vector.py 435-445 `_alignment_loss`. -/
noncomputable def alignmentLoss (f target : VectorField nx ny) (weight : Fin nx → Fin ny → ℝ) : ℝ :=
  (∑ i, ∑ j, weight i j * ∑ c, ‖f i j c - target i j c‖ ^ 2) / ((nx * ny : ℕ) : ℝ)

/-- vector.py 448-482 `_fourier_loss`. -/
noncomputable def fourierLoss [Fintype ι] (y : ι × Fin 2 → ℂ) (G : ι → ℤ × ℤ) (l : LatticeVectors) : Res ℝ := do
  let k ← transverseWavevectors (0, 0) l G
  let area := |(basisMatrix l).det|
  let kt : ι → ℝ := fun i => Real.sqrt ((k i).1 ^ 2 + (k i).2 ^ 2) * Real.sqrt area
  .ok (∑ i, ∑ c, ‖y (i, c)‖ ^ 2 * kt i ^ 2)

/-- vector.py 485-490 `_smoothness_loss`: the mean over the array of shape `(2, nx, ny, 2)`. -/
noncomputable def smoothnessLoss (f : VectorField nx ny) (l : LatticeVectors) : Res ℝ := do
  let g ← vectorForwardGradient f l
  .ok ((∑ a, ∑ i, ∑ j, ∑ c, ‖g a i j c‖ ^ 2) / ((2 * nx * ny * 2 : ℕ) : ℝ))

/-- The arguments of the loss that stay fixed while the field varies (vector.py 374-382). -/
structure LossParams (ι : Type) (nx ny : ℕ) where
  expansion : ι → ℤ × ℤ
  lattice : LatticeVectors
  target : VectorField nx ny
  weight : Fin nx → Fin ny → ℝ
  fourierWeight : ℝ
  smoothnessWeight : ℝ

/-- vector.py 422-430: a loss term is only evaluated if its weight is positive. -/
noncomputable def addLossTerm (loss weight : ℝ) (term : Res ℝ) : Res ℝ :=
  if 0 < weight then do
    let x ← term
    .ok (loss + weight * x)
  else .ok loss

/-- vector.py 396-432 `_field_loss`. -/
noncomputable def fieldLoss [Fintype ι] (P : LossParams ι nx ny) (y : ι × Fin 2 → ℂ) : Res ℝ := do
  let f ← ifftVector y P.expansion nx ny
  let loss := alignmentLoss f P.target P.weight
  let loss ← addLossTerm loss P.fourierWeight (fourierLoss y P.expansion P.lattice)
  addLossTerm loss P.smoothnessWeight (smoothnessLoss f P.lattice)

/-- Reverse mode differentiation of a real function of complex variables in jax's convention: `∂f/∂x - i ∂f/∂y`. -/
noncomputable def jaxGrad {κ : Type} [DecidableEq κ] (f : (κ → ℂ) → ℝ) (z : κ → ℂ) (k : κ) : ℂ :=
  (deriv (fun t : ℝ => f (z + Pi.single k (t : ℂ))) 0 : ℝ) -
    Complex.I * (deriv (fun t : ℝ => f (z + Pi.single k (Complex.I * t))) 0 : ℝ)

/-- vector.py 374-408 `field_loss_value_jac_and_hessian`.  The Jacobian is the reverse mode gradient of the loss.  The
Hessian is `jax.jacrev(..., holomorphic=True)` of the Jacobian: row `a` is the pullback of the real unit cotangent of
output `a`, that is, the gradient of the real part of that output. -/
noncomputable def fieldLossValueJacAndHessian [Fintype ι] [DecidableEq ι] (P : LossParams ι nx ny) (z : ι × Fin 2 → ℂ) :
    Res (ℝ × (ι × Fin 2 → ℂ) × Matrix (ι × Fin 2) (ι × Fin 2) ℂ) := do
  let value ← fieldLoss P z
  let fn : (ι × Fin 2 → ℂ) → ℝ := fun w => (fieldLoss P w).toOption.getD 0
  .ok (value, jaxGrad fn z, Matrix.of fun a b => jaxGrad (fun w => (jaxGrad fn w a).re) z b)

/-- One pass of the loop vector.py 229-239. -/
noncomputable def newtonStep [Fintype ι] [DecidableEq ι] (P : LossParams ι nx ny) (z : ι × Fin 2 → ℂ) :
    Res (ι × Fin 2 → ℂ) := do
  let r ← fieldLossValueJacAndHessian P z
  let s ← solve r.2.2 (Matrix.of fun k (_ : Unit) => star (r.2.1 k))
  .ok fun k => z k - s k ()

/-- The loop vector.py 229-239. -/
noncomputable def newtonLoop [Fintype ι] [DecidableEq ι] (P : LossParams ι nx ny) : ℕ → (ι × Fin 2 → ℂ) →
    Res (ι × Fin 2 → ℂ)
  | 0, z => .ok z
  | n + 1, z => do
    let z' ← newtonStep P z
    newtonLoop P n z'

/-! ### The tangent field -/

/-- vector.py 356-366 `_field_at_max_magnitude`: `argmax` of the flattened magnitude, i.e. the first maximum in row-major
order; `argmax` of an empty array raises. -/
noncomputable def fieldAtMaxMagnitude (f : VectorField nx ny) : Res (Fin 2 → ℂ) :=
  match (List.finRange nx ×ˢ List.finRange ny).argmax fun p => fieldMagnitude f p.1 p.2 with
  | some p => .ok (f p.1 p.2)
  | none => .error .valueError

/-- vector.py 17 `_ATOL_1D_FIELD_ANGLE`. -/
noncomputable def atol1dFieldAngle : ℝ := 1e-2

/-- vector.py 335-353 `_is_1d_field`: whether the field has one direction, and its angle at the largest magnitude. -/
noncomputable def is1dField (f : VectorField nx ny) : Res (Prop × ℝ) := do
  let ref ← fieldAtMaxMagnitude f
  let refAngle := angleSafe (ref 0 + Complex.I * ref 1)
  let all : Prop := ∀ i j,
    let angle := angleSafe (f i j 0 + Complex.I * f i j 1)
    IsClose (fieldMagnitude f i j) 0 ∨
      IsClose angle (refAngle - 2 * Real.pi) atol1dFieldAngle ∨
      IsClose angle (refAngle - 1 * Real.pi) atol1dFieldAngle ∨
      IsClose angle refAngle atol1dFieldAngle ∨
      IsClose angle (refAngle + 1 * Real.pi) atol1dFieldAngle ∨
      IsClose angle (refAngle + 2 * Real.pi) atol1dFieldAngle
  .ok (all ∨ nx = 1 ∨ ny = 1, refAngle)

/-- vector.py 205-207: the gradient of the array, filtered. -/
noncomputable def bandlimitedGradient [Fintype ι] (x : Matrix (Fin nx) (Fin ny) ℂ) (G : ι → ℤ × ℤ) (l : LatticeVectors)
    (mx my : ℕ) : Res (VectorField mx my) := do
  let grad ← computeGradient x l
  let gx ← filterAndAdjustResolution (Matrix.of fun i j => grad i j 0) G mx my
  let gy ← filterAndAdjustResolution (Matrix.of fun i j => grad i j 1) G mx my
  .ok fun i j => ![gx i j, gy i j]

/-- vector.py 205-208: the gradient of the array, filtered and normalised. -/
noncomputable def filteredGradient [Fintype ι] (x : Matrix (Fin nx) (Fin ny) ℂ) (G : ι → ℤ × ℤ) (l : LatticeVectors)
    (mx my : ℕ) : Res (VectorField mx my) := do
  let grad ← bandlimitedGradient x G l mx my
  normalize grad

/-- vector.py 221-228: the target field and the field from which the iteration starts. -/
noncomputable def targetAndInitialField (grad : VectorField nx ny) (jonesDirect : Bool) :
    Res (VectorField nx ny × VectorField nx ny) :=
  let rotated : VectorField nx ny := fun i j => ![grad i j 1, -grad i j 0]
  let target := normalizeElementwise rotated
  if jonesDirect then do
    let target ← normalizeJones target
    .ok (target, target)
  else do
    let initial ← normalize rotated
    .ok (target, initial)

/-- vector.py 221-240 for a gradient that is not one dimensional: the optimised Fourier coefficients. -/
noncomputable def optimizedFourierField [Fintype ι] [DecidableEq ι] (grad : VectorField nx ny) (G : ι → ℤ × ℤ)
    (l : LatticeVectors) (jonesDirect : Bool) (fourierWeight smoothnessWeight : ℝ) (steps : ℕ) :
    Res (ι × Fin 2 → ℂ) := do
  let t ← targetAndInitialField grad jonesDirect
  let y ← fftVector t.2 G
  newtonLoop { expansion := G, lattice := l, target := t.1, weight := fieldMagnitude grad,
               fourierWeight := fourierWeight, smoothnessWeight := smoothnessWeight } steps y

open Classical in
/-- vector.py 213-247 from the filtered gradient to the field before its normalisation.  If the gradient is one
dimensional the code runs the Newton iteration on a dummy gradient and discards the outcome with `jnp.where`, so the model
skips it. -/
noncomputable def tangentFieldOfGradient [Fintype ι] [DecidableEq ι] (grad : VectorField nx ny) (G : ι → ℤ × ℤ)
    (l : LatticeVectors) (jonesDirect : Bool) (fourierWeight smoothnessWeight : ℝ) (steps mx my : ℕ) :
    Res (VectorField mx my) := do
  let r ← is1dField grad
  if r.1 then .ok (fun _ _ => ![(Real.sin r.2 : ℂ), (Real.cos r.2 : ℂ)])
  else do
    let y ← optimizedFourierField grad G l jonesDirect fourierWeight smoothnessWeight steps
    ifftVector y G mx my

/-- vector.py 186-248 `_compute_tangent_field_no_batch`. -/
noncomputable def computeTangentFieldNoBatch [Fintype ι] [DecidableEq ι] (x : Matrix (Fin nx) (Fin ny) ℂ)
    (G : ι → ℤ × ℤ) (l : LatticeVectors) (jonesDirect : Bool) (fourierWeight smoothnessWeight : ℝ) (steps : ℕ) :
    Res (VectorField nx ny) := do
  if Fintype.card ι = 0 then .error .zeroDivision else
  let fw := fourierWeight / Fintype.card ι
  let sw := smoothnessWeight / Fintype.card ι
  let m ← doubledMinShape G nx ny
  let grad ← filteredGradient x G l m.1 m.2
  let field ← tangentFieldOfGradient grad G l jonesDirect fw sw steps nx ny
  normalize field

/-- The four ways of computing a tangent field, vector.py 20-96. -/
inductive VectorMethod
  | jonesDirect
  | pol
  | jones
  | normal
  deriving DecidableEq

/-- vector.py 20-96 `compute_field_jones_direct`, `compute_field_pol`, `compute_field_jones`, `compute_field_normal`, one
batch element, with the default number of steps of `compute_tangent_field` (vector.py 111). -/
noncomputable def computeField [Fintype ι] [DecidableEq ι] (method : VectorMethod) (x : Matrix (Fin nx) (Fin ny) ℂ)
    (G : ι → ℤ × ℤ) (l : LatticeVectors) (fourierWeight smoothnessWeight : ℝ) : Res (VectorField nx ny) :=
  match method with
  | .jonesDirect => computeTangentFieldNoBatch x G l true fourierWeight smoothnessWeight 1
  | .pol => computeTangentFieldNoBatch x G l false fourierWeight smoothnessWeight 1
  | .jones => do
    let t ← computeTangentFieldNoBatch x G l false fourierWeight smoothnessWeight 1
    normalizeJones t
  | .normal => do
    let t ← computeTangentFieldNoBatch x G l false fourierWeight smoothnessWeight 1
    .ok (normalizeElementwise t)

/-- vector.py 638-700 `VECTOR_FIELD_SCHEMES`: the method and the Fourier and smoothness weights of a named scheme. -/
noncomputable def vectorFieldSchemes : List (String × VectorMethod × ℝ × ℝ) :=
  [("jones_direct", .jonesDirect, 0, 0.5), ("jones", .jones, 0, 2), ("normal", .normal, 0, 2), ("pol", .pol, 0, 2),
   ("jones_direct_fourier", .jonesDirect, 0.05, 0), ("jones_fourier", .jones, 0.2, 0),
   ("normal_fourier", .normal, 0.2, 0), ("pol_fourier", .pol, 0.2, 0)]

end Fmmax
