import Verif.Model.Angles
import Verif.Model.Basis
import Verif.Model.Fft
import Verif.Model.Shapes
import Mathlib.Analysis.Calculus.Deriv.Basic

/-!
farfield.py: unflattening of Brillouin-zone results, far-field profiles and flux integrated over angles.
-/

namespace Fmmax

/-! ### Numpy operations -/

/-- `min` of a list of integers; the empty list raises ValueError. -/
def pyMin (l : List ℤ) : Res ℤ :=
  match l.min? with
  | some a => .ok a
  | none => .error .valueError

/-- `max` of a list of integers; the empty list raises ValueError. -/
def pyMax (l : List ℤ) : Res ℤ :=
  match l.max? with
  | some a => .ok a
  | none => .error .valueError

/-- The index written by `.at[d].set` on an axis of length `n`: negative indices count from the end, indices out of bounds
are dropped. -/
def scatterIndex (n : ℕ) (d : ℤ) : Option ℕ :=
  let d' := if d < 0 then d + n else d
  if 0 ≤ d' ∧ d' < n then some d'.toNat else none

/-! ### Unflattening -/

variable {n : ℕ}

/-- farfield.py 376-383: the trailing shape of the unflattened array. -/
def unflattenShape (G : Fin n → ℤ × ℤ) (nx ny : ℕ) : Res (ℕ × ℕ) := do
  let maxI ← pyMax (List.ofFn fun t => (G t).1)
  let minI ← pyMin (List.ofFn fun t => (G t).1)
  let maxJ ← pyMax (List.ofFn fun t => (G t).2)
  let minJ ← pyMin (List.ofFn fun t => (G t).2)
  .ok (((maxI - minI + 1) * nx).toNat, ((maxJ - minJ + 1) * ny).toNat)

/-- farfield.py 385-399: the indices to which the values are written, in the order of the flattened trailing axes
(Brillouin axes, orders). -/
def unflattenIndices (G : Fin n → ℤ × ℤ) (nx ny : ℕ) : Res (Fin nx × Fin ny × Fin n → ℤ × ℤ) := do
  let minI ← pyMin (List.ofFn fun t => (G t).1)
  let minJ ← pyMin (List.ofFn fun t => (G t).2)
  let offsetI := minI * nx
  let offsetJ := minJ * ny
  .ok fun x => ((G x.2.2).1 * nx + (x.1 : ℤ) - offsetI, (G x.2.2).2 * ny + (x.2.1 : ℤ) - offsetJ)

open Classical in
/-- farfield.py 401: which entry of the trailing axes of the flat array is found in a cell of the output; `none` stands for
the fill value `nan`.  If several entries are written to one cell, it is unspecified which one is found. -/
noncomputable def unflattenSource (G : Fin n → ℤ × ℤ) (nx ny : ℕ) :
    Res ((ℕ × ℕ) × (ℕ → ℕ → Option (Fin nx × Fin ny × Fin n))) := do
  let shape ← unflattenShape G nx ny
  let idx ← unflattenIndices G nx ny
  .ok (shape, fun r c =>
    if h : ∃ x, scatterIndex shape.1 (idx x).1 = some r ∧ scatterIndex shape.2 (idx x).2 = some c then some h.choose
    else none)

/-- farfield.py 346-401 `unflatten`.  The fill value `nan` is `none`.  (The output has a real dtype, so that python discards
the imaginary part of complex values; the model keeps the values.) -/
noncomputable def unflatten {α : Type} (flat : NDArray α) (G : Fin n → ℤ × ℤ) : Res (NDArray (Option α)) :=
  let ndim := flat.shape.length
  if ¬3 ≤ ndim then .error .assertionError
  else if flat.shape.getD (ndim - 1) 0 ≠ n then .error .assertionError
  else do
    let nx := flat.shape.getD (ndim - 3) 0
    let ny := flat.shape.getD (ndim - 2) 0
    let r ← unflattenSource G nx ny
    .ok { shape := flat.shape.take (ndim - 3) ++ [r.1.1, r.1.2],
          get := fun idx =>
            (r.2 (idx.getD (ndim - 3) 0) (idx.getD (ndim - 2) 0)).map fun x =>
              flat.get (idx.take (ndim - 3) ++ [(x.1 : ℕ), (x.2.1 : ℕ), (x.2.2 : ℕ)]) }

/-- farfield.py 426-432, 466-475: the axes with the given ones moved behind the others, both in increasing order. -/
def moveToEnd (ndim : ℕ) (last : List ℕ) : List ℕ :=
  let batchAxes := (List.range ndim).filter fun i => decide (i ∉ last)
  batchAxes ++ (List.range ndim).filter fun i => decide (i ∉ batchAxes)

/-- farfield.py 404-440 `unflatten_flux`.  In the reshape the `-1` stands for the size divided by the product of the other
axes. -/
noncomputable def unflattenFlux {α : Type} (flux : NDArray α) (G : Fin n → ℤ × ℤ) (brillouinAxes : ℤ × ℤ) :
    Res (NDArray (Option α)) :=
  let ndim := flux.shape.length
  if ¬4 ≤ ndim then .error .assertionError
  else if flux.shape.getD (ndim - 2) 0 ≠ 2 * n then .error .assertionError
  else do
    let axes ← absoluteAxes [brillouinAxes.1, brillouinAxes.2] ndim
    let batch := flux.shape.take (ndim - 2)
    let sources := flux.shape.getD (ndim - 1) 0
    let terms := flux.shape.prod / (batch.prod * 2 * sources)
    let split := flux.reshape (batch ++ [2, terms, sources])
    let ndim := split.shape.length
    let moved := split.transpose (moveToEnd ndim (axes.map Int.toNat ++ [ndim - 2]))
    let out ← unflatten moved G
    let ndim := out.shape.length
    .ok (out.transpose (List.range (ndim - 4) ++ [ndim - 2, ndim - 1, ndim - 4, ndim - 3]))

/-- farfield.py 443-478 `unflatten_transverse_wavevectors`. -/
noncomputable def unflattenTransverseWavevectors {α : Type} (k : NDArray α) (G : Fin n → ℤ × ℤ) (brillouinAxes : ℤ × ℤ) :
    Res (NDArray (Option α)) :=
  let ndim := k.shape.length
  if ¬4 ≤ ndim then .error .assertionError
  else if k.shape.drop (ndim - 2) ≠ [n, 2] then .error .assertionError
  else do
    let axes ← absoluteAxes [brillouinAxes.1, brillouinAxes.2] ndim
    let moved := k.transpose (moveToEnd ndim (axes.map Int.toNat ++ [ndim - 2]))
    let out ← unflatten moved G
    let ndim := out.shape.length
    .ok (out.transpose (List.range (ndim - 3) ++ [ndim - 2, ndim - 1, ndim - 3]))

/-! ### Far-field profile -/

/-- `jnp.squeeze(x, axis=axes)` for distinct axes; an axis that does not exist or whose length is not one raises
ValueError. -/
def NDArray.squeeze {α : Type} (x : NDArray α) (axes : List ℕ) : Res (NDArray α) :=
  if axes.any fun d => decide (x.shape.getD d 0 ≠ 1) then .error .valueError
  else .ok
    { shape := ((List.range x.shape.length).filter fun d => decide (d ∉ axes)).map fun d => x.shape.getD d 0,
      get := fun idx => x.get ((List.range x.shape.length).map fun d =>
        if d ∈ axes then 0 else idx.getD (((List.range d).filter fun e => decide (e ∉ axes)).length) 0) }

/-- `x[..., 0]` and `x[..., 1]` of an array whose entries may be `nan`. -/
def wavevectorPairs (k : NDArray (Option ℝ)) : NDArray (Option (ℝ × ℝ)) :=
  { shape := k.shape.dropLast, get := fun idx => do
      let a ← k.get (idx ++ [0])
      let b ← k.get (idx ++ [1])
      some (a, b) }

/-- farfield.py 84-112 `angles_from_unflattened_transverse_wavevectors`, on arrays.  Only the polar angle is broadcast against
the wavelength. -/
noncomputable def anglesFromUnflattened (k : NDArray (Option ℝ)) (wavelength : NDArray ℝ) :
    Res (NDArray (Option ℝ) × NDArray (Option ℝ)) :=
  if (k.shape.length : ℤ) - 3 ≠ wavelength.shape.length then .error .assertionError
  else do
    let kt := wavevectorPairs k
    let polar ← kt.zipWith (fun k w => k.bind fun k => (anglesFromTransverseWavevector k w).toOption.map Prod.fst)
      wavelength.expandLast.expandLast
    let azimuthal := kt.map fun k => k.map fun k => Complex.arg (k.1 + Complex.I * k.2)
    .ok (polar, azimuthal)

open Classical in
/-- farfield.py 115-173 `solid_angle_from_unflattened_transverse_wavevectors`, on arrays. -/
noncomputable def solidAngleFromUnflattened (k : NDArray (Option ℝ)) (wavelength : NDArray ℝ) :
    Res (NDArray (Option ℝ)) :=
  if ¬3 ≤ k.shape.length then .error .assertionError
  else do
    let q ← (wavevectorPairs k).zipWith (fun k w => if w = 0 then none else
      k.map fun k => (k.1 / (2 * Real.pi / w), k.2 / (2 * Real.pi / w))) wavelength.expandLast.expandLast
    let ndim := q.shape.length
    .ok { shape := q.shape,
          get := fun idx => solidAngleNan (q.shape.getD (ndim - 2) 0) (q.shape.getD (ndim - 1) 0)
            (fun i j => q.get (idx.take (ndim - 2) ++ [i, j])) (idx.getD (ndim - 2) 0) (idx.getD (ndim - 1) 0) }

/-- The arrays returned by `farfield_profile`; `none` stands for values that are not finite. -/
structure FarfieldProfile where
  polar : NDArray (Option ℝ)
  azimuthal : NDArray (Option ℝ)
  solidAngle : NDArray (Option ℝ)
  profile : NDArray (Option ℝ)

open Classical in
/-- farfield.py 19-81 `farfield_profile`.  `flux.shape[-2]` of a flux with fewer than two axes raises IndexError. -/
noncomputable def farfieldProfile (flux wavelength inPlane u v : NDArray ℝ) (G : Fin n → ℤ × ℤ) (brillouinAxes : ℤ × ℤ) :
    Res FarfieldProfile :=
  let ndim := flux.shape.length
  if ndim < 2 then .error .indexError
  else if flux.shape.getD (ndim - 2) 0 ≠ 2 * n then .error .assertionError
  else do
    let axes ← absoluteAxes [brillouinAxes.1, brillouinAxes.2] ndim
    let wavelength := wavelength.atleastNd (ndim - 2)
    let inPlane := inPlane.atleastNd (ndim - 2 + 1)
    let k ← transverseWavevectorsBatch inPlane u v G
    let k ← unflattenTransverseWavevectors k G (axes.getD 0 0, axes.getD 1 0)
    let flux ← unflattenFlux flux G (axes.getD 0 0, axes.getD 1 0)
    let wavelength ← wavelength.squeeze (axes.map Int.toNat)
    let angles ← anglesFromUnflattened k wavelength
    let solid ← solidAngleFromUnflattened k wavelength
    let profile ← flux.zipWith (fun f s => f.bind fun f => s.bind fun s => if s = 0 then none else some (f / s))
      solid.expandLast.expandLast
    .ok { polar := angles.1, azimuthal := angles.2, solidAngle := solid, profile := profile }

/-! ### Integrated flux -/

/-- The triangle kernel of `jax.image.resize(method="linear")` before its normalisation: input `i`, output `o`, upsampling
factor `s`. -/
noncomputable def resizeKernel (s : ℕ) (i o : ℕ) : ℝ := max 0 (1 - |((o : ℝ) + 1 / 2) / s - 1 / 2 - i|)

open Classical in
/-- `jax.image.resize(method="linear")` from `m` to `s * m` points along one axis: the weight of input `i` in output `o`.
Weights are normalised to sum to one over the inputs; outputs whose position is outside the input are zero. -/
noncomputable def resizeWeight (m s : ℕ) (i o : ℕ) : ℝ :=
  let sample : ℝ := ((o : ℝ) + 1 / 2) / s - 1 / 2
  let total := ∑ i' ∈ Finset.range m, resizeKernel s i' o
  if -(1 / 2) ≤ sample ∧ sample ≤ m - 1 / 2 then (if total ≠ 0 then resizeKernel s i o / total else 0) else 0

/-- `jax.image.resize(method="linear")` by the same integer factor along two axes. -/
noncomputable def resizeLinear (rows cols s : ℕ) (x : ℕ → ℕ → ℝ) (r c : ℕ) : ℝ :=
  ∑ i ∈ Finset.range rows, ∑ j ∈ Finset.range cols, resizeWeight rows s i r * resizeWeight cols s j c * x i j

/-- farfield.py 266-338 `_integrated_flux_upsampled`, one batch element and one source.  The flux has an entry for each
Brillouin point, polarization and order; `angle_bounds_fn` is taken to act elementwise. -/
noncomputable def integratedFluxUpsampled {nx ny : ℕ} (flux : Fin nx → Fin ny → Fin 2 × Fin n → ℝ) (wavelength : ℝ)
    (inPlane : Fin nx → Fin ny → ℝ × ℝ) (l : LatticeVectors) (G : Fin n → ℤ × ℤ) (bounds : ℝ → ℝ → Bool) (s : ℕ) :
    Res ℝ :=
  if ¬1 ≤ s then .error .assertionError
  else do
    let k ← allOk fun x : Fin nx × Fin ny => transverseWavevectors (inPlane x.1 x.2) l G
    let src ← unflattenSource G nx ny
    let rows := src.1.1
    let cols := src.1.2
    let fluxAt : Fin 2 → ℕ → ℕ → ℝ := fun pol r c => ((src.2 r c).map fun x => flux x.1 x.2.1 (pol, x.2.2)).getD 0
    let kAt : ℕ → ℕ → ℝ × ℝ := fun r c => ((src.2 r c).map fun x => k (x.1, x.2.1) x.2.2).getD (0, 0)
    let angles ← allOk fun x : Fin (s * rows) × Fin (s * cols) => anglesFromTransverseWavevector
      (resizeLinear rows cols s (fun r c => (kAt r c).1) x.1 x.2, resizeLinear rows cols s (fun r c => (kAt r c).2) x.1 x.2)
      wavelength
    .ok ((∑ r, ∑ c, ∑ pol, if bounds (angles (r, c)).1 (angles (r, c)).2 then
      resizeLinear rows cols s (fluxAt pol) r c else 0) / (s : ℝ) ^ 2)

/-- farfield.py 232-263 `_integrated_flux_weights`: the gradient of the integral at the flux with all entries one. -/
noncomputable def integratedFluxWeights {nx ny : ℕ} (wavelength : ℝ)
    (inPlane : Fin nx → Fin ny → ℝ × ℝ) (l : LatticeVectors) (G : Fin n → ℤ × ℤ) (bounds : ℝ → ℝ → Bool) (s : ℕ) :
    Res (Fin nx → Fin ny → Fin 2 × Fin n → ℝ) := do
  let fn : (Fin nx → Fin ny → Fin 2 × Fin n → ℝ) → Res ℝ := fun flux =>
    integratedFluxUpsampled flux wavelength inPlane l G bounds s
  let _ ← fn fun _ _ _ => 1
  .ok fun p q m => deriv (fun t : ℝ => (fn fun p' q' m' => 1 + if (p', q', m') = (p, q, m) then t else 0).toOption.getD 0) 0

/-- farfield.py 181-229 `integrated_flux`, one batch element. -/
noncomputable def integratedFlux {nx ny sources : ℕ} (flux : Fin nx → Fin ny → Fin 2 × Fin n → Fin sources → ℝ)
    (wavelength : ℝ) (inPlane : Fin nx → Fin ny → ℝ × ℝ) (l : LatticeVectors) (G : Fin n → ℤ × ℤ)
    (bounds : ℝ → ℝ → Bool) (s : ℕ) : Res (Fin sources → ℝ) := do
  let weights ← integratedFluxWeights wavelength inPlane l G bounds s
  .ok fun source => ∑ p, ∑ q, ∑ m, weights p q m * flux p q m source

end Fmmax
