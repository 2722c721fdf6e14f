import Verif.Model.Farfield

/-!
`integrated_flux` with batch dimensions (farfield.py 181-338).  The functions of `Model/Farfield.lean` treat one batch element.
-/

namespace Fmmax

variable {n : ℕ}

/-- The sum over all multi-indices of a shape. -/
noncomputable def sumIndices : List ℕ → (List ℕ → ℝ) → ℝ
  | [], f => f []
  | d :: s, f => ∑ i ∈ Finset.range d, sumIndices s fun idx => f (i :: idx)

/-- `jnp.sum(x)`. -/
noncomputable def NDArray.sumAll (x : NDArray ℝ) : ℝ := sumIndices x.shape x.get

/-- `jnp.sum(x, axis=axes)` for distinct nonnegative axes. -/
noncomputable def NDArray.sumAxes (x : NDArray ℝ) (axes : List ℕ) : NDArray ℝ :=
  let moved := x.transpose (moveToEnd x.shape.length axes)
  let ndim := x.shape.length - axes.length
  { shape := moved.shape.take ndim, get := fun idx => sumIndices (moved.shape.drop ndim) fun summed => moved.get (idx ++ summed) }

/-- `jax.image.resize(method="linear")` by the factor `s` along the axes `a` and `a + 1`. -/
noncomputable def NDArray.resizeTwo (x : NDArray ℝ) (a s : ℕ) : NDArray ℝ :=
  let rows := x.shape.getD a 0
  let cols := x.shape.getD (a + 1) 0
  { shape := x.shape.take a ++ s * rows :: s * cols :: x.shape.drop (a + 2),
    get := fun idx => resizeLinear rows cols s (fun r c => x.get (idx.take a ++ r :: c :: idx.drop (a + 2))) (idx.getD a 0)
      (idx.getD (a + 1) 0) }

/-- farfield.py 266-338 `_integrated_flux_upsampled`.  `angle_bounds_fn` is taken to act elementwise, with a result that is `nan` or
`False` if an angle is `nan` (possible for negative wavelengths only).  The flux is real, without `nan`. -/
noncomputable def integratedFluxUpsampledBatch (flux wavelength inPlane u v : NDArray ℝ) (G : Fin n → ℤ × ℤ) (brillouinAxes : ℤ × ℤ)
    (bounds : ℝ → ℝ → Bool) (s : ℕ) : Res (NDArray ℝ) :=
  if ¬1 ≤ s then .error .assertionError
  else do
    let ndim := flux.shape.length
    let axes ← absoluteAxes [brillouinAxes.1, brillouinAxes.2] ndim
    let wavelength := wavelength.atleastNd (ndim - 2)
    let inPlane := inPlane.atleastNd (ndim - 2 + 1)
    let k ← transverseWavevectorsBatch inPlane u v G
    let flux ← unflattenFlux flux G (axes.getD 0 0, axes.getD 1 0)
    let k ← unflattenTransverseWavevectors k G (axes.getD 0 0, axes.getD 1 0)
    let flux := flux.map fun f => f.getD 0
    let k := k.map fun k => k.getD 0
    let flux := flux.resizeTwo (flux.shape.length - 4) s
    let k := k.resizeTwo (k.shape.length - 3) s
    let wavelength ← wavelength.squeeze (axes.map Int.toNat)
    let angles ← anglesFromUnflattened (k.map some) wavelength
    let selected ← angles.1.zipWith (fun polar azimuthal => polar.bind fun p => azimuthal.map fun a => bounds p a) angles.2
    let selected := selected.map fun b => b.getD false
    let masked ← selected.expandLast.expandLast.zipWith (fun b f => if b then f else 0) flux
    let ndim := masked.shape.length
    .ok ((masked.sumAxes [ndim - 4, ndim - 3, ndim - 2]).map fun x => x / (s : ℝ) ^ 2)

/-- farfield.py 232-263 `_integrated_flux_weights`: the gradient of the sum of all integrals, at the flux with all entries one and a
single source. -/
noncomputable def integratedFluxWeightsBatch (flux wavelength inPlane u v : NDArray ℝ) (G : Fin n → ℤ × ℤ) (brillouinAxes : ℤ × ℤ)
    (bounds : ℝ → ℝ → Bool) (s : ℕ) : Res (NDArray ℝ) := do
  let axes ← absoluteAxes [brillouinAxes.1, brillouinAxes.2] flux.shape.length
  let shape := flux.shape.dropLast ++ [1]
  let fn : (List ℕ → ℝ) → Res ℝ := fun f => do
    let out ← integratedFluxUpsampledBatch ⟨shape, f⟩ wavelength inPlane u v G (axes.getD 0 0, axes.getD 1 0) bounds s
    .ok out.sumAll
  let _ ← fn fun _ => 1
  .ok { shape := shape, get := fun idx => deriv (fun t : ℝ => (fn fun i => 1 + if i = idx then t else 0).toOption.getD 0) 0 }

/-- farfield.py 181-229 `integrated_flux`. -/
noncomputable def integratedFluxBatch (flux wavelength inPlane u v : NDArray ℝ) (G : Fin n → ℤ × ℤ) (brillouinAxes : ℤ × ℤ)
    (bounds : ℝ → ℝ → Bool) (s : ℕ) : Res (NDArray ℝ) := do
  let axes ← absoluteAxes [brillouinAxes.1, brillouinAxes.2] flux.shape.length
  let weights ← integratedFluxWeightsBatch flux wavelength inPlane u v G (axes.getD 0 0, axes.getD 1 0) bounds s
  let product ← weights.zipWith (fun w f => w * f) flux
  .ok (product.sumAxes (axes.map Int.toNat ++ [product.shape.length - 2]))

end Fmmax
