import Verif.Model.Fft
import Verif.Model.Shapes

/-!
fft.py: `fft` and `ifft` of arrays with batch dimensions, along chosen axes.

`jnp.fft.fft2/ifft2` are modelled by their defining sums.  Indices of gather and scatter are those of `Model/Fft`: negative
indices wrap once, others are errors.
-/

namespace Fmmax

variable {n : ℕ}

/-- `jnp.fft.fft2(x, axes=(a, b), norm="forward")`, for non-negative axes. -/
noncomputable def NDArray.fft2Forward (x : NDArray ℂ) (a b : ℕ) : NDArray ℂ :=
  { shape := x.shape,
    get := fun idx =>
      (∑ r : Fin (x.shape.getD a 0), ∑ s : Fin (x.shape.getD b 0), x.get ((idx.set a r).set b s) *
        fftKernel (x.shape.getD a 0) (x.shape.getD b 0) (idx.getD a 0) (idx.getD b 0) r s) /
          ((x.shape.getD a 0 : ℕ) * (x.shape.getD b 0 : ℕ)) }

/-- `jnp.fft.ifft2(x, axes=(a, b), norm="forward")`, for non-negative axes. -/
noncomputable def NDArray.ifft2Forward (x : NDArray ℂ) (a b : ℕ) : NDArray ℂ :=
  { shape := x.shape,
    get := fun idx =>
      ∑ p : Fin (x.shape.getD a 0), ∑ q : Fin (x.shape.getD b 0), x.get ((idx.set a p).set b q) *
        Complex.exp (2 * Real.pi * Complex.I * (((p : ℕ) : ℂ) * (idx.getD a 0 : ℕ) / (x.shape.getD a 0 : ℕ) +
          ((q : ℕ) : ℂ) * (idx.getD b 0 : ℕ) / (x.shape.getD b 0 : ℕ))) }

/-- `x[slices]` for `lead` full slices, the two index arrays of an expansion, and `trail` full slices: too many indices raise
IndexError; with too few the remaining axes are kept.  The two indexed axes are replaced by the axis of the index arrays. -/
noncomputable def NDArray.gatherPair {α : Type} (x : NDArray α) (lead trail : ℕ) (G : Fin n → ℤ × ℤ) : Res (NDArray α) :=
  if x.shape.length < lead + 2 + trail then .error .indexError
  else do
    let c ← allOk fun k => pyIndex2 (x.shape.getD lead 0) (x.shape.getD (lead + 1) 0) (G k)
    .ok { shape := x.shape.take lead ++ n :: x.shape.drop (lead + 2),
          get := fun idx =>
            if h : idx.getD lead 0 < n then
              x.get (idx.take lead ++ ((c ⟨_, h⟩).1 : ℕ) :: ((c ⟨_, h⟩).2 : ℕ) :: idx.drop (lead + 1))
            else x.get idx }

open Classical in
/-- `jnp.zeros(x_shape).at[slices].set(y)`, where `x_shape` is the shape of `y` with axis `lead` replaced by two axes of
lengths `shape`.  If two orders address the same cell an arbitrary one is kept. -/
noncomputable def NDArray.scatterPair (y : NDArray ℂ) (lead : ℕ) (shape : ℕ × ℕ) (G : Fin n → ℤ × ℤ) : Res (NDArray ℂ) := do
  let c ← allOk fun k => pyIndex2 shape.1 shape.2 (G k)
  .ok { shape := y.shape.take lead ++ shape.1 :: shape.2 :: y.shape.drop (lead + 1),
        get := fun idx =>
          if h : ∃ k, ((c k).1 : ℕ) = idx.getD lead 0 ∧ ((c k).2 : ℕ) = idx.getD (lead + 1) 0 then
            y.get (idx.take lead ++ (h.choose : ℕ) :: idx.drop (lead + 2))
          else 0 }

/-- fft.py 59-86 `fft`, for arrays of any rank and any axes. -/
noncomputable def fftAxes (x : NDArray ℂ) (G : Fin n → ℤ × ℤ) (axes : ℤ × ℤ) : Res (NDArray ℂ) := do
  match ← absoluteAxes [axes.1, axes.2] x.shape.length with
  | [a, b] => do
    validateShapeForExpansion (x.shape.getD a.toNat 0, x.shape.getD b.toNat 0) G
    let leading := (x.shape.take a.toNat).length
    let trailing := (x.shape.drop (b.toNat + 1)).length
    (x.fft2Forward a.toNat b.toNat).gatherPair leading trailing G
  | _ => .error .valueError

/-- fft.py 89-124 `ifft`, for arrays of any rank and any axis. -/
noncomputable def ifftAxis (y : NDArray ℂ) (G : Fin n → ℤ × ℤ) (shape : ℕ × ℕ) (axis : ℤ) : Res (NDArray ℂ) := do
  match ← absoluteAxes [axis] y.shape.length with
  | [a] => do
    if y.shape.getD a.toNat 0 ≠ n then .error .assertionError
    else do
      validateShapeForExpansion shape G
      let leading := (y.shape.take a.toNat).length
      let x ← y.scatterPair leading shape G
      .ok (x.ifft2Forward leading (leading + 1))
  | _ => .error .valueError

end Fmmax
