import Verif.Model.Basic
import Mathlib.Analysis.SpecialFunctions.Complex.Log

/-!
fft.py: transforms between real space and the Fourier basis.

One batch element; the transformed axes are the two axes of a matrix `Fin nx × Fin ny`, the Fourier axis is indexed by `ι`
(`ι = Fin num_terms`), an expansion is the family `G : ι → ℤ × ℤ` of its coefficient pairs.  `jnp.fft.fft2/ifft2` are
modelled by their defining sums (the FFT algorithm is trusted).
-/

namespace Fmmax

open Matrix

variable {nx ny : ℕ} {ι κ : Type}

/-- `exp(-2πi (p r / nx + q s / ny))`, the kernel of `jnp.fft.fft2`. -/
noncomputable def fftKernel (nx ny : ℕ) (p q r s : ℕ) : ℂ :=
  Complex.exp (-2 * Real.pi * Complex.I * (p * r / nx + q * s / ny))

/-- `jnp.fft.fft2` (default norm: the forward transform is not scaled). -/
noncomputable def fft2 (x : Matrix (Fin nx) (Fin ny) ℂ) : Matrix (Fin nx) (Fin ny) ℂ :=
  Matrix.of fun p q => ∑ r : Fin nx, ∑ s : Fin ny, x r s * fftKernel nx ny p q r s

/-- `jnp.fft.fft2(x, norm="forward")`: scaled by the number of points. -/
noncomputable def fft2Forward (x : Matrix (Fin nx) (Fin ny) ℂ) : Matrix (Fin nx) (Fin ny) ℂ :=
  Matrix.of fun p q => fft2 x p q / (nx * ny)

/-- `jnp.fft.ifft2(x, norm="forward")`: the unscaled inverse kernel. -/
noncomputable def ifft2Forward (x : Matrix (Fin nx) (Fin ny) ℂ) : Matrix (Fin nx) (Fin ny) ℂ :=
  Matrix.of fun r s => ∑ p : Fin nx, ∑ q : Fin ny,
    x p q * Complex.exp (2 * Real.pi * Complex.I * (((p : ℕ) : ℂ) * (r : ℕ) / nx + ((q : ℕ) : ℂ) * (s : ℕ) / ny))

/-- Indexing an axis of length `n` with a python integer: negative indices count from the end.  Out-of-bounds indices,
which jax clamps (gather) or drops (scatter) silently, are errors in the model. -/
def pyIndex (n : ℕ) (d : ℤ) : Res (Fin n) :=
  if h : 0 ≤ d ∧ d < n then .ok ⟨d.toNat, by omega⟩
  else if h : -n ≤ d ∧ d < 0 then .ok ⟨(d + n).toNat, by omega⟩
  else .error .indexError

/-- A pair of indices. -/
def pyIndex2 (nx ny : ℕ) (d : ℤ × ℤ) : Res (Fin nx × Fin ny) := do
  let i ← pyIndex nx d.1
  let j ← pyIndex ny d.2
  .ok (i, j)

open Classical in
/-- An elementwise operation which fails, with the error of some failing element, if it fails for some element. -/
noncomputable def allOk {α : Type} (f : κ → Res α) : Res (κ → α) :=
  if h : ∀ k, ∃ a, f k = .ok a then .ok fun k => (h k).choose
  else .error (@Classical.epsilon Err ⟨.nonFinite⟩ fun e => ∃ k, f k = .error e)

/-- Gather: `x[idx[..., 0], idx[..., 1]]` for an array of index pairs. -/
noncomputable def gather2 (x : Matrix (Fin nx) (Fin ny) ℂ) (idx : κ → ℤ × ℤ) : Res (κ → ℂ) := do
  let i ← allOk fun k => pyIndex2 nx ny (idx k)
  .ok fun k => x (i k).1 (i k).2

open Classical in
/-- Scatter: `jnp.zeros(shape).at[idx[:, 0], idx[:, 1]].set(y)`.  If several indices address the same cell jax leaves it
unspecified which value is kept; the model picks an arbitrary one. -/
noncomputable def scatter2 (nx ny : ℕ) (idx : κ → ℤ × ℤ) (y : κ → ℂ) : Res (Matrix (Fin nx) (Fin ny) ℂ) := do
  let i ← allOk fun k => pyIndex2 nx ny (idx k)
  .ok (Matrix.of fun p q => if h : ∃ k, i k = (p, q) then y h.choose else 0)

/-- fft.py 140-146 `min_array_shape_for_expansion`.  `max` of an empty array raises ValueError. -/
def minArrayShapeForExpansion [Fintype ι] (G : ι → ℤ × ℤ) : Res (ℕ × ℕ) :=
  if Fintype.card ι = 0 then .error .valueError
  else .ok (2 * (Finset.univ.sup fun i => (G i).1.natAbs) + 1, 2 * (Finset.univ.sup fun i => (G i).2.natAbs) + 1)

/-- fft.py 127-137 `_validate_shape_for_expansion`, for the final two entries of the shape. -/
def validateShapeForExpansion [Fintype ι] (shape : ℕ × ℕ) (G : ι → ℤ × ℤ) : Res Unit := do
  let m ← minArrayShapeForExpansion G
  if shape.1 < m.1 ∨ shape.2 < m.2 then .error .valueError else .ok ()

/-- fft.py 40-56 `_standard_toeplitz_indices`. -/
def standardToeplitzIndices (G : ι → ℤ × ℤ) (ij : ι × ι) : ℤ × ℤ := ((G ij.1).1 - (G ij.2).1, (G ij.1).2 - (G ij.2).2)

/-- fft.py 14-37 `fourier_convolution_matrix`, one batch element.  (A zero-size grid is rejected before the division.) -/
noncomputable def fourierConvolutionMatrix [Fintype ι] (x : Matrix (Fin nx) (Fin ny) ℂ) (G : ι → ℤ × ℤ) :
    Res (Matrix ι ι ℂ) := do
  validateShapeForExpansion (nx, ny) G
  let X : Matrix (Fin nx) (Fin ny) ℂ := Matrix.of fun p q => fft2 x p q / ((nx * ny : ℕ) : ℂ)
  let t ← gather2 X (standardToeplitzIndices G)
  .ok (Matrix.of fun i j => t (i, j))

/-- fft.py 59-86 `fft` for the default final axes, one batch element. -/
noncomputable def fft [Fintype ι] (x : Matrix (Fin nx) (Fin ny) ℂ) (G : ι → ℤ × ℤ) : Res (ι → ℂ) := do
  validateShapeForExpansion (nx, ny) G
  gather2 (fft2Forward x) G

/-- fft.py 89-124 `ifft` for one batch element (other axes are carried along unchanged).  The assertion that the Fourier
axis has the length of the expansion is built into the type of `y`. -/
noncomputable def ifft [Fintype ι] (y : ι → ℂ) (G : ι → ℤ × ℤ) (nx ny : ℕ) : Res (Matrix (Fin nx) (Fin ny) ℂ) := do
  validateShapeForExpansion (nx, ny) G
  let x ← scatter2 nx ny G y
  .ok (ifft2Forward x)

end Fmmax
