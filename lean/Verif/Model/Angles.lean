import Verif.Model.Lattice
import Mathlib.Analysis.SpecialFunctions.Trigonometric.Inverse
import Mathlib.Analysis.SpecialFunctions.Complex.Arg

/-!
farfield.py: propagation angles and solid angles of transverse wavevectors.
-/

namespace Fmmax

open Classical in
/-- farfield.py 84-112 `angles_from_unflattened_transverse_wavevectors`, one wavevector of the grid: the function is
pointwise apart from broadcasting the wavelength.  `jnp.arcsin` of a number below `-1` is `nan` (possible only for a
negative wavelength).  `jnp.angle` is `Complex.arg`, with values in `(-π, π]`. -/
noncomputable def anglesFromTransverseWavevector (k : ℝ × ℝ) (wavelength : ℝ) : Res (ℝ × ℝ) :=
  let kt := Real.sqrt (k.1 ^ 2 + k.2 ^ 2)
  let sinPolar := kt * wavelength / (2 * Real.pi)
  if sinPolar < -1 then .error .nonFinite
  else .ok (if sinPolar > 1 then Real.pi / 2 else Real.arcsin sinPolar, Complex.arg (k.1 + Complex.I * k.2))

/-- `jnp.pad(x, ((1, 1), (1, 1)), mode="edge")` of an `n × m` array (entries at indices `< n`, `< m`). -/
def edgePad {α : Type} (n m : ℕ) (f : ℕ → ℕ → α) (i j : ℕ) : α := f (min (i - 1) (n - 1)) (min (j - 1) (m - 1))

/-- farfield.py 150-161: cell vertices, the average of four neighbours of the padded array. -/
noncomputable def cellVertex (n m : ℕ) (f : ℕ → ℕ → ℝ) (i j : ℕ) : ℝ :=
  (edgePad n m f i j + edgePad n m f i (j + 1) + edgePad n m f (i + 1) j + edgePad n m f (i + 1) (j + 1)) / 4

open Classical in
/-- farfield.py 115-173 `solid_angle_from_unflattened_transverse_wavevectors`, one batch element: an `n × m` grid of
wavevectors, evaluated at entry `(i, j)` with `i < n`, `j < m`.  Evanescent entries give `nan` (`arcsin` of a number above
one), grazing ones divide by `cos (π/2) = 0`. -/
noncomputable def solidAngle (n m : ℕ) (k : ℕ → ℕ → ℝ × ℝ) (wavelength : ℝ) (i j : ℕ) : Res ℝ :=
  if wavelength = 0 then .error .nonFinite
  else
    let kx := fun i j => (k i j).1 / (2 * Real.pi / wavelength)
    let ky := fun i j => (k i j).2 / (2 * Real.pi / wavelength)
    let s := Real.sqrt (kx i j ^ 2 + ky i j ^ 2)
    if s > 1 then .error .nonFinite
    else
      let vx := cellVertex n m kx
      let vy := cellVertex n m ky
      let v1 : ℝ × ℝ := (vx i (j + 1) - vx i j, vy i (j + 1) - vy i j)
      let v2 : ℝ × ℝ := (vx (i + 1) j - vx i j, vy (i + 1) j - vy i j)
      let area := |v1.1 * v2.2 - v2.1 * v1.2|
      let c := Real.cos (Real.arcsin s)
      if c = 0 then .error .nonFinite else .ok (area / c)

/-- farfield.py 150-161 for entries that may be `nan`: a vertex is `nan` if one of the four neighbours is. -/
noncomputable def cellVertexNan (n m : ℕ) (k : ℕ → ℕ → Option (ℝ × ℝ)) (i j : ℕ) : Option (ℝ × ℝ) := do
  let a ← edgePad n m k i j
  let b ← edgePad n m k i (j + 1)
  let c ← edgePad n m k (i + 1) j
  let d ← edgePad n m k (i + 1) (j + 1)
  some ((a.1 + b.1 + c.1 + d.1) / 4, (a.2 + b.2 + c.2 + d.2) / 4)

open Classical in
/-- farfield.py 138-173 for wavevectors, already in units of the free-space wavevector, that may be `nan`. -/
noncomputable def solidAngleNan (n m : ℕ) (k : ℕ → ℕ → Option (ℝ × ℝ)) (i j : ℕ) : Option ℝ := do
  let q ← k i j
  let s := Real.sqrt (q.1 ^ 2 + q.2 ^ 2)
  let v00 ← cellVertexNan n m k i j
  let v01 ← cellVertexNan n m k i (j + 1)
  let v10 ← cellVertexNan n m k (i + 1) j
  let v1 : ℝ × ℝ := (v01.1 - v00.1, v01.2 - v00.2)
  let v2 : ℝ × ℝ := (v10.1 - v00.1, v10.2 - v00.2)
  let area := |v1.1 * v2.2 - v2.1 * v1.2|
  let c := Real.cos (Real.arcsin s)
  if s > 1 then none else if c = 0 then none else some (area / c)

end Fmmax
