import Verif.Model.Basic

/-!
basis.py: lattice vectors, reciprocal lattice, wavevectors.
-/

namespace Fmmax

/-- basis.py 22-48 `LatticeVectors`, one batch element: two real 2-vectors. -/
@[ext] structure LatticeVectors where
  u : ℝ × ℝ
  v : ℝ × ℝ

/-- basis.py 391-393 `_cross_product`. -/
def crossProduct (x y : ℝ × ℝ) : ℝ := x.1 * y.2 - x.2 * y.1

/-- basis.py 118-129 `reciprocal`, one (unbatched) pair of vectors.
Division by a vanishing cross product is non-finite. -/
noncomputable def reciprocal (l : LatticeVectors) : Res LatticeVectors :=
  let c := crossProduct l.u l.v
  if c = 0 then .error .nonFinite
  else .ok { u := (l.v.2 / c, -l.v.1 / c), v := (-l.u.2 / c, l.u.1 / c) }

/-- basis.py 132-155 `unit_cell_coordinates`, one lattice: coordinates at index `(i, j)` of the
`num_unit_cells * shape` grid.  A zero in `shape` together with a nonempty range cannot occur (the range is empty),
so the value only matters for `shape > 0`. -/
noncomputable def unitCellCoordinates (l : LatticeVectors) (shape cells : ℕ × ℕ)
    (i : Fin (cells.1 * shape.1)) (j : Fin (cells.2 * shape.2)) : ℝ × ℝ :=
  let s : ℝ := (i : ℕ) / (shape.1 : ℝ)
  let t : ℝ := (j : ℕ) / (shape.2 : ℝ)
  (s * l.u.1 + t * l.v.1, s * l.u.2 + t * l.v.2)

/-- basis.py 163-194 `plane_wave_in_plane_wavevector`, one batch element. A negative real part gives `nan`. -/
noncomputable def planeWaveInPlaneWavevector (wavelength polar azimuthal : ℝ) (permittivity : ℂ) :
    Res (ℝ × ℝ) := do
  let w ← angularFrequency wavelength
  if permittivity.re < 0 then .error .nonFinite
  else
    .ok (w * Real.sin polar * Real.cos azimuthal * Real.sqrt permittivity.re,
         w * Real.sin polar * Real.sin azimuthal * Real.sqrt permittivity.re)

/-- basis.py 240-264 `transverse_wavevectors`, one batch element. The expansion is the family of integer
coefficient pairs indexed by `ι` (`ι = Fin num_terms`). -/
noncomputable def transverseWavevectors {ι : Type} (inPlane : ℝ × ℝ) (l : LatticeVectors)
    (expansion : ι → ℤ × ℤ) : Res (ι → ℝ × ℝ) := do
  let r ← reciprocal l
  .ok fun i =>
    (inPlane.1 + 2 * Real.pi * ((expansion i).1 * r.u.1 + (expansion i).2 * r.v.1),
     inPlane.2 + 2 * Real.pi * ((expansion i).1 * r.u.2 + (expansion i).2 * r.v.2))

end Fmmax
