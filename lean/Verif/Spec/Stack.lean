import Verif.Model.Layer

/-!
Specification of physical consistency of wave amplitudes in a stack of layers, stated with fields only
(no scattering matrices, no functions of the model): the tangential electric and magnetic field must be finite and
continuous at every interface.
-/

namespace Fmmax.Spec

open Matrix

variable {ι : Type} [Fintype ι] [DecidableEq ι] {β : Type}

/-- One layer of a stack together with wave amplitudes: `a` are the forward amplitudes at the start of the layer,
`b` the backward amplitudes at the end of the layer (documented in scattering.py 20-43); columns are independent
excitations. -/
structure LayerState (ι β : Type) where
  layer : LayerSolveResult ι
  thickness : ℝ
  a : Matrix (ι ⊕ ι) β ℂ
  b : Matrix (ι ⊕ ι) β ℂ

/-- Angular frequency (speed of light 1). -/
noncomputable def omega (l : LayerSolveResult ι) : ℝ := 2 * Real.pi / l.wavelength

/-- Area spanned by the primitive lattice vectors (with sign). -/
def cellArea (l : LayerSolveResult ι) : ℝ :=
  l.primitiveLatticeVectors.u.1 * l.primitiveLatticeVectors.v.2 -
    l.primitiveLatticeVectors.u.2 * l.primitiveLatticeVectors.v.1

/-- In-plane wavevector of the Fourier order `i`: the in-plane wavevector plus the reciprocal lattice vector
with the integer coefficients `(m, n)`; its dot products with `u` and `v` exceed those of the in-plane wavevector by
`2 π m` and `2 π n`. -/
noncomputable def orderWavevector (l : LayerSolveResult ι) (i : ι) : ℝ × ℝ :=
  (l.inPlaneWavevector.1 + 2 * Real.pi *
      ((l.expansion i).1 * l.primitiveLatticeVectors.v.2 - (l.expansion i).2 * l.primitiveLatticeVectors.u.2) /
      cellArea l,
   l.inPlaneWavevector.2 + 2 * Real.pi *
      ((l.expansion i).2 * l.primitiveLatticeVectors.u.1 - (l.expansion i).1 * l.primitiveLatticeVectors.v.1) /
      cellArea l)

/-- The physical data of the layer make sense: nonzero wavelength, lattice vectors not parallel and an invertible
z-permittivity matrix. -/
def WellPosed (l : LayerSolveResult ι) : Prop :=
  l.wavelength ≠ 0 ∧ cellArea l ≠ 0 ∧ IsUnit l.zPermittivityMatrix.det

/-- The matrix `ω² M - 𝒦` of 2012 Liu that relates magnetic mode profiles to electric ones, with
`𝒦 = [[ky εz⁻¹ ky, -ky εz⁻¹ kx], [-kx εz⁻¹ ky, kx εz⁻¹ kx]]`. -/
noncomputable def magneticToElectric (l : LayerSolveResult ι) : Matrix (ι ⊕ ι) (ι ⊕ ι) ℂ :=
  let kx : Matrix ι ι ℂ := Matrix.diagonal fun i => ((orderWavevector l i).1 : ℂ)
  let ky : Matrix ι ι ℂ := Matrix.diagonal fun i => ((orderWavevector l i).2 : ℂ)
  let η := l.zPermittivityMatrix⁻¹
  ((omega l : ℂ) ^ 2) • l.transversePermeabilityMatrix -
    Matrix.fromBlocks (ky * η * ky) (-(ky * η * kx)) (-(kx * η * ky)) (kx * η * kx)

/-- Phase factors `exp(i q z)` as a diagonal matrix. -/
noncomputable def propagator (l : LayerSolveResult ι) (z : ℝ) : Matrix (ι ⊕ ι) (ι ⊕ ι) ℂ :=
  Matrix.diagonal fun i => Complex.exp (Complex.I * l.eigenvalues i * z)

/-- `e` and `h` are the Fourier coefficients of the tangential fields `[-Ey; Ex]` and `[Hx; Hy]` at depth `z` of the
layer: forward waves have travelled `z` from the start, backward waves `thickness - z` from the end;
`h = φ (f + g)`, `e = (ω² M - 𝒦) φ (ω q)⁻¹ (f - g)` (equations 31, 32, 35 of 2012 Liu).  The relation demands that the
fields are finite: no eigenvalue vanishes. -/
def FieldsAt (s : LayerState ι β) (z : ℝ) (e h : Matrix (ι ⊕ ι) β ℂ) : Prop :=
  WellPosed s.layer ∧ (∀ i, s.layer.eigenvalues i ≠ 0) ∧
    e = magneticToElectric s.layer * s.layer.eigenvectors *
      Matrix.diagonal (fun i => ((omega s.layer : ℂ) * s.layer.eigenvalues i)⁻¹) *
      (propagator s.layer z * s.a - propagator s.layer (s.thickness - z) * s.b) ∧
    h = s.layer.eigenvectors *
      (propagator s.layer z * s.a + propagator s.layer (s.thickness - z) * s.b)

/-- Continuity of the tangential fields at the interface between a layer and its successor. -/
def Interface (s t : LayerState ι β) : Prop :=
  ∃ e h, FieldsAt s s.thickness e h ∧ FieldsAt t 0 e h

/-- Amplitudes for a whole stack: tangential fields are continuous at every interface. -/
def Consistent (st : List (LayerState ι β)) : Prop := st.IsChain Interface

end Fmmax.Spec
