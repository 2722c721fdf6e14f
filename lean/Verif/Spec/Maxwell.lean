import Verif.Spec.Modes
import Verif.Model.Fields
import Mathlib.LinearAlgebra.Matrix.Hermitian
import Mathlib.Analysis.Calculus.Deriv.Basic
import Mathlib.Analysis.Complex.Basic

/-!
Specification of the truncated Maxwell equations in a layer and of energy flux.

Time dependence `exp(-i ω t)`, speed of light and vacuum impedance 1; fields are Fourier coefficients at the orders `i : ι`
with wavevector `k i`, as functions of the depth `z`, with independent excitations in columns.
-/

namespace Fmmax.Spec

open Matrix

variable {ι : Type} [Fintype ι] [DecidableEq ι] {β : Type}

/-- `[-Ey; Ex]`. -/
def tangentialE (F : Fields (Matrix ι β ℂ)) : Matrix (ι ⊕ ι) β ℂ := Matrix.fromRows (-F.ey) F.ex

/-- `[Hx; Hy]`. -/
def tangentialH (F : Fields (Matrix ι β ℂ)) : Matrix (ι ⊕ ι) β ℂ := Matrix.fromRows F.hx F.hy

/-- The truncated Maxwell equations `curl E = i ω B`, `curl H = -i ω D`.  The permittivity matrix `E` acts on `[-Ey; Ex]`,
giving `[-Dy; Dx]`; the permeability matrix `M` acts on `[Hx; Hy]`, giving `[Bx; By]`; `Dz = εz Ez`, `Bz = μz Hz`. -/
structure Maxwell (k : ι → ℝ × ℝ) (ω : ℝ) (E M : Matrix (ι ⊕ ι) (ι ⊕ ι) ℂ) (εz μz : Matrix ι ι ℂ)
    (F : ℝ → Fields (Matrix ι β ℂ)) : Prop where
  /-- `∂z Ey = i ky Ez - i ω Bx` -/
  faraday_x : ∀ z i c, HasDerivAt (fun z => (F z).ey i c)
    (Complex.I * (k i).2 * (F z).ez i c - Complex.I * ω * (M * tangentialH (F z)) (.inl i) c) z
  /-- `∂z Ex = i kx Ez + i ω By` -/
  faraday_y : ∀ z i c, HasDerivAt (fun z => (F z).ex i c)
    (Complex.I * (k i).1 * (F z).ez i c + Complex.I * ω * (M * tangentialH (F z)) (.inr i) c) z
  /-- `i kx Ey - i ky Ex = i ω Bz` -/
  faraday_z : ∀ z i c, Complex.I * (k i).1 * (F z).ey i c - Complex.I * (k i).2 * (F z).ex i c =
    Complex.I * ω * (μz * (F z).hz) i c
  /-- `∂z Hy = i ky Hz + i ω Dx` -/
  ampere_x : ∀ z i c, HasDerivAt (fun z => (F z).hy i c)
    (Complex.I * (k i).2 * (F z).hz i c + Complex.I * ω * (E * tangentialE (F z)) (.inr i) c) z
  /-- `∂z Hx = i kx Hz - i ω Dy` -/
  ampere_y : ∀ z i c, HasDerivAt (fun z => (F z).hx i c)
    (Complex.I * (k i).1 * (F z).hz i c + Complex.I * ω * (E * tangentialE (F z)) (.inl i) c) z
  /-- `i kx Hy - i ky Hx = -i ω Dz` -/
  ampere_z : ∀ z i c, Complex.I * (k i).1 * (F z).hy i c - Complex.I * (k i).2 * (F z).hx i c =
    -(Complex.I * ω * (εz * (F z).ez) i c)

/-- Net energy flux along `+z` of excitation `c` per unit cell area (up to a constant factor):
`Σ Re(Ex Hy* - Ey Hx*) = Σ Re(e* h)`. -/
noncomputable def netFlux (e h : Matrix (ι ⊕ ι) β ℂ) (c : β) : ℝ := ∑ i, (star (e i c) * h i c).re

/-- The imaginary part of `x* A x`, which is the absorbed power density for a permittivity or permeability matrix `A`. -/
noncomputable def lossForm {n : Type} [Fintype n] (A : Matrix n n ℂ) (x : n → ℂ) : ℝ := (star x ⬝ᵥ A *ᵥ x).im

/-- A matrix without gain. -/
def Passive {n : Type} [Fintype n] (A : Matrix n n ℂ) : Prop := ∀ x, 0 ≤ lossForm A x

/-- A matrix with absorption for every field. -/
def Absorbing {n : Type} [Fintype n] (A : Matrix n n ℂ) : Prop := ∀ x, x ≠ 0 → 0 < lossForm A x

/-- The layer `l` was solved for the transverse permittivity matrix `E`. -/
structure SolvedFor (l : LayerSolveResult ι) (E : Matrix (ι ⊕ ι) (ι ⊕ ι) ℂ) : Prop where
  wellPosed : WellPosed l
  zPermeability : IsUnit l.zPermeabilityMatrix.det
  modes : ModeEquation l E

/-- The layer `l` was solved for a lossless material: all four matrices are Hermitian. -/
def LosslessLayer (l : LayerSolveResult ι) : Prop :=
  ∃ E, SolvedFor l E ∧ E.IsHermitian ∧ l.transversePermeabilityMatrix.IsHermitian ∧ l.zPermittivityMatrix.IsHermitian ∧
    l.zPermeabilityMatrix.IsHermitian

/-- The layer `l` was solved, at a positive wavelength, for a material without gain. -/
def PassiveLayer (l : LayerSolveResult ι) : Prop :=
  0 < l.wavelength ∧ ∃ E, SolvedFor l E ∧ Passive E ∧ Passive l.transversePermeabilityMatrix ∧
    Passive l.zPermittivityMatrix ∧ Passive l.zPermeabilityMatrix

end Fmmax.Spec
