import Verif.Spec.Symmetry

/-!
Specification of the reciprocal calculation: the in-plane wavevector and all Fourier orders are reversed, and the material tensors
are transposed.
-/

namespace Fmmax

variable {nx ny : ℕ}

/-- The transposed tensor. -/
def TensorComponents.transpose (t : TensorComponents nx ny) : TensorComponents nx ny := { t with xy := t.yx, yx := t.xy }

namespace Spec

open Matrix

variable {ι : Type} {β γ : Type}

/-- Reversed in-plane wavevector, reversed orders. -/
def Setup.reverse (c : Setup ι) : Setup ι :=
  { c with inPlaneWavevector := -c.inPlaneWavevector, expansion := fun i => -c.expansion i }

/-- The medium with transposed tensors. -/
def Medium.transpose : Medium nx ny ι → Medium nx ny ι
  | .isotropic ε f => .isotropic ε f
  | .anisotropic ε μ f x => .anisotropic ε.transpose μ.transpose f x

/-- The layer with transposed tensors. -/
def StackLayer.transpose (p : StackLayer ι) : StackLayer ι := { p with medium := p.medium.transpose }

/-- Layers to which reciprocity extends: uniform ones, those solved in the FFT formulation, and isotropic ones solved in a vector formulation whose
tangent field is the same everywhere (and conjugate for reversed orders; in particular, real and the same). -/
def StackLayer.ConstantTangent (c : Setup ι) (p : StackLayer ι) : Prop :=
  p.nx = 1 ∧ p.ny = 1 ∨ p.medium.formulation = .fft ∨
    ∃ ε fn, p.medium = .isotropic ε (.vector fn) ∧ ∃ tx ty : ℂ,
      fn ε c.expansion c.lattice = .ok (Matrix.of fun _ _ => tx, Matrix.of fun _ _ => ty) ∧
      fn ε c.reverse.expansion c.reverse.lattice = .ok (Matrix.of fun _ _ => star tx, Matrix.of fun _ _ => star ty)

variable [Fintype ι]

/-- The z component of `E' × H - E × H'`, averaged over the unit cell, for the fields `e = [-Ey; Ex]`, `h = [Hx; Hy]` at one depth and the
fields `e'`, `h'` of a calculation with reversed orders; one entry for every pair of excitations. -/
def lorentz (e h : Matrix (ι ⊕ ι) β ℂ) (e' h' : Matrix (ι ⊕ ι) γ ℂ) : Matrix γ β ℂ := e'ᵀ * h - h'ᵀ * e

variable [DecidableEq ι]

/-- Pairing of the forward modes of the layer `l'` (at its start) with the backward modes of the layer `l` (at its end), `d` being the thickness:
the coupling matrix of the Lorentz form. -/
noncomputable def pairing (l l' : LayerSolveResult ι) (d : ℝ) : Matrix (ι ⊕ ι) (ι ⊕ ι) ℂ :=
  l'.eigenvectorsᵀ * magneticToElectric l * l.eigenvectors *
    diagonal fun i => Complex.exp (Complex.I * l.eigenvalues i * d) / ((omega l : ℂ) * l.eigenvalues i)

/-- The pairing of plane waves in a uniform layer. -/
noncomputable def wavePairing (l : LayerSolveResult ι) (d : ℝ) : Matrix (ι ⊕ ι) (ι ⊕ ι) ℂ :=
  magneticToElectric l * diagonal fun i => Complex.exp (Complex.I * l.eigenvalues i * d) / ((omega l : ℂ) * l.eigenvalues i)

/-- Reciprocity of two scattering matrices, with the pairings `Q₀` and `Qₙ` of the modes at the two ends: reflection is transposed, and transmission is
exchanged with transmission in the opposite direction. -/
structure ReciprocalSMatrices (Q₀ Qₙ : Matrix (ι ⊕ ι) (ι ⊕ ι) ℂ) (S S' : ScatteringMatrix ι) : Prop where
  frontReflection : Q₀ * S.s21 = S'.s21ᵀ * Q₀
  backReflection : Qₙ * S.s12 = S'.s12ᵀ * Qₙ
  backTransmission : Q₀ * S.s22 = S'.s11ᵀ * Qₙ
  frontTransmission : Qₙ * S.s11 = S'.s22ᵀ * Q₀

end Spec

end Fmmax
