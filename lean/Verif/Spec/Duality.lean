import Verif.Spec.Symmetry
import Verif.Model.Fields

/-!
Specification of electromagnetic duality: permittivity and permeability are exchanged, the electric field becomes the magnetic one and the magnetic
field the reversed electric one.
-/

namespace Fmmax

open Matrix

variable {ι : Type} {nx ny : ℕ} {β : Type}

/-- The tensor of an isotropic material. -/
def TensorComponents.scalar (x : Grid nx ny) : TensorComponents nx ny := { xx := x, xy := 0, yx := 0, yy := x, zz := x }

/-- `E' = H`, `H' = -E`. -/
def Fields.dual (F : Fields (Matrix ι β ℂ)) : Fields (Matrix ι β ℂ) :=
  { ex := F.hx, ey := F.hy, ez := F.hz, hx := -F.ex, hy := -F.ey, hz := -F.ez }

namespace Spec

/-- The medium with permittivity and permeability exchanged; the tangent field, if any, is that of the original medium. -/
noncomputable def Medium.dual : Medium nx ny ι → Medium nx ny ι
  | .isotropic ε f => .anisotropic (.scalar (Matrix.of fun _ _ => 1)) (.scalar ε) f none
  | .anisotropic ε μ f x => .anisotropic μ ε f (some (x.getD (Matrix.of fun r s => (ε.xx r s + ε.yy r s) / 2)))

/-- The layer with permittivity and permeability exchanged. -/
noncomputable def StackLayer.dual (p : StackLayer ι) : StackLayer ι := { p with medium := p.medium.dual }

/-- Layers to which duality extends: uniform ones, those solved in the FFT formulation, and anisotropic ones in any formulation. -/
def StackLayer.Dualizable (p : StackLayer ι) : Prop :=
  p.nx = 1 ∧ p.ny = 1 ∨ p.medium.formulation = .fft ∨ ∃ ε μ f x, p.medium = .anisotropic ε μ f x

/-- Layers which are their own duals: vacuum, and layers with equal permittivity and permeability. -/
def StackLayer.SelfDual (p : StackLayer ι) : Prop :=
  (∃ f d, p = ⟨1, 1, .isotropic (Matrix.of fun _ _ => 1) f, d⟩) ∨ ∃ ε f x, p.medium = .anisotropic ε ε f x

/-- `p'` has permittivity and permeability of `p` exchanged. -/
def StackLayer.IsDual (p p' : StackLayer ι) : Prop := p.Dualizable ∧ p' = p.dual ∨ p.SelfDual ∧ p' = p

variable [Fintype ι] [DecidableEq ι]

/-- The quarter turn which takes `[a; b]` to `[-b; a]`. -/
def quarterTurn : Matrix (ι ⊕ ι) (ι ⊕ ι) ℂ := fromBlocks 0 (-1) 1 0

/-- The electric fields `[-Ey; Ex]` of the forward modes. -/
noncomputable def electricProfiles (l : LayerSolveResult ι) : Matrix (ι ⊕ ι) (ι ⊕ ι) ℂ :=
  magneticToElectric l * l.eigenvectors * diagonal fun i => ((omega l : ℂ) * l.eigenvalues i)⁻¹

/-- The modes of the dual layer `l'` in terms of those of `l`: coefficients of the magnetic fields of `l'` in the turned electric fields of `l`. -/
noncomputable def dualModes (l l' : LayerSolveResult ι) : Matrix (ι ⊕ ι) (ι ⊕ ι) ℂ := (quarterTurn * electricProfiles l)⁻¹ * l'.eigenvectors

/-- Scattering matrices of dual structures, with the change of modes `T₀` and `Tₙ` at the two ends: transmission is the same, reflection has the opposite sign. -/
structure DualSMatrices (T₀ Tₙ : Matrix (ι ⊕ ι) (ι ⊕ ι) ℂ) (S S' : ScatteringMatrix ι) : Prop where
  frontTransmission : Tₙ * S'.s11 = S.s11 * T₀
  backReflection : Tₙ * S'.s12 = -(S.s12 * Tₙ)
  frontReflection : T₀ * S'.s21 = -(S.s21 * T₀)
  backTransmission : T₀ * S'.s22 = S.s22 * Tₙ

end Spec

end Fmmax
