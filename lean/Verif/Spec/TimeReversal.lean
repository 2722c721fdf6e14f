import Verif.Spec.Reciprocity

/-!
Specification of the time reversed calculation: the in-plane wavevector and all Fourier orders are reversed, and the materials are replaced by
their complex conjugates (absorption becomes gain).
-/

namespace Fmmax

variable {nx ny : ℕ}

namespace Spec

open Matrix

variable {ι : Type} {β : Type}

/-- The matrix of complex conjugate entries. -/
def conj {m n : Type} (A : Matrix m n ℂ) : Matrix m n ℂ := Matrix.of fun i j => star (A i j)

/-- The complex conjugate tensor. -/
def conjTensor (t : TensorComponents nx ny) : TensorComponents nx ny :=
  { xx := conj t.xx, xy := conj t.xy, yx := conj t.yx, yy := conj t.yy, zz := conj t.zz }

/-- The medium with complex conjugate material parameters. -/
def Medium.conj : Medium nx ny ι → Medium nx ny ι
  | .isotropic ε f => .isotropic (Spec.conj ε) f
  | .anisotropic ε μ f x => .anisotropic (conjTensor ε) (conjTensor μ) f (x.map Spec.conj)

/-- The layer with complex conjugate material parameters. -/
def StackLayer.conj (p : StackLayer ι) : StackLayer ι := { p with medium := p.medium.conj }

/-- Layers to which time reversal extends: uniform ones, those solved in the FFT formulation, and isotropic ones solved in a vector formulation whose
tangent field is conjugate, up to a phase factor, for the conjugate permittivity and reversed orders. -/
def StackLayer.ConjugateTangent (c : Setup ι) (p : StackLayer ι) : Prop :=
  p.nx = 1 ∧ p.ny = 1 ∨ p.medium.formulation = .fft ∨
    ∃ ε fn, p.medium = .isotropic ε (.vector fn) ∧ ∀ tx ty,
      fn ε c.expansion c.lattice = .ok (tx, ty) →
        ∃ z : ℂ, ‖z‖ = 1 ∧ fn (Spec.conj ε) c.reverse.expansion c.reverse.lattice = .ok (z • Spec.conj tx, z • Spec.conj ty)

variable [Fintype ι]

/-- Forward amplitudes (at the start) of the time reversed waves in a layer, up to a common sign: a mode which propagates without decay becomes a backward mode,
observed at the other end; others keep their direction of decay. -/
noncomputable def reversedForward (l : LayerSolveResult ι) (d : ℝ) (a b : Matrix (ι ⊕ ι) β ℂ) : Matrix (ι ⊕ ι) β ℂ :=
  Matrix.of fun i c => if (l.eigenvalues i).im = 0 then star (Complex.exp (Complex.I * l.eigenvalues i * d) * b i c) else star (a i c)

/-- Backward amplitudes (at the end) of the time reversed waves in a layer. -/
noncomputable def reversedBackward (l : LayerSolveResult ι) (d : ℝ) (a b : Matrix (ι ⊕ ι) β ℂ) : Matrix (ι ⊕ ι) β ℂ :=
  Matrix.of fun i c => if (l.eigenvalues i).im = 0 then star (Complex.exp (Complex.I * l.eigenvalues i * d) * a i c) else star (b i c)

/-- The scattering matrix `S'` relates the time reversed waves of all those related by `S`; the columns of `N₀` and `Nₙ` express the conjugates of the modes of the
first and of the last layer by modes of the time reversed calculation. -/
def TimeReversedSMatrices (N₀ Nₙ : Matrix (ι ⊕ ι) (ι ⊕ ι) ℂ) (S S' : ScatteringMatrix ι) : Prop :=
  ∀ (β : Type) (a₀ bₙ aₙ b₀ : Matrix (ι ⊕ ι) β ℂ), aₙ = S.s11 * a₀ + S.s12 * bₙ → b₀ = S.s21 * a₀ + S.s22 * bₙ →
    Nₙ * reversedForward S.endLayer S.endThickness aₙ bₙ = S'.s11 * (N₀ * reversedForward S.startLayer S.startThickness a₀ b₀) +
      S'.s12 * (Nₙ * reversedBackward S.endLayer S.endThickness aₙ bₙ) ∧
    N₀ * reversedBackward S.startLayer S.startThickness a₀ b₀ = S'.s21 * (N₀ * reversedForward S.startLayer S.startThickness a₀ b₀) +
      S'.s22 * (Nₙ * reversedBackward S.endLayer S.endThickness aₙ bₙ)

end Spec

end Fmmax
