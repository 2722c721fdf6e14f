import Verif.Spec.Symmetry
import Verif.Model.Fields

/-!
Specification of the power absorbed in a medium: the local density `Im (E* ε E) + Im (H* μ H)`, averaged over the points of a grid.
-/

namespace Fmmax.Spec

open Matrix

variable {ι β : Type} {nx ny mx my : ℕ}

/-- The permittivity of a medium as a tensor. -/
def Medium.permittivity : Medium nx ny ι → TensorComponents nx ny
  | .isotropic ε _ => { xx := ε, xy := 0, yx := 0, yy := ε, zz := ε }
  | .anisotropic ε _ _ _ => ε

/-- The permeability of a medium as a tensor. -/
def Medium.permeability : Medium nx ny ι → TensorComponents nx ny
  | .isotropic _ _ => { xx := fun _ _ => 1, xy := 0, yx := 0, yy := fun _ _ => 1, zz := fun _ _ => 1 }
  | .anisotropic _ μ _ _ => μ

/-- `Im (v* t v)` at a grid point. -/
def tensorLoss (t : TensorComponents nx ny) (r : Fin nx) (s : Fin ny) (x y z : ℂ) : ℝ :=
  (star x * (t.xx r s * x + t.xy r s * y) + star y * (t.yx r s * x + t.yy r s * y) + star z * (t.zz r s * z)).im

/-- Mean of `Im (E* ε E) + Im (H* μ H)` over the grid points of one unit cell, for fields `g` on that grid. -/
noncomputable def absorptionDensity (ε μ : TensorComponents nx ny) (g : Fields (Fin (1 * nx) × Fin (1 * ny) → β → ℂ)) (c : β) : ℝ :=
  (∑ p, (tensorLoss ε (tileIndex p.1) (tileIndex p.2) (g.ex p c) (g.ey p c) (g.ez p c) +
    tensorLoss μ (tileIndex p.1) (tileIndex p.2) (g.hx p c) (g.hy p c) (g.hz p c))) / (nx * ny)

/-- The tensors of a layer on a grid on which the fields can be represented: patterned layers, solved in the FFT formulation, on their own grid;
uniform layers on any grid that resolves the expansion. -/
inductive SampledMedium (c : Setup ι) : StackLayer ι → (mx my : ℕ) → TensorComponents mx my → TensorComponents mx my → Prop
  | patterned {nx ny : ℕ} (hn : ¬(nx = 1 ∧ ny = 1)) (m : Medium nx ny ι) (hf : m.formulation = .fft) (d : ℝ) :
      SampledMedium c ⟨nx, ny, m, d⟩ nx ny m.permittivity m.permeability
  | uniform (m : Medium 1 1 ι) (d : ℝ) {mx my : ℕ} (hR : Resolves mx my c.expansion) :
      SampledMedium c ⟨1, 1, m, d⟩ mx my (m.permittivity.pull fun _ => (0, 0)) (m.permeability.pull fun _ => (0, 0))

/-- `F'` has the components of `F` tangential to the layers, and z components given by `Dz = εz Ez`, `Bz = μz Hz` truncated by the convolution
rule, `Dz` and `Bz` following from the tangential components by the Maxwell equations. -/
structure MaxwellCompletion [Fintype ι] (k : ι → ℝ × ℝ) (ω : ℝ) (G : ι → ℤ × ℤ) (εz μz : Grid nx ny) (F F' : Fields (Matrix ι β ℂ)) : Prop where
  ex : F'.ex = F.ex
  ey : F'.ey = F.ey
  hx : F'.hx = F.hx
  hy : F'.hy = F.hy
  /-- `i kx Hy - i ky Hx = -i ω Dz` -/
  ez : ∀ i c, Complex.I * (k i).1 * F'.hy i c - Complex.I * (k i).2 * F'.hx i c =
    -(Complex.I * ω * ∑ j, fourierCoefficient εz (G i - G j) * F'.ez j c)
  /-- `i kx Ey - i ky Ex = i ω Bz` -/
  hz : ∀ i c, Complex.I * (k i).1 * F'.ey i c - Complex.I * (k i).2 * F'.ex i c =
    Complex.I * ω * ∑ j, fourierCoefficient μz (G i - G j) * F'.hz j c

end Fmmax.Spec
