import Verif.Model.Fields
import Verif.Spec.Stack

/-! Specification for C122: the power delivered by currents. -/

namespace Fmmax.Spec

variable {ι : Type} [Fintype ι] {β : Type}

/-- Power delivered by a sheet of currents with Fourier coefficients `jx`, `jy`, `jz`, per unit cell area and in the units of `netFlux`:
`-Re ∫ J* · E`, with `E` the mean of the fields `F` and `F'` on the two sides of the sheet. -/
noncomputable def sourcePower (F F' : Fields (Matrix ι β ℂ)) (jx jy jz : Matrix ι β ℂ) (c : β) : ℝ :=
  -∑ i, (star (jx i c) * ((F.ex i c + F'.ex i c) / 2) + star (jy i c) * ((F.ey i c + F'.ey i c) / 2) +
    star (jz i c) * ((F.ez i c + F'.ez i c) / 2)).re

/-- Vertical component of the electric displacement, from the magnetic field by the law of Ampère: `D_z = -(k × H)_z / ω`. -/
noncomputable def verticalDisplacement (l : LayerSolveResult ι) (F : Fields (Matrix ι β ℂ)) (i : ι) (c : β) : ℂ :=
  -((orderWavevector l i).1 * F.hy i c - (orderWavevector l i).2 * F.hx i c) / omega l

/-- Power delivered by a sheet of currents, where the vertical currents `jz` act through `η jz` on the vertical displacement, with the inverse
z-permittivity matrix `η` of the layer. -/
noncomputable def displacementPower (l : LayerSolveResult ι) (F F' : Fields (Matrix ι β ℂ)) (jx jy jz : Matrix ι β ℂ) (c : β) : ℝ :=
  -∑ i, (star (jx i c) * ((F.ex i c + F'.ex i c) / 2) + star (jy i c) * ((F.ey i c + F'.ey i c) / 2) +
    star (∑ j, l.inverseZPermittivityMatrix i j * jz j c) * ((verticalDisplacement l F i c + verticalDisplacement l F' i c) / 2)).re

end Fmmax.Spec
