import Verif.Model.Shapes
import Mathlib.Analysis.SpecialFunctions.Exp

/-!
How arrays of thicknesses and distances enter the scattering matrix and the propagation of amplitudes: the broadcasting of
the phase factors.  (The rest of the model treats one batch element, with one thickness.)
-/

namespace Fmmax

/-- scattering.py 445-446, 494-495: `jnp.exp(1j * q * layer_thickness)`, with the eigenvalues of shape `(..., 2 num_terms)`;
also 531 and 558, where the thickness is replaced by a difference of thicknesses. -/
noncomputable def layerPhases (q : NDArray ℂ) (thickness : NDArray ℝ) : Res (NDArray ℂ) :=
  q.zipWith (fun q (d : ℝ) => Complex.exp (Complex.I * q * d)) thickness

/-- fields.py 10-40 `propagate_amplitude`, with `_validate_amplitudes_shape` (84-97) for a single array, whose shape is always
compatible with itself. -/
noncomputable def propagateAmplitudeBatch (amplitude q : NDArray ℂ) (distance : NDArray ℝ) (numTerms : ℕ) : Res (NDArray ℂ) :=
  if amplitude.shape.length < 2 ∨ amplitude.shape.getD (amplitude.shape.length - 2) 0 ≠ numTerms then .error .valueError
  else do
    let fd ← q.expandLast.zipWith (fun q (d : ℝ) => Complex.exp (Complex.I * q * d)) distance
    amplitude.zipWith (fun a f => a * f) fd

end Fmmax
