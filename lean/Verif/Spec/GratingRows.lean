import Verif.Spec.Supercell

/-! Specification: gratings, structures which do not depend on the second lattice coordinate. -/

namespace Fmmax.Spec

open Matrix

variable {ι κ : Type} {nx ny : ℕ}

/-- The points of a grid, sent to the points of a grid with a single column: `np.repeat(pattern, ny, axis=1)` is the pull along this map. -/
def groove : Fin nx × Fin ny → Fin nx × Fin 1 := fun q => (q.1, 0)

/-- The orders of the calculation `c'` whose second index is `h` are those of the calculation `c`, which has second index zero only;
order `i` of `c` is order `place i` of `c'`.  The second lattice vector of `c` has the same direction and any length, and the
in-plane wavevector of `c` is that of `c'` shifted by `h` times the second reciprocal lattice vector. -/
structure GratingRow (h : ℤ) (place : ι → κ) (c : Setup ι) (c' : Setup κ) : Prop where
  wavelength : c.wavelength = c'.wavelength
  u : c.lattice.u = c'.lattice.u
  v : ∃ t : ℝ, t ≠ 0 ∧ c.lattice.v = t • c'.lattice.v
  injective : Function.Injective place
  zeroth : ∀ i, (c.expansion i).2 = 0
  expansion : ∀ i, c'.expansion (place i) = ((c.expansion i).1, h)
  others : ∀ x, (∀ i, place i ≠ x) → (c'.expansion x).2 ≠ h
  wavevector_u : dot c.inPlaneWavevector c'.lattice.u = dot c'.inPlaneWavevector c'.lattice.u
  wavevector_v : dot c.inPlaneWavevector c'.lattice.v = dot c'.inPlaneWavevector c'.lattice.v + 2 * Real.pi * h

/-- The tangent field on the grid with repeated columns repeats the one on the grid with a single column. -/
def GratingFormulation (c : Setup ι) (c' : Setup κ) (x : Grid nx 1) : Formulation nx 1 ι → Formulation nx ny κ → Prop
  | .fft, .fft => True
  | .vector fn, .vector fn' => ∃ t, fn x c.expansion c.lattice = .ok t ∧
      fn' (x.pull groove) c'.expansion c'.lattice = .ok (t.1.pull groove, t.2.pull groove)
  | _, _ => False

/-- `q'` is the layer `q` on a grid with several columns; their number may differ from layer to layer. -/
inductive GratingLayer (c : Setup ι) (c' : Setup κ) : StackLayer ι → StackLayer κ → Prop
  | uniformIsotropic (ε : Grid 1 1) (f : Formulation 1 1 ι) (f' : Formulation 1 1 κ) (d : ℝ) :
      GratingLayer c c' ⟨1, 1, .isotropic ε f, d⟩ ⟨1, 1, .isotropic ε f', d⟩
  | uniformAnisotropic (ε μ : TensorComponents 1 1) (f : Formulation 1 1 ι) (f' : Formulation 1 1 κ) (x x' : Option (Grid 1 1)) (d : ℝ) :
      GratingLayer c c' ⟨1, 1, .anisotropic ε μ f x, d⟩ ⟨1, 1, .anisotropic ε μ f' x', d⟩
  | isotropic {nx ny : ℕ} (hn : nx ≠ 1) (ε : Grid nx 1) (f : Formulation nx 1 ι) (f' : Formulation nx ny κ) (hf : GratingFormulation c c' ε f f') (d : ℝ) :
      GratingLayer c c' ⟨nx, 1, .isotropic ε f, d⟩ ⟨nx, ny, .isotropic (ε.pull groove) f', d⟩
  | anisotropic {nx ny : ℕ} (hn : nx ≠ 1) (ε μ : TensorComponents nx 1) (x : Option (Grid nx 1)) (f : Formulation nx 1 ι) (f' : Formulation nx ny κ)
      (hf : GratingFormulation c c' (x.getD (Matrix.of fun r s => (ε.xx r s + ε.yy r s) / 2)) f f') (d : ℝ) :
      GratingLayer c c' ⟨nx, 1, .anisotropic ε μ f x, d⟩
        ⟨nx, ny, .anisotropic (ε.pull groove) (μ.pull groove) f' (x.map (Grid.pull groove)), d⟩

/-- The tangent field computed for `x` does not depend on the second lattice coordinate. -/
def GroovedFormulation (c : Setup κ) (x : Grid nx ny) : Formulation nx ny κ → Prop
  | .fft => True
  | .vector fn => ∃ t, fn x c.expansion c.lattice = .ok t ∧ ∀ r s s', t.1 r s = t.1 r s' ∧ t.2 r s = t.2 r s'

/-- The layer does not depend on the second lattice coordinate: neither the medium nor the tangent field. -/
def Grooved (c : Setup κ) (q : StackLayer κ) : Prop :=
  (q.nx = 1 ∧ q.ny = 1) ∨ q.nx ≠ 1 ∧
    (match q.medium with
      | .isotropic ε _ => ∀ r s s', ε r s = ε r s'
      | .anisotropic ε μ _ x => (∀ t ∈ [ε.xx, ε.xy, ε.yx, ε.yy, ε.zz, μ.xx, μ.xy, μ.yx, μ.yy, μ.zz], ∀ r s s', t r s = t r s') ∧
          ∀ t ∈ x, ∀ r s s', t r s = t r s') ∧
    GroovedFormulation c q.medium.source q.medium.formulation

end Fmmax.Spec
