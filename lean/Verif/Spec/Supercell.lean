import Verif.Spec.Symmetry

/-! Specification: a supercell and the Fourier orders of one class. -/

namespace Fmmax.Spec

open Matrix

variable {ι κ : Type} {nx ny : ℕ}

/-- The orders of the calculation `c'` for a cell of `m × n` primitive cells which differ from `p` by multiples of `m` and `n` are those of
the calculation `c` for the primitive cell, at the in-plane wavevector shifted by `p` reciprocal lattice vectors of the supercell;
order `i` of `c` is order `place i` of `c'`. -/
structure SupercellClass (m n : ℕ) (p : ℤ × ℤ) (place : ι → κ) (c : Setup ι) (c' : Setup κ) : Prop where
  wavelength : c'.wavelength = c.wavelength
  u : c'.lattice.u = (m : ℝ) • c.lattice.u
  v : c'.lattice.v = (n : ℝ) • c.lattice.v
  injective : Function.Injective place
  expansion : ∀ i, c'.expansion (place i) = (m * (c.expansion i).1 + p.1, n * (c.expansion i).2 + p.2)
  others : ∀ x, (∀ i, place i ≠ x) → ¬((m : ℤ) ∣ (c'.expansion x).1 - p.1 ∧ (n : ℤ) ∣ (c'.expansion x).2 - p.2)
  wavevector_u : dot c.inPlaneWavevector c.lattice.u = dot c'.inPlaneWavevector c.lattice.u + 2 * Real.pi * (p.1 / m)
  wavevector_v : dot c.inPlaneWavevector c.lattice.v = dot c'.inPlaneWavevector c.lattice.v + 2 * Real.pi * (p.2 / n)

/-- The tangent field in the supercell repeats the one in the primitive cell. -/
def SupercellFormulation (m n : ℕ) (c : Setup ι) (c' : Setup κ) (x : Grid nx ny) : Formulation nx ny ι → Formulation (m * nx) (n * ny) κ → Prop
  | .fft, .fft => True
  | .vector fn, .vector fn' => ∃ t, fn x c.expansion c.lattice = .ok t ∧
      fn' (x.pull (tile m n)) c'.expansion c'.lattice = .ok (t.1.pull (tile m n), t.2.pull (tile m n))
  | _, _ => False

/-- `p'` is the layer `p` in the supercell: sampled patterns are repeated, `np.tile(pattern, (m, n))`. -/
inductive SupercellLayer (m n : ℕ) (c : Setup ι) (c' : Setup κ) : StackLayer ι → StackLayer κ → Prop
  | uniformIsotropic (ε : Grid 1 1) (f : Formulation 1 1 ι) (f' : Formulation 1 1 κ) (d : ℝ) :
      SupercellLayer m n c c' ⟨1, 1, .isotropic ε f, d⟩ ⟨1, 1, .isotropic ε f', d⟩
  | uniformAnisotropic (ε μ : TensorComponents 1 1) (f : Formulation 1 1 ι) (f' : Formulation 1 1 κ) (x x' : Option (Grid 1 1)) (d : ℝ) :
      SupercellLayer m n c c' ⟨1, 1, .anisotropic ε μ f x, d⟩ ⟨1, 1, .anisotropic ε μ f' x', d⟩
  | isotropic {nx ny : ℕ} (hn : ¬(nx = 1 ∧ ny = 1)) (hR : Resolves nx ny c.expansion) (ε : Grid nx ny) (f : Formulation nx ny ι)
      (f' : Formulation (m * nx) (n * ny) κ) (hf : SupercellFormulation m n c c' ε f f') (d : ℝ) :
      SupercellLayer m n c c' ⟨nx, ny, .isotropic ε f, d⟩ ⟨m * nx, n * ny, .isotropic (ε.pull (tile m n)) f', d⟩
  | anisotropic {nx ny : ℕ} (hn : ¬(nx = 1 ∧ ny = 1)) (hR : Resolves nx ny c.expansion) (ε μ : TensorComponents nx ny) (x : Option (Grid nx ny))
      (f : Formulation nx ny ι) (f' : Formulation (m * nx) (n * ny) κ)
      (hf : SupercellFormulation m n c c' (x.getD (Matrix.of fun r s => (ε.xx r s + ε.yy r s) / 2)) f f') (d : ℝ) :
      SupercellLayer m n c c' ⟨nx, ny, .anisotropic ε μ f x, d⟩
        ⟨m * nx, n * ny, .anisotropic (ε.pull (tile m n)) (μ.pull (tile m n)) f' (x.map (Grid.pull (tile m n))), d⟩

/-- `A'` is block diagonal, the block of the class being `A`: no coupling between the class and other orders, in either direction. -/
def IsBlock (place : ι → κ) (A : Matrix (ι ⊕ ι) (ι ⊕ ι) ℂ) (A' : Matrix (κ ⊕ κ) (κ ⊕ κ) ℂ) : Prop :=
  (∀ a b, A' (a.map place place) (b.map place place) = A a b) ∧
    ∀ x, (∀ a : ι ⊕ ι, a.map place place ≠ x) → ∀ b : ι ⊕ ι, A' x (b.map place place) = 0 ∧ A' (b.map place place) x = 0

end Fmmax.Spec
