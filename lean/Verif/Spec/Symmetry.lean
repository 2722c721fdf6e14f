import Verif.Spec.Modes
import Verif.Model.Scattering
import Verif.Model.Fmm
import Verif.Spec.Fourier
import Verif.Spec.Lattice

/-! Specification: two eigensolve results that describe the same layer in different coordinates. -/

namespace Fmmax.Spec

open Matrix

variable {ι : Type} [Fintype ι] [DecidableEq ι]

/-- `l'` is the layer `l` seen in other coordinates: lengths are smaller by the factor `s`, the Fourier coefficients of the tangential
fields `[-Ey; Ex]` and `[Hx; Hy]` are transformed by the matrix `R`; the modes of `l'` are the transformed combinations of modes
of `l` given by the columns of `T`, only modes with equal propagation constant being mixed. -/
structure LayerMap (R : Matrix (ι ⊕ ι) (ι ⊕ ι) ℂ) (s : ℝ) (l l' : LayerSolveResult ι) (T : Matrix (ι ⊕ ι) (ι ⊕ ι) ℂ) : Prop where
  wellPosed : WellPosed l → WellPosed l'
  electric : magneticToElectric l' * R = (s : ℂ) ^ 2 • (R * magneticToElectric l)
  eigenvectors : l'.eigenvectors = R * l.eigenvectors * T
  eigenvalues : ∀ i j, T i j ≠ 0 → l'.eigenvalues j = s * l.eigenvalues i
  isUnit : IsUnit T.det

/-! ### Stacks of layers described by their media -/

/-- The arguments of `eigensolve_isotropic_media` or `eigensolve_general_anisotropic_media` describing the medium. -/
inductive Medium (nx ny : ℕ) (ι : Type)
  | isotropic (permittivity : Grid nx ny) (formulation : Formulation nx ny ι)
  | anisotropic (permittivity permeability : TensorComponents nx ny) (formulation : Formulation nx ny ι) (source : Option (Grid nx ny))

/-- One layer of a stack: the medium, sampled on a grid of its own, and the thickness. -/
structure StackLayer (ι : Type) where
  nx : ℕ
  ny : ℕ
  medium : Medium nx ny ι
  thickness : ℝ

/-- The circumstances common to all layers of a stack. -/
structure Setup (ι : Type) where
  wavelength : ℝ
  inPlaneWavevector : ℝ × ℝ
  lattice : LatticeVectors
  expansion : ι → ℤ × ℤ

/-- The result of the eigensolve of a layer. -/
noncomputable def StackLayer.solve (eig : Matrix (ι ⊕ ι) (ι ⊕ ι) ℂ → (ι ⊕ ι → ℂ) × Matrix (ι ⊕ ι) (ι ⊕ ι) ℂ) (c : Setup ι) (p : StackLayer ι) :
    Res (LayerSolveResult ι) :=
  match p.medium with
  | .isotropic ε f => eigensolveIsotropicMedia eig c.wavelength c.inPlaneWavevector c.lattice ε c.expansion f
  | .anisotropic ε μ f src => eigensolveGeneralAnisotropicMedia eig c.wavelength c.inPlaneWavevector c.lattice ε μ c.expansion f src

/-- `S` is the scattering matrix computed for a stack: every layer is solved, and `stack_s_matrix` is applied. -/
def ComputedSMatrix (eig : Matrix (ι ⊕ ι) (ι ⊕ ι) ℂ → (ι ⊕ ι → ℂ) × Matrix (ι ⊕ ι) (ι ⊕ ι) ℂ) (c : Setup ι) (layers : List (StackLayer ι))
    (S : ScatteringMatrix ι) : Prop :=
  ∃ solved, List.Forall₂ (fun p r => p.solve eig c = .ok r) layers solved ∧ stackSMatrix solved (layers.map StackLayer.thickness) = .ok S

/-- A uniform isotropic layer. -/
def StackLayer.Uniform (p : StackLayer ι) : Prop := p.nx = 1 ∧ p.ny = 1 ∧ ∃ ε f, p.medium = .isotropic ε f

end Fmmax.Spec

namespace Fmmax

open Matrix Spec

variable {ι : Type} {nx ny mx my : ℕ}

/-- A function on one grid as a function on another one, along a map of grid points. -/
def Grid.pull (γ : Fin mx × Fin my → Fin nx × Fin ny) (x : Grid nx ny) : Grid mx my := Matrix.of fun r s => x (γ (r, s)).1 (γ (r, s)).2

/-- A tensor in rotated coordinates: `O t Oᵀ` for the transverse part. -/
def rotateTensor (O : Matrix (Fin 2) (Fin 2) ℝ) (t : TensorComponents nx ny) : TensorComponents nx ny :=
  let T := fun i j => Matrix.of fun r s => (O i 0 * O j 0 : ℂ) * t.xx r s + (O i 0 * O j 1 : ℂ) * t.xy r s + (O i 1 * O j 0 : ℂ) * t.yx r s + (O i 1 * O j 1 : ℂ) * t.yy r s
  { xx := T 0 0, xy := T 0 1, yx := T 1 0, yy := T 1 1, zz := t.zz }

/-- The tensor on another grid. -/
def TensorComponents.pull (γ : Fin mx × Fin my → Fin nx × Fin ny) (t : TensorComponents nx ny) : TensorComponents mx my :=
  { xx := t.xx.pull γ, xy := t.xy.pull γ, yx := t.yx.pull γ, yy := t.yy.pull γ, zz := t.zz.pull γ }

namespace Spec

/-- The tangent fields of two formulations correspond, for the given source pattern, up to a phase factor common to all points. -/
def FormulationImage (O : Matrix (Fin 2) (Fin 2) ℝ) (c c' : Setup ι) (γ : Fin mx × Fin my → Fin nx × Fin ny) (x : Grid nx ny) :
    Formulation nx ny ι → Formulation mx my ι → Prop
  | .fft, .fft => True
  | .vector fn, .vector fn' => ∃ p : ℂ, ‖p‖ = 1 ∧ ∀ t, fn x c.expansion c.lattice = .ok t → fn' (x.pull γ) c'.expansion c'.lattice =
      .ok (Matrix.of fun r s => p * (O 0 0 * t.1.pull γ r s + O 0 1 * t.2.pull γ r s), Matrix.of fun r s => p * (O 1 0 * t.1.pull γ r s + O 1 1 * t.2.pull γ r s))
  | _, _ => False

/-- `p'` is the layer `p` in other coordinates: thicknesses are divided by `scale`, vectors are rotated by `O`, and the sampled patterns
correspond along one of the admitted maps of grid points. -/
inductive LayerImage (scale : ℝ) (O : Matrix (Fin 2) (Fin 2) ℝ) (grids : ∀ {nx ny mx my : ℕ}, (Fin mx × Fin my → Fin nx × Fin ny) → Prop)
    (c c' : Setup ι) : StackLayer ι → StackLayer ι → Prop
  | uniformIsotropic (ε : Grid 1 1) (f f' : Formulation 1 1 ι) (d : ℝ) :
      LayerImage scale O grids c c' ⟨1, 1, .isotropic ε f, scale * d⟩ ⟨1, 1, .isotropic ε f', d⟩
  | uniformAnisotropic (ε μ : TensorComponents 1 1) (f f' : Formulation 1 1 ι) (x x' : Option (Grid 1 1)) (d : ℝ) :
      LayerImage scale O grids c c' ⟨1, 1, .anisotropic ε μ f x, scale * d⟩ ⟨1, 1, .anisotropic (rotateTensor O ε) (rotateTensor O μ) f' x', d⟩
  | isotropic {nx ny mx my : ℕ} (γ : Fin mx × Fin my → Fin nx × Fin ny) (hγ : grids γ) (hn : ¬(nx = 1 ∧ ny = 1))
      (hm : ¬(mx = 1 ∧ my = 1)) (ε : Grid nx ny) (f : Formulation nx ny ι) (f' : Formulation mx my ι) (hf : FormulationImage O c c' γ ε f f') (d : ℝ) :
      LayerImage scale O grids c c' ⟨nx, ny, .isotropic ε f, scale * d⟩ ⟨mx, my, .isotropic (ε.pull γ) f', d⟩
  | anisotropic {nx ny mx my : ℕ} (γ : Fin mx × Fin my → Fin nx × Fin ny) (hγ : grids γ) (hn : ¬(nx = 1 ∧ ny = 1))
      (hm : ¬(mx = 1 ∧ my = 1)) (ε μ : TensorComponents nx ny) (x : Option (Grid nx ny)) (f : Formulation nx ny ι) (f' : Formulation mx my ι)
      (hf : FormulationImage O c c' γ (x.getD (Matrix.of fun r s => (ε.xx r s + ε.yy r s) / 2)) f f') (d : ℝ) :
      LayerImage scale O grids c c' ⟨nx, ny, .anisotropic ε μ f x, scale * d⟩
        ⟨mx, my, .anisotropic ((rotateTensor O ε).pull γ) ((rotateTensor O μ).pull γ) f' (x.map (Grid.pull γ)), d⟩

/-- A change of the description of a periodic structure: lengths are divided by `scale`; directions are transformed by the orthogonal matrix
`rotation`; the columns of the integer matrix `basis` are the new primitive lattice vectors in terms of the old ones; the origin is
moved by `shift`, in units of the old lattice vectors; the Fourier orders are listed in another `order`; and the in-plane
wavevector is moved by the reciprocal lattice vector `zone`. -/
structure Redescription (ι : Type) where
  scale : ℝ
  scale_pos : 0 < scale
  rotation : Matrix (Fin 2) (Fin 2) ℝ
  orthogonal : rotationᵀ * rotation = 1
  basis : Matrix (Fin 2) (Fin 2) ℤ
  basis_det : basis.det ≠ 0
  shift : ℝ × ℝ
  order : Equiv.Perm ι
  zone : ℤ × ℤ

namespace Redescription

variable (D : Redescription ι)

/-- The image of a direction. -/
def rotate (x : ℝ × ℝ) : ℝ × ℝ := (D.rotation 0 0 * x.1 + D.rotation 0 1 * x.2, D.rotation 1 0 * x.1 + D.rotation 1 1 * x.2)

/-- The circumstances of the new calculation. -/
structure SetupImage (c c' : Setup ι) : Prop where
  wavelength : c.wavelength = D.scale * c'.wavelength
  u : D.scale • c'.lattice.u = D.rotate ((D.basis 0 0 : ℝ) • c.lattice.u + (D.basis 1 0 : ℝ) • c.lattice.v)
  v : D.scale • c'.lattice.v = D.rotate ((D.basis 0 1 : ℝ) • c.lattice.u + (D.basis 1 1 : ℝ) • c.lattice.v)
  expansion : ∀ i, c'.expansion i = (D.basis 0 0 * (c.expansion (D.order i)).1 + D.basis 1 0 * (c.expansion (D.order i)).2 - D.zone.1,
    D.basis 0 1 * (c.expansion (D.order i)).1 + D.basis 1 1 * (c.expansion (D.order i)).2 - D.zone.2)
  wavevector_u : dot c'.inPlaneWavevector c'.lattice.u = dot (D.scale • D.rotate c.inPlaneWavevector) c'.lattice.u + 2 * Real.pi * D.zone.1
  wavevector_v : dot c'.inPlaneWavevector c'.lattice.v = dot (D.scale • D.rotate c.inPlaneWavevector) c'.lattice.v + 2 * Real.pi * D.zone.2

/-- A map from the points of the new grid onto those of the old grid, which preserves positions up to lattice translations; the new grid
resolves the new expansion. -/
structure GridImage (c' : Setup ι) (γ : Fin mx × Fin my → Fin nx × Fin ny) : Prop where
  surjective : Function.Surjective γ
  resolves : Resolves mx my c'.expansion
  position : ∀ p, ∃ z : ℤ × ℤ,
    ((γ p).1 : ℝ) / nx = D.basis 0 0 * (p.1 / mx) + D.basis 0 1 * (p.2 / my) + D.shift.1 + z.1 ∧
    ((γ p).2 : ℝ) / ny = D.basis 1 0 * (p.1 / mx) + D.basis 1 1 * (p.2 / my) + D.shift.2 + z.2

/-- The phase factor which the Fourier coefficient of order `i` acquires. -/
noncomputable def phase (c : Setup ι) (i : ι) : ℂ :=
  Complex.exp (2 * Real.pi * Complex.I * ((c.expansion (D.order i)).1 * D.shift.1 + (c.expansion (D.order i)).2 * D.shift.2))

/-- The corresponding layer. -/
def Image (c c' : Setup ι) (p p' : StackLayer ι) : Prop := LayerImage D.scale D.rotation (fun γ => D.GridImage c' γ) c c' p p'

/-- The transformation of the Fourier coefficients of a tangential vector field. -/
noncomputable def fieldMatrix [DecidableEq ι] (c : Setup ι) : Matrix (ι ⊕ ι) (ι ⊕ ι) ℂ :=
  let Q : Matrix ι ι ℂ := Matrix.of fun i j => if D.order i = j then D.phase c i else 0
  fromBlocks ((D.rotation 0 0 : ℂ) • Q) ((D.rotation 0 1 : ℂ) • Q) ((D.rotation 1 0 : ℂ) • Q) ((D.rotation 1 1 : ℂ) • Q)

/-- The structure is moved by `τ`, in units of the lattice vectors. -/
def translation (ι : Type) (τ : ℝ × ℝ) : Redescription ι :=
  { scale := 1, scale_pos := one_pos, rotation := 1, orthogonal := by simp, basis := 1, basis_det := by simp, shift := (-τ.1, -τ.2), order := Equiv.refl ι, zone := 0 }

/-- Lengths are divided by `s`, directions transformed by the orthogonal matrix `O`. -/
def similarity (ι : Type) {s : ℝ} (hs : 0 < s) {O : Matrix (Fin 2) (Fin 2) ℝ} (hO : Oᵀ * O = 1) : Redescription ι :=
  { scale := s, scale_pos := hs, rotation := O, orthogonal := hO, basis := 1, basis_det := by simp, shift := 0, order := Equiv.refl ι, zone := 0 }

/-- The orders are listed in another order, and counted from another one. -/
def relabelling (π : Equiv.Perm ι) (g : ℤ × ℤ) : Redescription ι :=
  { scale := 1, scale_pos := one_pos, rotation := 1, orthogonal := by simp, basis := 1, basis_det := by simp, shift := 0, order := π, zone := g }

/-- A unit cell consisting of `m × n` primitive cells. -/
def supercell (ι : Type) {m n : ℕ} (hm : m ≠ 0) (hn : n ≠ 0) : Redescription ι :=
  { scale := 1, scale_pos := one_pos, rotation := 1, orthogonal := by simp, basis := !![(m : ℤ), 0; 0, n], basis_det := by simp [hm, hn], shift := 0,
    order := Equiv.refl ι, zone := 0 }

/-- The lattice vectors exchange their names. -/
def exchange (ι : Type) : Redescription ι :=
  { scale := 1, scale_pos := one_pos, rotation := 1, orthogonal := by simp, basis := !![0, 1; 1, 0], basis_det := by simp [Matrix.det_fin_two], shift := 0,
    order := Equiv.refl ι, zone := 0 }

/-- A half turn around the origin, with orders of opposite direction exchanged by `π`. -/
def halfTurn (π : Equiv.Perm ι) : Redescription ι :=
  { scale := 1, scale_pos := one_pos, rotation := -1, orthogonal := by simp, basis := -1, basis_det := by simp [Matrix.det_fin_two], shift := 0,
    order := π, zone := 0 }

/-- The mirror image with reversed y direction (and second lattice vector), with mirrored orders exchanged by `π`. -/
def mirror (π : Equiv.Perm ι) : Redescription ι :=
  { scale := 1, scale_pos := one_pos, rotation := !![1, 0; 0, -1], orthogonal := by ext i j; fin_cases i <;> fin_cases j <;> simp [Matrix.mul_apply],
    basis := !![1, 0; 0, -1], basis_det := by simp [Matrix.det_fin_two], shift := 0, order := π, zone := 0 }

end Redescription

/-- The point of a periodic row of `n` points which lies `a` points before `r`. -/
def rollIndex {n : ℕ} (a : ℤ) (r : Fin n) : Fin n :=
  ⟨((r - a) % n).toNat, by
    have hn : (0 : ℤ) < n := by exact_mod_cast r.pos
    have h1 := Int.emod_nonneg ((r : ℤ) - a) hn.ne'
    have h2 := Int.emod_lt_of_pos ((r : ℤ) - a) hn
    omega⟩

/-- The mirrored point of a periodic row of `n` points. -/
def flipIndex {n : ℕ} (r : Fin n) : Fin n := ⟨(n - r) % n, Nat.mod_lt _ r.pos⟩

/-- The pattern moved by `a` and `b` grid points. -/
def roll (a b : ℤ) : Fin nx × Fin ny → Fin nx × Fin ny := fun p => (rollIndex a p.1, rollIndex b p.2)

/-- The primitive cell containing the points of a supercell. -/
def tile (m n : ℕ) : Fin (m * nx) × Fin (n * ny) → Fin nx × Fin ny := fun p =>
  (⟨p.1 % nx, Nat.mod_lt _ (Nat.pos_of_mul_pos_left p.1.pos)⟩, ⟨p.2 % ny, Nat.mod_lt _ (Nat.pos_of_mul_pos_left p.2.pos)⟩)

/-- The formulation in which a layer is solved. -/
def Medium.formulation : Medium nx ny ι → Formulation nx ny ι
  | .isotropic _ f => f
  | .anisotropic _ _ f _ => f

/-- The array from whose gradient the tangent field is computed. -/
noncomputable def Medium.source : Medium nx ny ι → Grid nx ny
  | .isotropic ε _ => ε
  | .anisotropic ε _ _ x => x.getD (Matrix.of fun r s => (ε.xx r s + ε.yy r s) / 2)

/-- The medium in rotated coordinates. -/
def Medium.rotate (O : Matrix (Fin 2) (Fin 2) ℝ) : Medium nx ny ι → Medium nx ny ι
  | .isotropic ε f => .isotropic ε f
  | .anisotropic ε μ f x => .anisotropic (rotateTensor O ε) (rotateTensor O μ) f x

/-- The medium on another grid. -/
def Medium.pull (γ : Fin mx × Fin my → Fin nx × Fin ny) : Medium nx ny ι → Medium mx my ι
  | .isotropic ε _ => .isotropic (ε.pull γ) .fft
  | .anisotropic ε μ _ x => .anisotropic (ε.pull γ) (μ.pull γ) .fft (x.map (Grid.pull γ))

/-- The medium moved on its grid, in the same formulation. -/
def Medium.move (γ : Fin nx × Fin ny → Fin nx × Fin ny) : Medium nx ny ι → Medium nx ny ι
  | .isotropic ε f => .isotropic (ε.pull γ) f
  | .anisotropic ε μ f x => .anisotropic (ε.pull γ) (μ.pull γ) f (x.map (Grid.pull γ))

/-- The layer moved on its grid, in the same formulation. -/
def StackLayer.move (p : StackLayer ι) (γ : Fin p.nx × Fin p.ny → Fin p.nx × Fin p.ny) : StackLayer ι :=
  { nx := p.nx, ny := p.ny, medium := p.medium.move γ, thickness := p.thickness }

/-- The layer on another grid (FFT formulation); uniform layers stay as they are. -/
def StackLayer.resample (p : StackLayer ι) (γ : Fin mx × Fin my → Fin p.nx × Fin p.ny) : StackLayer ι :=
  if p.nx = 1 ∧ p.ny = 1 then p else { nx := mx, ny := my, medium := p.medium.pull γ, thickness := p.thickness }

/-- The image of a layer under a similarity of space. -/
noncomputable def StackLayer.similar (s : ℝ) (O : Matrix (Fin 2) (Fin 2) ℝ) (p : StackLayer ι) : StackLayer ι :=
  { nx := p.nx, ny := p.ny, medium := p.medium.rotate O, thickness := p.thickness / s }

/-- The image of the circumstances under a similarity of space. -/
noncomputable def Setup.similar (s : ℝ) (O : Matrix (Fin 2) (Fin 2) ℝ) (c : Setup ι) : Setup ι :=
  let R := fun x : ℝ × ℝ => (O 0 0 * x.1 + O 0 1 * x.2, O 1 0 * x.1 + O 1 1 * x.2)
  { wavelength := c.wavelength / s, inPlaneWavevector := s • R c.inPlaneWavevector,
    lattice := { u := s⁻¹ • R c.lattice.u, v := s⁻¹ • R c.lattice.v }, expansion := c.expansion }

end Spec

end Fmmax
