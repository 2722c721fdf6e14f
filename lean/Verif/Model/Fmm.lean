import Verif.Model.Layer
import Verif.Model.Fft
import Mathlib.Analysis.SpecialFunctions.Pow.Complex

/-!
fmm.py and fmm_matrices.py: Fourier matrices of a layer and the layer eigensolve.

One batch element.  Spatial arrays are `nx × ny` matrices.  `_validate_and_broadcast` (shape handling) is modelled
separately in `Verif/Model/Shapes.lean`.
-/

namespace Fmmax

open Matrix

variable {ι : Type} [Fintype ι] [DecidableEq ι] {nx ny : ℕ}

/-- A complex array sampled on the unit cell grid. -/
abbrev Grid (nx ny : ℕ) : Type := Matrix (Fin nx) (Fin ny) ℂ

/-- `jnp.sqrt` of a complex number: the principal root.  (For a negative real number with imaginary part `-0.0` jax returns
the opposite root; `selectEigenvaluesSign` maps both to the same value.) -/
noncomputable def csqrt (z : ℂ) : ℂ := z ^ (1 / 2 : ℂ)

open Classical in
/-- fmm.py 1114-1123 `_select_eigenvalues_sign`. -/
noncomputable def selectEigenvaluesSign (q : ℂ) : ℂ := if q.im < 0 then -q else q

open Classical in
/-- `1 / x` for an array. -/
noncomputable def recipGrid (x : Grid nx ny) : Res (Grid nx ny) :=
  if ∀ r s, x r s ≠ 0 then .ok (Matrix.of fun r s => 1 / x r s) else .error .nonFinite

/-- `jnp.linalg.inv`. -/
noncomputable def inv {n : Type} [Fintype n] [DecidableEq n] (A : Matrix n n ℂ) : Res (Matrix n n ℂ) := solve A 1

/-! ### Fourier matrices -/

/-- fmm_matrices.py 97-112 `transverse_permittivity_fft`. -/
noncomputable def transversePermittivityFft (permittivity : Grid nx ny) (G : ι → ℤ × ℤ) :
    Res (Matrix (ι ⊕ ι) (ι ⊕ ι) ℂ) := do
  let epsHat ← fourierConvolutionMatrix permittivity G
  .ok (Matrix.fromBlocks epsHat 0 0 epsHat)

open Classical in
/-- `jnp.where(jnp.isclose(denom, 0), 1.0, denom)`: `isclose` to zero means at most `1e-8` (default `atol`). -/
noncomputable def denomSafe (denom : ℝ) : ℝ := if |denom| ≤ 1e-8 then 1 else denom

/-- The four tangent terms `(Pxx, Pxy, Pyx, Pyy)`. -/
structure TangentTerms where
  xx : ℂ
  xy : ℂ
  yx : ℂ
  yy : ℂ

/-- fmm_matrices.py 152-183 `_tangent_terms`, at one grid point. -/
noncomputable def tangentTerms (tx ty : ℂ) : TangentTerms :=
  let denom := ‖tx‖ ^ 2 + ‖ty‖ ^ 2
  let d : ℂ := denomSafe denom
  { yy := (‖tx‖ : ℂ) ^ 2 / d, yx := star tx * ty / d, xy := tx * star ty / d, xx := (‖ty‖ : ℂ) ^ 2 / d }

/-- fmm_matrices.py 115-149 `transverse_permittivity_vector`. -/
noncomputable def transversePermittivityVector (permittivity tx ty : Grid nx ny) (G : ι → ℤ × ℤ) :
    Res (Matrix (ι ⊕ ι) (ι ⊕ ι) ℂ) := do
  let epsHat ← fourierConvolutionMatrix permittivity G
  let epsMatrix := Matrix.fromBlocks epsHat 0 0 epsHat
  let eta ← recipGrid permittivity
  let etaHat ← fourierConvolutionMatrix eta G
  let etaInv ← inv etaHat
  let deltaHat := epsHat - etaInv
  let deltaMatrix := Matrix.fromBlocks deltaHat 0 0 deltaHat
  let pyy ← fourierConvolutionMatrix (Matrix.of fun r s => (tangentTerms (tx r s) (ty r s)).yy) G
  let pyx ← fourierConvolutionMatrix (Matrix.of fun r s => (tangentTerms (tx r s) (ty r s)).yx) G
  let pxy ← fourierConvolutionMatrix (Matrix.of fun r s => (tangentTerms (tx r s) (ty r s)).xy) G
  let pxx ← fourierConvolutionMatrix (Matrix.of fun r s => (tangentTerms (tx r s) (ty r s)).xx) G
  let pMatrix := Matrix.fromBlocks pyy pyx pxy pxx
  .ok (epsMatrix - deltaMatrix * pMatrix)

/-- fmm_matrices.py 191-205 `transverse_permittivity_fft_anisotropic`. -/
noncomputable def transversePermittivityFftAnisotropic (xx xy yx yy : Grid nx ny) (G : ι → ℤ × ℤ) :
    Res (Matrix (ι ⊕ ι) (ι ⊕ ι) ℂ) := do
  let a ← fourierConvolutionMatrix yy G
  let b ← fourierConvolutionMatrix (-yx) G
  let c ← fourierConvolutionMatrix (-xy) G
  let d ← fourierConvolutionMatrix xx G
  .ok (Matrix.fromBlocks a b c d)

/-- fmm_matrices.py 208-222 `transverse_permeability_fft_anisotropic`. -/
noncomputable def transversePermeabilityFftAnisotropic (xx xy yx yy : Grid nx ny) (G : ι → ℤ × ℤ) :
    Res (Matrix (ι ⊕ ι) (ι ⊕ ι) ℂ) := do
  let a ← fourierConvolutionMatrix xx G
  let b ← fourierConvolutionMatrix xy G
  let c ← fourierConvolutionMatrix yx G
  let d ← fourierConvolutionMatrix yy G
  .ok (Matrix.fromBlocks a b c d)

/-- fmm_matrices.py 408-447 `_rotation_matrices`: the rotation at each grid point, its blockwise Fourier transform and that
of its inverse. -/
noncomputable def rotationMatrices (t00 t01 t10 t11 : Grid nx ny) (G : ι → ℤ × ℤ) :
    Res ((Fin nx → Fin ny → Matrix (Fin 2) (Fin 2) ℂ) × Matrix (ι ⊕ ι) (ι ⊕ ι) ℂ × Matrix (ι ⊕ ι) (ι ⊕ ι) ℂ) := do
  let rotation := fun r s => !![t00 r s, t01 r s; t10 r s, t11 r s]
  let f00 ← fourierConvolutionMatrix t00 G
  let f01 ← fourierConvolutionMatrix t01 G
  let f10 ← fourierConvolutionMatrix t10 G
  let f11 ← fourierConvolutionMatrix t11 G
  let d : Fin nx → Fin ny → ℂ := fun r s => (denomSafe ‖t00 r s * t11 r s - t10 r s * t01 r s‖ : ℂ)
  let g00 ← fourierConvolutionMatrix (Matrix.of fun r s => t11 r s / d r s) G
  let g01 ← fourierConvolutionMatrix (Matrix.of fun r s => -t01 r s / d r s) G
  let g10 ← fourierConvolutionMatrix (Matrix.of fun r s => -t10 r s / d r s) G
  let g11 ← fourierConvolutionMatrix (Matrix.of fun r s => t00 r s / d r s) G
  .ok (rotation, Matrix.fromBlocks f00 f01 f10 f11, Matrix.fromBlocks g00 g01 g10 g11)

/-- fmm_matrices.py 268-310 and 363-405: the common second half of the two anisotropic vector functions.  A singular rotation
at a grid point makes the solve non-finite. -/
noncomputable def rotatedFourierMatrix (tensor : Fin nx → Fin ny → Matrix (Fin 2) (Fin 2) ℂ)
    (t00 t01 t10 t11 : Grid nx ny) (G : ι → ℤ × ℤ) : Res (Matrix (ι ⊕ ι) (ι ⊕ ι) ℂ) := do
  let (rotation, f, g) ← rotationMatrices t00 t01 t10 t11 G
  let rotated ← allOk fun p : Fin nx × Fin ny => solve (rotation p.1 p.2) (tensor p.1 p.2 * rotation p.1 p.2)
  let a ← fourierConvolutionMatrix (Matrix.of fun r s => rotated (r, s) 0 0) G
  let b ← fourierConvolutionMatrix (Matrix.of fun r s => rotated (r, s) 0 1) G
  let c ← fourierConvolutionMatrix (Matrix.of fun r s => rotated (r, s) 1 0) G
  let eta ← recipGrid (Matrix.of fun r s => rotated (r, s) 1 1)
  let etaHat ← fourierConvolutionMatrix eta G
  let d ← inv etaHat
  .ok (f * Matrix.fromBlocks a b c d * g)

/-- fmm_matrices.py 225-310 `transverse_permittivity_vector_anisotropic`. -/
noncomputable def transversePermittivityVectorAnisotropic (xx xy yx yy tx ty : Grid nx ny) (G : ι → ℤ × ℤ) :
    Res (Matrix (ι ⊕ ι) (ι ⊕ ι) ℂ) :=
  rotatedFourierMatrix (fun r s => !![yy r s, -yx r s; -xy r s, xx r s])
    ty (Matrix.of fun r s => star (tx r s)) (-tx) (Matrix.of fun r s => star (ty r s)) G

/-- fmm_matrices.py 313-405 `transverse_permeability_vector_anisotropic`. -/
noncomputable def transversePermeabilityVectorAnisotropic (xx xy yx yy tx ty : Grid nx ny) (G : ι → ℤ × ℤ) :
    Res (Matrix (ι ⊕ ι) (ι ⊕ ι) ℂ) :=
  rotatedFourierMatrix (fun r s => !![xx r s, xy r s; yx r s, yy r s])
    tx (Matrix.of fun r s => -star (ty r s)) ty (Matrix.of fun r s => star (tx r s)) G

/-- fmm.py 20-38: `Formulation | VectorFn`.  All vector formulations (the enum members other than `FFT`, and callables) are
represented by the function computing the tangent field `(tx, ty)`. -/
inductive Formulation (nx ny : ℕ) (ι : Type)
  | fft
  | vector (fn : Grid nx ny → (ι → ℤ × ℤ) → LatticeVectors → Res (Grid nx ny × Grid nx ny))

/-- The matrices returned by fmm.py 854-916 and 919-1047. -/
structure FourierMatrices (ι : Type) where
  inverseZPermittivity : Matrix ι ι ℂ
  zPermittivity : Matrix ι ι ℂ
  transversePermittivity : Matrix (ι ⊕ ι) (ι ⊕ ι) ℂ
  inverseZPermeability : Matrix ι ι ℂ
  zPermeability : Matrix ι ι ℂ
  transversePermeability : Matrix (ι ⊕ ι) (ι ⊕ ι) ℂ

/-- fmm.py 885-909: the transverse permittivity matrix of an isotropic pattern, by formulation. -/
noncomputable def transversePermittivityIsotropic (l : LatticeVectors) (permittivity : Grid nx ny) (G : ι → ℤ × ℤ) :
    Formulation nx ny ι → Res (Matrix (ι ⊕ ι) (ι ⊕ ι) ℂ)
  | .fft => transversePermittivityFft permittivity G
  | .vector fn => do
    let t ← fn permittivity G l
    transversePermittivityVector permittivity t.1 t.2 G

/-- fmm.py 854-916 `fourier_matrices_patterned_isotropic_media`, together with the nonmagnetic permeability matrices which
`_eigensolve_patterned_isotropic_media` adds (fmm.py 522-535). -/
noncomputable def fourierMatricesPatternedIsotropic (l : LatticeVectors) (permittivity : Grid nx ny) (G : ι → ℤ × ℤ)
    (formulation : Formulation nx ny ι) : Res (FourierMatrices ι) := do
  let e ← transversePermittivityIsotropic l permittivity G formulation
  let eta ← recipGrid permittivity
  let invZ ← fourierConvolutionMatrix eta G
  let z ← fourierConvolutionMatrix permittivity G
  .ok { inverseZPermittivity := invZ, zPermittivity := z, transversePermittivity := e,
        inverseZPermeability := diag fun _ => 1, zPermeability := diag fun _ => 1,
        transversePermeability := Matrix.fromBlocks (diag fun _ => 1) (diag fun _ => 0) (diag fun _ => 0) (diag fun _ => 1) }

/-- Components `xx, xy, yx, yy, zz` of a tensor array (fmm.py `TensorComponents`). -/
structure TensorComponents (nx ny : ℕ) where
  xx : Grid nx ny
  xy : Grid nx ny
  yx : Grid nx ny
  yy : Grid nx ny
  zz : Grid nx ny

/-- fmm.py 976-1037: the transverse permittivity and permeability matrices of an anisotropic pattern, by formulation. -/
noncomputable def transverseMatricesAnisotropic (l : LatticeVectors) (eps mu : TensorComponents nx ny)
    (G : ι → ℤ × ℤ) (vectorFieldSource : Grid nx ny) :
    Formulation nx ny ι → Res (Matrix (ι ⊕ ι) (ι ⊕ ι) ℂ × Matrix (ι ⊕ ι) (ι ⊕ ι) ℂ)
  | .fft => do
    let e ← transversePermittivityFftAnisotropic eps.xx eps.xy eps.yx eps.yy G
    let m ← transversePermeabilityFftAnisotropic mu.xx mu.xy mu.yx mu.yy G
    .ok (e, m)
  | .vector fn => do
    let t ← fn vectorFieldSource G l
    let e ← transversePermittivityVectorAnisotropic eps.xx eps.xy eps.yx eps.yy t.1 t.2 G
    let m ← transversePermeabilityVectorAnisotropic mu.xx mu.xy mu.yx mu.yy t.1 t.2 G
    .ok (e, m)

/-- fmm.py 919-1047 `fourier_matrices_patterned_anisotropic_media`. -/
noncomputable def fourierMatricesPatternedAnisotropic (l : LatticeVectors) (eps mu : TensorComponents nx ny)
    (G : ι → ℤ × ℤ) (formulation : Formulation nx ny ι) (vectorFieldSource : Grid nx ny) : Res (FourierMatrices ι) := do
  let (e, m) ← transverseMatricesAnisotropic l eps mu G vectorFieldSource formulation
  let etaZ ← recipGrid eps.zz
  let invZ ← fourierConvolutionMatrix etaZ G
  let z ← fourierConvolutionMatrix eps.zz G
  let etaMu ← recipGrid mu.zz
  let invMu ← fourierConvolutionMatrix etaMu G
  let zMu ← fourierConvolutionMatrix mu.zz G
  .ok { inverseZPermittivity := invZ, zPermittivity := z, transversePermittivity := e,
        inverseZPermeability := invMu, zPermeability := zMu, transversePermeability := m }

/-! ### Eigensolves -/

/-- fmm.py 802-825: the matrix whose eigenpairs are sought, `E Ω - K M`. -/
noncomputable def eigenproblemMatrix (wavelength : ℝ) (k : ι → ℝ × ℝ) (m : FourierMatrices ι) :
    Res (Matrix (ι ⊕ ι) (ι ⊕ ι) ℂ) := do
  let kMatrix ← kMatrixPatterned m.zPermeability k
  let omegaScriptK ← omegaScriptKMatrixPatterned wavelength m.zPermittivity m.transversePermeability k
  .ok (m.transversePermittivity * omegaScriptK - kMatrix * m.transversePermeability)

/-- What `utils.eig` (LAPACK, trusted) is required to return: eigenvalues and matching nonzero eigenvectors, which are
linearly independent whenever the matrix is diagonalisable. -/
structure IsEig {n : Type} [Fintype n] [DecidableEq n] (eig : Matrix n n ℂ → (n → ℂ) × Matrix n n ℂ) : Prop where
  eigen : ∀ A, A * (eig A).2 = (eig A).2 * Matrix.diagonal (eig A).1
  ne_zero : ∀ A j, ∃ i, (eig A).2 i j ≠ 0
  invertible : ∀ (A V : Matrix n n ℂ) (w : n → ℂ), IsUnit V.det → A * V = V * Matrix.diagonal w → IsUnit (eig A).2.det

variable (eig : Matrix (ι ⊕ ι) (ι ⊕ ι) ℂ → (ι ⊕ ι → ℂ) × Matrix (ι ⊕ ι) (ι ⊕ ι) ℂ)

/-- fmm.py 766-846 `_numerical_eigensolve`. -/
noncomputable def numericalEigensolve (wavelength : ℝ) (inPlane : ℝ × ℝ) (l : LatticeVectors) (m : FourierMatrices ι)
    (G : ι → ℤ × ℤ) : Res (LayerSolveResult ι) := do
  let k ← transverseWavevectors inPlane l G
  let matrix ← eigenproblemMatrix wavelength k m
  let (w, v) := eig matrix
  .ok { wavelength := wavelength, inPlaneWavevector := inPlane, primitiveLatticeVectors := l, expansion := G,
        eigenvalues := fun i => selectEigenvaluesSign (csqrt (w i)), eigenvectors := v,
        zPermittivityMatrix := m.zPermittivity, inverseZPermittivityMatrix := m.inverseZPermittivity,
        zPermeabilityMatrix := m.zPermeability, inverseZPermeabilityMatrix := m.inverseZPermeability,
        transversePermeabilityMatrix := m.transversePermeability }

open Classical in
/-- fmm.py 377-475 `_eigensolve_uniform_isotropic_media`. -/
noncomputable def eigensolveUniformIsotropic (wavelength : ℝ) (inPlane : ℝ × ℝ) (l : LatticeVectors)
    (permittivity : ℂ) (G : ι → ℤ × ℤ) : Res (LayerSolveResult ι) := do
  let k ← transverseWavevectors inPlane l G
  let omega ← angularFrequency wavelength
  if permittivity = 0 then .error .nonFinite
  else
    let q : ι → ℂ := fun i =>
      selectEigenvaluesSign (csqrt (permittivity * (omega : ℂ) ^ 2 - ((k i).1 : ℂ) ^ 2 - ((k i).2 : ℂ) ^ 2))
    .ok { wavelength := wavelength, inPlaneWavevector := inPlane, primitiveLatticeVectors := l, expansion := G,
          eigenvalues := Sum.elim q q, eigenvectors := 1,
          zPermittivityMatrix := diag fun _ => permittivity, inverseZPermittivityMatrix := diag fun _ => 1 / permittivity,
          zPermeabilityMatrix := diag fun _ => 1, inverseZPermeabilityMatrix := diag fun _ => 1,
          transversePermeabilityMatrix := diag fun _ => 1 }

/-- fmm.py 478-550 `_eigensolve_patterned_isotropic_media`. -/
noncomputable def eigensolvePatternedIsotropic (wavelength : ℝ) (inPlane : ℝ × ℝ) (l : LatticeVectors)
    (permittivity : Grid nx ny) (G : ι → ℤ × ℤ) (formulation : Formulation nx ny ι) : Res (LayerSolveResult ι) := do
  let m ← fourierMatricesPatternedIsotropic l permittivity G formulation
  numericalEigensolve eig wavelength inPlane l m G

open Classical in
/-- fmm.py 604-643: the Fourier matrices of a uniform anisotropic layer, from scalar tensor components
`(xx, xy, yx, yy, zz)`. -/
noncomputable def fourierMatricesUniformAnisotropic (eps mu : TensorComponents 1 1) : Res (FourierMatrices ι) :=
  if eps.zz 0 0 = 0 ∨ mu.zz 0 0 = 0 then .error .nonFinite
  else .ok
    { inverseZPermittivity := diag fun _ => 1 / eps.zz 0 0, zPermittivity := diag fun _ => eps.zz 0 0,
      transversePermittivity := Matrix.fromBlocks (diag fun _ => eps.yy 0 0) (diag fun _ => -eps.yx 0 0)
        (diag fun _ => -eps.xy 0 0) (diag fun _ => eps.xx 0 0),
      inverseZPermeability := diag fun _ => 1 / mu.zz 0 0, zPermeability := diag fun _ => mu.zz 0 0,
      transversePermeability := Matrix.fromBlocks (diag fun _ => mu.xx 0 0) (diag fun _ => mu.xy 0 0)
        (diag fun _ => mu.yx 0 0) (diag fun _ => mu.yy 0 0) }

/-- fmm.py 553-658 `_eigensolve_uniform_general_anisotropic_media`. -/
noncomputable def eigensolveUniformAnisotropic (wavelength : ℝ) (inPlane : ℝ × ℝ) (l : LatticeVectors)
    (eps mu : TensorComponents 1 1) (G : ι → ℤ × ℤ) : Res (LayerSolveResult ι) := do
  let m ← fourierMatricesUniformAnisotropic eps mu
  numericalEigensolve eig wavelength inPlane l m G

/-- fmm.py 661-758 `_eigensolve_patterned_general_anisotropic_media`. -/
noncomputable def eigensolvePatternedAnisotropic (wavelength : ℝ) (inPlane : ℝ × ℝ) (l : LatticeVectors)
    (eps mu : TensorComponents nx ny) (G : ι → ℤ × ℤ) (formulation : Formulation nx ny ι) (source : Grid nx ny) :
    Res (LayerSolveResult ι) := do
  let m ← fourierMatricesPatternedAnisotropic l eps mu G formulation source
  numericalEigensolve eig wavelength inPlane l m G

/-- fmm.py 41-81 `eigensolve_isotropic_media`: a `1 × 1` permittivity is treated as uniform. -/
noncomputable def eigensolveIsotropicMedia (wavelength : ℝ) (inPlane : ℝ × ℝ) (l : LatticeVectors)
    (permittivity : Grid nx ny) (G : ι → ℤ × ℤ) (formulation : Formulation nx ny ι) : Res (LayerSolveResult ι) :=
  if h : nx = 1 ∧ ny = 1 then
    eigensolveUniformIsotropic wavelength inPlane l (permittivity ⟨0, by omega⟩ ⟨0, by omega⟩) G
  else eigensolvePatternedIsotropic eig wavelength inPlane l permittivity G formulation

/-- The single entries of `1 × 1` tensor components. -/
def TensorComponents.uniform (t : TensorComponents nx ny) (h : nx = 1 ∧ ny = 1) : TensorComponents 1 1 :=
  { xx := Matrix.of fun _ _ => t.xx ⟨0, by omega⟩ ⟨0, by omega⟩, xy := Matrix.of fun _ _ => t.xy ⟨0, by omega⟩ ⟨0, by omega⟩,
    yx := Matrix.of fun _ _ => t.yx ⟨0, by omega⟩ ⟨0, by omega⟩, yy := Matrix.of fun _ _ => t.yy ⟨0, by omega⟩ ⟨0, by omega⟩,
    zz := Matrix.of fun _ _ => t.zz ⟨0, by omega⟩ ⟨0, by omega⟩ }

/-- fmm.py 140-224 `eigensolve_general_anisotropic_media`. -/
noncomputable def eigensolveGeneralAnisotropicMedia (wavelength : ℝ) (inPlane : ℝ × ℝ) (l : LatticeVectors)
    (eps mu : TensorComponents nx ny) (G : ι → ℤ × ℤ) (formulation : Formulation nx ny ι)
    (source : Option (Grid nx ny)) : Res (LayerSolveResult ι) :=
  if h : nx = 1 ∧ ny = 1 then
    eigensolveUniformAnisotropic eig wavelength inPlane l (eps.uniform h) (mu.uniform h) G
  else
    eigensolvePatternedAnisotropic eig wavelength inPlane l eps mu G formulation
      (source.getD (Matrix.of fun r s => (eps.xx r s + eps.yy r s) / 2))

/-- fmm.py 84-137 `eigensolve_anisotropic_media`: unit permeability. -/
noncomputable def eigensolveAnisotropicMedia (wavelength : ℝ) (inPlane : ℝ × ℝ) (l : LatticeVectors)
    (eps : TensorComponents nx ny) (G : ι → ℤ × ℤ) (formulation : Formulation nx ny ι) : Res (LayerSolveResult ι) :=
  eigensolveGeneralAnisotropicMedia eig wavelength inPlane l eps
    { xx := Matrix.of fun _ _ => 1, xy := 0, yx := 0, yy := Matrix.of fun _ _ => 1, zz := Matrix.of fun _ _ => 1 }
    G formulation none

end Fmmax
