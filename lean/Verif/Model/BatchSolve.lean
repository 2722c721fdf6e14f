import Verif.Model.Shapes
import Verif.Model.Basis
import Verif.Model.Validation
import Verif.Model.Fmm
import Verif.Model.Scattering

/-!
The eigensolves of fmm.py and the scattering matrices of scattering.py on arrays with batch dimensions.

An array with trailing matrix axes is an nd-array over its batch axes whose elements are matrices.  A batch element is a `Res`:
a singular solve makes the entries of that batch element non-finite and leaves the others alone, while incompatible shapes raise
for the whole array.  Thicknesses are scalars (arrays of thicknesses are the subject of `Verif/Model/Thickness.lean`).
-/

namespace Fmmax

/-- An array with batch axes; each element is a value or non-finite. -/
abbrev Batch (α : Type) := NDArray (Res α)

/-- An operation on each batch element. -/
def Batch.map {α β : Type} (f : α → Res β) (a : Batch α) : Batch β := { shape := a.shape, get := fun i => a.get i >>= f }

/-- An operation on two arrays whose batch axes are broadcast. -/
def Batch.zip {α β γ : Type} (f : α → β → Res γ) (a : Batch α) (b : Batch β) : Res (Batch γ) :=
  NDArray.zipWith (fun x y => do
    let x ← x
    let y ← y
    f x y) a b

/-- `jnp.linalg.solve` with batch axes.  If the rank of the matrices exceeds that of the right-hand sides by one, some versions of
jax read the right-hand side as a batch of vectors; this case is an error here. -/
noncomputable def Batch.solve {n m : Type} [Fintype n] [DecidableEq n] (a : Batch (Matrix n n ℂ)) (b : Batch (Matrix n m ℂ)) :
    Res (Batch (Matrix n m ℂ)) :=
  if a.shape.length = b.shape.length + 1 then .error .typeError else a.zip Fmmax.solve b

/-- `a @ b` with batch axes. -/
noncomputable def Batch.mul {n : Type} [Fintype n] (a b : Batch (Matrix n n ℂ)) : Res (Batch (Matrix n n ℂ)) :=
  a.zip (fun x y => .ok (x * y)) b

/-- `v[..., jnp.newaxis] * a`. -/
noncomputable def Batch.rowScale {n m : Type} (v : Batch (n → ℂ)) (a : Batch (Matrix n m ℂ)) : Res (Batch (Matrix n m ℂ)) :=
  v.zip (fun v x => .ok (Fmmax.rowScale v x)) a

/-- `a * v[..., jnp.newaxis, :]`. -/
noncomputable def Batch.colScale {n m : Type} (a : Batch (Matrix n m ℂ)) (v : Batch (m → ℂ)) : Res (Batch (Matrix n m ℂ)) :=
  a.zip (fun x v => .ok (Fmmax.colScale x v)) v

/-- `a + b` with batch axes. -/
noncomputable def Batch.add {α : Type} [Add α] (a b : Batch α) : Res (Batch α) := a.zip (fun x y => .ok (x + y)) b

/-- `a - b` with batch axes. -/
noncomputable def Batch.sub {α : Type} [Sub α] (a b : Batch α) : Res (Batch α) := a.zip (fun x y => .ok (x - y)) b

/-- `jnp.block([[a, b], [c, d]])`: the batch shapes must agree. -/
noncomputable def Batch.block {n : Type} (a b c d : Batch (Matrix n n ℂ)) : Res (Batch (Matrix (n ⊕ n) (n ⊕ n) ℂ)) :=
  if a.shape = b.shape ∧ a.shape = c.shape ∧ a.shape = d.shape then
    .ok { shape := a.shape,
          get := fun i => do
            let x ← a.get i
            let y ← b.get i
            let z ← c.get i
            let w ← d.get i
            .ok (Matrix.fromBlocks x y z w) }
  else .error .typeError

section Matrices

variable {ι : Type} [Fintype ι] [DecidableEq ι]

/-- fmm_matrices.py 56-71 `script_k_matrix_patterned`. -/
noncomputable def scriptKMatrixBatch (z : Batch (Matrix ι ι ℂ)) (k : Batch (ι → ℝ × ℝ)) :
    Res (Batch (Matrix (ι ⊕ ι) (ι ⊕ ι) ℂ)) := do
  let kx : Batch (ι → ℂ) := k.map fun k => .ok (kxOf k)
  let ky : Batch (ι → ℂ) := k.map fun k => .ok (kyOf k)
  let zInvKx ← z.solve (kx.map fun v => .ok (diag v))
  let zInvKy ← z.solve (ky.map fun v => .ok (diag v))
  let a ← ky.rowScale zInvKy
  let b ← (ky.map fun v => .ok fun i => -v i).rowScale zInvKx
  let c ← (kx.map fun v => .ok fun i => -v i).rowScale zInvKy
  let d ← kx.rowScale zInvKx
  Batch.block a b c d

/-- fmm_matrices.py 74-89 `k_matrix_patterned`. -/
noncomputable def kMatrixBatch (z : Batch (Matrix ι ι ℂ)) (k : Batch (ι → ℝ × ℝ)) :
    Res (Batch (Matrix (ι ⊕ ι) (ι ⊕ ι) ℂ)) := do
  let kx : Batch (ι → ℂ) := k.map fun k => .ok (kxOf k)
  let ky : Batch (ι → ℂ) := k.map fun k => .ok (kyOf k)
  let zInvKx ← z.solve (kx.map fun v => .ok (diag v))
  let zInvKy ← z.solve (ky.map fun v => .ok (diag v))
  let a ← kx.rowScale zInvKx
  let b ← kx.rowScale zInvKy
  let c ← ky.rowScale zInvKx
  let d ← ky.rowScale zInvKy
  Batch.block a b c d

/-- fmm_matrices.py 14-27 `omega_script_k_matrix_patterned`. -/
noncomputable def omegaScriptKMatrixBatch (wavelength : NDArray ℝ) (z : Batch (Matrix ι ι ℂ))
    (mu : Batch (Matrix (ι ⊕ ι) (ι ⊕ ι) ℂ)) (k : Batch (ι → ℝ × ℝ)) : Res (Batch (Matrix (ι ⊕ ι) (ι ⊕ ι) ℂ)) := do
  let scriptK ← scriptKMatrixBatch z k
  let omegaSquared : Batch ℂ := wavelength.map fun w => do
    let o ← angularFrequency w
    .ok ((o : ℂ) ^ 2)
  let x ← omegaSquared.zip (fun o m => .ok (o • m)) mu
  x.sub scriptK

/-- The matrices passed to `_numerical_eigensolve` (fmm.py 766-778). -/
structure BatchMatrices (ι : Type) where
  inverseZPermittivity : Batch (Matrix ι ι ℂ)
  zPermittivity : Batch (Matrix ι ι ℂ)
  transversePermittivity : Batch (Matrix (ι ⊕ ι) (ι ⊕ ι) ℂ)
  inverseZPermeability : Batch (Matrix ι ι ℂ)
  zPermeability : Batch (Matrix ι ι ℂ)
  transversePermeability : Batch (Matrix (ι ⊕ ι) (ι ⊕ ι) ℂ)

end Matrices

variable {n : ℕ}

/-- fmm.py 227-265 `LayerSolveResult`, with batch axes.  Of the tangent vector field only the rank is kept. -/
structure BatchLayer (n : ℕ) where
  wavelength : NDArray ℝ
  inPlaneWavevector : NDArray ℝ
  u : NDArray ℝ
  v : NDArray ℝ
  expansion : Fin n → ℤ × ℤ
  eigenvalues : Batch (Fin n ⊕ Fin n → ℂ)
  eigenvectors : Batch (Matrix (Fin n ⊕ Fin n) (Fin n ⊕ Fin n) ℂ)
  zPermittivity : Batch (Matrix (Fin n) (Fin n) ℂ)
  inverseZPermittivity : Batch (Matrix (Fin n) (Fin n) ℂ)
  zPermeability : Batch (Matrix (Fin n) (Fin n) ℂ)
  inverseZPermeability : Batch (Matrix (Fin n) (Fin n) ℂ)
  transversePermeability : Batch (Matrix (Fin n ⊕ Fin n) (Fin n ⊕ Fin n) ℂ)
  tangentNdim : Option ℕ

/-- The shapes of the attributes, with their trailing axes. -/
def BatchLayer.shapes (l : BatchLayer n) : LayerShapes :=
  { wavelength := l.wavelength.shape, inPlaneWavevector := l.inPlaneWavevector.shape, u := l.u.shape, v := l.v.shape,
    numTerms := n, eigenvalues := l.eigenvalues.shape ++ [2 * n], eigenvectors := l.eigenvectors.shape ++ [2 * n, 2 * n],
    zPermittivity := l.zPermittivity.shape ++ [n, n], inverseZPermittivity := l.inverseZPermittivity.shape ++ [n, n],
    zPermeability := l.zPermeability.shape ++ [n, n], inverseZPermeability := l.inverseZPermeability.shape ++ [n, n],
    transversePermeability := l.transversePermeability.shape ++ [2 * n, 2 * n], tangentNdim := l.tangentNdim }

/-- The construction of a `LayerSolveResult` runs `__post_init__` (fmm.py 285-369). -/
def BatchLayer.build (l : BatchLayer n) : Res (BatchLayer n) := do
  layerSolveResultPostInit l.shapes
  .ok l

/-- An array of transverse wavevectors of shape `(..., num_terms, 2)`, by batch element. -/
def waveVectors (k : NDArray ℝ) : Batch (Fin n → ℝ × ℝ) :=
  { shape := dropLastN 2 k.shape, get := fun b => .ok fun t => (k.get (b ++ [(t : ℕ), 0]), k.get (b ++ [(t : ℕ), 1])) }

/-- An array of shape `(..., nx, ny)`, by batch element. -/
def gridsOf (p : NDArray ℂ) (nx ny : ℕ) : Batch (Grid nx ny) :=
  { shape := dropLastN 2 p.shape, get := fun b => .ok (Matrix.of fun r s => p.get (b ++ [(r : ℕ), (s : ℕ)])) }

/-- fmm.py 766-846 `_numerical_eigensolve`. -/
noncomputable def numericalEigensolveBatch
    (eig : Matrix (Fin n ⊕ Fin n) (Fin n ⊕ Fin n) ℂ → (Fin n ⊕ Fin n → ℂ) × Matrix (Fin n ⊕ Fin n) (Fin n ⊕ Fin n) ℂ)
    (wavelength inPlane u v : NDArray ℝ) (m : BatchMatrices (Fin n)) (G : Fin n → ℤ × ℤ)
    (tangentNdim : Option ℕ) : Res (BatchLayer n) := do
  let kt ← transverseWavevectorsBatch inPlane u v G
  let k : Batch (Fin n → ℝ × ℝ) := waveVectors kt
  let kMatrix ← kMatrixBatch m.zPermeability k
  let omegaScriptK ← omegaScriptKMatrixBatch wavelength m.zPermittivity m.transversePermeability k
  let x ← m.transversePermittivity.mul omegaScriptK
  let y ← kMatrix.mul m.transversePermeability
  let matrix ← x.sub y
  BatchLayer.build
    { wavelength := wavelength, inPlaneWavevector := inPlane, u := u, v := v, expansion := G,
      eigenvalues := matrix.map fun A => .ok fun i => selectEigenvaluesSign (csqrt ((eig A).1 i)),
      eigenvectors := matrix.map fun A => .ok (eig A).2,
      zPermittivity := m.zPermittivity, inverseZPermittivity := m.inverseZPermittivity, zPermeability := m.zPermeability,
      inverseZPermeability := m.inverseZPermeability, transversePermeability := m.transversePermeability,
      tangentNdim := tangentNdim }

/-- The matrices of each batch element, from an array of Fourier matrices. -/
def BatchMatrices.of {ι : Type} (m : Batch (FourierMatrices ι)) : BatchMatrices ι :=
  { inverseZPermittivity := m.map fun m => .ok m.inverseZPermittivity, zPermittivity := m.map fun m => .ok m.zPermittivity,
    transversePermittivity := m.map fun m => .ok m.transversePermittivity,
    inverseZPermeability := m.map fun m => .ok m.inverseZPermeability, zPermeability := m.map fun m => .ok m.zPermeability,
    transversePermeability := m.map fun m => .ok m.transversePermeability }

/-- The pair of lattice vectors at the first batch element. -/
def firstLattice (u v : NDArray ℝ) : LatticeVectors :=
  let z := List.replicate (u.shape.length - 1) 0
  { u := (u.get (z ++ [0]), u.get (z ++ [1])), v := (v.get (z ++ [0]), v.get (z ++ [1])) }

/-- The rank of the tangent vector field of a formulation: that of the array from which it is computed. -/
def tangentRank {nx ny : ℕ} {ι : Type} (p : NDArray ℂ) : Formulation nx ny ι → Option ℕ
  | .fft => none
  | .vector _ => some p.shape.length

variable (eig : Matrix (Fin n ⊕ Fin n) (Fin n ⊕ Fin n) ℂ → (Fin n ⊕ Fin n → ℂ) × Matrix (Fin n ⊕ Fin n) (Fin n ⊕ Fin n) ℂ)

/-- fmm.py 478-550 `_eigensolve_patterned_isotropic_media`.  Every array of `fourier_matrices_patterned_isotropic_media` (854-916)
has the batch shape of the permittivity, so that function acts on each batch element.  A vector formulation is a function of one
batch element and one lattice (`compute_tangent_field` with batch axes is modelled in `Verif/Model/VectorBatch.lean`). -/
noncomputable def eigensolvePatternedIsotropicBatch {nx ny : ℕ} (wavelength inPlane u v : NDArray ℝ) (permittivity : NDArray ℂ)
    (G : Fin n → ℤ × ℤ) (formulation : Formulation nx ny (Fin n)) : Res (BatchLayer n) := do
  let args ← validateAndBroadcast wavelength inPlane u v [permittivity]
  match args.permittivities with
  | [p] =>
    numericalEigensolveBatch eig args.angularFrequency args.inPlaneWavevector args.u args.v
      (BatchMatrices.of ((gridsOf p nx ny).map fun p =>
        fourierMatricesPatternedIsotropic (firstLattice args.u args.v) p G formulation)) G (tangentRank p formulation)
  | _ => .error .valueError

/-- Five arrays of shape `(..., nx, ny)` as an array of tensor components. -/
def tensorsOf (xx xy yx yy zz : NDArray ℂ) (nx ny : ℕ) : Batch (TensorComponents nx ny) :=
  { shape := dropLastN 2 xx.shape,
    get := fun b => .ok
      { xx := Matrix.of fun r s => xx.get (b ++ [(r : ℕ), (s : ℕ)]), xy := Matrix.of fun r s => xy.get (b ++ [(r : ℕ), (s : ℕ)]),
        yx := Matrix.of fun r s => yx.get (b ++ [(r : ℕ), (s : ℕ)]), yy := Matrix.of fun r s => yy.get (b ++ [(r : ℕ), (s : ℕ)]),
        zz := Matrix.of fun r s => zz.get (b ++ [(r : ℕ), (s : ℕ)]) } }

/-- fmm.py 661-758 `_eigensolve_patterned_general_anisotropic_media`.  The eleven arrays have the same shape, by
`_validate_and_broadcast`, and `fourier_matrices_patterned_anisotropic_media` (919-1047) acts on each batch element. -/
noncomputable def eigensolvePatternedAnisotropicBatch {nx ny : ℕ} (wavelength inPlane u v : NDArray ℝ)
    (exx exy eyx eyy ezz mxx mxy myx myy mzz source : NDArray ℂ) (G : Fin n → ℤ × ℤ) (formulation : Formulation nx ny (Fin n)) :
    Res (BatchLayer n) := do
  let args ← validateAndBroadcast wavelength inPlane u v [exx, exy, eyx, eyy, ezz, mxx, mxy, myx, myy, mzz, source]
  match args.permittivities with
  | [exx, exy, eyx, eyy, ezz, mxx, mxy, myx, myy, mzz, source] => do
    let tensors ← (tensorsOf exx exy eyx eyy ezz nx ny).zip (fun e m => .ok (e, m)) (tensorsOf mxx mxy myx myy mzz nx ny)
    let matrices ← tensors.zip (fun t s => fourierMatricesPatternedAnisotropic (firstLattice args.u args.v) t.1 t.2 G formulation s)
      (gridsOf source nx ny)
    numericalEigensolveBatch eig args.angularFrequency args.inPlaneWavevector args.u args.v (BatchMatrices.of matrices) G
      (tangentRank source formulation)
  | _ => .error .valueError

/-- `jnp.broadcast_to` on batch axes. -/
def NDArray.broadcastTo {α : Type} (a : NDArray α) (shape : List ℕ) : Res (NDArray α) :=
  if broadcastShapes a.shape shape = some shape then
    .ok { shape := shape, get := fun i => a.get (broadcastIndex a.shape i) }
  else .error .valueError

/-- `jnp.broadcast_shapes` of three shapes. -/
def broadcastShapes3 (a b c : List ℕ) : Res (List ℕ) :=
  match broadcastShapes a b with
  | none => .error .valueError
  | some s =>
    match broadcastShapes s c with
    | none => .error .valueError
    | some t => .ok t

/-- fmm.py 553-658 `_eigensolve_uniform_general_anisotropic_media`. -/
noncomputable def eigensolveUniformAnisotropicBatch (wavelength inPlane u v : NDArray ℝ)
    (exx exy eyx eyy ezz mxx mxy myx myy mzz : NDArray ℂ) (G : Fin n → ℤ × ℤ) : Res (BatchLayer n) :=
  if ¬([exx, exy, eyx, eyy, ezz, mxx, mxy, myx, myy, mzz].all fun p => isUniformShape p.shape) then .error .valueError
  else do
    let args ← validateAndBroadcast wavelength inPlane u v [exx, exy, eyx, eyy, ezz, mxx, mxy, myx, myy, mzz]
    match args.permittivities with
    | [exx, exy, eyx, eyy, ezz, mxx, mxy, myx, myy, mzz] => do
      let shape ← broadcastShapes3 args.angularFrequency.shape (dropLastN 1 args.inPlaneWavevector.shape) (dropLastN 2 exx.shape)
      let eps ← NDArray.broadcastTo (tensorsOf exx exy eyx eyy ezz 1 1) shape
      let mu ← NDArray.broadcastTo (tensorsOf mxx mxy myx myy mzz 1 1) shape
      let matrices ← Batch.zip fourierMatricesUniformAnisotropic eps mu
      numericalEigensolveBatch eig args.angularFrequency args.inPlaneWavevector args.u args.v (BatchMatrices.of matrices) G none
    | _ => .error .valueError

/-- The position of a mode along an axis of length `2 * num_terms`. -/
def modePosition : Fin n ⊕ Fin n → ℕ
  | .inl t => t
  | .inr t => n + t

/-- `jnp.tile(x, 2)`: the last axis is repeated. -/
def NDArray.tileTwice {α : Type} (x : NDArray α) : NDArray α :=
  { shape := x.shape.dropLast ++ [2 * x.shape.getLastD 0],
    get := fun i => x.get (i.dropLast ++ [i.getLastD 0 % x.shape.getLastD 0]) }

/-- An array of shape `(..., 2 * num_terms)`, by batch element. -/
def modesOf (x : NDArray ℂ) : Batch (Fin n ⊕ Fin n → ℂ) :=
  { shape := x.shape.dropLast, get := fun b => .ok fun j => x.get (b ++ [modePosition j]) }

/-- `utils.diag` (utils.py 27-32) of an array of shape `(..., num_terms)`, by batch element. -/
def diagOf (x : NDArray ℂ) : Batch (Matrix (Fin n) (Fin n) ℂ) :=
  { shape := x.shape.dropLast, get := fun b => .ok (diag fun t => x.get (b ++ [(t : ℕ)])) }

/-- `1 / x` for an array of scalars by batch element: a zero makes that element non-finite. -/
noncomputable def recipOf (x : NDArray ℂ) : NDArray ℂ := x.map fun z => 1 / z

/-- fmm.py 377-475 `_eigensolve_uniform_isotropic_media`, with all axes explicit.  Division by zero is not modelled here (theorems
assume nonzero wavelengths and permittivities). -/
noncomputable def eigensolveUniformIsotropicBatch (wavelength inPlane u v : NDArray ℝ) (permittivity : NDArray ℂ)
    (G : Fin n → ℤ × ℤ) : Res (BatchLayer n) := do
  let args ← validateAndBroadcast wavelength inPlane u v [permittivity]
  match args.permittivities with
  | [p] =>
    if ¬isUniformShape p.shape then .error .valueError
    else do
      let batch ← broadcastShapes3 args.angularFrequency.shape (dropLastN 1 args.inPlaneWavevector.shape) (dropLastN 2 p.shape)
      let eps : NDArray ℂ := { shape := dropLastN 2 p.shape, get := fun b => p.get (b ++ [0, 0]) }
      let kt ← transverseWavevectorsBatch args.inPlaneWavevector args.u args.v G
      let omega := args.angularFrequency.map fun w => 2 * Real.pi / w
      let kx := kt.selectLast 0
      let ky := kt.selectLast 1
      let x ← eps.expandLast.zipWith (fun e (o : ℝ) => e * (o : ℂ) ^ 2) omega.expandLast
      let x ← x.zipWith (fun x (k : ℝ) => x - (k : ℂ) ^ 2) kx
      let x ← x.zipWith (fun x (k : ℝ) => x - (k : ℂ) ^ 2) ky
      let q := (x.map fun x => selectEigenvaluesSign (csqrt x)).tileTwice
      let batch' := q.shape.dropLast
      let inverseZ ← NDArray.broadcastTo (recipOf eps.expandLast) (batch' ++ [n])
      let z ← NDArray.broadcastTo eps.expandLast (batch' ++ [n])
      let ones : Batch (Matrix (Fin n) (Fin n) ℂ) := { shape := z.shape.dropLast, get := fun _ => .ok (diag fun _ => 1) }
      BatchLayer.build
        { wavelength := args.angularFrequency, inPlaneWavevector := args.inPlaneWavevector, u := args.u, v := args.v,
          expansion := G, eigenvalues := modesOf q, eigenvectors := { shape := batch, get := fun _ => .ok 1 },
          zPermittivity := diagOf z, inverseZPermittivity := diagOf inverseZ, zPermeability := ones, inverseZPermeability := ones,
          transversePermeability := { shape := q.shape.dropLast, get := fun _ => .ok (diag fun _ => 1) }, tangentNdim := none }
  | _ => .error .valueError

/-- fmm.py 41-81 `eigensolve_isotropic_media`. -/
noncomputable def eigensolveIsotropicMediaBatch {nx ny : ℕ} (wavelength inPlane u v : NDArray ℝ) (permittivity : NDArray ℂ)
    (G : Fin n → ℤ × ℤ) (formulation : Formulation nx ny (Fin n)) : Res (BatchLayer n) :=
  if isUniformShape permittivity.shape then eigensolveUniformIsotropicBatch wavelength inPlane u v permittivity G
  else eigensolvePatternedIsotropicBatch eig wavelength inPlane u v permittivity G formulation

/-- fmm.py 143-224 `eigensolve_general_anisotropic_media`, with the default source of the vector field (195-197). -/
noncomputable def eigensolveGeneralAnisotropicMediaBatch {nx ny : ℕ} (wavelength inPlane u v : NDArray ℝ)
    (exx exy eyx eyy ezz mxx mxy myx myy mzz : NDArray ℂ) (source : Option (NDArray ℂ)) (G : Fin n → ℤ × ℤ)
    (formulation : Formulation nx ny (Fin n)) : Res (BatchLayer n) :=
  if isUniformShape exx.shape then
    eigensolveUniformAnisotropicBatch eig wavelength inPlane u v exx exy eyx eyy ezz mxx mxy myx myy mzz G
  else do
    let source ← match source with
      | some s => Except.ok s
      | none => exx.zipWith (fun x y => (x + y) / 2) eyy
    eigensolvePatternedAnisotropicBatch eig wavelength inPlane u v exx exy eyx eyy ezz mxx mxy myx myy mzz source G formulation

/-- fmm.py 84-137 `eigensolve_anisotropic_media`: unit permeability. -/
noncomputable def eigensolveAnisotropicMediaBatch {nx ny : ℕ} (wavelength inPlane u v : NDArray ℝ)
    (exx exy eyx eyy ezz : NDArray ℂ) (G : Fin n → ℤ × ℤ) (formulation : Formulation nx ny (Fin n)) : Res (BatchLayer n) :=
  let ones : NDArray ℂ := exx.map fun _ => 1
  let zeros : NDArray ℂ := exx.map fun _ => 0
  eigensolveGeneralAnisotropicMediaBatch eig wavelength inPlane u v exx exy eyx eyy ezz ones zeros zeros ones ones none G formulation

/-! ### Scattering matrices -/

/-- fmm.py 271-283 `omega_script_k_matrix`. -/
noncomputable def BatchLayer.omegaScriptKMatrix (l : BatchLayer n) : Res (Batch (ModeMatrix (Fin n))) := do
  let kt ← transverseWavevectorsBatch l.inPlaneWavevector l.u l.v l.expansion
  omegaScriptKMatrixBatch l.wavelength l.zPermittivity l.transversePermeability (waveVectors kt)

/-- scattering.py 17-68 `ScatteringMatrix`, with batch axes. -/
structure BatchScatteringMatrix (n : ℕ) where
  s11 : Batch (ModeMatrix (Fin n))
  s12 : Batch (ModeMatrix (Fin n))
  s21 : Batch (ModeMatrix (Fin n))
  s22 : Batch (ModeMatrix (Fin n))
  startLayer : BatchLayer n
  startThickness : ℝ
  endLayer : BatchLayer n
  endThickness : ℝ

/-- Interface matrices `(i11, i12)`, scattering.py 414-439 (and identically 476-495). -/
noncomputable def interfaceMatricesBatch (layer next : BatchLayer n) :
    Res (Batch (ModeMatrix (Fin n)) × Batch (ModeMatrix (Fin n))) := do
  let omegaK ← layer.omegaScriptKMatrix
  let nextOmegaK ← next.omegaScriptKMatrix
  let a ← omegaK.mul layer.eigenvectors
  let b ← nextOmegaK.mul next.eigenvectors
  let b ← b.colScale (next.eigenvalues.map recip)
  let x1 ← a.solve b
  let term1 ← layer.eigenvalues.rowScale x1
  let c ← omegaK.mul next.eigenvectors
  let term2 ← a.solve c
  let p ← term1.add term2
  let m ← (term1.map fun x => .ok (-x)).add term2
  .ok (p.map fun x => .ok ((1 / 2 : ℂ) • x), m.map fun x => .ok ((1 / 2 : ℂ) • x))

/-- The phases `jnp.exp(1j * q * thickness)` for a scalar thickness (scattering.py 443-444, 497-498). -/
noncomputable def phaseBatch (q : Batch (Fin n ⊕ Fin n → ℂ)) (thickness : ℝ) : Batch (Fin n ⊕ Fin n → ℂ) :=
  q.map fun q => .ok (phase q thickness)

/-- scattering.py 467-514 `_pair_s_matrix`. -/
noncomputable def pairSMatrixBatch (layer : BatchLayer n) (thickness : ℝ) (next : BatchLayer n) (nextThickness : ℝ) :
    Res (BatchScatteringMatrix n) := do
  let (i11, i12) ← interfaceMatricesBatch layer next
  let fd := phaseBatch layer.eigenvalues thickness
  let fdNext := phaseBatch next.eigenvalues nextThickness
  let fdDiag : Batch (ModeMatrix (Fin n)) := fd.map fun v => .ok (diag v)
  let s11 ← i11.solve (fdDiag.atleastNd i11.shape.length)
  let x ← (i12.map fun x => .ok (-x)).colScale fdNext
  let s12 ← i11.solve x
  let s21 ← i12.mul s11
  let y ← i12.mul s12
  let z ← i11.colScale fdNext
  let s22 ← y.add z
  .ok { s11 := s11, s12 := s12, s21 := s21, s22 := s22, startLayer := layer, startThickness := thickness,
        endLayer := next, endThickness := nextThickness }

/-- scattering.py 391-464 `_extend_s_matrix`, called by `append_layer` (313-347). -/
noncomputable def appendLayerBatch (s : BatchScatteringMatrix n) (next : BatchLayer n) (nextThickness : ℝ) :
    Res (BatchScatteringMatrix n) := do
  let (i11, i12) ← interfaceMatricesBatch s.endLayer next
  let fd := phaseBatch s.endLayer.eigenvalues s.endThickness
  let fdNext := phaseBatch next.eigenvalues nextThickness
  let x ← fd.rowScale s.s12
  let y ← x.mul i12
  let term3 ← i11.sub y
  let f ← fd.rowScale s.s11
  let s11Next ← term3.solve f
  let g ← x.mul i11
  let g ← g.sub i12
  let g ← g.colScale fdNext
  let s12Next ← term3.solve g
  let h ← s.s22.mul i12
  let h1 ← h.mul s11Next
  let s21Next ← h1.add s.s21
  let h2 ← h.mul s12Next
  let h3 ← s.s22.mul i11
  let h3 ← h3.colScale fdNext
  let s22Next ← h2.add h3
  .ok { s11 := s11Next, s12 := s12Next, s21 := s21Next, s22 := s22Next, startLayer := s.startLayer,
        startThickness := s.startThickness, endLayer := next, endThickness := nextThickness }

/-- The loop of scattering.py 197-209, last matrix only. -/
noncomputable def appendLoopBatch (s : BatchScatteringMatrix n) : List (BatchLayer n × ℝ) → Res (BatchScatteringMatrix n)
  | [] => .ok s
  | (l, d) :: rest => do
    let s' ← appendLayerBatch s l d
    appendLoopBatch s' rest

/-- scattering.py 71-91, 147-210 `stack_s_matrix`, with batch axes. -/
noncomputable def stackSMatrixBatch (layers : List (BatchLayer n)) (thicknesses : List ℝ) : Res (BatchScatteringMatrix n) :=
  if layers.length ≠ thicknesses.length then .error .valueError
  else match layers.zip thicknesses with
    | [] => .error .indexError
    | [(l, d)] =>
      let eye : Batch (ModeMatrix (Fin n)) := l.eigenvalues.map fun _ => .ok (diag fun _ => 1)
      let zeros : Batch (ModeMatrix (Fin n)) := l.eigenvalues.map fun _ => .ok 0
      .ok { s11 := eye, s12 := zeros, s21 := zeros, s22 := eye, startLayer := l, startThickness := d, endLayer := l,
            endThickness := d }
    | (l0, d0) :: (l1, d1) :: rest => do
      let s ← pairSMatrixBatch l0 d0 l1 d1
      appendLoopBatch s rest

end Fmmax
