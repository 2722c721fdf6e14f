import Verif.Model.BatchStack
import Verif.Model.Fields

/-!
fields.py on arrays with batch dimensions: amplitudes inside a stack, Poynting flux, fields in the Fourier basis.

Amplitudes of shape `(..., 2 * num_terms, num_amplitudes)` are arrays of matrices; the trailing axes of all amplitudes of one call have
the same length (an axis of length one is not broadcast).
-/

namespace Fmmax

variable {n m : ℕ}

/-- Wave amplitudes with leading batch axes. -/
abbrev Amplitudes (n m : ℕ) := Batch (Matrix (Fin n ⊕ Fin n) (Fin m) ℂ)

/-- `a @ b` for matrices of any size, with batch axes. -/
noncomputable def Batch.matmul {a b c : Type} [Fintype b] (x : Batch (Matrix a b ℂ)) (y : Batch (Matrix b c ℂ)) :
    Res (Batch (Matrix a c ℂ)) :=
  x.zip (fun x y => .ok (x * y)) y

/-- `utils.angular_frequency_for_wavelength` (utils.py 35-37) of an array. -/
noncomputable def angularFrequencyBatch (wavelength : NDArray ℝ) : Batch ℂ := wavelength.map fun w => do
  let o ← angularFrequency w
  .ok (o : ℂ)

/-- fields.py 86-98 `_validate_amplitudes_shape` of two amplitudes. -/
def validateAmplitudesBatch (a b : Amplitudes n m) : Res Unit :=
  validateAmplitudesShape [a.shape ++ [2 * n, m], b.shape ++ [2 * n, m]] (2 * n)

/-! ### Amplitudes inside a stack -/

/-- fields.py 648-693 `amplitudes_interior`. -/
noncomputable def amplitudesInteriorBatch (before after : BatchScatteringMatrix n) (a0 bN : Amplitudes n m) :
    Res (Amplitudes n m × Amplitudes n m) := do
  validateAmplitudesBatch a0 bN
  let x ← before.s11.matmul a0
  let y ← before.s12.mul after.s22
  let y ← y.matmul bN
  let rhs ← x.add y
  let p ← before.s12.mul after.s21
  let mat : Batch (ModeMatrix (Fin n)) := p.map fun p => .ok (1 - p)
  let ai ← mat.solve rhs
  let u ← after.s21.matmul ai
  let v ← after.s22.matmul bN
  let bi ← u.add v
  .ok (ai, bi)

/-- fields.py 568-605 `stack_amplitudes_interior`. -/
noncomputable def stackAmplitudesInteriorBatch (a0 bN : Amplitudes n m) :
    List (BatchScatteringMatrix n × BatchScatteringMatrix n) → Res (List (Amplitudes n m × Amplitudes n m))
  | [] => .ok []
  | (before, after) :: rest => do
    let ab ← amplitudesInteriorBatch before after a0 bN
    let tail ← stackAmplitudesInteriorBatch a0 bN rest
    .ok (ab :: tail)

/-- `jnp.zeros_like`. -/
noncomputable def Batch.zerosLike (a : Amplitudes n m) : Amplitudes n m := { shape := a.shape, get := fun _ => .ok 0 }

/-- fields.py 608-645 `stack_amplitudes_interior_with_source`. -/
noncomputable def stackAmplitudesInteriorWithSourceBatch (before after : List (BatchScatteringMatrix n × BatchScatteringMatrix n))
    (bBeforeEnd aAfterStart : Amplitudes n m) : Res (List (Amplitudes n m × Amplitudes n m)) := do
  let x ← stackAmplitudesInteriorBatch bBeforeEnd.zerosLike bBeforeEnd before
  let y ← stackAmplitudesInteriorBatch aAfterStart aAfterStart.zerosLike after
  .ok (x ++ y)

/-! ### Poynting flux -/

/-- fields.py 262-274 `_poynting_flux_a_matrix` (the same expression as `mat` in 352-370). -/
noncomputable def poyntingFluxAMatrixBatch (l : BatchLayer n) : Res (Batch (ModeMatrix (Fin n))) := do
  let omegaK ← l.omegaScriptKMatrix
  let x ← omegaK.mul l.eigenvectors
  let wq ← (angularFrequencyBatch l.wavelength).zip (fun w q => .ok fun i => w * q i) l.eigenvalues
  let d : Batch (ModeMatrix (Fin n)) := (wq.map recip).map fun v => .ok (diag v)
  x.mul d

/-- `jnp.conj(x) * y`, elementwise. -/
noncomputable def Batch.conjMul {a b : Type} (x y : Batch (Matrix a b ℂ)) : Res (Batch (Matrix a b ℂ)) :=
  x.zip (fun x y => .ok (Matrix.of fun i c => star (x i c) * y i c)) y

/-- `jnp.real(0.5 * x)`. -/
noncomputable def Batch.halfReal {a b : Type} (x : Batch (Matrix a b ℂ)) : Batch (Matrix a b ℝ) :=
  x.map fun x => .ok (Matrix.of fun i c => ((1 / 2 : ℂ) * x i c).re)

/-- fields.py 101-153 `amplitude_poynting_flux`. -/
noncomputable def amplitudePoyntingFluxBatch (a b : Amplitudes n m) (l : BatchLayer n) :
    Res (Batch (Matrix (Fin n ⊕ Fin n) (Fin m) ℝ) × Batch (Matrix (Fin n ⊕ Fin n) (Fin m) ℝ)) := do
  validateAmplitudesBatch a b
  let alphaH ← l.eigenvectors.matmul a
  let betaH ← l.eigenvectors.matmul b
  let A ← poyntingFluxAMatrixBatch l
  let alphaE ← A.matmul a
  let betaE ← A.matmul b
  let x ← alphaE.conjMul alphaH
  let y ← alphaH.conjMul alphaE
  let xy ← x.add y
  let p ← betaH.conjMul alphaE
  let q ← betaE.conjMul alphaH
  let pq ← p.sub q
  let sForward ← xy.add pq
  let u ← betaE.conjMul betaH
  let v ← betaH.conjMul betaE
  let uv ← u.add v
  let sBackward ← (uv.map fun x => .ok (-x)).add (pq.map fun x => .ok (Matrix.of fun i c => star (x i c)))
  .ok (sForward.halfReal, sBackward.halfReal)

/-- fields.py 237-259 `eigenmode_poynting_flux`. -/
noncomputable def eigenmodePoyntingFluxBatch (l : BatchLayer n) : Res (Batch (Fin n ⊕ Fin n → ℝ)) := do
  let alphaE ← poyntingFluxAMatrixBatch l
  let x ← alphaE.conjMul l.eigenvectors
  let y ← l.eigenvectors.conjMul alphaE
  let s ← x.add y
  let flux : Batch (Fin n ⊕ Fin n → ℝ) := s.halfReal.map fun s => .ok fun j => ∑ i, s i j
  if flux.shape = l.eigenvalues.shape then .ok flux else .error .assertionError

/-- fields.py 213-222 `_poynting_flux_subset`. -/
noncomputable def poyntingFluxSubsetBatch (A phi : Batch (ModeMatrix (Fin n))) (aTotal bTotal aSubset bSubset : Amplitudes n m) :
    Res (Batch (Matrix (Fin n ⊕ Fin n) (Fin m) ℝ)) := do
  let x ← aTotal.sub bTotal
  let x ← A.matmul x
  let y ← aSubset.add bSubset
  let y ← phi.matmul y
  let xy ← x.conjMul y
  let u ← aTotal.add bTotal
  let u ← phi.matmul u
  let v ← aSubset.sub bSubset
  let v ← A.matmul v
  let uv ← u.conjMul v
  let s ← xy.add uv
  .ok s.halfReal

/-- fields.py 156-234 `directional_poynting_flux`. -/
noncomputable def directionalPoyntingFluxBatch (a b : Amplitudes n m) (l : BatchLayer n) :
    Res (Batch (Matrix (Fin n ⊕ Fin n) (Fin m) ℝ) × Batch (Matrix (Fin n ⊕ Fin n) (Fin m) ℝ)) := do
  let flux ← eigenmodePoyntingFluxBatch l
  let aFwd ← flux.zip (fun f x => .ok (maskRows (fun i => 0 < f i) x)) a
  let aBwd ← flux.zip (fun f x => .ok (maskRows (fun i => ¬0 < f i) x)) a
  let bFwd ← flux.zip (fun f x => .ok (maskRows (fun i => ¬0 < f i) x)) b
  let bBwd ← flux.zip (fun f x => .ok (maskRows (fun i => 0 < f i) x)) b
  let A ← poyntingFluxAMatrixBatch l
  let sForward ← poyntingFluxSubsetBatch A l.eigenvectors a b aFwd bFwd
  let sBackward ← poyntingFluxSubsetBatch A l.eigenvectors a b aBwd bBwd
  .ok (sForward, sBackward)

/-! ### Fields in the Fourier basis -/

/-- fields.py 352-370 `field_conversion_matrix`. -/
noncomputable def fieldConversionMatrixBatch (l : BatchLayer n) :
    Res (Batch (Matrix ((Fin n ⊕ Fin n) ⊕ (Fin n ⊕ Fin n)) ((Fin n ⊕ Fin n) ⊕ (Fin n ⊕ Fin n)) ℂ)) := do
  let mat ← poyntingFluxAMatrixBatch l
  Batch.block mat (mat.map fun x => .ok (-x)) l.eigenvectors l.eigenvectors

/-- `jnp.concatenate([a, b], axis=-2)`: the batch shapes must agree. -/
noncomputable def Batch.concatRows {p q c : Type} (a : Batch (Matrix p c ℂ)) (b : Batch (Matrix q c ℂ)) :
    Res (Batch (Matrix (p ⊕ q) c ℂ)) :=
  if a.shape = b.shape then
    .ok { shape := a.shape,
          get := fun i => do
            let x ← a.get i
            let y ← b.get i
            .ok (Matrix.fromRows x y) }
  else .error .typeError

/-- Some of the rows of a matrix, as selected by `jnp.split(..., axis=-2)`. -/
def Batch.rows {p q c : Type} (f : p → q) (x : Batch (Matrix q c ℂ)) : Batch (Matrix p c ℂ) :=
  x.map fun x => .ok (Matrix.of fun i c => x (f i) c)

/-- `1j * kx * y - 1j * ky * x` for fields `x`, `y` and wavevectors of shape `(..., num_terms, 1)`. -/
noncomputable def curlZBatch (k : Batch (Fin n → ℝ × ℝ)) (x y : Batch (Matrix (Fin n) (Fin m) ℂ)) :
    Res (Batch (Matrix (Fin n) (Fin m) ℂ)) := do
  let u ← k.zip (fun k y => .ok (Matrix.of fun i c => Complex.I * kxOf k i * y i c)) y
  let v ← k.zip (fun k x => .ok (Matrix.of fun i c => Complex.I * kyOf k i * x i c)) x
  u.sub v

/-- `x / (1j * angular_frequency)`. -/
noncomputable def divFrequencyBatch (wavelength : NDArray ℝ) (x : Batch (Matrix (Fin n) (Fin m) ℂ)) :
    Res (Batch (Matrix (Fin n) (Fin m) ℂ)) :=
  x.zip (fun x w => .ok (Matrix.of fun i c => x i c / (Complex.I * w))) (angularFrequencyBatch wavelength)

/-- fields.py 277-349 `fields_from_wave_amplitudes`. -/
noncomputable def fieldsFromWaveAmplitudesBatch (a b : Amplitudes n m) (l : BatchLayer n) :
    Res (Fields (Batch (Matrix (Fin n) (Fin m) ℂ))) := do
  validateAmplitudesBatch a b
  let matrix ← fieldConversionMatrixBatch l
  let amplitudes ← a.concatRows b
  let fields ← matrix.matmul amplitudes
  let negativeEy := fields.rows fun i : Fin n => .inl (.inl i)
  let ex := fields.rows fun i : Fin n => .inl (.inr i)
  let hx := fields.rows fun i : Fin n => .inr (.inl i)
  let hy := fields.rows fun i : Fin n => .inr (.inr i)
  let ey : Batch (Matrix (Fin n) (Fin m) ℂ) := negativeEy.map fun x => .ok (-x)
  let kt ← transverseWavevectorsBatch l.inPlaneWavevector l.u l.v l.expansion
  let curlH ← curlZBatch (waveVectors kt) hx hy
  let ez ← (l.inverseZPermittivity.map fun x => .ok (-x)).matmul curlH
  let ez ← divFrequencyBatch l.wavelength ez
  let curlE ← curlZBatch (waveVectors kt) ex ey
  let hz ← l.inverseZPermeability.matmul curlE
  let hz ← divFrequencyBatch l.wavelength hz
  if ex.shape = ey.shape ∧ ey.shape = ez.shape ∧ ez.shape = hx.shape ∧ hx.shape = hy.shape ∧ hy.shape = hz.shape then
    .ok { ex := ex, ey := ey, ez := ez, hx := hx, hy := hy, hz := hz }
  else .error .assertionError

end Fmmax
