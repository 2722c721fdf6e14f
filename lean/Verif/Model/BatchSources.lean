import Verif.Model.BatchFields
import Verif.Model.Sources

/-!
sources.py 226-417 on arrays with batch dimensions: the waves emitted by sources inside a stack.

Sources of shape `(..., num_terms, num_sources)` are arrays of matrices; the trailing axes of the three components have the same
length.
-/

namespace Fmmax

variable {n m : ℕ}

/-- `ky * eta_matrix @ jz` of sources.py 356-357, with the transverse wavevectors `kt` and a component `c` of them. -/
noncomputable def Batch.wavevectorTimes (c : (Fin n → ℝ × ℝ) → Fin n → ℂ) (kt : Batch (Fin n → ℝ × ℝ))
    (eta : Batch (Matrix (Fin n) (Fin n) ℂ)) (jz : Batch (Matrix (Fin n) (Fin m) ℂ)) : Res (Batch (Matrix (Fin n) (Fin m) ℂ)) := do
  let x ← kt.zip (fun k eta => .ok (Fmmax.rowScale (c k) eta)) eta
  x.matmul jz

/-- sources.py 310-363 `polarization_terms`.  The number of leading axes in 336 is `max(jx.ndim - 3, eta_matrix.ndim - 2)`, that is, one
less than that of `jx` if the sources have more batch axes than the layer. -/
noncomputable def polarizationTermsBatch (jx jy jz : Batch (Matrix (Fin n) (Fin m) ℂ)) (l : BatchLayer n) :
    Res (Batch (Matrix ((Fin n ⊕ Fin n) ⊕ (Fin n ⊕ Fin n)) (Fin m) ℂ)) :=
  if ¬(jx.shape = jy.shape ∧ jy.shape = jz.shape) then .error .valueError
  else do
    let leading := max (jx.shape.length - 1) l.inverseZPermittivity.shape.length
    let eta : Batch (Matrix (Fin n) (Fin n) ℂ) := l.inverseZPermittivity.atleastNd leading
    let jx : Batch (Matrix (Fin n) (Fin m) ℂ) := jx.atleastNd leading
    let jy : Batch (Matrix (Fin n) (Fin m) ℂ) := jy.atleastNd leading
    let jz : Batch (Matrix (Fin n) (Fin m) ℂ) := jz.atleastNd leading
    let pParallel ← jy.concatRows (jx.map fun x => .ok (-x))
    let k ← transverseWavevectorsBatch l.inPlaneWavevector l.u l.v l.expansion
    let pzy ← (waveVectors (n := n) k).wavevectorTimes kyOf eta jz
    let pzx ← (waveVectors (n := n) k).wavevectorTimes kxOf eta jz
    let pz ← (pzy.map fun x => .ok (-x)).concatRows pzx
    let pParallel : Batch (Matrix (Fin n ⊕ Fin n) (Fin m) ℂ) ← NDArray.broadcastTo pParallel pz.shape
    pz.concatRows pParallel

/-- sources.py 366-417 `emission_matrix`. -/
noncomputable def emissionMatrixBatch (before after : BatchScatteringMatrix n) :
    Res (Batch (Matrix ((Fin n ⊕ Fin n) ⊕ (Fin n ⊕ Fin n)) ((Fin n ⊕ Fin n) ⊕ (Fin n ⊕ Fin n)) ℂ)) := do
  let q := before.endLayer.eigenvalues
  let phi := before.endLayer.eigenvectors
  let omegaK ← before.endLayer.omegaScriptKMatrix
  let nextQ := after.startLayer.eigenvalues
  let nextPhi := after.startLayer.eigenvectors
  let nextOmegaK ← after.startLayer.omegaScriptKMatrix
  let fd : Batch (ModeMatrix (Fin n)) := (phaseBatch q before.endThickness).map fun v => .ok (diag v)
  let nextFd : Batch (ModeMatrix (Fin n)) := (phaseBatch nextQ after.startThickness).map fun v => .ok (diag v)
  let fdS12 ← fd.mul before.s12
  let fdS21 ← nextFd.mul after.s21
  let shape ← match broadcastShapes q.shape nextQ.shape with
    | some s => (.ok s : Res (List ℕ))
    | none => .error .valueError
  let eye : Batch (ModeMatrix (Fin n)) := { shape := shape, get := fun _ => .ok (diag fun _ => 1) }
  let a ← nextOmegaK.mul nextPhi
  let a ← a.mul ((nextQ.map recip).map fun v => .ok (diag v) : Batch (ModeMatrix (Fin n)))
  let x ← eye.sub fdS21
  let a ← a.mul x
  let b ← omegaK.mul phi
  let b ← b.mul ((q.map recip).map fun v => .ok (diag v) : Batch (ModeMatrix (Fin n)))
  let x ← eye.sub fdS12
  let b ← b.mul x
  let x ← eye.add fdS21
  let c ← nextPhi.mul x
  let x ← eye.add fdS12
  let d ← (phi.map fun p => .ok (-p) : Batch (ModeMatrix (Fin n))).mul x
  Batch.block a b c d

/-- The six amplitudes returned by `amplitudes_for_source`, with batch dimensions. -/
structure BatchSourceAmplitudes (n m : ℕ) where
  backward0End : Amplitudes n m
  forwardBeforeStart : Amplitudes n m
  backwardBeforeEnd : Amplitudes n m
  forwardAfterStart : Amplitudes n m
  backwardAfterEnd : Amplitudes n m
  forwardNStart : Amplitudes n m

/-- sources.py 226-307 `amplitudes_for_source`. -/
noncomputable def amplitudesForSourceBatch (jx jy jz : Batch (Matrix (Fin n) (Fin m) ℂ)) (before after : BatchScatteringMatrix n) :
    Res (BatchSourceAmplitudes n m) := do
  let pol ← polarizationTermsBatch jx jy jz before.endLayer
  let matrix ← emissionMatrixBatch before after
  let ab ← matrix.solve pol
  let a : Amplitudes n m := ab.map fun x => .ok (Matrix.of fun i c => x (.inl i) c)
  let b : Amplitudes n m := ab.map fun x => .ok (Matrix.of fun i c => x (.inr i) c)
  let b0 ← before.s22.matmul b
  let a1 ← before.s12.matmul b
  let b1 ← after.s21.matmul a
  let aN ← after.s11.matmul a
  .ok { backward0End := b0, forwardBeforeStart := a1, backwardBeforeEnd := b, forwardAfterStart := a, backwardAfterEnd := b1,
        forwardNStart := aN }

end Fmmax
