import Verif.Model.Layer

/-!
scattering.py: scattering matrices of layer stacks.
-/

namespace Fmmax

open Matrix

variable {ι : Type} [Fintype ι] [DecidableEq ι]

/-- Square matrices acting on the `2 * num_terms` mode amplitudes. -/
abbrev ModeMatrix (ι : Type) := Matrix (ι ⊕ ι) (ι ⊕ ι) ℂ

/-- The tuple `(s11, s12, s21, s22)` (scattering.py 391-398, 449). -/
@[ext] structure Blocks (ι : Type) where
  s11 : ModeMatrix ι
  s12 : ModeMatrix ι
  s21 : ModeMatrix ι
  s22 : ModeMatrix ι

/-- scattering.py 17-68 `ScatteringMatrix`. -/
@[ext] structure ScatteringMatrix (ι : Type) extends Blocks ι where
  startLayer : LayerSolveResult ι
  startThickness : ℝ
  endLayer : LayerSolveResult ι
  endThickness : ℝ

/-- The phases `jnp.exp(1j * q * thickness)` (scattering.py 443-444, 497-498, 531, 558). -/
noncomputable def phase (q : ι ⊕ ι → ℂ) (thickness : ℝ) : ι ⊕ ι → ℂ :=
  fun i => Complex.exp (Complex.I * q i * thickness)

/-- Interface matrices `(i11, i12)` with `i22 = i11`, `i21 = i12`; scattering.py 414-439 (and identically 476-495). -/
noncomputable def interfaceMatrices (layer next : LayerSolveResult ι) :
    Res (ModeMatrix ι × ModeMatrix ι) := do
  let q := layer.eigenvalues
  let phi := layer.eigenvectors
  let omegaK ← layer.omegaScriptKMatrix
  let nextQ := next.eigenvalues
  let nextPhi := next.eigenvectors
  let nextOmegaK ← next.omegaScriptKMatrix
  let invNextQ ← recip nextQ
  let x1 ← solve (omegaK * phi) (colScale (nextOmegaK * nextPhi) invNextQ)
  let term1 := rowScale q x1
  let term2 ← solve (omegaK * phi) (omegaK * nextPhi)
  .ok ((1 / 2 : ℂ) • (term1 + term2), (1 / 2 : ℂ) • (-term1 + term2))

/-- scattering.py 391-464 `_extend_s_matrix`. -/
noncomputable def extendSMatrix (s : Blocks ι) (layer : LayerSolveResult ι) (thickness : ℝ)
    (next : LayerSolveResult ι) (nextThickness : ℝ) : Res (Blocks ι) := do
  let (i11, i12) ← interfaceMatrices layer next
  let i22 := i11
  let i21 := i12
  let fd := phase layer.eigenvalues thickness
  let fdNext := phase next.eigenvalues nextThickness
  let term3 := i11 - rowScale fd s.s12 * i21
  let s11Next ← solve term3 (rowScale fd s.s11)
  let s12Next ← solve term3 (colScale (rowScale fd s.s12 * i22 - i12) fdNext)
  let s21Next := s.s22 * i21 * s11Next + s.s21
  let s22Next := s.s22 * i21 * s12Next + colScale (s.s22 * i22) fdNext
  .ok { s11 := s11Next, s12 := s12Next, s21 := s21Next, s22 := s22Next }

/-- scattering.py 467-514 `_pair_s_matrix`. -/
noncomputable def pairSMatrix (layer : LayerSolveResult ι) (thickness : ℝ)
    (next : LayerSolveResult ι) (nextThickness : ℝ) : Res (ScatteringMatrix ι) := do
  let (i11, i12) ← interfaceMatrices layer next
  let i22 := i11
  let i21 := i12
  let fd := phase layer.eigenvalues thickness
  let fdNext := phase next.eigenvalues nextThickness
  let s11 ← solve i11 (diag fd)
  let s12 ← solve i11 (colScale (-i12) fdNext)
  let s21 := i21 * s11
  let s22 := i21 * s12 + colScale i22 fdNext
  .ok { s11 := s11, s12 := s12, s21 := s21, s22 := s22,
        startLayer := layer, startThickness := thickness,
        endLayer := next, endThickness := nextThickness }

/-- The initial identity matrix for a single layer, scattering.py 178-187 (and 246-262). -/
def identitySMatrix (layer : LayerSolveResult ι) (thickness : ℝ) : ScatteringMatrix ι :=
  let eye := diag (fun _ => 1)
  { s11 := eye, s12 := 0, s21 := 0, s22 := eye,
    startLayer := layer, startThickness := thickness, endLayer := layer, endThickness := thickness }

/-- scattering.py 313-347 `append_layer`. -/
noncomputable def appendLayer (s : ScatteringMatrix ι) (next : LayerSolveResult ι)
    (nextThickness : ℝ) : Res (ScatteringMatrix ι) := do
  let b ← extendSMatrix s.toBlocks s.endLayer s.endThickness next nextThickness
  .ok { toBlocks := b, startLayer := s.startLayer, startThickness := s.startThickness,
        endLayer := next, endThickness := nextThickness }

/-- The block reordering used to reverse a stack (scattering.py 124-138, 374-375). -/
def Blocks.reverse (s : Blocks ι) : Blocks ι :=
  { s11 := s.s22, s12 := s.s21, s21 := s.s12, s22 := s.s11 }

/-- scattering.py 350-388 `prepend_layer`. -/
noncomputable def prependLayer (s : ScatteringMatrix ι) (next : LayerSolveResult ι)
    (nextThickness : ℝ) : Res (ScatteringMatrix ι) := do
  let b ← extendSMatrix { s11 := s.s22, s12 := s.s21, s21 := s.s12, s22 := s.s11 }
    s.startLayer s.startThickness next nextThickness
  .ok { s11 := b.s22, s12 := b.s21, s21 := b.s12, s22 := b.s11,
        startLayer := next, startThickness := nextThickness,
        endLayer := s.endLayer, endThickness := s.endThickness }

/-- The loop of scattering.py 197-209: given the last matrix, the matrices appended for the remaining layers. -/
noncomputable def appendLoop (s : ScatteringMatrix ι) :
    List (LayerSolveResult ι × ℝ) → Res (List (ScatteringMatrix ι))
  | [] => .ok []
  | (l, d) :: rest => do
    let s' ← appendLayer s l d
    let tail ← appendLoop s' rest
    .ok (s' :: tail)

/-- scattering.py 147-210 `_stack_s_matrices`. An empty sequence raises IndexError at line 174. -/
noncomputable def stackSMatrices (layers : List (LayerSolveResult ι)) (thicknesses : List ℝ) :
    Res (List (ScatteringMatrix ι)) :=
  if layers.length ≠ thicknesses.length then .error .valueError
  else match layers.zip thicknesses with
    | [] => .error .indexError
    | [(l0, d0)] => .ok [identitySMatrix l0 d0]
    | (l0, d0) :: (l1, d1) :: rest => do
      let s1 ← pairSMatrix l0 d0 l1 d1
      let tail ← appendLoop s1 rest
      .ok (identitySMatrix l0 d0 :: s1 :: tail)

/-- scattering.py 71-91 `stack_s_matrix`. -/
noncomputable def stackSMatrix (layers : List (LayerSolveResult ι)) (thicknesses : List ℝ) :
    Res (ScatteringMatrix ι) := do
  let ss ← stackSMatrices layers thicknesses
  match ss.getLast? with
  | some s => .ok s
  | none => .error .indexError

/-- scattering.py 119-139: a scattering matrix seen from the other side. -/
def ScatteringMatrix.reverse (s : ScatteringMatrix ι) : ScatteringMatrix ι :=
  { s11 := s.s22, s12 := s.s21, s21 := s.s12, s22 := s.s11,
    startLayer := s.endLayer, startThickness := s.endThickness,
    endLayer := s.startLayer, endThickness := s.startThickness }

/-- scattering.py 94-144 `stack_s_matrices_interior`. -/
noncomputable def stackSMatricesInterior (layers : List (LayerSolveResult ι)) (thicknesses : List ℝ) :
    Res (List (ScatteringMatrix ι × ScatteringMatrix ι)) := do
  let before ← stackSMatrices layers thicknesses
  let rev ← stackSMatrices layers.reverse thicknesses.reverse
  let after := rev.reverse.map ScatteringMatrix.reverse
  .ok (before.zip after)

/-- The `jax.lax.scan` over `append_layer` (scattering.py 264-280), final carry only. -/
noncomputable def scanLoop (s : ScatteringMatrix ι) :
    List (LayerSolveResult ι × ℝ) → Res (ScatteringMatrix ι)
  | [] => .ok s
  | (l, d) :: rest => do
    let s' ← appendLayer s l d
    scanLoop s' rest

/-- scattering.py 213-280 `stack_s_matrix_scan`.  The layers are the slices along the leading batch axis
(`tree_map(lambda x: x[i, ...])`), here a list. -/
noncomputable def stackSMatrixScan (layers : List (LayerSolveResult ι)) (thicknesses : List ℝ) :
    Res (ScatteringMatrix ι) :=
  if layers.length ≠ thicknesses.length then .error .valueError
  else match layers.zip thicknesses with
    | [] => .error .indexError
    | (l0, d0) :: rest => scanLoop (identitySMatrix l0 d0) rest

/-- scattering.py 283-310 `redheffer_star_product`. -/
noncomputable def redhefferStarProduct (a b : ScatteringMatrix ι) : Res (ScatteringMatrix ι) := do
  let ae ← appendLayer a b.startLayer b.startThickness
  let eye : ModeMatrix ι := diag (fun _ => 1)
  let x11 ← solve (eye - ae.s12 * b.s21) ae.s11
  let x12 ← solve (eye - ae.s12 * b.s21) (ae.s12 * b.s22)
  let x21 ← solve (eye - b.s21 * ae.s12) (b.s21 * ae.s11)
  let x22 ← solve (eye - b.s21 * ae.s12) b.s22
  .ok { s11 := b.s11 * x11, s12 := b.s12 + b.s11 * x12,
        s21 := ae.s21 + ae.s22 * x21, s22 := ae.s22 * x22,
        startLayer := a.startLayer, startThickness := a.startThickness,
        endLayer := b.endLayer, endThickness := b.endThickness }

/-- scattering.py 517-541 `set_end_layer_thickness`. -/
noncomputable def setEndLayerThickness (s : ScatteringMatrix ι) (thickness : ℝ) : ScatteringMatrix ι :=
  let fd := phase s.endLayer.eigenvalues (thickness - s.endThickness)
  { s with s12 := colScale s.s12 fd, s22 := colScale s.s22 fd, endThickness := thickness }

/-- scattering.py 544-568 `set_start_layer_thickness`. -/
noncomputable def setStartLayerThickness (s : ScatteringMatrix ι) (thickness : ℝ) :
    ScatteringMatrix ι :=
  let fd := phase s.startLayer.eigenvalues (thickness - s.startThickness)
  { s with s11 := colScale s.s11 fd, s21 := colScale s.s21 fd, startThickness := thickness }

end Fmmax
