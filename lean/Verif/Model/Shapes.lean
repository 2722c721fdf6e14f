import Verif.Model.NDArray
import Verif.Model.Lattice

/-!
utils.py, fmm.py: handling of batch shapes and axes, on nd-arrays of any rank.
-/

namespace Fmmax

/-- `(1,) * (n - len(s)) + s`. -/
def padShape (n : ℕ) (s : List ℕ) : List ℕ := List.replicate (n - s.length) 1 ++ s

/-- `max([...])` of a list of lengths or dimensions; empty lists are excluded by the callers. -/
def maxList (l : List ℕ) : ℕ := l.foldr max 0

/-- utils.py 46-54 `batch_compatible_shapes`.  `max` of no shapes raises ValueError. -/
def batchCompatibleShapes (shapes : List (List ℕ)) : Res Bool :=
  if shapes = [] then .error .valueError
  else
    let maxDims := maxList (shapes.map List.length)
    let padded := shapes.map (padShape maxDims)
    let maxShape := (List.range maxDims).map fun i => maxList (padded.map fun s => s.getD i 0)
    .ok (padded.all fun s => !(s.zip maxShape).any fun p => !(p.1 == 1 || p.1 == p.2))

/-- utils.py 57-60 `atleast_nd`: `jnp.expand_dims` at the leading axes. -/
def NDArray.atleastNd {α : Type} (x : NDArray α) (n : ℕ) : NDArray α :=
  { shape := List.replicate (n - x.shape.length) 1 ++ x.shape, get := fun idx => x.get (idx.drop (n - x.shape.length)) }

/-- utils.py 63-75 `absolute_axes`. -/
def absoluteAxes (axes : List ℤ) (ndim : ℕ) : Res (List ℤ) :=
  if ¬(axes.all fun a => decide (-(ndim : ℤ) ≤ a ∧ a < ndim)) then .error .valueError
  else
    let abs := axes.map fun d => d % (ndim : ℤ)
    if abs.length ≠ abs.dedup.length then .error .valueError
    else .ok abs

/-- `shape[:-k]`. -/
def dropLastN (k : ℕ) (s : List ℕ) : List ℕ := s.take (s.length - k)

/-- The broadcast arguments returned by `_validate_and_broadcast`. -/
structure BroadcastArgs where
  angularFrequency : NDArray ℝ
  inPlaneWavevector : NDArray ℝ
  u : NDArray ℝ
  v : NDArray ℝ
  permittivities : List (NDArray ℂ)

/-- fmm.py 1055-1111 `_validate_and_broadcast`.  `shape[-1]` of a scalar and `permittivities[0]` of an empty tuple raise
IndexError. -/
def validateAndBroadcast (w k u v : NDArray ℝ) (permittivities : List (NDArray ℂ)) : Res BroadcastArgs :=
  match k.shape.getLast?, permittivities with
  | none, _ => .error .indexError
  | some 2, [] => .error .indexError
  | some 2, p :: ps =>
    if ¬((p :: ps).all fun q => decide (p.shape = q.shape)) then .error .valueError
    else do
      let compatible ← batchCompatibleShapes
        [w.shape, dropLastN 1 k.shape, dropLastN 1 u.shape, dropLastN 1 v.shape, dropLastN 2 p.shape]
      if !compatible then .error .valueError
      else
        let n := maxList [w.shape.length, k.shape.length - 1, u.shape.length - 1, v.shape.length - 1, p.shape.length - 2]
        .ok { angularFrequency := w.atleastNd n, inPlaneWavevector := k.atleastNd (n + 1), u := u.atleastNd (n + 1),
              v := v.atleastNd (n + 1), permittivities := (p :: ps).map fun q => q.atleastNd (n + 2) }
  | some _, _ => .error .valueError

/-- `shape[-2:] == (1, 1)`. -/
def isUniformShape (s : List ℕ) : Bool := s.drop (s.length - 2) == [1, 1]

/-- fmm.py 41-83, 377-408, 480-517: the validation of `eigensolve_isotropic_media`; the uniform and the patterned branch call
`_validate_and_broadcast` first (the check 409-413 of the uniform branch is implied by the dispatch at 69). -/
def validateIsotropic (w k u v : NDArray ℝ) (permittivity : NDArray ℂ) : Res BroadcastArgs := do
  let args ← validateAndBroadcast w k u v [permittivity]
  if isUniformShape permittivity.shape ∧ ¬args.permittivities.all fun p => isUniformShape p.shape then .error .valueError
  else .ok args

/-- fmm.py 143-224, 556-606, 662-722: the validation of `eigensolve_general_anisotropic_media`, with permittivities and
permeabilities in the order xx, xy, yx, yy, zz. -/
noncomputable def validateGeneralAnisotropic (w k u v : NDArray ℝ)
    (exx exy eyx eyy ezz mxx mxy myx myy mzz : NDArray ℂ) (source : Option (NDArray ℂ)) : Res BroadcastArgs :=
  if isUniformShape exx.shape then
    if ¬([exx, exy, eyx, eyy, ezz, mxx, mxy, myx, myy, mzz].all fun p => isUniformShape p.shape) then .error .valueError
    else validateAndBroadcast w k u v [exx, exy, eyx, eyy, ezz, mxx, mxy, myx, myy, mzz]
  else do
    let source ← match source with
      | some s => Except.ok s
      | none => exx.zipWith (fun x y => (x + y) / 2) eyy
    validateAndBroadcast w k u v [exx, exy, eyx, eyy, ezz, mxx, mxy, myx, myy, mzz, source]

/-- fmm.py 86-140: the validation of `eigensolve_anisotropic_media` (permeabilities are ones and zeros shaped like
`permittivity_xx`). -/
noncomputable def validateAnisotropic (w k u v : NDArray ℝ) (exx exy eyx eyy ezz : NDArray ℂ) : Res BroadcastArgs :=
  let ones : NDArray ℂ := { shape := exx.shape, get := fun _ => 1 }
  let zeros : NDArray ℂ := { shape := exx.shape, get := fun _ => 0 }
  validateGeneralAnisotropic w k u v exx exy eyx eyy ezz ones zeros zeros ones ones none

/-- sources.py 64-72: the Brillouin grid shape inferred by `amplitudes_for_fields` from the axes, the rank of the fields and the
batch shape of the layer. -/
def inferBrillouinGridShape (axes : Option (ℤ × ℤ)) (fieldNdim : ℕ) (batchShape : List ℕ) : Res (ℕ × ℕ) :=
  match axes with
  | none => .ok (1, 1)
  | some (i, j) => do
    let abs ← absoluteAxes [i, j] fieldNdim
    match abs with
    | [a, b] =>
      match batchShape[a.toNat]?, batchShape[b.toNat]? with
      | some m, some n => .ok (m, n)
      | _, _ => .error .indexError
    | _ => .error .indexError

end Fmmax
