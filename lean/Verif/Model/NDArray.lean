import Verif.Model.Basic

/-!
A small model of numpy nd-arrays and broadcasting, for the functions whose content is shape handling.
-/

namespace Fmmax

/-- An nd-array: a shape and the element at each multi-index.  Only indices inside the shape are meaningful. -/
structure NDArray (α : Type) where
  shape : List ℕ
  get : List ℕ → α

/-- Numpy broadcasting of two shapes given in reversed order (last axis first). -/
def broadcastRev : List ℕ → List ℕ → Option (List ℕ)
  | [], t => some t
  | s, [] => some s
  | m :: s, n :: t =>
    if m = n then (broadcastRev s t).map (m :: ·)
    else if m = 1 then (broadcastRev s t).map (n :: ·)
    else if n = 1 then (broadcastRev s t).map (m :: ·)
    else none

/-- `numpy.broadcast_shapes` of two shapes. -/
def broadcastShapes (s t : List ℕ) : Option (List ℕ) :=
  (broadcastRev s.reverse t.reverse).map List.reverse

/-- The index read from an array of shape `shape` when it is broadcast: leading extra axes are dropped and length-one
axes are read at zero. -/
def broadcastIndex (shape idx : List ℕ) : List ℕ :=
  (shape.zip (idx.drop (idx.length - shape.length))).map fun (n, i) => if n = 1 then 0 else i

/-- An elementwise binary operation with broadcasting.  Incompatible shapes raise (jax: TypeError). -/
def NDArray.zipWith {α β γ : Type} (f : α → β → γ) (a : NDArray α) (b : NDArray β) : Res (NDArray γ) :=
  match broadcastShapes a.shape b.shape with
  | none => .error .typeError
  | some s => .ok { shape := s,
                    get := fun idx => f (a.get (broadcastIndex a.shape idx)) (b.get (broadcastIndex b.shape idx)) }

/-- `x[..., k]`. -/
def NDArray.selectLast {α : Type} (a : NDArray α) (k : ℕ) : NDArray α :=
  { shape := a.shape.dropLast, get := fun idx => a.get (idx ++ [k]) }

/-- `x[..., jnp.newaxis]`. -/
def NDArray.expandLast {α : Type} (a : NDArray α) : NDArray α :=
  { shape := a.shape ++ [1], get := fun idx => a.get idx.dropLast }

/-- An elementwise unary operation. -/
def NDArray.map {α β : Type} (f : α → β) (a : NDArray α) : NDArray β := { shape := a.shape, get := fun idx => f (a.get idx) }

/-- `jnp.stack([a, b], axis=-1)` for arrays of equal shape (unequal shapes raise ValueError). -/
def NDArray.stackLast {α : Type} (a b : NDArray α) : Res (NDArray α) :=
  if a.shape ≠ b.shape then .error .valueError
  else .ok { shape := a.shape ++ [2],
             get := fun idx => if idx.getLastD 0 = 0 then a.get idx.dropLast else b.get idx.dropLast }

/-- The position of a multi-index in row-major order. -/
def ravelIndex (shape idx : List ℕ) : ℕ := (shape.zip idx).foldl (fun acc p => acc * p.1 + p.2) 0

/-- The multi-index at a position, axes in reversed order (last axis first). -/
def unravelRev : List ℕ → ℕ → List ℕ
  | [], _ => []
  | n :: s, k => k % n :: unravelRev s (k / n)

/-- The multi-index at a position in row-major order. -/
def unravelIndex (shape : List ℕ) (k : ℕ) : List ℕ := (unravelRev shape.reverse k).reverse

/-- `jnp.reshape` to a shape of the same size. -/
def NDArray.reshape {α : Type} (a : NDArray α) (shape : List ℕ) : NDArray α :=
  { shape := shape, get := fun idx => a.get (unravelIndex a.shape (ravelIndex shape idx)) }

/-- `jnp.transpose(a, axes)` for a permutation of the axes: axis `p` of the result is axis `axes[p]` of the array. -/
def NDArray.transpose {α : Type} (a : NDArray α) (axes : List ℕ) : NDArray α :=
  { shape := axes.map fun d => a.shape.getD d 0,
    get := fun idx => a.get ((List.range a.shape.length).map fun d => idx.getD (axes.idxOf d) 0) }

end Fmmax
