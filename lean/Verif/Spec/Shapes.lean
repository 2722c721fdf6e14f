import Verif.Model.Shapes
import Mathlib.Data.List.Forall2
import Mathlib.Data.List.Basic

/-! Specification of numpy broadcasting. -/

namespace Fmmax.Spec

/-- An array of shape `s` can be broadcast to shape `t`: aligned at the last axis, every axis of `s` has length one or the length of
the axis of `t`. -/
def BroadcastsTo (s t : List ℕ) : Prop :=
  ∃ lead tail, t = lead ++ tail ∧ List.Forall₂ (fun a b => a = 1 ∨ a = b) s tail

/-- There is a shape to which all the given shapes can be broadcast. -/
def Broadcastable (shapes : List (List ℕ)) : Prop := ∃ t, ∀ s ∈ shapes, BroadcastsTo s t

/-- `y` is `x` with leading axes of length one added up to rank `n`, the elements unchanged. -/
def ExpandedTo {α : Type} (x y : NDArray α) (n : ℕ) : Prop :=
  ∃ m, y.shape = List.replicate m 1 ++ x.shape ∧ y.shape.length = n ∧
    ∀ lead idx : List ℕ, lead.length = m → y.get (lead ++ idx) = x.get idx

/-- The batch shapes of the arguments of an eigensolve: all axes of the wavelength, all but the last of the wavevector and of the
lattice vectors, all but the last two of a permittivity. -/
def batchShapesOf (w k u v : NDArray ℝ) (p : NDArray ℂ) : List (List ℕ) :=
  [w.shape, k.shape.dropLast, u.shape.dropLast, v.shape.dropLast, p.shape.dropLast.dropLast]

/-- All arguments have a common batch rank, the largest one, and unchanged elements. -/
def RanksAligned (w k u v : NDArray ℝ) (ps : List (NDArray ℂ)) (shapes : List (List ℕ)) (args : BroadcastArgs) : Prop :=
  ∃ nb, (∀ s ∈ shapes, s.length ≤ nb) ∧ (∃ s ∈ shapes, s.length = nb) ∧
    ExpandedTo w args.angularFrequency nb ∧ ExpandedTo k args.inPlaneWavevector (nb + 1) ∧
    ExpandedTo u args.u (nb + 1) ∧ ExpandedTo v args.v (nb + 1) ∧
    List.Forall₂ (fun p q => ExpandedTo p q (nb + 2)) ps args.permittivities

end Fmmax.Spec

namespace Fmmax

/-- The element of an array at an index of a shape to which it is broadcast. -/
def NDArray.elementAt {α : Type} (a : NDArray α) (idx : List ℕ) : α := a.get (broadcastIndex a.shape idx)

end Fmmax
