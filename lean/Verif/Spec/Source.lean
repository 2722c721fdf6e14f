import Verif.Spec.SMatrix

/-! Specification of the emission of a planar current source inside a stack. -/

namespace Fmmax.Spec

open Matrix

variable {ι : Type} [Fintype ι] [DecidableEq ι] {β : Type}

/-- Jump of the tangential fields across a sheet with current density `(jx, jy, jz)` between the end of layer `s` and the start
of layer `t`: the jump of `H` is the in-plane current (`ẑ × ΔH = j`), the jump of the tangential `E` comes from the z-component,
`ΔE = (k / ω) η jz` with `η` the inverse z-permittivity of the layer before the source.  Recall `e = [-Ey; Ex]`, `h = [Hx; Hy]`. -/
def SourceJump (jx jy jz : Matrix ι β ℂ) (s t : LayerState ι β) : Prop :=
  ∃ e h e' h', FieldsAt s s.thickness e h ∧ FieldsAt t 0 e' h' ∧ ∀ i c,
    h' (.inl i) c - h (.inl i) c = jy i c ∧
    h' (.inr i) c - h (.inr i) c = -jx i c ∧
    e' (.inr i) c - e (.inr i) c =
      (orderWavevector s.layer i).1 / omega s.layer * (s.layer.inverseZPermittivityMatrix * jz) i c ∧
    -(e' (.inl i) c - e (.inl i) c) =
      (orderWavevector s.layer i).2 / omega s.layer * (s.layer.inverseZPermittivityMatrix * jz) i c

/-- Amplitudes `st` of the layers before the source and `st'` of the layers after it: fields are continuous inside both stacks,
jump at the source, and no waves come in from outside.  `first`, `s`, `t`, `last` are the first and last layer before and
the first and last layer after the source. -/
structure IsEmission (before after : List (LayerSolveResult ι × ℝ)) (jx jy jz : Matrix ι β ℂ) (st st' : List (LayerState ι β))
    (first s t last : LayerState ι β) : Prop where
  geometry_before : geometry st = before
  geometry_after : geometry st' = after
  consistent_before : Consistent st
  consistent_after : Consistent st'
  head_before : st.head? = some first
  last_before : st.getLast? = some s
  head_after : st'.head? = some t
  last_after : st'.getLast? = some last
  no_incoming_before : first.a = 0
  no_incoming_after : last.b = 0
  jump : SourceJump jx jy jz s t

end Fmmax.Spec
