import Verif.Spec.Stack
import Verif.Model.Scattering

/-!
Specification of what it means for a scattering matrix to describe a stack.
-/

namespace Fmmax.Spec

open Matrix

variable {ι : Type} [Fintype ι] [DecidableEq ι] {β : Type}

/-- The documented relation of scattering.py 38-42:
`a_N = s11 a_0 + s12 b_N` and `b_0 = s21 a_0 + s22 b_N`. -/
def Relates (S : Blocks ι) (first last : LayerState ι β) : Prop :=
  last.a = S.s11 * first.a + S.s12 * last.b ∧ first.b = S.s21 * first.a + S.s22 * last.b

/-- The list of layers and thicknesses underlying a list of states. -/
def geometry (st : List (LayerState ι β)) : List (LayerSolveResult ι × ℝ) :=
  st.map fun s => (s.layer, s.thickness)

/-- All layers are solved for the same wavelength and no eigenvalue vanishes (so that fields are finite). -/
def Regular (lam : ℝ) (layers : List (LayerSolveResult ι × ℝ)) : Prop :=
  ∀ p ∈ layers, p.1.wavelength = lam ∧ ∀ i, p.1.eigenvalues i ≠ 0

/-- `S` is the scattering matrix of the stack `layers`. -/
structure IsSMatrix (S : ScatteringMatrix ι) (layers : List (LayerSolveResult ι × ℝ)) : Prop where
  start : layers.head? = some (S.startLayer, S.startThickness)
  finish : layers.getLast? = some (S.endLayer, S.endThickness)
  /-- every physically consistent choice of amplitudes is related by `S` -/
  sound : ∀ {β : Type} (st : List (LayerState ι β)) (first last : LayerState ι β),
    geometry st = layers → Consistent st → st.head? = some first → st.getLast? = some last →
    Relates S.toBlocks first last
  /-- every choice of incoming amplitudes has consistent interior amplitudes -/
  complete : ∀ {β : Type} (a0 bN : Matrix (ι ⊕ ι) β ℂ), ∃ st first last,
    geometry st = layers ∧ Consistent st ∧ st.head? = some first ∧ st.getLast? = some last ∧
    first.a = a0 ∧ last.b = bN
  /-- the consistent amplitudes are determined by the incoming ones -/
  unique : ∀ {β : Type} (st st' : List (LayerState ι β)) (first last first' last' : LayerState ι β),
    geometry st = layers → geometry st' = layers → Consistent st → Consistent st' →
    st.head? = some first → st.getLast? = some last →
    st'.head? = some first' → st'.getLast? = some last' →
    first.a = first'.a → last.b = last'.b → st = st'

end Fmmax.Spec
