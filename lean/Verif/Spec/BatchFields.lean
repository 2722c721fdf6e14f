import Verif.Spec.BatchSolve
import Verif.Model.Fields

/-! Batch shapes of amplitudes, fluxes and fields. -/

namespace Fmmax.Spec

open Fmmax

/-- `s` is the shape to which arrays of the given shapes are broadcast together: each of them can be broadcast to `s`, and no smaller
shape would do. -/
structure IsBroadcastOf (shapes : List (List ℕ)) (s : List ℕ) : Prop where
  upper : ∀ x ∈ shapes, BroadcastsTo x s
  least : ∀ s', (∀ x ∈ shapes, BroadcastsTo x s') → BroadcastsTo s s'

/-- The values of the six components at a batch index. -/
structure BatchFieldsAt {α : Type} (F : Fields (Batch α)) (i : List ℕ) (f : Fields α) : Prop where
  ex : F.ex.elementAt i = .ok f.ex
  ey : F.ey.elementAt i = .ok f.ey
  ez : F.ez.elementAt i = .ok f.ez
  hx : F.hx.elementAt i = .ok f.hx
  hy : F.hy.elementAt i = .ok f.hy
  hz : F.hz.elementAt i = .ok f.hz

/-- All six components have the same batch shape. -/
structure BatchFieldsShape {α : Type} (F : Fields (Batch α)) (s : List ℕ) : Prop where
  ex : F.ex.shape = s
  ey : F.ey.shape = s
  ez : F.ez.shape = s
  hx : F.hx.shape = s
  hy : F.hy.shape = s
  hz : F.hz.shape = s

/-- The four blocks of a scattering matrix have the batch shape to which arrays of the given shapes are broadcast together. -/
structure BlocksShape {n : ℕ} (shapes : List (List ℕ)) (s : BatchScatteringMatrix n) : Prop where
  s11 : IsBroadcastOf shapes s.s11.shape
  s12 : IsBroadcastOf shapes s.s12.shape
  s21 : IsBroadcastOf shapes s.s21.shape
  s22 : IsBroadcastOf shapes s.s22.shape

/-- Values of pairs of arrays at a batch index. -/
def PairsAt {α β : Type} (i : List ℕ) (X : List (Batch α × Batch β)) (x : List (α × β)) : Prop :=
  List.Forall₂ (fun X x => X.1.elementAt i = .ok x.1 ∧ X.2.elementAt i = .ok x.2) X x

/-- The results of solving the layers at a batch index. -/
def LayersElementsAt {n : ℕ} (i : List ℕ) (L : List (BatchLayer n)) (l : List (LayerSolveResult (Fin n))) : Prop :=
  List.Forall₂ (fun L l => L.elementAt i = .ok l) L l

/-- Pairs of scattering matrices at a batch index. -/
def SMatrixPairsAt {n : ℕ} (i : List ℕ) (S : List (BatchScatteringMatrix n × BatchScatteringMatrix n))
    (s : List (ScatteringMatrix (Fin n) × ScatteringMatrix (Fin n))) : Prop :=
  List.Forall₂ (fun S s => S.1.elementAt i = .ok s.1 ∧ S.2.elementAt i = .ok s.2) S s

end Fmmax.Spec
