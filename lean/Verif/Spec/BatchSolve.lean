import Verif.Model.BatchSolve
import Verif.Spec.Shapes
import Verif.Spec.Farfield
import Verif.Spec.Lattice
import Verif.Props.Lattice

/-! Specification of calculations with batch dimensions: every batch element is the calculation for the elements of the arguments. -/

namespace Fmmax

open Spec

variable {α : Type} {n : ℕ}

/-- Two computations that succeed with the same values. -/
def SameOk (x y : Res α) : Prop := ∀ v, x = .ok v ↔ y = .ok v

/-- An array that can be broadcast to shape `t` and has rank `r`. -/
structure Fits (t : List ℕ) (r : ℕ) (a : NDArray α) : Prop where
  broadcasts : BroadcastsTo a.shape t
  rank : a.shape.length = r

/-- The element of a layer at an index of a shape to which its arrays are broadcast. -/
def BatchLayer.elementAt (l : BatchLayer n) (i : List ℕ) : Res (LayerSolveResult (Fin n)) := do
  let q ← l.eigenvalues.elementAt i
  let v ← l.eigenvectors.elementAt i
  let z ← l.zPermittivity.elementAt i
  let zi ← l.inverseZPermittivity.elementAt i
  let m ← l.zPermeability.elementAt i
  let mi ← l.inverseZPermeability.elementAt i
  let mt ← l.transversePermeability.elementAt i
  .ok { wavelength := l.wavelength.elementAt i,
        inPlaneWavevector := (l.inPlaneWavevector.elementAt (i ++ [0]), l.inPlaneWavevector.elementAt (i ++ [1])),
        primitiveLatticeVectors :=
          { u := (l.u.elementAt (i ++ [0]), l.u.elementAt (i ++ [1])), v := (l.v.elementAt (i ++ [0]), l.v.elementAt (i ++ [1])) },
        expansion := l.expansion, eigenvalues := q, eigenvectors := v, zPermittivityMatrix := z, inverseZPermittivityMatrix := zi,
        zPermeabilityMatrix := m, inverseZPermeabilityMatrix := mi, transversePermeabilityMatrix := mt }

/-- One lattice, given with batch axes of length one. -/
structure SingleLattice (r : ℕ) (u v : NDArray ℝ) (l : LatticeVectors) : Prop where
  u_shape : u.shape = List.replicate r 1 ++ [2]
  v_shape : v.shape = List.replicate r 1 ++ [2]
  eq : latticeAt u v (List.replicate r 0) = l
  independent : Independent l.u l.v

/-- The arrays of a layer can be broadcast to shape `t` and have batch rank `r`; there is one lattice. -/
structure LayerFits (t : List ℕ) (r : ℕ) (lat : LatticeVectors) (l : BatchLayer n) : Prop where
  wavelength : Fits t r l.wavelength
  inPlaneWavevector : ∃ K, l.inPlaneWavevector.shape = K ++ [2] ∧ BroadcastsTo K t ∧ K.length = r
  lattice : SingleLattice r l.u l.v lat
  eigenvalues : Fits t r l.eigenvalues
  eigenvectors : Fits t r l.eigenvectors
  zPermittivity : Fits t r l.zPermittivity
  inverseZPermittivity : Fits t r l.inverseZPermittivity
  zPermeability : Fits t r l.zPermeability
  inverseZPermeability : Fits t r l.inverseZPermeability
  transversePermeability : Fits t r l.transversePermeability

/-- The batch shape of every attribute of a layer can be broadcast to that of the eigenvectors. -/
structure LayerComplete (l : BatchLayer n) : Prop where
  eigenvalues : l.eigenvalues.shape = l.eigenvectors.shape
  wavelength : BroadcastsTo l.wavelength.shape l.eigenvectors.shape
  inPlaneWavevector : ∀ K, l.inPlaneWavevector.shape = K ++ [2] → BroadcastsTo K l.eigenvectors.shape
  zPermittivity : BroadcastsTo l.zPermittivity.shape l.eigenvectors.shape
  inverseZPermittivity : BroadcastsTo l.inverseZPermittivity.shape l.eigenvectors.shape
  zPermeability : BroadcastsTo l.zPermeability.shape l.eigenvectors.shape
  inverseZPermeability : BroadcastsTo l.inverseZPermeability.shape l.eigenvectors.shape
  transversePermeability : BroadcastsTo l.transversePermeability.shape l.eigenvectors.shape

/-- The arguments of an eigensolve with one lattice: the batch shapes of the wavelength, the in-plane wavevector and the
permittivities can be broadcast to `t`. -/
structure BatchInputs (t : List ℕ) (w k u v : NDArray ℝ) (K : List ℕ) (m : ℕ) (l : LatticeVectors) : Prop where
  positive : ∀ d ∈ t, 0 < d
  wavelength : BroadcastsTo w.shape t
  wavevector_shape : k.shape = K ++ [2]
  wavevector : BroadcastsTo K t
  lattice_rank : m ≤ t.length
  lattice : SingleLattice m u v l

/-- The batch rank of the arguments. -/
def batchRank (w : NDArray ℝ) (K : List ℕ) (m : ℕ) (P : List ℕ) : ℕ := max (max (max w.shape.length K.length) m) P.length

/-- The grid of an array of shape `(..., nx, ny)` at a batch index of a shape to which its batch shape is broadcast. -/
def gridAt (p : NDArray ℂ) (nx ny : ℕ) (i : List ℕ) : Grid nx ny :=
  Matrix.of fun r s => p.elementAt (i ++ [(r : ℕ), (s : ℕ)])

/-- The tensor components of a batch element. -/
def tensorAt (xx xy yx yy zz : NDArray ℂ) (nx ny : ℕ) (i : List ℕ) : TensorComponents nx ny :=
  { xx := gridAt xx nx ny i, xy := gridAt xy nx ny i, yx := gridAt yx nx ny i, yy := gridAt yy nx ny i, zz := gridAt zz nx ny i }

/-- The shape and the batch elements of a solved layer. -/
structure SolvedLayer (t : List ℕ) (r : ℕ) (lat : LatticeVectors) (inputs : List (List ℕ))
    (single : List ℕ → Res (LayerSolveResult (Fin n))) (out : BatchLayer n) : Prop where
  fits : LayerFits t r lat out
  complete : LayerComplete out
  shape : ∀ s ∈ inputs, BroadcastsTo s out.eigenvectors.shape
  element : ∀ i, ValidIndex t i → SameOk (out.elementAt i) (single i)

/-- A batch element of a scattering matrix. -/
def BatchScatteringMatrix.elementAt (s : BatchScatteringMatrix n) (i : List ℕ) : Res (ScatteringMatrix (Fin n)) := do
  let s11 ← s.s11.elementAt i
  let s12 ← s.s12.elementAt i
  let s21 ← s.s21.elementAt i
  let s22 ← s.s22.elementAt i
  let start ← s.startLayer.elementAt i
  let last ← s.endLayer.elementAt i
  .ok { s11 := s11, s12 := s12, s21 := s21, s22 := s22, startLayer := start, startThickness := s.startThickness, endLayer := last,
        endThickness := s.endThickness }

/-- The blocks and the layers can be broadcast to shape `t` and have rank `r`. -/
structure SMatrixFits (t : List ℕ) (r : ℕ) (s : BatchScatteringMatrix n) : Prop where
  s11 : Fits t r s.s11
  s12 : Fits t r s.s12
  s21 : Fits t r s.s21
  s22 : Fits t r s.s22
  start : ∃ lat, LayerFits t r lat s.startLayer
  last : ∃ lat, LayerFits t r lat s.endLayer

end Fmmax
