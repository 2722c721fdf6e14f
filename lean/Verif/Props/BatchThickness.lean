import Verif.Proofs.BatchThicknessShape
import Verif.Props.BatchSources

/-! C109: stacks with arrays of thicknesses. -/

namespace Fmmax

open Spec

variable {t : List ℕ} {r n : ℕ}

/-- C109: `stack_s_matrix` with thicknesses that are scalars or arrays of shape `(..., 1)`, in layers of the same batch rank.  If the
batch shapes of the layers and of the thicknesses can be broadcast to `t`, the calculation succeeds, and at every index of `t` it gives
the scattering matrix of the layers and thicknesses at that index.  The thicknesses may have more batch axes than the layers. -/
theorem C109_stack {layers : List (BatchLayer n)} {thicknesses : List (NDArray ℝ)} (hne : layers ≠ [])
    (hlen : layers.length = thicknesses.length) (h : ∀ l ∈ layers, ∃ lat, LayerFits t r lat l)
    (hD : ∀ d ∈ thicknesses, ThicknessFits t d) :
    ∃ s, stackSMatrixSweep layers thicknesses = .ok s ∧ SweepFits t r s ∧
      ∀ i, ValidIndex t i → ∀ rs, LayersElementsAt i layers rs →
        ∀ x, s.elementAt i = .ok x ↔ stackSMatrix rs (thicknesses.map (thicknessAt · i)) = .ok x :=
  stackSMatrixSweep_ok hne hlen h hD

/-- C109: `stack_s_matrices_interior` with arrays of thicknesses. -/
theorem C109_interior {layers : List (BatchLayer n)} {thicknesses : List (NDArray ℝ)} (hne : layers ≠ [])
    (hlen : layers.length = thicknesses.length) (h : ∀ l ∈ layers, ∃ lat, LayerFits t r lat l)
    (hD : ∀ d ∈ thicknesses, ThicknessFits t d) :
    ∃ S, stackSMatricesInteriorSweep layers thicknesses = .ok S ∧ S.length = layers.length ∧
      (∀ x ∈ S, SweepFits t r x.1 ∧ SweepFits t r x.2) ∧
      ∀ i, ValidIndex t i → ∀ rs, LayersElementsAt i layers rs → ∀ ss,
        List.Forall₂ (fun P p => P.1.elementAt i = .ok p.1 ∧ P.2.elementAt i = .ok p.2) S ss ↔
          stackSMatricesInterior rs (thicknesses.map (thicknessAt · i)) = .ok ss :=
  stackSMatricesInteriorSweep_ok hne hlen h hD

/-- C109: the batch shape of every block of the scattering matrix of a stack.  The blocks for waves that enter at the start (`s11` and
`s21`) have the batch axes of the layers and of all thicknesses but the last; those for waves that enter at the end (`s12` and `s22`)
have the batch axes of the layers and of all thicknesses but the first.  In particular a sweep of the thickness of the last layer gives
no batch axis to the transmission and the reflection of light that enters at the start. -/
theorem C109_shape {layers : List (BatchLayer n)} {thicknesses : List (NDArray ℝ)} (h2 : 2 ≤ layers.length)
    (hlen : layers.length = thicknesses.length) (h : ∀ l ∈ layers, (∃ lat, LayerFits t r lat l) ∧ LayerComplete l)
    (hD : ∀ d ∈ thicknesses, ThicknessFits t d) {s : SweepScatteringMatrix n} (hs : stackSMatrixSweep layers thicknesses = .ok s) :
    IsBroadcastOf (layers.map (fun l => l.eigenvectors.shape) ++ thicknesses.dropLast.map fun d => d.shape.dropLast) s.s11.shape ∧
    IsBroadcastOf (layers.map (fun l => l.eigenvectors.shape) ++ thicknesses.dropLast.map fun d => d.shape.dropLast) s.s21.shape ∧
    IsBroadcastOf (layers.map (fun l => l.eigenvectors.shape) ++ thicknesses.tail.map fun d => d.shape.dropLast) s.s12.shape ∧
    IsBroadcastOf (layers.map (fun l => l.eigenvectors.shape) ++ thicknesses.tail.map fun d => d.shape.dropLast) s.s22.shape :=
  stackSMatrixSweep_exact h2 hlen h hD hs

/-- C109: `append_layer` with arrays of thicknesses. -/
theorem C109_append {lat : LatticeVectors} {s : SweepScatteringMatrix n} {l : BatchLayer n} {d : NDArray ℝ} (h : SweepFits t r s)
    (h' : LayerFits t r lat l) (hd : ThicknessFits t d) :
    ∃ s', appendLayerSweep s l d = .ok s' ∧ SweepFits t r s' ∧
      ∀ i x c, ValidIndex t i → s.elementAt i = .ok x → l.elementAt i = .ok c →
        ∀ y, s'.elementAt i = .ok y ↔ appendLayer x c (thicknessAt d i) = .ok y := by
  obtain ⟨s', h1, h2, -, -, -, -, h3⟩ := appendLayerSweep_ok h h' hd
  refine ⟨s', h1, h2, fun i x c hi hx hc y => ?_⟩
  obtain ⟨-, -, -, -, e5, e6, -, -⟩ := SweepScatteringMatrix.elementAt_ok.1 hx
  have := h3 i _ _ c hi e5 e6 hc y
  rw [hx] at this
  exact this

/-- C109: `prepend_layer` with arrays of thicknesses. -/
theorem C109_prepend {lat : LatticeVectors} {s : SweepScatteringMatrix n} {l : BatchLayer n} {d : NDArray ℝ} (h : SweepFits t r s)
    (h' : LayerFits t r lat l) (hd : ThicknessFits t d) :
    ∃ s', prependLayerSweep s l d = .ok s' ∧ SweepFits t r s' ∧
      ∀ i x c, ValidIndex t i → s.elementAt i = .ok x → l.elementAt i = .ok c →
        ∀ y, s'.elementAt i = .ok y ↔ prependLayer x c (thicknessAt d i) = .ok y := by
  obtain ⟨s', h1, h2, -, -, h3⟩ := prependLayerSweep_ok h h' hd
  exact ⟨s', h1, h2, h3⟩

/-- C109: `set_end_layer_thickness` from and to arrays of thicknesses.  Further layers can be appended if the new thicknesses have at
least as many batch axes as the old ones. -/
theorem C109_set_end_layer_thickness {s : SweepScatteringMatrix n} (h : SweepFits t r s) {d : NDArray ℝ} (hd : ThicknessFits t d) :
    ∃ s', setEndLayerThicknessSweep s d = .ok s' ∧ (thicknessRank s.endThickness ≤ thicknessRank d → SweepFits t r s') ∧
      ∀ i x, ValidIndex t i → s.elementAt i = .ok x → s'.elementAt i = .ok (setEndLayerThickness x (thicknessAt d i)) :=
  setEndLayerThicknessSweep_ok h hd

/-- C109: `set_start_layer_thickness` from and to arrays of thicknesses. -/
theorem C109_set_start_layer_thickness {s : SweepScatteringMatrix n} (h : SweepFits t r s) {d : NDArray ℝ} (hd : ThicknessFits t d) :
    ∃ s', setStartLayerThicknessSweep s d = .ok s' ∧ (thicknessRank s.startThickness ≤ thicknessRank d → SweepFits t r s') ∧
      ∀ i x, ValidIndex t i → s.elementAt i = .ok x → s'.elementAt i = .ok (setStartLayerThickness x (thicknessAt d i)) :=
  setStartLayerThicknessSweep_ok h hd

/-- C109: in a stack of two or more layers, the last axis of an array of thicknesses has length one or the number of modes.  (In the
latter case it is not a batch axis, see C91.)  A batch of thicknesses of any other length without a further axis is rejected. -/
theorem C109_thickness_axis {layers : List (BatchLayer n)} {thicknesses : List (NDArray ℝ)} (h2 : 2 ≤ layers.length)
    {s : SweepScatteringMatrix n} (hs : stackSMatrixSweep layers thicknesses = .ok s) :
    ∀ d ∈ thicknesses, d.shape = [] ∨ d.shape.getLastD 0 = 1 ∨ d.shape.getLastD 0 = 2 * n := by
  unfold stackSMatrixSweep at hs
  obtain ⟨S, eS, -⟩ := bind_eq_ok.1 hs
  unfold stackSMatricesSweep at eS
  split at eS
  · cases eS
  · next hlen =>
    rw [not_not] at hlen
    match layers, thicknesses, h2, hlen, eS with
    | l0 :: l1 :: rest, d0 :: d1 :: ds, _, hlen, eS =>
      simp only [List.zip_cons_cons, bind_eq_ok, ok_inj] at eS
      obtain ⟨p, ep, T, eT, -⟩ := eS
      unfold pairSMatrixSweep at ep
      simp only [bind_eq_ok, ok_inj] at ep
      obtain ⟨-, -, fd, efd, fd', efd', -⟩ := ep
      have hT := appendAllSweep_axis _ eT
      intro d hd
      simp only [List.mem_cons] at hd
      rcases hd with rfl | rfl | hd
      · exact phaseSweep_axis efd
      · exact phaseSweep_axis efd'
      · obtain ⟨j, hj, rfl⟩ := List.mem_iff_getElem.1 hd
        have hl' : rest.length = ds.length := by simpa using hlen
        exact hT (rest[j]'(by omega), ds[j]) (by
          rw [List.mem_iff_getElem]
          exact ⟨j, by simp; omega, by simp⟩)

section

variable (eig : Matrix (Fin n ⊕ Fin n) (Fin n ⊕ Fin n) ℂ → (Fin n ⊕ Fin n → ℂ) × Matrix (Fin n ⊕ Fin n) (Fin n ⊕ Fin n) ℂ)

/-- C109, from the arguments to the scattering matrix: a calculation with arrays of wavelengths, wavevectors, permittivities and
thicknesses gives at every batch index the scattering matrix computed from the elements of the arguments at that index. -/
theorem C109_calculation {w k u v : NDArray ℝ} {K : List ℕ} {m : ℕ} {l : LatticeVectors} (hn : 0 < n) (h : BatchInputs t w k u v K m l)
    {media : List (BatchMedium n)} {thicknesses : List (NDArray ℝ)} (hne : media ≠ []) (hlen : media.length = thicknesses.length)
    (hw0 : ∀ i, ValidIndex t i → w.elementAt i ≠ 0)
    (hm : ∀ M ∈ media, M.permittivity.shape = M.batchShape ++ [M.nx, M.ny] ∧ BroadcastsTo M.batchShape t ∧
      batchRank w K m M.batchShape = r ∧
      (M.nx = 1 ∧ M.ny = 1 → ∀ i, ValidIndex t i → M.permittivity.elementAt (i ++ [0, 0]) ≠ 0))
    (hD : ∀ d ∈ thicknesses, ThicknessFits t d) (G : Fin n → ℤ × ℤ) :
    ∃ layers s,
      List.Forall₂ (fun M L => eigensolveIsotropicMediaBatch eig w k u v M.permittivity G M.formulation = .ok L) media layers ∧
      stackSMatrixSweep layers thicknesses = .ok s ∧
      ∀ i, ValidIndex t i → ∀ rs : List (LayerSolveResult (Fin n)),
        List.Forall₂ (fun M a => eigensolveIsotropicMedia eig (w.elementAt i) (k.elementAt (i ++ [0]), k.elementAt (i ++ [1])) l
          (gridAt M.permittivity M.nx M.ny i) G M.formulation = .ok a) media rs →
        ∀ x, s.elementAt i = .ok x ↔ stackSMatrix rs (thicknesses.map (thicknessAt · i)) = .ok x := by
  obtain ⟨layers, h1, h2, h3, -, h4⟩ := solveMedia eig hn h hw0 hm G
  obtain ⟨s, g1, -, g4⟩ := C109_stack (t := t) (r := r) (layers := layers) (thicknesses := thicknesses) (by
    rintro rfl
    exact hne (List.length_eq_zero_iff.1 h2.symm)) (by omega) (fun L hL => (h3 L hL).1) hD
  exact ⟨layers, s, h1, g1, fun i hi rs hrs => g4 i hi rs ((h4 i hi rs).1 hrs)⟩

end

section

variable (eig : Matrix (Fin 1 ⊕ Fin 1) (Fin 1 ⊕ Fin 1) ℂ → (Fin 1 ⊕ Fin 1 → ℂ) × Matrix (Fin 1 ⊕ Fin 1) (Fin 1 ⊕ Fin 1) ℂ)

/-- A scalar thickness. -/
def exampleThickness (d : ℝ) : NDArray ℝ := { shape := [], get := fun _ => d }

/-- Four thicknesses `0, 1, 2, 3`, of shape `(4, 1, 1, 1)`. -/
def exampleThicknessSweep : NDArray ℝ := { shape := [4, 1, 1, 1], get := fun i => i.headD 0 }

theorem example_thicknesses : ∀ d ∈ [exampleThickness 1, exampleThicknessSweep, exampleThickness 3, exampleThickness 1],
    ThicknessFits [4, 3, 2] d := by
  intro d hd
  simp only [List.mem_cons, List.not_mem_nil, or_false] at hd
  rcases hd with rfl | rfl | rfl | rfl
  · exact Or.inl rfl
  · exact Or.inr ⟨[4, 1, 1], rfl, [], [4, 3, 2], rfl, .cons (Or.inr rfl) (.cons (Or.inl rfl) (.cons (Or.inl rfl) .nil))⟩
  · exact Or.inl rfl
  · exact Or.inl rfl

theorem example_sweep_layers : ∃ layers : List (BatchLayer 1),
    List.Forall₂ (fun M L => eigensolveIsotropicMediaBatch eig exampleWavelengths exampleWavevectors (exampleAxis 0) (exampleAxis 1)
      M.permittivity (fun _ => (0, 0)) M.formulation = .ok L) [exampleVacuum, exampleDispersive, examplePatterned, exampleVacuum] layers ∧
    layers.length = 4 ∧ ∀ L ∈ layers, ((∃ lat, LayerFits [4, 3, 2] 2 lat L) ∧ LayerComplete L) ∧ L.eigenvectors.shape = [3, 2] := by
  obtain ⟨v, v1, ⟨_, v2⟩, v3, v4, v5⟩ := example_solved eig (M := exampleVacuum) (by simp)
  obtain ⟨d, d1, ⟨_, d2⟩, d3, d4, d5⟩ := example_solved eig (M := exampleDispersive) (by simp)
  obtain ⟨p, p1, ⟨_, p2⟩, p3, p4, p5⟩ := example_solved eig (M := examplePatterned) (by simp)
  have hb : BroadcastsTo [3, 2] [4, 3, 2] := ⟨[4], [3, 2], rfl, .cons (Or.inr rfl) (.cons (Or.inr rfl) .nil)⟩
  refine ⟨[v, d, p, v], .cons v1 (.cons d1 (.cons p1 (.cons v1 .nil))), rfl, fun L hL => ?_⟩
  simp only [List.mem_cons, List.not_mem_nil, or_false] at hL
  rcases hL with rfl | rfl | rfl | rfl
  · exact ⟨⟨⟨_, v3.fits_of v2 (v5 ▸ hb)⟩, v3⟩, v5⟩
  · exact ⟨⟨⟨_, d3.fits_of d2 (d5 ▸ hb)⟩, d3⟩, d5⟩
  · exact ⟨⟨⟨_, p3.fits_of p2 (p5 ▸ hb)⟩, p3⟩, p5⟩
  · exact ⟨⟨⟨_, v3.fits_of v2 (v5 ▸ hb)⟩, v3⟩, v5⟩

/-- Four thicknesses of the second layer, for three wavelengths and two wavevectors: the scattering matrix has the batch shape
`(4, 3, 2)`, and at the index `(2, 1, 0)` the thicknesses of the layers are 1, 2, 3 and 1. -/
example : ∃ (layers : List (BatchLayer 1)) (s : SweepScatteringMatrix 1), layers.length = 4 ∧
    stackSMatrixSweep layers [exampleThickness 1, exampleThicknessSweep, exampleThickness 3, exampleThickness 1] = .ok s ∧
    s.s11.shape = [4, 3, 2] ∧ s.s12.shape = [4, 3, 2] ∧
    ∀ rs, LayersElementsAt [2, 1, 0] layers rs → ∀ x, s.elementAt [2, 1, 0] = .ok x ↔ stackSMatrix rs [1, 2, 3, 1] = .ok x := by
  obtain ⟨layers, -, hl, hf⟩ := example_sweep_layers eig
  have hlen : layers.length = [exampleThickness 1, exampleThicknessSweep, exampleThickness 3, exampleThickness 1].length := by
    rw [hl]; rfl
  obtain ⟨s, h1, h2, h3⟩ := C109_stack (t := [4, 3, 2]) (r := 2) (layers := layers) (by rintro rfl; simp at hl) hlen
    (fun L hL => (hf L hL).1.1) example_thicknesses
  obtain ⟨k1, -, k2, -⟩ := C109_shape (by omega) hlen (fun L hL => (hf L hL).1) example_thicknesses h1
  have key : ∀ S : List (List ℕ), [3, 2] ∈ S → [4, 1, 1] ∈ S → ∀ x, IsBroadcastOf S x → BroadcastsTo x [4, 3, 2] → x = [4, 3, 2] := by
    intro S m1 m2 x hx hx'
    obtain ⟨c, hc, hcs⟩ := broadcastShapes_exists (hx.upper _ m1) (hx.upper _ m2)
    obtain rfl : c = [4, 3, 2] := (Option.some.inj ((show broadcastShapes [3, 2] [4, 1, 1] = some [4, 3, 2] by rfl).symm.trans hc)).symm
    exact hx'.antisymm hcs.1
  have m1 : [3, 2] ∈ layers.map fun l => l.eigenvectors.shape := by
    obtain ⟨L, hL⟩ := List.exists_mem_of_length_pos (l := layers) (by omega)
    exact List.mem_map.2 ⟨L, hL, (hf L hL).2⟩
  refine ⟨layers, s, hl, h1, key _ (List.mem_append_left _ m1) ?_ _ k1 h2.s11, key _ (List.mem_append_left _ m1) ?_ _ k2 h2.s12,
    fun rs hrs x => ?_⟩
  · exact List.mem_append_right _ (by simp [exampleThicknessSweep])
  · exact List.mem_append_right _ (by simp [exampleThicknessSweep])
  · rw [h3 [2, 1, 0] (.cons (by simp) (.cons (by simp) (.cons (by simp) .nil))) rs hrs x]
    simp [thicknessAt, NDArray.elementAt, exampleThickness, exampleThicknessSweep, broadcastIndex]

/-- The interior scattering matrices of this stack are computed; a layer is appended and one is prepended, and the thickness of the end
layer is changed from a scalar to a sweep, to which a further layer is appended. -/
example : ∃ (layers : List (BatchLayer 1)) (L : BatchLayer 1) (S : _) (s s1 s2 s3 s4 s5 : SweepScatteringMatrix 1),
    stackSMatricesInteriorSweep layers [exampleThickness 1, exampleThicknessSweep, exampleThickness 3, exampleThickness 1] = .ok S ∧
    stackSMatrixSweep layers [exampleThickness 1, exampleThicknessSweep, exampleThickness 3, exampleThickness 1] = .ok s ∧
    appendLayerSweep s L (exampleThickness 2) = .ok s1 ∧ prependLayerSweep s1 L exampleThicknessSweep = .ok s2 ∧
    setEndLayerThicknessSweep s2 exampleThicknessSweep = .ok s3 ∧ appendLayerSweep s3 L (exampleThickness 0) = .ok s4 ∧
    setStartLayerThicknessSweep s4 (exampleThickness 5) = .ok s5 := by
  obtain ⟨layers, -, hl, hf⟩ := example_sweep_layers eig
  have hlen : layers.length = [exampleThickness 1, exampleThicknessSweep, exampleThickness 3, exampleThickness 1].length := by
    rw [hl]; rfl
  have hne : layers ≠ [] := by rintro rfl; simp at hl
  obtain ⟨S, h0, -⟩ := C109_interior (t := [4, 3, 2]) (r := 2) hne hlen (fun L hL => (hf L hL).1.1) example_thicknesses
  obtain ⟨s, h1, h2, -⟩ := C109_stack (t := [4, 3, 2]) (r := 2) hne hlen (fun L hL => (hf L hL).1.1) example_thicknesses
  obtain ⟨⟨⟨lat, hL⟩, -⟩, -⟩ := hf (layers[1]'(by omega)) (List.getElem_mem _)
  have hs : ThicknessFits [4, 3, 2] exampleThicknessSweep := example_thicknesses _ (by simp)
  obtain ⟨s1, e1, f1, -⟩ := C109_append h2 hL (d := exampleThickness 2) (Or.inl rfl)
  obtain ⟨s2, e2, f2, -⟩ := C109_prepend f1 hL hs
  obtain ⟨s3, e3, f3, -⟩ := C109_set_end_layer_thickness f2 hs
  have e : s2.endThickness = exampleThickness 2 := by
    obtain ⟨b, -, hb⟩ := bind_eq_ok.1 e2
    obtain rfl := ok_inj.1 hb
    obtain ⟨x, hx, -, -, -, -, en, -⟩ := appendLayerSweep_ok h2 hL (d' := exampleThickness 2) (Or.inl rfl)
    obtain rfl := ok_inj.1 (e1.symm.trans hx)
    exact en
  obtain ⟨s4, e4, f4, -⟩ := C109_append (f3 (by rw [e]; simp [thicknessRank, exampleThickness])) hL (d := exampleThickness 0) (Or.inl rfl)
  obtain ⟨s5, e5, -⟩ := C109_set_start_layer_thickness f4 (d := exampleThickness 5) (Or.inl rfl)
  exact ⟨layers, _, S, s, s1, s2, s3, s4, s5, h0, h1, e1, e2, e3, e4, e5⟩

/-- Three thicknesses of shape `(3,)` are rejected in a stack with one term. -/
example (layers : List (BatchLayer 1)) (h2 : 2 ≤ layers.length) (ds : List (NDArray ℝ)) (s : SweepScatteringMatrix 1) :
    stackSMatrixSweep layers ({ shape := [3], get := fun i => i.headD 0 } :: ds) ≠ .ok s := by
  intro h
  simpa using C109_thickness_axis h2 h _ List.mem_cons_self

end

end Fmmax
