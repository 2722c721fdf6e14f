import Verif.Proofs.BatchFields3d
import Verif.Props.BatchStack

/-! Property C106: amplitudes inside a stack, Poynting flux and fields with batch dimensions. -/

namespace Fmmax

open Spec

variable {t : List ℕ} {r n m : ℕ} {κ : Type}

/-! ### Amplitudes inside a stack -/

/-- C106: for layers and outer amplitudes with batch dimensions, `stack_amplitudes_interior` of the interior scattering matrices
succeeds.  All amplitudes have one batch shape, that to which all layers and both outer amplitudes are broadcast together, and the
amplitudes at a batch index are those computed from the elements at that index. -/
theorem C106_amplitudes (hn : 0 < n) (hm : 0 < m) (ht : ∀ d ∈ t, 0 < d) {layers : List (BatchLayer n)} {thicknesses : List ℝ}
    (hne : layers ≠ []) (hlen : layers.length = thicknesses.length)
    (h : ∀ l ∈ layers, (∃ lat, LayerFits t r lat l) ∧ LayerComplete l) {a0 bN : Amplitudes n m} (h0 : BroadcastsTo a0.shape t)
    (hN : BroadcastsTo bN.shape t) :
    ∃ S out, stackSMatricesInteriorBatch layers thicknesses = .ok S ∧ stackAmplitudesInteriorBatch a0 bN S = .ok out ∧
      out.length = layers.length ∧
      (∀ x ∈ out, IsBroadcastOf (a0.shape :: bN.shape :: layers.map fun l => l.eigenvectors.shape) x.1.shape ∧
        x.2.shape = x.1.shape ∧ BroadcastsTo x.1.shape t) ∧
      ∀ i, ValidIndex t i → ∀ a b rs, a0.elementAt i = .ok a → bN.elementAt i = .ok b → LayersElementsAt i layers rs → ∀ ss,
        stackSMatricesInterior rs thicknesses = .ok ss → ∀ x, PairsAt i out x ↔ stackAmplitudesInterior a b ss = .ok x := by
  obtain ⟨S, e1, l1, f1, h1⟩ := C105_interior (t := t) (r := r) hne hlen fun l hl => (h l hl).1
  obtain ⟨out, e2, f2, h2⟩ := stackAmplitudesInteriorBatch_ok hn hm ht S f1 h0 hN
  have hs := stackAmplitudesBatch_shape hlen h e1 l1 f2
  refine ⟨S, out, e1, e2, by rw [← f2.length_eq, l1], fun x hx => ?_, fun i hi a b rs ha hb hrs ss hss x => ?_⟩
  · obtain ⟨j, hj, rfl⟩ := List.mem_iff_getElem.1 hx
    have g := (List.forall₂_iff_get.1 f2).2 j (by have := f2.length_eq; omega) hj
    exact ⟨hs _ hx, g.2.1, g.1⟩
  · exact h2 i hi a b ha hb ss ((h1 i hi rs hrs ss).2 hss) x

/-- C106: `stack_amplitudes_interior_with_source` with batch dimensions. -/
theorem C106_amplitudes_with_source (hn : 0 < n) (hm : 0 < m) (ht : ∀ d ∈ t, 0 < d)
    {before after : List (BatchScatteringMatrix n × BatchScatteringMatrix n)}
    (hb : ∀ x ∈ before, SMatrixFits t r x.1 ∧ SMatrixFits t r x.2) (ha : ∀ x ∈ after, SMatrixFits t r x.1 ∧ SMatrixFits t r x.2)
    {bEnd aStart : Amplitudes n m} (h0 : BroadcastsTo bEnd.shape t) (h1 : BroadcastsTo aStart.shape t) :
    ∃ out, stackAmplitudesInteriorWithSourceBatch before after bEnd aStart = .ok out ∧ out.length = before.length + after.length ∧
      ∀ i, ValidIndex t i → ∀ x y p q, bEnd.elementAt i = .ok p → aStart.elementAt i = .ok q → SMatrixPairsAt i before x →
        SMatrixPairsAt i after y → ∀ v, PairsAt i out v ↔ stackAmplitudesInteriorWithSource x y p q = .ok v := by
  obtain ⟨o1, e1, f1, g1⟩ := stackAmplitudesInteriorBatch_ok hn hm ht before hb (a0 := bEnd.zerosLike) (bN := bEnd) h0 h0
  obtain ⟨o2, e2, f2, g2⟩ := stackAmplitudesInteriorBatch_ok hn hm ht after ha (a0 := aStart) (bN := aStart.zerosLike) h1 h1
  refine ⟨o1 ++ o2, ?_, ?_, fun i hi x y p q hp hq hx hy v => ?_⟩
  · unfold stackAmplitudesInteriorWithSourceBatch
    rw [e1, e2]
    rfl
  · rw [List.length_append, ← f1.length_eq, ← f2.length_eq]
  · have k1 := g1 i hi 0 p rfl hp x hx
    have k2 := g2 i hi q 0 hq rfl y hy
    unfold PairsAt stackAmplitudesInteriorWithSource
    simp only [bind_eq_ok, ok_inj]
    rw [forall₂_append_left]
    constructor
    · rintro ⟨c, d, rfl, hc, hd⟩
      exact ⟨c, (k1 c).1 hc, d, (k2 d).1 hd, rfl⟩
    · rintro ⟨c, hc, d, hd, rfl⟩
      exact ⟨c, d, rfl, (k1 c).2 hc, (k2 d).2 hd⟩

/-! ### Poynting flux -/

/-- C106: `amplitude_poynting_flux` with batch dimensions: the fluxes have the batch shape to which the layer and both amplitudes are
broadcast together, and are those of the elements. -/
theorem C106_amplitude_poynting_flux (hn : 0 < n) (hm : 0 < m) (ht : ∀ d ∈ t, 0 < d) {lat : LatticeVectors} {l : BatchLayer n}
    (h : LayerFits t r lat l) (hc : LayerComplete l) {a b : Amplitudes n m} (ha : BroadcastsTo a.shape t)
    (hb : BroadcastsTo b.shape t) :
    ∃ F B, amplitudePoyntingFluxBatch a b l = .ok (F, B) ∧ IsBroadcastOf [l.eigenvectors.shape, a.shape, b.shape] F.shape ∧
      B.shape = F.shape ∧
      ∀ i x p q, ValidIndex t i → l.elementAt i = .ok x → a.elementAt i = .ok p → b.elementAt i = .ok q → ∀ f g,
        (F.elementAt i = .ok f ∧ B.elementAt i = .ok g) ↔ amplitudePoyntingFlux p q x = .ok (f, g) :=
  amplitudePoyntingFluxBatch_ok hn hm ht h hc ha hb

/-- C106: `directional_poynting_flux` with batch dimensions. -/
theorem C106_directional_poynting_flux {lat : LatticeVectors} {l : BatchLayer n} (h : LayerFits t r lat l) (hc : LayerComplete l)
    {a b : Amplitudes n m} (ha : BroadcastsTo a.shape t) (hb : BroadcastsTo b.shape t) :
    ∃ F B, directionalPoyntingFluxBatch a b l = .ok (F, B) ∧ IsBroadcastOf [l.eigenvectors.shape, a.shape, b.shape] F.shape ∧
      B.shape = F.shape ∧
      ∀ i x p q, ValidIndex t i → l.elementAt i = .ok x → a.elementAt i = .ok p → b.elementAt i = .ok q → ∀ f g,
        (F.elementAt i = .ok f ∧ B.elementAt i = .ok g) ↔ directionalPoyntingFlux p q x = .ok (f, g) :=
  directionalPoyntingFluxBatch_ok h hc ha hb

/-- C106: `eigenmode_poynting_flux` with batch dimensions; its assertion on the shape of the result holds. -/
theorem C106_eigenmode_poynting_flux {lat : LatticeVectors} {l : BatchLayer n} (h : LayerFits t r lat l) (hc : LayerComplete l) :
    ∃ F, eigenmodePoyntingFluxBatch l = .ok F ∧ F.shape = l.eigenvalues.shape ∧
      ∀ i a, ValidIndex t i → l.elementAt i = .ok a → ∀ f, F.elementAt i = .ok f ↔ eigenmodePoyntingFlux a = .ok f :=
  eigenmodePoyntingFluxBatch_ok h hc

/-! ### Fields -/

/-- C106: `fields_from_wave_amplitudes` of two amplitudes with the same batch shape: the six components have the batch shape to which
the layer and the amplitudes are broadcast together (so that the assertion in the code holds), and are the fields of the elements. -/
theorem C106_fields (hn : 0 < n) (hm : 0 < m) (ht : ∀ d ∈ t, 0 < d) {lat : LatticeVectors} {l : BatchLayer n}
    (h : LayerFits t r lat l) (hc : LayerComplete l) {a b : Amplitudes n m} (ha : BroadcastsTo a.shape t) (hab : b.shape = a.shape) :
    ∃ F s, fieldsFromWaveAmplitudesBatch a b l = .ok F ∧ IsBroadcastOf [l.eigenvectors.shape, a.shape] s ∧ BatchFieldsShape F s ∧
      ∀ i x p q, ValidIndex t i → l.elementAt i = .ok x → a.elementAt i = .ok p → b.elementAt i = .ok q → ∀ f,
        BatchFieldsAt F i f ↔ fieldsFromWaveAmplitudes p q x = .ok f :=
  fieldsFromWaveAmplitudesBatch_ok hn hm ht h hc ha hab

/-- C106, a finding: amplitudes whose batch shapes can be broadcast together but are not equal pass the check of their shapes and are
accepted by `amplitude_poynting_flux`, but `fields_from_wave_amplitudes` raises when it concatenates them. -/
theorem C106_finding_fields_of_unequal_shapes (hn : 0 < n) (hm : 0 < m) (ht : ∀ d ∈ t, 0 < d) {lat : LatticeVectors}
    {l : BatchLayer n} (h : LayerFits t r lat l) (hc : LayerComplete l) {a b : Amplitudes n m} (ha : BroadcastsTo a.shape t)
    (hb : BroadcastsTo b.shape t) (hab : a.shape ≠ b.shape) :
    validateAmplitudesBatch a b = .ok () ∧ (∃ x, amplitudePoyntingFluxBatch a b l = .ok x) ∧
      fieldsFromWaveAmplitudesBatch a b l = .error .typeError := by
  have h1 := validateAmplitudes_ok hn hm ht ha hb
  obtain ⟨F, B, h2, -⟩ := C106_amplitude_poynting_flux hn hm ht h hc ha hb
  obtain ⟨M, h3, -⟩ := fieldConversionMatrixBatch_ok h hc
  refine ⟨h1, ⟨_, h2⟩, ?_⟩
  unfold fieldsFromWaveAmplitudesBatch
  rw [h1, h3]
  simp only [bind, Except.bind, Batch.concatRows, if_neg hab]


/-- C106: `fields_on_grid` with batch dimensions, for fields of one batch shape to which the layer can be broadcast and a grid that is
large enough for the expansion. -/
theorem C106_fields_on_grid (hn : 0 < n) (hm : 0 < m) (ht : ∀ d ∈ t, 0 < d) {lat : LatticeVectors} {l : BatchLayer n}
    (h : LayerFits t r lat l) (hc : LayerComplete l) {F : Fields (Batch (Matrix (Fin n) (Fin m) ℂ))} {s : List ℕ}
    (hF : BatchFieldsShape F s) (hs : BroadcastsTo s t) (hl : BroadcastsTo l.eigenvectors.shape s) {shape cells : ℕ × ℕ}
    (hv : validateShapeForExpansion shape l.expansion = .ok ()) :
    ∃ g xy, fieldsOnGridBatch F l shape cells = .ok (g, xy) ∧ BatchFieldsShape g s ∧
      ∀ i x f, ValidIndex t i → l.elementAt i = .ok x → BatchFieldsAt F i f → ∀ v c,
        (BatchFieldsAt g i v ∧ xy.elementAt i = .ok c) ↔ fieldsOnGrid f x shape cells = .ok (v, c) := by
  obtain ⟨g, xy, h1, h2, h3⟩ := gridSliceBatch_fits hn ht h hc (cells := cells) hv m F s hm hF hs hl
  exact ⟨g, xy, h1, h2, fun i x f hi hx hf v c => (h3 i x hi hx).2.2 f hf v c⟩

/-- C106: `fields_on_coordinates` with batch dimensions. -/
theorem C106_fields_on_coordinates (hn : 0 < n) (hm : 0 < m) (ht : ∀ d ∈ t, 0 < d) {lat : LatticeVectors} {l : BatchLayer n}
    (h : LayerFits t r lat l) (hc : LayerComplete l) {F : Fields (Batch (Matrix (Fin n) (Fin m) ℂ))} {s : List ℕ}
    (hF : BatchFieldsShape F s) (hs : BroadcastsTo s t) (hl : BroadcastsTo l.eigenvectors.shape s) (xy : κ → ℝ × ℝ) :
    ∃ g c', fieldsOnCoordinatesBatch F l xy = .ok (g, c') ∧ BatchFieldsShape g s ∧
      ∀ i x f, ValidIndex t i → l.elementAt i = .ok x → BatchFieldsAt F i f → ∀ v c,
        (BatchFieldsAt g i v ∧ c'.elementAt i = .ok c) ↔ fieldsOnCoordinates f x xy = .ok (v, c) := by
  obtain ⟨g, c', h1, h2, h3⟩ := coordinateSliceBatch_fits hn ht h hc xy m F s hm hF hs hl
  exact ⟨g, c', h1, h2, fun i x f hi hx hf v c => (h3 i x hi hx).2.2 f hf v c⟩

/-! ### Examples -/

section

variable (eig : Matrix (Fin 1 ⊕ Fin 1) (Fin 1 ⊕ Fin 1) ℂ → (Fin 1 ⊕ Fin 1 → ℂ) × Matrix (Fin 1 ⊕ Fin 1) (Fin 1 ⊕ Fin 1) ℂ)

/-- Two plane waves, of shape `(3, 1, 2, 2)`, with an amplitude that depends on the wavelength. -/
noncomputable def exampleIncident : Amplitudes 1 2 :=
  { shape := [3, 1], get := fun i => .ok (Matrix.of fun a b => if a = .inl 0 ∧ b = 0 then (i.headD 0 : ℕ) + 1 else 0) }

/-- No waves from the other side, of shape `(2, 2)`. -/
noncomputable def exampleNoWaves : Amplitudes 1 2 := { shape := [], get := fun _ => .ok 0 }

theorem exampleIncident_broadcasts : BroadcastsTo exampleIncident.shape [3, 2] :=
  ⟨[], [3, 2], rfl, .cons (Or.inr rfl) (.cons (Or.inl rfl) .nil)⟩

theorem exampleNoWaves_broadcasts : BroadcastsTo exampleNoWaves.shape [3, 2] := .nil _

theorem example_shape : validateShapeForExpansion (4, 4) (fun _ : Fin 1 => ((0 : ℤ), (0 : ℤ))) = .ok () := by
  simp [validateShapeForExpansion, minArrayShapeForExpansion, bind, Except.bind]

/-- The amplitudes inside the stack solved beside C96, for outer amplitudes of batch shapes `(3, 1)` and `()`, and the fields they
give on a grid and at a point. -/
example : ∃ (layers : List (BatchLayer 1)) (S : List (BatchScatteringMatrix 1 × BatchScatteringMatrix 1))
    (out : List (Amplitudes 1 2 × Amplitudes 1 2)), layers.length = 4 ∧ out.length = 4 ∧
      stackSMatricesInteriorBatch layers [1, 2, 3, 1] = .ok S ∧
      stackAmplitudesInteriorBatch exampleIncident exampleNoWaves S = .ok out ∧
      ∀ x ∈ out, ∀ l ∈ layers, ∃ F g g' xy xy', fieldsFromWaveAmplitudesBatch x.1 x.2 l = .ok F ∧
        fieldsOnGridBatch F l (4, 4) (1, 2) = .ok (g, xy) ∧
        fieldsOnCoordinatesBatch F l (fun _ : Fin 1 => ((1 : ℝ), (2 : ℝ))) = .ok (g', xy') := by
  obtain ⟨layers, -, hl, hf, hx0⟩ := example_layers eig
  have ht : ∀ d ∈ [3, 2], 0 < d := by simp
  obtain ⟨S, out, h1, h2, h3, h4, -⟩ := C106_amplitudes (t := [3, 2]) (r := 2) (layers := layers) (thicknesses := [1, 2, 3, 1])
    (n := 1) (m := 2) (by omega) (by omega) ht (by rintro rfl; simp at hl) (by simp [hl]) hf exampleIncident_broadcasts
    exampleNoWaves_broadcasts
  refine ⟨layers, S, out, hl, by omega, h1, h2, fun x hx l hl' => ?_⟩
  obtain ⟨⟨lat, g1⟩, g2⟩ := hf l hl'
  obtain ⟨k1, k2, k3⟩ := h4 x hx
  obtain ⟨F, s, e1, e2, e3, -⟩ := C106_fields (by omega) (by omega) ht g1 g2 k3 k2
  have hs : BroadcastsTo s [3, 2] := e2.least _ (by simpa using ⟨g1.eigenvectors.broadcasts, k3⟩)
  have hls : BroadcastsTo l.eigenvectors.shape s := e2.upper _ (by simp)
  obtain ⟨g, xy, e4, -⟩ := C106_fields_on_grid (by omega) (by omega) ht g1 g2 e3 hs hls (shape := (4, 4)) (cells := (1, 2)) (by
    rw [hx0 l hl']
    exact example_shape)
  obtain ⟨g', xy', e5, -⟩ := C106_fields_on_coordinates (by omega) (by omega) ht g1 g2 e3 hs hls (fun _ : Fin 1 => ((1 : ℝ), (2 : ℝ)))
  exact ⟨F, g, g', xy, xy', e1, e4, e5⟩

/-- The Poynting flux of these outer amplitudes, whose batch shapes differ, is computed in every layer; the fields are not. -/
example : ∃ L : BatchLayer 1, ∃ F B F' B' E, amplitudePoyntingFluxBatch exampleIncident exampleNoWaves L = .ok (F, B) ∧
    directionalPoyntingFluxBatch exampleIncident exampleNoWaves L = .ok (F', B') ∧ eigenmodePoyntingFluxBatch L = .ok E ∧
    fieldsFromWaveAmplitudesBatch exampleIncident exampleNoWaves L = .error .typeError := by
  obtain ⟨layers, -, hl, hf, -⟩ := example_layers eig
  have ht : ∀ d ∈ [3, 2], 0 < d := by simp
  obtain ⟨⟨lat, g1⟩, g2⟩ := hf (layers[1]'(by omega)) (List.getElem_mem _)
  obtain ⟨F, B, e1, -⟩ := C106_amplitude_poynting_flux (m := 2) (by omega) (by omega) ht g1 g2 exampleIncident_broadcasts
    exampleNoWaves_broadcasts
  obtain ⟨F', B', e2, -⟩ := C106_directional_poynting_flux (m := 2) g1 g2 exampleIncident_broadcasts exampleNoWaves_broadcasts
  obtain ⟨E, e3, -⟩ := C106_eigenmode_poynting_flux g1 g2
  exact ⟨_, F, B, F', B', E, e1, e2, e3, (C106_finding_fields_of_unequal_shapes (m := 2) (by omega) (by omega) ht g1 g2
    exampleIncident_broadcasts exampleNoWaves_broadcasts (by simp [exampleIncident, exampleNoWaves])).2.2⟩

/-- The amplitudes in two stacks on either side of a source. -/
example : ∃ S out, stackAmplitudesInteriorWithSourceBatch (n := 1) (m := 2) S S exampleNoWaves exampleIncident = .ok out ∧
    out.length = 8 := by
  obtain ⟨layers, -, hl, hf, -⟩ := example_layers eig
  obtain ⟨S, h1, h2, h3, -⟩ := C105_interior (t := [3, 2]) (r := 2) (layers := layers) (thicknesses := [1, 2, 3, 1])
    (by rintro rfl; simp at hl) (by simp [hl]) fun L hL => (hf L hL).1
  obtain ⟨out, e, l, -⟩ := C106_amplitudes_with_source (m := 2) (by omega) (by omega) (by simp) h3 h3 exampleNoWaves_broadcasts
    exampleIncident_broadcasts
  exact ⟨S, out, e, by omega⟩

end

end Fmmax
