import Verif.Props.BatchFields

/-! Property C107: fields in three dimensions with batch dimensions. -/

namespace Fmmax

open Spec

variable {t : List ℕ} {r n m : ℕ} {κ : Type}

/-! ### One layer -/

/-- C107: `layer_fields_3d` with batch dimensions. -/
theorem C107_layer_fields_3d (hn : 0 < n) (hm : 0 < m) (ht : ∀ d ∈ t, 0 < d) {lat : LatticeVectors} {l : BatchLayer n}
    (h : LayerFits t r lat l) (hc : LayerComplete l) {a b : Amplitudes n m} (ha : BroadcastsTo a.shape t) (hab : a.shape = b.shape)
    {shape cells : ℕ × ℕ} (hv : validateShapeForExpansion shape l.expansion = .ok ()) (thickness : ℝ) {znum : ℕ} (hz : 0 < znum) :
    ∃ g xy z s, layerFields3dBatch a b l thickness znum (gridSliceBatch shape cells) = .ok (g, xy, z) ∧ BatchFieldsShape g s ∧
      IsBroadcastOf [a.shape, l.eigenvectors.shape] s ∧
      ∀ i x p q, ValidIndex t i → l.elementAt i = .ok x → a.elementAt i = .ok p → b.elementAt i = .ok q →
        ∀ v c z', (BatchFieldsAt g i v ∧ xy.elementAt i = .ok c ∧ z' = z) ↔
          layerFields3d p q x thickness znum (gridSlice shape cells) = .ok (v, c, z') := by
  obtain ⟨g, xy, s, h1, h2, -, h3, h4⟩ := layerFields3dBatch_ok hn hm ht h hc ha hab
    (gridSliceBatch_fits hn ht h hc (cells := cells) hv) thickness hz
  exact ⟨g, xy, _, s, h1, h2, h3, fun i x p q hi hx hp hq => (h4 i x p q hi hx hp hq).2⟩

/-- C107: `layer_fields_3d_on_coordinates` with batch dimensions. -/
theorem C107_layer_fields_3d_on_coordinates (hn : 0 < n) (hm : 0 < m) (ht : ∀ d ∈ t, 0 < d) {lat : LatticeVectors} {l : BatchLayer n}
    (h : LayerFits t r lat l) (hc : LayerComplete l) {a b : Amplitudes n m} (ha : BroadcastsTo a.shape t) (hab : a.shape = b.shape)
    (points : κ → ℝ × ℝ) (thickness : ℝ) {znum : ℕ} (hz : 0 < znum) :
    ∃ g xy z s, layerFields3dBatch a b l thickness znum (coordinateSliceBatch points) = .ok (g, xy, z) ∧ BatchFieldsShape g s ∧
      IsBroadcastOf [a.shape, l.eigenvectors.shape] s ∧
      ∀ i x p q, ValidIndex t i → l.elementAt i = .ok x → a.elementAt i = .ok p → b.elementAt i = .ok q →
        ∀ v c z', (BatchFieldsAt g i v ∧ xy.elementAt i = .ok c ∧ z' = z) ↔
          layerFields3d p q x thickness znum (coordinateSlice points) = .ok (v, c, z') := by
  obtain ⟨g, xy, s, h1, h2, -, h3, h4⟩ := layerFields3dBatch_ok hn hm ht h hc ha hab
    (coordinateSliceBatch_fits hn ht h hc points) thickness hz
  exact ⟨g, xy, _, s, h1, h2, h3, fun i x p q hi hx hp hq => (h4 i x p q hi hx hp hq).2⟩

/-! ### A stack -/

theorem stackFields_of_layers (hn : 0 < n) (hm : 0 < m) (ht : ∀ d ∈ t, 0 < d) {layers : List (BatchLayer n)} {thicknesses : List ℝ}
    {znum : List ℕ} (hne : layers ≠ []) (hlen : layers.length = thicknesses.length) (hzl : znum.length = layers.length)
    (hz : ∀ z ∈ znum, 0 < z) (h : ∀ l ∈ layers, (∃ lat, LayerFits t r lat l) ∧ LayerComplete l) {a0 bN : Amplitudes n m}
    (h0 : BroadcastsTo a0.shape t) (hN : BroadcastsTo bN.shape t) {slice : BatchSliceFn n κ} {single : FieldsXYSliceFn (Fin n) κ}
    (hslice : ∀ l ∈ layers, SliceFits t slice single l) :
    ∃ S out gs zs xy s, stackSMatricesInteriorBatch layers thicknesses = .ok S ∧ stackAmplitudesInteriorBatch a0 bN S = .ok out ∧
      stackFields3dBatch out layers thicknesses znum slice = .ok (gs, zs, xy) ∧
      IsBroadcastOf (a0.shape :: bN.shape :: layers.map fun l => l.eigenvectors.shape) s ∧ (∀ g ∈ gs, BatchFieldsShape g s) ∧
      ∀ i, ValidIndex t i → ∀ a b rs, a0.elementAt i = .ok a → bN.elementAt i = .ok b → LayersElementsAt i layers rs → ∀ ss x,
        stackSMatricesInterior rs thicknesses = .ok ss → stackAmplitudesInterior a b ss = .ok x → ∀ vs z c,
          (List.Forall₂ (fun g v => BatchFieldsAt g i v) gs vs ∧ z = zs ∧ xy.elementAt i = .ok c) ↔
            stackFields3d x rs thicknesses znum single = .ok (vs, z, c) := by
  obtain ⟨S, out, e1, e2, hol, hos, hov⟩ := C106_amplitudes hn hm ht hne hlen h h0 hN
  have hone : out ≠ [] := by
    rintro rfl
    exact hne (List.length_eq_zero_iff.1 hol.symm)
  obtain ⟨x0, hx0⟩ := List.exists_mem_of_ne_nil _ hone
  have hs0 := (hos x0 hx0).1
  have hshape : ∀ x ∈ out, x.1.shape = x0.1.shape := fun x hx => (hos x hx).1.unique hs0
  obtain ⟨gs, zs, xy, e3, hg, hv⟩ := stackFields3dBatch_ok (r := r) hn hm ht (slice := slice) (single := single) (A := out)
    (L := layers) (D := thicknesses) (Z := znum) (by omega) (by omega) (by omega) hone
    (fun R hR => by
      obtain ⟨m1, m2, m3⟩ := mem_zipRequestsBatch hR
      exact ⟨(h _ m2).1, (h _ m2).2, (hos _ m1).2.2, (hos _ m1).2.1.symm, hslice _ m2, hz _ m3⟩)
    (s := x0.1.shape)
    (fun R hR => by
      obtain ⟨m1, m2, m3⟩ := mem_zipRequestsBatch hR
      have e := hshape _ m1
      simp only at e
      rw [e]
      have hl : BroadcastsTo R.layer.eigenvectors.shape x0.1.shape :=
        hs0.upper _ (by
          simp only [List.mem_cons, List.mem_map]
          exact Or.inr (Or.inr ⟨_, m2, rfl⟩))
      refine ⟨?_, fun s' hs' => hs' _ (by simp)⟩
      intro x hx
      simp only [List.mem_cons, List.not_mem_nil, or_false] at hx
      rcases hx with rfl | rfl
      · exact .refl _
      · exact hl)
  refine ⟨S, out, gs, zs, xy, x0.1.shape, e1, e2, e3, hs0, hg, fun i hi a b rs ha hb hrs ss x hss hx => ?_⟩
  exact hv i hi x rs ((hov i hi a b rs ha hb hrs ss hss x).2 hx) hrs

/-- C107: the fields in three dimensions of a stack, `stack_fields_3d`, with amplitudes from `stack_amplitudes_interior`: the calculation
with batch dimensions succeeds, whatever the batch shapes of the layers and of the outer amplitudes (they can be broadcast to `t`, and
those of the layers have one rank); the slices along z all have the batch shape to which the layers and the outer amplitudes are
broadcast together, and the fields and the coordinates at a batch index are those of the elements at that index. -/
theorem C107_stack_fields_3d (hn : 0 < n) (hm : 0 < m) (ht : ∀ d ∈ t, 0 < d) {layers : List (BatchLayer n)} {thicknesses : List ℝ}
    {znum : List ℕ} (hne : layers ≠ []) (hlen : layers.length = thicknesses.length) (hzl : znum.length = layers.length)
    (hz : ∀ z ∈ znum, 0 < z) (h : ∀ l ∈ layers, (∃ lat, LayerFits t r lat l) ∧ LayerComplete l) {a0 bN : Amplitudes n m}
    (h0 : BroadcastsTo a0.shape t) (hN : BroadcastsTo bN.shape t) {shape cells : ℕ × ℕ}
    (hv : ∀ l ∈ layers, validateShapeForExpansion shape l.expansion = .ok ()) :
    ∃ S out gs zs xy s, stackSMatricesInteriorBatch layers thicknesses = .ok S ∧ stackAmplitudesInteriorBatch a0 bN S = .ok out ∧
      stackFields3dBatch out layers thicknesses znum (gridSliceBatch shape cells) = .ok (gs, zs, xy) ∧
      IsBroadcastOf (a0.shape :: bN.shape :: layers.map fun l => l.eigenvectors.shape) s ∧ (∀ g ∈ gs, BatchFieldsShape g s) ∧
      ∀ i, ValidIndex t i → ∀ a b rs, a0.elementAt i = .ok a → bN.elementAt i = .ok b → LayersElementsAt i layers rs → ∀ ss x,
        stackSMatricesInterior rs thicknesses = .ok ss → stackAmplitudesInterior a b ss = .ok x → ∀ vs z c,
          (List.Forall₂ (fun g v => BatchFieldsAt g i v) gs vs ∧ z = zs ∧ xy.elementAt i = .ok c) ↔
            stackFields3d x rs thicknesses znum (gridSlice shape cells) = .ok (vs, z, c) :=
  stackFields_of_layers hn hm ht hne hlen hzl hz h h0 hN fun l hl => by
    obtain ⟨⟨lat, h1⟩, h2⟩ := h l hl
    exact gridSliceBatch_fits hn ht h1 h2 (hv l hl)

/-- C107: `stack_fields_3d_on_coordinates` with batch dimensions. -/
theorem C107_stack_fields_3d_on_coordinates (hn : 0 < n) (hm : 0 < m) (ht : ∀ d ∈ t, 0 < d) {layers : List (BatchLayer n)}
    {thicknesses : List ℝ} {znum : List ℕ} (hne : layers ≠ []) (hlen : layers.length = thicknesses.length)
    (hzl : znum.length = layers.length) (hz : ∀ z ∈ znum, 0 < z)
    (h : ∀ l ∈ layers, (∃ lat, LayerFits t r lat l) ∧ LayerComplete l) {a0 bN : Amplitudes n m}
    (h0 : BroadcastsTo a0.shape t) (hN : BroadcastsTo bN.shape t) (points : κ → ℝ × ℝ) :
    ∃ S out gs zs xy s, stackSMatricesInteriorBatch layers thicknesses = .ok S ∧ stackAmplitudesInteriorBatch a0 bN S = .ok out ∧
      stackFields3dBatch out layers thicknesses znum (coordinateSliceBatch points) = .ok (gs, zs, xy) ∧
      IsBroadcastOf (a0.shape :: bN.shape :: layers.map fun l => l.eigenvectors.shape) s ∧ (∀ g ∈ gs, BatchFieldsShape g s) ∧
      ∀ i, ValidIndex t i → ∀ a b rs, a0.elementAt i = .ok a → bN.elementAt i = .ok b → LayersElementsAt i layers rs → ∀ ss x,
        stackSMatricesInterior rs thicknesses = .ok ss → stackAmplitudesInterior a b ss = .ok x → ∀ vs z c,
          (List.Forall₂ (fun g v => BatchFieldsAt g i v) gs vs ∧ z = zs ∧ xy.elementAt i = .ok c) ↔
            stackFields3d x rs thicknesses znum (coordinateSlice points) = .ok (vs, z, c) :=
  stackFields_of_layers hn hm ht hne hlen hzl hz h h0 hN fun l hl => by
    obtain ⟨⟨lat, h1⟩, h2⟩ := h l hl
    exact coordinateSliceBatch_fits hn ht h1 h2 points

/-- C107, from the arguments of the eigensolves to the fields: solving the layers of a stack with batch dimensions, the interior
scattering matrices, the amplitudes and the fields in three dimensions succeed, and the fields at a batch index are those computed from
the elements of all arguments at that index. -/
theorem C107_calculation
    (eig : Matrix (Fin n ⊕ Fin n) (Fin n ⊕ Fin n) ℂ → (Fin n ⊕ Fin n → ℂ) × Matrix (Fin n ⊕ Fin n) (Fin n ⊕ Fin n) ℂ)
    {w k u v : NDArray ℝ} {K : List ℕ} {lr : ℕ} {l : LatticeVectors} (hn : 0 < n) (hm : 0 < m) (h : BatchInputs t w k u v K lr l)
    {media : List (BatchMedium n)} {thicknesses : List ℝ} {znum : List ℕ} (hne : media ≠ []) (hlen : media.length = thicknesses.length)
    (hzl : znum.length = media.length) (hz : ∀ z ∈ znum, 0 < z) (hw0 : ∀ i, ValidIndex t i → w.elementAt i ≠ 0)
    (hmedia : ∀ M ∈ media, M.permittivity.shape = M.batchShape ++ [M.nx, M.ny] ∧ BroadcastsTo M.batchShape t ∧
      batchRank w K lr M.batchShape = r ∧
      (M.nx = 1 ∧ M.ny = 1 → ∀ i, ValidIndex t i → M.permittivity.elementAt (i ++ [0, 0]) ≠ 0)) (G : Fin n → ℤ × ℤ)
    {a0 bN : Amplitudes n m} (h0 : BroadcastsTo a0.shape t) (hN : BroadcastsTo bN.shape t) {shape cells : ℕ × ℕ}
    (hv : validateShapeForExpansion shape G = .ok ()) :
    ∃ layers S out gs zs xy,
      List.Forall₂ (fun M L => eigensolveIsotropicMediaBatch eig w k u v M.permittivity G M.formulation = .ok L) media layers ∧
      stackSMatricesInteriorBatch layers thicknesses = .ok S ∧ stackAmplitudesInteriorBatch a0 bN S = .ok out ∧
      stackFields3dBatch out layers thicknesses znum (gridSliceBatch shape cells) = .ok (gs, zs, xy) ∧
      ∀ i, ValidIndex t i → ∀ (rs : List (LayerSolveResult (Fin n))) a b ss x,
        List.Forall₂ (fun M a => eigensolveIsotropicMedia eig (w.elementAt i) (k.elementAt (i ++ [0]), k.elementAt (i ++ [1])) l
          (gridAt M.permittivity M.nx M.ny i) G M.formulation = .ok a) media rs →
        a0.elementAt i = .ok a → bN.elementAt i = .ok b → stackSMatricesInterior rs thicknesses = .ok ss →
        stackAmplitudesInterior a b ss = .ok x → ∀ vs z c,
          (List.Forall₂ (fun g v => BatchFieldsAt g i v) gs vs ∧ z = zs ∧ xy.elementAt i = .ok c) ↔
            stackFields3d x rs thicknesses znum (gridSlice shape cells) = .ok (vs, z, c) := by
  obtain ⟨layers, h1, h2, h3, h4, h5⟩ := solveMedia eig hn h hw0 hmedia G
  obtain ⟨S, out, gs, zs, xy, s, g1, g2, g3, -, -, g4⟩ := C107_stack_fields_3d (cells := cells) hn hm h.positive (layers := layers)
    (thicknesses := thicknesses) (znum := znum) (by
      rintro rfl
      exact hne (List.length_eq_zero_iff.1 h2.symm)) (by omega) (by omega) hz h3 h0 hN fun L hL => by rw [h4 L hL]; exact hv
  exact ⟨layers, S, out, gs, zs, xy, h1, g1, g2, g3, fun i hi rs a b ss x hrs ha hb hss hx =>
    g4 i hi a b rs ha hb ((h5 i hi rs).1 hrs) ss x hss hx⟩

/-- C107, a finding: `stack_fields_3d` concatenates the fields of the layers along z.  If the batch shapes to which two layers and
their amplitudes are broadcast differ, it raises, also if the shapes can be broadcast together.  (Amplitudes from
`stack_amplitudes_interior` have one shape, but those of parts of a stack computed separately need not.) -/
theorem C107_finding_unequal_shapes (hn : 0 < n) (hm : 0 < m) (ht : ∀ d ∈ t, 0 < d) {slice : BatchSliceFn n κ}
    {single : FieldsXYSliceFn (Fin n) κ} {A : List (Amplitudes n m × Amplitudes n m)} {L : List (BatchLayer n)} {D : List ℝ} {Z : List ℕ}
    (h1 : L.length = A.length) (h2 : D.length = A.length) (h3 : Z.length = A.length)
    (hfit : ∀ R ∈ zipRequestsBatch A L D Z, RequestFits t r slice single R) {R R' : BatchLayerRequest n m} {s s' : List ℕ}
    (hR : R ∈ zipRequestsBatch A L D Z) (hR' : R' ∈ zipRequestsBatch A L D Z)
    (hs : IsBroadcastOf [R.a.shape, R.layer.eigenvectors.shape] s) (hs' : IsBroadcastOf [R'.a.shape, R'.layer.eigenvectors.shape] s')
    (hne : s ≠ s') : stackFields3dBatch A L D Z slice = .error .typeError := by
  obtain ⟨shapes, gs, zs, xy, el, hsh, hgs, hxy, hv⟩ := stackFieldsLoopBatch_ok hn hm ht _ hfit 0 none
  have key : ∀ {R s}, R ∈ zipRequestsBatch A L D Z → IsBroadcastOf [R.a.shape, R.layer.eigenvectors.shape] s → (s, s) ∈ shapes := by
    intro R s hR hs
    obtain ⟨j, hj, rfl⟩ := List.mem_iff_getElem.1 hR
    have hj' : j < shapes.length := by
      have := hsh.length_eq
      omega
    have g := (List.forall₂_iff_get.1 hsh).2 j hj hj'
    simp only [List.get_eq_getElem] at g
    have e := g.2.unique hs
    have : shapes[j] = (s, s) := Prod.ext e (g.1.symm.trans e)
    rw [← this]
    exact List.getElem_mem hj'
  have k1 := key hR hs
  have k2 := key hR' hs'
  unfold stackFields3dBatch
  rw [if_neg (by rw [h1, h2, h3]; simp), el]
  simp only [bind, Except.bind]
  cases xy with
  | none => exact absurd rfl (hxy (List.ne_nil_of_mem hR))
  | some c =>
    cases shapes with
    | nil => simp at k1
    | cons x rest =>
      simp only
      rw [if_neg]
      intro hall
      have e : ∀ y ∈ x :: rest, y = x := by
        intro y hy
        rcases List.mem_cons.1 hy with rfl | hy
        · rfl
        · exact hall y hy
      have := (e _ k1).trans (e _ k2).symm
      simp only [Prod.mk.injEq, and_self] at this
      exact hne this

/-! ### Examples -/

section

variable (eig : Matrix (Fin 1 ⊕ Fin 1) (Fin 1 ⊕ Fin 1) ℂ → (Fin 1 ⊕ Fin 1 → ℂ) × Matrix (Fin 1 ⊕ Fin 1) (Fin 1 ⊕ Fin 1) ℂ)

/-- The fields on a grid in the stack solved beside C96, for three wavelengths, two wavevectors and outer amplitudes of batch shapes
`(3, 1)` and `()`. -/
example : ∃ layers S out gs zs xy,
    List.Forall₂ (fun M L => eigensolveIsotropicMediaBatch eig exampleWavelengths exampleWavevectors (exampleAxis 0) (exampleAxis 1)
      M.permittivity (fun _ => (0, 0)) M.formulation = .ok L) [exampleVacuum, exampleDispersive, examplePatterned, exampleVacuum]
      layers ∧ stackSMatricesInteriorBatch layers [1, 2, 3, 1] = .ok S ∧
      stackAmplitudesInteriorBatch exampleIncident exampleNoWaves S = .ok out ∧
      stackFields3dBatch out layers [1, 2, 3, 1] [5, 6, 7, 8] (gridSliceBatch (4, 4) (1, 2)) = .ok (gs, zs, xy) := by
  obtain ⟨layers, S, out, gs, zs, xy, h1, h2, h3, h4, -⟩ := C107_calculation (m := 2) (cells := (1, 2)) eig (by omega) (by omega)
    example_batchInputs (thicknesses := [1, 2, 3, 1]) (znum := [5, 6, 7, 8]) (by simp) (by simp) (by simp) (by simp)
    (fun i _ => example_wavelengths_ne_zero i) example_media (fun _ => (0, 0)) exampleIncident_broadcasts exampleNoWaves_broadcasts
    example_shape
  exact ⟨layers, S, out, gs, zs, xy, h1, h2, h3, h4⟩

/-- The same at a point. -/
example : ∃ layers S out gs zs xy s, stackSMatricesInteriorBatch layers [1, 2, 3, 1] = .ok S ∧
    stackAmplitudesInteriorBatch exampleIncident exampleNoWaves S = .ok out ∧
    stackFields3dBatch out layers [1, 2, 3, 1] [5, 6, 7, 8] (coordinateSliceBatch fun _ : Fin 1 => ((1 : ℝ), (2 : ℝ))) =
      .ok (gs, zs, xy) ∧ ∀ g ∈ gs, BatchFieldsShape g s := by
  obtain ⟨layers, -, hl, hf, -⟩ := example_layers eig
  obtain ⟨S, out, gs, zs, xy, s, h1, h2, h3, -, h4, -⟩ := C107_stack_fields_3d_on_coordinates (t := [3, 2]) (r := 2) (n := 1) (m := 2)
    (by omega) (by omega) (by simp) (layers := layers) (thicknesses := [1, 2, 3, 1]) (znum := [5, 6, 7, 8])
    (by rintro rfl; simp at hl) (by simp [hl]) (by simp [hl]) (by simp) hf exampleIncident_broadcasts exampleNoWaves_broadcasts
    (fun _ : Fin 1 => ((1 : ℝ), (2 : ℝ)))
  exact ⟨layers, S, out, gs, zs, xy, s, h1, h2, h3, h4⟩

/-- The fields in one layer. -/
example : ∃ L : BatchLayer 1, ∃ g xy z s, layerFields3dBatch exampleIncident exampleIncident L 2 5 (gridSliceBatch (4, 4) (1, 1)) =
    .ok (g, xy, z) ∧ BatchFieldsShape g s := by
  obtain ⟨layers, -, hl, hf, hx0⟩ := example_layers eig
  have hmem : layers[1]'(by omega) ∈ layers := List.getElem_mem _
  obtain ⟨⟨lat, g1⟩, g2⟩ := hf _ hmem
  obtain ⟨g, xy, z, s, h1, h2, -⟩ := C107_layer_fields_3d (m := 2) (cells := (1, 1)) (by omega) (by omega) (by simp) g1 g2
    exampleIncident_broadcasts rfl (by rw [hx0 _ hmem]; exact example_shape) 2 (znum := 5) (by omega)
  exact ⟨_, g, xy, z, s, h1, h2⟩

/-- The fields at a point of one layer. -/
example : ∃ L : BatchLayer 1, ∃ g xy z s, layerFields3dBatch exampleIncident exampleIncident L 2 5
    (coordinateSliceBatch fun _ : Fin 1 => ((1 : ℝ), (2 : ℝ))) = .ok (g, xy, z) ∧ BatchFieldsShape g s := by
  obtain ⟨layers, -, hl, hf, hx0⟩ := example_layers eig
  have hmem : layers[1]'(by omega) ∈ layers := List.getElem_mem _
  obtain ⟨⟨lat, g1⟩, g2⟩ := hf _ hmem
  obtain ⟨g, xy, z, s, h1, h2, -⟩ := C107_layer_fields_3d_on_coordinates (m := 2) (by omega) (by omega) (by simp) g1 g2
    exampleIncident_broadcasts rfl (fun _ : Fin 1 => ((1 : ℝ), (2 : ℝ))) 2 (znum := 5) (by omega)
  exact ⟨_, g, xy, z, s, h1, h2⟩

theorem isBroadcastOf_pair {a b : List ℕ} (h : BroadcastsTo b a) : IsBroadcastOf [a, b] a := by
  refine ⟨?_, fun s' hs' => hs' _ (by simp)⟩
  simpa using ⟨.refl _, h⟩

/-- Amplitudes of batch shapes `(2, 3, 2)` and `(3, 2)` in two layers: the fields of each are computed, but not those of the stack. -/
example : ∃ L L' : BatchLayer 1, ∃ A A' : Amplitudes 1 1, A.shape = [2, 3, 2] ∧ A'.shape = [3, 2] ∧
    stackFields3dBatch [(A, A), (A', A')] [L, L'] [1, 2] [3, 4] (coordinateSliceBatch fun _ : Fin 1 => ((1 : ℝ), (2 : ℝ))) =
      .error .typeError := by
  obtain ⟨layers, -, hl, hf, -⟩ := example_layers eig
  have hb : BroadcastsTo [3, 2] [2, 3, 2] := ⟨[2], [3, 2], rfl, .cons (Or.inr rfl) (.cons (Or.inr rfl) .nil)⟩
  have fit : ∀ L ∈ layers, (∃ lat, LayerFits [2, 3, 2] 2 lat L) ∧ LayerComplete L ∧ BroadcastsTo L.eigenvectors.shape [3, 2] := by
    intro L hL
    obtain ⟨⟨lat, h1⟩, h2⟩ := hf L hL
    exact ⟨⟨lat, h2.fits_of h1 (h1.eigenvectors.broadcasts.trans hb)⟩, h2, h1.eigenvectors.broadcasts⟩
  have m1 : layers[1]'(by omega) ∈ layers := List.getElem_mem _
  have m2 : layers[2]'(by omega) ∈ layers := List.getElem_mem _
  set A : Amplitudes 1 1 := { shape := [2, 3, 2], get := fun _ => .ok (Matrix.of fun _ _ => 1) } with hA
  set A' : Amplitudes 1 1 := { shape := [3, 2], get := fun _ => .ok (Matrix.of fun _ _ => 1) } with hA'
  refine ⟨_, _, A, A', rfl, rfl, C107_finding_unequal_shapes (t := [2, 3, 2]) (r := 2) (by omega) (by omega) (by simp)
    (single := coordinateSlice fun _ : Fin 1 => ((1 : ℝ), (2 : ℝ))) (L := [layers[1]'(by omega), layers[2]'(by omega)]) rfl rfl rfl ?_
    (R := ⟨A, A, layers[1]'(by omega), 1, 3⟩) (R' := ⟨A', A', layers[2]'(by omega), 2, 4⟩) (s := [2, 3, 2]) (s' := [3, 2])
    (by simp [zipRequestsBatch]) (by simp [zipRequestsBatch]) (isBroadcastOf_pair ((fit _ m1).2.2.trans hb))
    (isBroadcastOf_pair (fit _ m2).2.2) (by simp)⟩
  intro R hR
  simp only [zipRequestsBatch, List.mem_cons, List.not_mem_nil, or_false] at hR
  rcases hR with rfl | rfl
  · obtain ⟨⟨lat, g1⟩, g2, g3⟩ := fit _ m1
    exact ⟨⟨lat, g1⟩, g2, .refl _, rfl, coordinateSliceBatch_fits (by omega) (by simp) g1 g2 _, by simp⟩
  · obtain ⟨⟨lat, g1⟩, g2, g3⟩ := fit _ m2
    exact ⟨⟨lat, g1⟩, g2, hb, rfl, coordinateSliceBatch_fits (by omega) (by simp) g1 g2 _, by simp⟩

end

end Fmmax
