import Verif.Proofs.BatchShape
import Verif.Props.BatchSolve

/-! Property C105: interior scattering matrices, prepended layers, star products and changed thicknesses with batch dimensions. -/

namespace Fmmax

open Spec

variable {t : List ℕ} {r n : ℕ}

theorem SMatrixExact.blocks {shapes : List (List ℕ)} {s : BatchScatteringMatrix n} (h : SMatrixExact shapes s) : BlocksShape shapes s :=
  ⟨h.s11, h.s12 ▸ h.s11, h.s21 ▸ h.s11, h.s22 ▸ h.s11⟩

/-- C105: `stack_s_matrices_interior` of layers whose batch shapes have the same rank and can be broadcast to `t` succeeds with one pair
of scattering matrices per layer, and the pairs at a batch index are those of the layers' elements at that index. -/
theorem C105_interior {layers : List (BatchLayer n)} {thicknesses : List ℝ} (hne : layers ≠ [])
    (hlen : layers.length = thicknesses.length) (h : ∀ l ∈ layers, ∃ lat, LayerFits t r lat l) :
    ∃ S, stackSMatricesInteriorBatch layers thicknesses = .ok S ∧ S.length = layers.length ∧
      (∀ x ∈ S, SMatrixFits t r x.1 ∧ SMatrixFits t r x.2) ∧
      ∀ i, ValidIndex t i → ∀ rs, LayersElementsAt i layers rs → ∀ ss,
        SMatrixPairsAt i S ss ↔ stackSMatricesInterior rs thicknesses = .ok ss :=
  stackSMatricesInteriorBatch_ok hne hlen h

/-- C105: the batch shape of the scattering matrix of the layers before a layer is the one to which these layers and the layer itself
are broadcast together, and similarly for the layers after it: a permittivity that depends on a batch axis in one layer gives this
axis to the scattering matrices that contain the layer, and to no other. -/
theorem C105_interior_shape {layers : List (BatchLayer n)} {thicknesses : List ℝ} (hlen : layers.length = thicknesses.length)
    (h : ∀ l ∈ layers, (∃ lat, LayerFits t r lat l) ∧ LayerComplete l)
    {S : List (BatchScatteringMatrix n × BatchScatteringMatrix n)} (hS : stackSMatricesInteriorBatch layers thicknesses = .ok S)
    (j : ℕ) (hj : j < S.length) :
    BlocksShape ((layers.take (j + 1)).map fun l => l.eigenvectors.shape) S[j].1 ∧
      BlocksShape ((layers.drop j).map fun l => l.eigenvectors.shape) S[j].2 := by
  have hl : S.length = layers.length := by
    by_cases hne : layers = []
    · subst hne
      cases thicknesses with
      | nil => cases hS
      | cons d D => cases hlen
    · obtain ⟨S', h1, h2, -⟩ := C105_interior (t := t) (r := r) hne hlen fun l hl => (h l hl).1
      obtain rfl := ok_inj.1 (hS.symm.trans h1)
      exact h2
  obtain ⟨h1, h2⟩ := stackSMatricesInteriorBatch_exact hlen h hS hl j hj
  exact ⟨h1.blocks, h2.blocks⟩

/-- C105: `prepend_layer` with batch dimensions. -/
theorem C105_prepend {lat : LatticeVectors} {s : BatchScatteringMatrix n} {l : BatchLayer n} (h : SMatrixFits t r s)
    (h' : LayerFits t r lat l) (d : ℝ) :
    ∃ s', prependLayerBatch s l d = .ok s' ∧ SMatrixFits t r s' ∧
      ∀ i x c, ValidIndex t i → s.elementAt i = .ok x → l.elementAt i = .ok c →
        ∀ y, s'.elementAt i = .ok y ↔ prependLayer x c d = .ok y := by
  obtain ⟨s', h1, h2, -, -, h3⟩ := prependLayerBatch_ok h h' d
  exact ⟨s', h1, h2, h3⟩

/-- C105: `redheffer_star_product` with batch dimensions. -/
theorem C105_star_product {a b : BatchScatteringMatrix n} (ha : SMatrixFits t r a) (hb : SMatrixFits t r b) :
    ∃ s, redhefferStarProductBatch a b = .ok s ∧ SMatrixFits t r s ∧
      ∀ i x y, ValidIndex t i → a.elementAt i = .ok x → b.elementAt i = .ok y →
        ∀ z, s.elementAt i = .ok z ↔ redhefferStarProduct x y = .ok z :=
  redhefferStarProductBatch_ok ha hb

/-- C105: `set_end_layer_thickness` with batch dimensions. -/
theorem C105_set_end_layer_thickness {s : BatchScatteringMatrix n} (h : SMatrixFits t r s) (d : ℝ) :
    ∃ s', setEndLayerThicknessBatch s d = .ok s' ∧ SMatrixFits t r s' ∧
      ∀ i x, ValidIndex t i → s.elementAt i = .ok x → s'.elementAt i = .ok (setEndLayerThickness x d) :=
  setEndLayerThicknessBatch_ok h d

/-- C105: `set_start_layer_thickness` with batch dimensions. -/
theorem C105_set_start_layer_thickness {s : BatchScatteringMatrix n} (h : SMatrixFits t r s) (d : ℝ) :
    ∃ s', setStartLayerThicknessBatch s d = .ok s' ∧ SMatrixFits t r s' ∧
      ∀ i x, ValidIndex t i → s.elementAt i = .ok x → s'.elementAt i = .ok (setStartLayerThickness x d) :=
  setStartLayerThicknessBatch_ok h d

/-! ### From the arguments of the eigensolves -/

section

variable (eig : Matrix (Fin n ⊕ Fin n) (Fin n ⊕ Fin n) ℂ → (Fin n ⊕ Fin n → ℂ) × Matrix (Fin n ⊕ Fin n) (Fin n ⊕ Fin n) ℂ)

theorem BatchLayer.build_expansion {x L : BatchLayer n} (h : BatchLayer.build x = .ok L) : L.expansion = x.expansion := by
  obtain ⟨_, -, h⟩ := bind_eq_ok.1 h
  exact congrArg _ (ok_inj.1 h).symm

theorem eigensolveIsotropicMediaBatch_expansion {nx ny : ℕ} {w k u v : NDArray ℝ} {p : NDArray ℂ} {G : Fin n → ℤ × ℤ}
    {formulation : Formulation nx ny (Fin n)} {L : BatchLayer n}
    (h : eigensolveIsotropicMediaBatch eig w k u v p G formulation = .ok L) : L.expansion = G := by
  unfold eigensolveIsotropicMediaBatch at h
  split at h
  · unfold eigensolveUniformIsotropicBatch at h
    obtain ⟨args, -, h⟩ := bind_eq_ok.1 h
    split at h
    · split at h
      · cases h
      · obtain ⟨_, -, h⟩ := bind_eq_ok.1 h
        obtain ⟨_, -, h⟩ := bind_eq_ok.1 h
        obtain ⟨_, -, h⟩ := bind_eq_ok.1 h
        obtain ⟨_, -, h⟩ := bind_eq_ok.1 h
        obtain ⟨_, -, h⟩ := bind_eq_ok.1 h
        obtain ⟨_, -, h⟩ := bind_eq_ok.1 h
        obtain ⟨_, -, h⟩ := bind_eq_ok.1 h
        exact BatchLayer.build_expansion h
    · cases h
  · unfold eigensolvePatternedIsotropicBatch at h
    obtain ⟨args, -, h⟩ := bind_eq_ok.1 h
    split at h
    · unfold numericalEigensolveBatch at h
      obtain ⟨_, -, h⟩ := bind_eq_ok.1 h
      obtain ⟨_, -, h⟩ := bind_eq_ok.1 h
      obtain ⟨_, -, h⟩ := bind_eq_ok.1 h
      obtain ⟨_, -, h⟩ := bind_eq_ok.1 h
      obtain ⟨_, -, h⟩ := bind_eq_ok.1 h
      obtain ⟨_, -, h⟩ := bind_eq_ok.1 h
      exact BatchLayer.build_expansion h
    · cases h

theorem solveMedia {w k u v : NDArray ℝ} {K : List ℕ} {m : ℕ} {l : LatticeVectors} (hn : 0 < n) (h : BatchInputs t w k u v K m l)
    {media : List (BatchMedium n)} (hw0 : ∀ i, ValidIndex t i → w.elementAt i ≠ 0)
    (hm : ∀ M ∈ media, M.permittivity.shape = M.batchShape ++ [M.nx, M.ny] ∧ BroadcastsTo M.batchShape t ∧
      batchRank w K m M.batchShape = r ∧
      (M.nx = 1 ∧ M.ny = 1 → ∀ i, ValidIndex t i → M.permittivity.elementAt (i ++ [0, 0]) ≠ 0)) (G : Fin n → ℤ × ℤ) :
    ∃ layers,
      List.Forall₂ (fun M L => eigensolveIsotropicMediaBatch eig w k u v M.permittivity G M.formulation = .ok L) media layers ∧
      layers.length = media.length ∧ (∀ L ∈ layers, (∃ lat, LayerFits t r lat L) ∧ LayerComplete L) ∧
      (∀ L ∈ layers, L.expansion = G) ∧
      ∀ i, ValidIndex t i → ∀ rs : List (LayerSolveResult (Fin n)),
        List.Forall₂ (fun M a => eigensolveIsotropicMedia eig (w.elementAt i) (k.elementAt (i ++ [0]), k.elementAt (i ++ [1])) l
          (gridAt M.permittivity M.nx M.ny i) G M.formulation = .ok a) media rs ↔ LayersElementsAt i layers rs := by
  induction media with
  | nil =>
    refine ⟨[], .nil, rfl, by simp, by simp, fun i hi rs => ?_⟩
    simp [LayersElementsAt]
  | cons M ms ih =>
    obtain ⟨Ls, h1, h2, h3, h5, h4⟩ := ih fun M hM => hm M (List.mem_cons_of_mem _ hM)
    obtain ⟨g1, g2, g3, g4⟩ := hm M List.mem_cons_self
    obtain ⟨L, hL, hs⟩ := C96_isotropic eig hn h g1 g2 hw0 g4 G M.formulation
    rw [g3] at hs
    refine ⟨L :: Ls, .cons hL h1, by simp [h2], ?_, ?_, fun i hi rs => ?_⟩
    · simp only [List.mem_cons, forall_eq_or_imp]
      exact ⟨⟨⟨l, hs.fits⟩, hs.complete⟩, h3⟩
    · simp only [List.mem_cons, forall_eq_or_imp]
      exact ⟨eigensolveIsotropicMediaBatch_expansion eig hL, h5⟩
    · unfold LayersElementsAt
      cases rs with
      | nil => simp
      | cons a rs =>
        simp only [List.forall₂_cons]
        rw [h4 i hi rs]
        exact and_congr_left' (hs.element i hi a).symm

/-- C105, from the arguments to the interior scattering matrices. -/
theorem C105_calculation {w k u v : NDArray ℝ} {K : List ℕ} {m : ℕ} {l : LatticeVectors} (hn : 0 < n) (h : BatchInputs t w k u v K m l)
    {media : List (BatchMedium n)} {thicknesses : List ℝ} (hne : media ≠ []) (hlen : media.length = thicknesses.length)
    (hw0 : ∀ i, ValidIndex t i → w.elementAt i ≠ 0)
    (hm : ∀ M ∈ media, M.permittivity.shape = M.batchShape ++ [M.nx, M.ny] ∧ BroadcastsTo M.batchShape t ∧
      batchRank w K m M.batchShape = r ∧
      (M.nx = 1 ∧ M.ny = 1 → ∀ i, ValidIndex t i → M.permittivity.elementAt (i ++ [0, 0]) ≠ 0)) (G : Fin n → ℤ × ℤ) :
    ∃ layers S,
      List.Forall₂ (fun M L => eigensolveIsotropicMediaBatch eig w k u v M.permittivity G M.formulation = .ok L) media layers ∧
      stackSMatricesInteriorBatch layers thicknesses = .ok S ∧
      ∀ i, ValidIndex t i → ∀ rs : List (LayerSolveResult (Fin n)),
        List.Forall₂ (fun M a => eigensolveIsotropicMedia eig (w.elementAt i) (k.elementAt (i ++ [0]), k.elementAt (i ++ [1])) l
          (gridAt M.permittivity M.nx M.ny i) G M.formulation = .ok a) media rs →
        ∀ ss, SMatrixPairsAt i S ss ↔ stackSMatricesInterior rs thicknesses = .ok ss := by
  obtain ⟨layers, h1, h2, h3, -, h4⟩ := solveMedia eig hn h hw0 hm G
  obtain ⟨S, g1, -, -, g4⟩ := C105_interior (t := t) (r := r) (layers := layers) (thicknesses := thicknesses) (by
    rintro rfl
    exact hne (List.length_eq_zero_iff.1 h2.symm)) (by omega) fun L hL => (h3 L hL).1
  exact ⟨layers, S, h1, g1, fun i hi rs hrs => g4 i hi rs ((h4 i hi rs).1 hrs)⟩

end

section

variable (eig : Matrix (Fin 1 ⊕ Fin 1) (Fin 1 ⊕ Fin 1) ℂ → (Fin 1 ⊕ Fin 1 → ℂ) × Matrix (Fin 1 ⊕ Fin 1) (Fin 1 ⊕ Fin 1) ℂ)

/-- The layers of the stack solved beside C96. -/
theorem example_layers : ∃ layers,
    List.Forall₂ (fun M L => eigensolveIsotropicMediaBatch eig exampleWavelengths exampleWavevectors (exampleAxis 0) (exampleAxis 1)
      M.permittivity (fun _ => (0, 0)) M.formulation = .ok L) [exampleVacuum, exampleDispersive, examplePatterned, exampleVacuum]
      layers ∧ layers.length = 4 ∧ (∀ L ∈ layers, (∃ lat, LayerFits [3, 2] 2 lat L) ∧ LayerComplete L) ∧
      ∀ L ∈ layers, L.expansion = fun _ => (0, 0) := by
  obtain ⟨layers, h1, h2, h3, h4, -⟩ := solveMedia eig (by omega) example_batchInputs (fun i _ => example_wavelengths_ne_zero i)
    example_media (fun _ => (0, 0))
  exact ⟨layers, h1, h2, h3, h4⟩

/-- The interior scattering matrices of this stack have the batch shapes of the layers they contain. -/
example : ∃ (layers : List (BatchLayer 1)) (S : List (BatchScatteringMatrix 1 × BatchScatteringMatrix 1)) (hS : S.length = 4),
    layers.length = 4 ∧ stackSMatricesInteriorBatch layers [1, 2, 3, 1] = .ok S ∧
      BlocksShape ((layers.take 2).map fun l => l.eigenvectors.shape) (S[1]'(by omega)).1 ∧
      BlocksShape ((layers.drop 1).map fun l => l.eigenvectors.shape) (S[1]'(by omega)).2 := by
  obtain ⟨layers, -, hl, hf, -⟩ := example_layers eig
  obtain ⟨S, h1, h2, -⟩ := C105_interior (t := [3, 2]) (r := 2) (layers := layers) (thicknesses := [1, 2, 3, 1])
    (by rintro rfl; simp at hl) (by simp [hl]) fun L hL => (hf L hL).1
  have := C105_interior_shape (by simp [hl]) hf h1 1 (by omega)
  exact ⟨layers, S, by omega, hl, h1, this⟩

/-- A layer is prepended to the scattering matrix of this stack, the star product with itself is formed and the thicknesses are
changed. -/
example : ∃ (L : BatchLayer 1) (s s1 s2 s3 s4 : BatchScatteringMatrix 1), prependLayerBatch s L 2 = .ok s1 ∧
    redhefferStarProductBatch s1 s = .ok s2 ∧ setEndLayerThicknessBatch s2 3 = .ok s3 ∧ setStartLayerThicknessBatch s3 0 = .ok s4 := by
  obtain ⟨layers, -, hl, hf, -⟩ := example_layers eig
  obtain ⟨S, h1, h2, -⟩ := C96_stack (t := [3, 2]) (r := 2) (layers := layers) (thicknesses := [1, 2, 3, 1])
    (by rintro rfl; simp at hl) (by simp [hl]) fun L hL => (hf L hL).1
  obtain ⟨⟨lat, hL⟩, -⟩ := hf (layers[1]'(by omega)) (List.getElem_mem _)
  obtain ⟨s1, e1, f1, -⟩ := C105_prepend h2 hL 2
  obtain ⟨s2, e2, f2, -⟩ := C105_star_product f1 h2
  obtain ⟨s3, e3, f3, -⟩ := C105_set_end_layer_thickness f2 3
  obtain ⟨s4, e4, f4, -⟩ := C105_set_start_layer_thickness f3 0
  exact ⟨_, S, s1, s2, s3, s4, e1, e2, e3, e4⟩

end

end Fmmax
