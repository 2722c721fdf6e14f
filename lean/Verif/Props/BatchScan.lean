import Verif.Proofs.BatchScanRepeat
import Verif.Props.BatchThickness

/-! C110: scattering matrices by a scan over layers in the leading axis. -/

namespace Fmmax

open Spec

variable {t : List ℕ} {r n : ℕ}

/-- C110: `stack_s_matrix_scan` of layers stacked along a new leading axis of every array succeeds.  The blocks have the batch shape of
the layers, and at every batch index the result is the scattering matrix of the layers at this index. -/
theorem C110_scan {l : BatchLayer n} {layers : List (BatchLayer n)} {thicknesses : NDArray ℝ} (hne : layers ≠ [])
    (hst : LayersStacked l layers) (hb : ∀ x ∈ layers, x.build = .ok x)
    (h : ∀ x ∈ layers, (∃ lat, LayerFits t r lat x) ∧ LayerComplete x) (hd : thicknesses.shape = [layers.length]) :
    ∃ s, stackSMatrixScanBatch l thicknesses = .ok s ∧
      (∀ x ∈ layers, s.s11.shape = x.eigenvectors.shape ∧ s.s12.shape = x.eigenvectors.shape ∧ s.s21.shape = x.eigenvectors.shape ∧
        s.s22.shape = x.eigenvectors.shape) ∧
      ∀ i, ValidIndex t i → ∀ rs, LayersElementsAt i layers rs →
        ∀ x, s.elementAt i = .ok x ↔ stackSMatrix rs (listOf thicknesses layers.length) = .ok x := by
  obtain ⟨s, h1, -, h2, h3⟩ := stackSMatrixScanBatch_ok hne hst hb h hd
  exact ⟨s, h1, h2, h3⟩

/-- C110: the scan and the loop over the same layers have the same batch elements. -/
theorem C110_scan_eq_loop {l : BatchLayer n} {layers : List (BatchLayer n)} {thicknesses : NDArray ℝ} (hne : layers ≠ [])
    (hst : LayersStacked l layers) (hb : ∀ x ∈ layers, x.build = .ok x)
    (h : ∀ x ∈ layers, (∃ lat, LayerFits t r lat x) ∧ LayerComplete x) (hd : thicknesses.shape = [layers.length]) :
    ∃ s s', stackSMatrixScanBatch l thicknesses = .ok s ∧ stackSMatrixBatch layers (listOf thicknesses layers.length) = .ok s' ∧
      ∀ i, ValidIndex t i → ∀ rs, LayersElementsAt i layers rs → ∀ x, s.elementAt i = .ok x ↔ s'.elementAt i = .ok x := by
  obtain ⟨s, h1, -, h3⟩ := C110_scan hne hst hb h hd
  obtain ⟨s', g1, -, g3⟩ := C96_stack (t := t) (r := r) (layers := layers) (thicknesses := listOf thicknesses layers.length) hne
    (by simp [listOf]) fun x hx => (h x hx).1
  refine ⟨s, s', h1, g1, fun i hi rs hrs x => ?_⟩
  rw [h3 i hi rs hrs x, g3 i hi rs hrs x]

/-- C110: the arguments that `stack_s_matrix_scan` rejects first: thicknesses that are not one-dimensional, layers without batch axes,
and a number of thicknesses other than the length of the leading batch axis. -/
theorem C110_rejects (l : BatchLayer n) (thicknesses : NDArray ℝ) :
    (thicknesses.shape.length ≠ 1 → stackSMatrixScanBatch l thicknesses = .error .assertionError) ∧
    (thicknesses.shape.length = 1 → l.eigenvectors.shape = [] → stackSMatrixScanBatch l thicknesses = .error .indexError) ∧
    ∀ m d e, thicknesses.shape = [d] → l.eigenvectors.shape = m :: e → m ≠ d → stackSMatrixScanBatch l thicknesses = .error .valueError := by
  unfold stackSMatrixScanBatch
  refine ⟨fun h => by rw [if_pos h], fun h h' => by rw [if_neg (not_not.2 h), h'], fun m d e h h' hmd => ?_⟩
  rw [h, h']
  simp [hmd]

/-- C110: layers solved in one batch with one lattice cannot be used in a scan: the arrays of the lattice vectors have a leading axis of
length one. -/
theorem C110_finding_one_lattice {m : ℕ} {lat : LatticeVectors} {l : BatchLayer n} {thicknesses : NDArray ℝ} {e : List ℕ} (hm : 2 ≤ m)
    (ht : ∀ d ∈ t, 0 < d) (h : LayerFits t r lat l) (he : l.eigenvectors.shape = m :: e) (hd : thicknesses.shape = [m]) :
    stackSMatrixScanBatch l thicknesses = .error .valueError :=
  stackSMatrixScanBatch_lattice hm ht h he hd

section

variable (eig : Matrix (Fin n ⊕ Fin n) (Fin n ⊕ Fin n) ℂ → (Fin n ⊕ Fin n → ℂ) × Matrix (Fin n ⊕ Fin n) (Fin n ⊕ Fin n) ℂ)

theorem eigensolveIsotropicMediaBatch_built {nx ny : ℕ} {w k u v : NDArray ℝ} {p : NDArray ℂ} {G : Fin n → ℤ × ℤ}
    {formulation : Formulation nx ny (Fin n)} {L : BatchLayer n}
    (h : eigensolveIsotropicMediaBatch eig w k u v p G formulation = .ok L) : L.build = .ok L := by
  unfold eigensolveIsotropicMediaBatch at h
  split at h
  · unfold eigensolveUniformIsotropicBatch at h
    obtain ⟨args, -, h⟩ := bind_eq_ok.1 h
    split at h
    · split at h
      · cases h
      · obtain ⟨_, -, h⟩ := bind_eq_ok.1 h
        obtain ⟨_, -, h⟩ := bind_eq_ok.1 h
        obtain ⟨_, -, h⟩ := bind_eq_ok.1 h
        obtain ⟨_, -, h⟩ := bind_eq_ok.1 h
        obtain ⟨_, -, h⟩ := bind_eq_ok.1 h
        obtain ⟨_, -, h⟩ := bind_eq_ok.1 h
        obtain ⟨_, -, h⟩ := bind_eq_ok.1 h
        exact BatchLayer.build_built h
    · cases h
  · unfold eigensolvePatternedIsotropicBatch at h
    obtain ⟨args, -, h⟩ := bind_eq_ok.1 h
    split at h
    · unfold numericalEigensolveBatch at h
      obtain ⟨_, -, h⟩ := bind_eq_ok.1 h
      obtain ⟨_, -, h⟩ := bind_eq_ok.1 h
      obtain ⟨_, -, h⟩ := bind_eq_ok.1 h
      obtain ⟨_, -, h⟩ := bind_eq_ok.1 h
      obtain ⟨_, -, h⟩ := bind_eq_ok.1 h
      obtain ⟨_, -, h⟩ := bind_eq_ok.1 h
      exact BatchLayer.build_built h
    · cases h

/-- C110, "when the eigensolve for each layer is also done in a batched manner": one eigensolve for the permittivities of `m` layers in
the leading axis, with one lattice.  For two or more layers the scan over its result raises ValueError.  If all arrays of the result are
broadcast along the leading axis, the scan succeeds, and at every index of the other batch axes it gives the scattering matrix of the
`m` layers, solved one by one from the elements of the arguments. -/
theorem C110_calculation {w k u v : NDArray ℝ} {K : List ℕ} {m μ nx ny : ℕ} {lat : LatticeVectors} (hn : 0 < n)
    (h : BatchInputs (m :: t) w k u v K μ lat) {p : NDArray ℂ} {P : List ℕ} (hp : p.shape = m :: P ++ [nx, ny])
    (hP : BroadcastsTo (m :: P) (m :: t)) (hr : P.length = t.length) (hw0 : ∀ i, ValidIndex (m :: t) i → w.elementAt i ≠ 0)
    (hp0 : nx = 1 ∧ ny = 1 → ∀ i, ValidIndex (m :: t) i → p.elementAt (i ++ [0, 0]) ≠ 0) (G : Fin n → ℤ × ℤ)
    (formulation : Formulation nx ny (Fin n)) {thicknesses : NDArray ℝ} (hd : thicknesses.shape = [m]) :
    ∃ l, eigensolveIsotropicMediaBatch eig w k u v p G formulation = .ok l ∧
      (2 ≤ m → stackSMatrixScanBatch l thicknesses = .error .valueError) ∧
      ∃ s, stackSMatrixScanBatch (l.repeatFirst m) thicknesses = .ok s ∧
        ∀ i, ValidIndex t i → ∀ rs : List (LayerSolveResult (Fin n)),
          List.Forall₂ (fun j a => eigensolveIsotropicMedia eig (w.elementAt (j :: i))
            (k.elementAt (j :: i ++ [0]), k.elementAt (j :: i ++ [1])) lat (gridAt p nx ny (j :: i)) G formulation = .ok a)
            (List.range m) rs →
          ∀ x, s.elementAt i = .ok x ↔ stackSMatrix rs (listOf thicknesses m) = .ok x := by
  have hm : 0 < m := h.positive m (by simp)
  obtain ⟨l, hl, hs⟩ := C96_isotropic eig hn h hp hP hw0 hp0 G formulation
  have hrank : batchRank w K μ (m :: P) = t.length + 1 := by
    have h1 := h.wavelength.length_le
    have h2 := h.wavevector.length_le
    have h3 := h.lattice_rank
    simp only [List.length_cons] at h1 h2 h3
    unfold batchRank
    simp only [List.length_cons, hr]
    exact max_eq_right (max_le (max_le h1 h2) h3)
  rw [hrank] at hs
  have hshape : ∃ e, l.eigenvectors.shape = m :: e := by
    have h1 := hs.shape (m :: P) (by simp)
    have h2 := hs.fits.eigenvectors
    cases he : l.eigenvectors.shape with
    | nil =>
      have := h2.rank
      rw [he] at this
      simp at this
    | cons d e =>
      rw [he] at h1
      have hl : e.length = t.length := by
        have := h2.rank
        rw [he] at this
        simpa using this
      have g1 := (BroadcastsTo.tail h1 (by simp [hr, hl])).2
      have g2 := h2.broadcasts
      rw [he] at g2
      have g3 := (BroadcastsTo.tail g2 (by simp [hl])).2
      simp only [List.headD_cons] at g1 g3
      refine ⟨e, ?_⟩
      congr 1
      omega
  obtain ⟨e, he⟩ := hshape
  obtain ⟨s, e1, -, -, -, -, -, e2⟩ := stackSMatrixScanBatch_repeat (t := t) hn hm (fun d hd => h.positive d (by simp [hd]))
    (eigensolveIsotropicMediaBatch_built eig hl) hs.fits hs.complete hd
  refine ⟨l, hl, fun h2 => C110_finding_one_lattice h2 h.positive hs.fits he hd, s, e1, fun i hi rs hrs => e2 i hi rs ?_⟩
  have aux : ∀ (R : List ℕ) (rs : List (LayerSolveResult (Fin n))), (∀ j ∈ R, j < m) →
      List.Forall₂ (fun j a => eigensolveIsotropicMedia eig (w.elementAt (j :: i))
        (k.elementAt (j :: i ++ [0]), k.elementAt (j :: i ++ [1])) lat (gridAt p nx ny (j :: i)) G formulation = .ok a) R rs →
      List.Forall₂ (fun j a => l.elementAt (j :: i) = .ok a) R rs := by
    intro R rs hR hf
    induction hf with
    | nil => exact .nil
    | cons hx _ ih =>
      refine .cons ?_ (ih fun j hj => hR j (by simp [hj]))
      exact (hs.element _ (.cons (hR _ (by simp)) hi) _).2 hx
  exact aux _ _ (fun j hj => List.mem_range.1 hj) hrs

end

section

variable (eig : Matrix (Fin 1 ⊕ Fin 1) (Fin 1 ⊕ Fin 1) ℂ → (Fin 1 ⊕ Fin 1 → ℂ) × Matrix (Fin 1 ⊕ Fin 1) (Fin 1 ⊕ Fin 1) ℂ)

/-- Four permittivities `1, 2, 3, 4` of layers, of shape `(4, 1, 1, 1, 1)`. -/
noncomputable def exampleLayerPermittivities : NDArray ℂ := { shape := [4, 1, 1, 1, 1], get := fun i => (i.headD 0 : ℕ) + 1 }

/-- Four thicknesses. -/
def exampleLayerThicknesses : NDArray ℝ := { shape := [4], get := fun i => (i.headD 0 : ℕ) + 1 }

theorem example_scan_inputs : BatchInputs [4, 3, 2] exampleWavelengths exampleWavevectors (exampleAxis 0) (exampleAxis 1) [2] 0
    ⟨(1, 0), (0, 1)⟩ where
  positive := by simp
  wavelength := ⟨[4], [3, 2], rfl, .cons (Or.inr rfl) (.cons (Or.inl rfl) .nil)⟩
  wavevector_shape := rfl
  wavevector := ⟨[4, 3], [2], rfl, .cons (Or.inr rfl) .nil⟩
  lattice_rank := by simp
  lattice := example_batchInputs.lattice

theorem example_permittivities_ne_zero (i : List ℕ) : exampleLayerPermittivities.elementAt i ≠ 0 := by
  show (((broadcastIndex [4, 1, 1, 1, 1] i).headD 0 : ℕ) : ℂ) + 1 ≠ 0
  exact Nat.cast_add_one_ne_zero _

theorem example_permittivities_broadcast : BroadcastsTo [4, 1, 1] [4, 3, 2] :=
  ⟨[], [4, 3, 2], rfl, .cons (Or.inr rfl) (.cons (Or.inl rfl) (.cons (Or.inl rfl) .nil))⟩

/-- Four layers solved in one batch, for three wavelengths and two wavevectors: the scan raises; after the arrays are broadcast it
gives the scattering matrix. -/
example : ∃ (l : BatchLayer 1) (s : BatchScatteringMatrix 1),
    eigensolveIsotropicMediaBatch eig exampleWavelengths exampleWavevectors (exampleAxis 0) (exampleAxis 1) exampleLayerPermittivities
      (fun _ => (0, 0)) (Formulation.fft : Formulation 1 1 (Fin 1)) = .ok l ∧
    stackSMatrixScanBatch l exampleLayerThicknesses = .error .valueError ∧
    stackSMatrixScanBatch (l.repeatFirst 4) exampleLayerThicknesses = .ok s := by
  obtain ⟨l, h1, h2, s, h3, -⟩ := C110_calculation (t := [3, 2]) (P := [1, 1]) (m := 4) eig one_pos example_scan_inputs
    (p := exampleLayerPermittivities) (nx := 1) (ny := 1) rfl example_permittivities_broadcast rfl
    (fun i _ => example_wavelengths_ne_zero i) (fun _ i _ => example_permittivities_ne_zero _) (fun _ => (0, 0)) .fft
    (thicknesses := exampleLayerThicknesses) rfl
  exact ⟨l, s, h1, h2 (by norm_num), h3⟩

/-- Four different layers, stacked along a leading axis, meet the hypotheses of `C110_scan`. -/
example : ∃ (l : BatchLayer 1) (layers : List (BatchLayer 1)) (s s' : BatchScatteringMatrix 1), layers.length = 4 ∧ LayersStacked l layers ∧
    stackSMatrixScanBatch l exampleLayerThicknesses = .ok s ∧
    stackSMatrixBatch layers (listOf exampleLayerThicknesses layers.length) = .ok s' := by
  obtain ⟨l, hl, hs⟩ := C96_isotropic (t := [4, 3, 2]) eig one_pos example_scan_inputs (p := exampleLayerPermittivities) (P := [4, 1, 1])
    (nx := 1) (ny := 1) rfl example_permittivities_broadcast (fun i _ => example_wavelengths_ne_zero i)
    (fun _ i _ => example_permittivities_ne_zero _) (fun _ => (0, 0)) .fft
  have hf : LayerFits (4 :: [3, 2]) ([3, 2].length + 1) _ l := hs.fits
  have hb := eigensolveIsotropicMediaBatch_built eig hl
  have htan : ∀ d, l.tangentNdim = some d → d = 5 := fun d hd => by rw [BatchLayer.build_tangent hb hd, hf.eigenvectors.rank]; rfl
  have hst := BatchLayer.repeatFirst_stacked (l := l) (m := 4) fun d hd => by rw [htan d hd]; norm_num
  obtain ⟨s, s', h1, h2, -⟩ := C110_scan_eq_loop (t := [3, 2]) (r := 2) (thicknesses := exampleLayerThicknesses) (by simp) hst (fun x hx => by
      obtain ⟨j, -, rfl⟩ := List.mem_map.1 hx
      refine BatchLayer.build_ok one_pos (t := [3, 2]) (by simp) (hf.sliceOf j) (hs.complete.sliceOf hf j) fun d hd => ?_
      have hd' : l.tangentNdim.map (· - 1) = some d := hd
      obtain ⟨d', e1, rfl⟩ := Option.map_eq_some_iff.1 hd'
      rw [htan d' e1]
      rfl)
    (fun x hx => by
      obtain ⟨j, -, rfl⟩ := List.mem_map.1 hx
      exact ⟨⟨_, hf.sliceOf j⟩, hs.complete.sliceOf hf j⟩) (by simp [exampleLayerThicknesses])
  exact ⟨_, _, s, s', by simp, hst, h1, h2⟩

/-- Three thicknesses for a batch of four layers. -/
example (l : BatchLayer 1) (h : l.eigenvectors.shape = [4, 3, 2]) :
    stackSMatrixScanBatch l { shape := [3], get := fun _ => 1 } = .error .valueError :=
  (C110_rejects l _).2.2 4 3 [3, 2] rfl h (by norm_num)

end

end Fmmax
