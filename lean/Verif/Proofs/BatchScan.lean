import Verif.Spec.BatchScan
import Verif.Proofs.BatchShape
import Verif.Proofs.BatchStack
import Verif.Proofs.StackOps
import Verif.Props.BatchSolve

namespace Fmmax

open Spec

variable {α : Type} {t : List ℕ} {r n : ℕ}

theorem StackOf.sliceFirst {a : NDArray α} {as : List (NDArray α)} (h : StackOf a as) {j : ℕ} (hj : j < as.length) :
    a.sliceFirst j = .ok as[j] := by
  have hs := h.shape as[j] (List.getElem_mem _)
  unfold NDArray.sliceFirst
  rw [hs]
  simp only [hj, if_true]
  congr 1
  have : (fun i => a.get (j :: i)) = as[j].get := funext fun i => h.get j hj i
  rw [this]

theorem StackOf.dropFirst {a : NDArray α} {x : NDArray α} {as : List (NDArray α)} (h : StackOf a (x :: as)) :
    ∃ b, a.dropFirst = .ok b ∧ b.shape = as.length :: x.shape ∧ StackOf b as := by
  have hs := h.shape x (by simp)
  refine ⟨{ shape := as.length :: x.shape, get := fun i => match i with
      | [] => a.get []
      | j :: i => a.get ((j + 1) :: i) }, ?_, rfl, fun y hy => ?_, fun j hj i => ?_⟩
  · unfold NDArray.dropFirst
    rw [hs]
    rfl
  · have := h.shape y (by simp [hy])
    rw [hs] at this
    show as.length :: x.shape = as.length :: y.shape
    rw [(List.cons.inj this).2]
  · exact h.get (j + 1) (by simpa using hj) i

theorem StackOf.mapSlice {β : Type} {f : β → NDArray α} {a : NDArray α} {l : List β} (h : StackOf a (l.map f)) {j : ℕ} (hj : j < l.length) :
    a.sliceFirst j = .ok (f l[j]) := by
  rw [h.sliceFirst (by simpa using hj), List.getElem_map]

theorem LayersStacked.sliceFirst {l : BatchLayer n} {layers : List (BatchLayer n)} (h : LayersStacked l layers) {j : ℕ}
    (hj : j < layers.length) : l.sliceFirst j = layers[j].build := by
  unfold BatchLayer.sliceFirst BatchLayer.mapLeaves
  beta_reduce
  rw [h.wavelength.mapSlice hj, h.inPlaneWavevector.mapSlice hj, h.u.mapSlice hj, h.v.mapSlice hj, h.eigenvalues.mapSlice hj,
    h.eigenvectors.mapSlice hj, h.zPermittivity.mapSlice hj, h.inverseZPermittivity.mapSlice hj, h.zPermeability.mapSlice hj,
    h.inverseZPermeability.mapSlice hj, h.transversePermeability.mapSlice hj, ← h.expansion _ (List.getElem_mem hj),
    h.tangent _ (List.getElem_mem hj)]
  have : (layers[j].tangentNdim.map (· + 1)).map (· - 1) = layers[j].tangentNdim := by
    cases layers[j].tangentNdim <;> simp
  rw [this]
  rfl

theorem incompatible_cons (d : ℕ) (a b : List ℕ) : incompatible (d :: a) (d :: b) = incompatible a b := by
  unfold incompatible batchCompatibleShapes
  simp only [List.cons_ne_nil, if_false, bind, Except.bind, List.length_cons]
  by_cases hl : a.length = b.length
  · simp only [List.map_cons, List.map_nil, List.length_cons, ← hl, maxList, List.foldr_cons, List.foldr_nil, Nat.max_zero, max_self,
      padShape, Nat.sub_self, List.replicate_zero, List.nil_append, List.range_succ_eq_map, List.map_map, List.all_cons, List.all_nil,
      List.zip_cons_cons, List.any_cons, List.getD_cons_zero]
    congr 1
    simp only [hl, Function.comp_def, List.getD_cons_succ]
    simp
  · simp [hl]

theorem checkCompatible_cons (d : ℕ) (a b : List ℕ) : checkCompatible (d :: a) (d :: b) = checkCompatible a b := by
  unfold checkCompatible
  rw [incompatible_cons]

/-- The shapes with a further leading axis. -/
def LayerShapes.cons (d : ℕ) (s : LayerShapes) : LayerShapes :=
  { wavelength := d :: s.wavelength, inPlaneWavevector := d :: s.inPlaneWavevector, u := d :: s.u, v := d :: s.v, numTerms := s.numTerms,
    eigenvalues := d :: s.eigenvalues, eigenvectors := d :: s.eigenvectors, zPermittivity := d :: s.zPermittivity,
    inverseZPermittivity := d :: s.inverseZPermittivity, zPermeability := d :: s.zPermeability,
    inverseZPermeability := d :: s.inverseZPermeability, transversePermeability := d :: s.transversePermeability,
    tangentNdim := s.tangentNdim.map (· + 1) }

theorem layerSolveResultPostInit_cons (d : ℕ) (s : LayerShapes) (h : 2 ≤ s.eigenvectors.length) :
    layerSolveResultPostInit (s.cons d) = layerSolveResultPostInit s := by
  have hb : (s.cons d).batchShape = d :: s.batchShape := by
    unfold LayerShapes.batchShape dropLastN LayerShapes.cons
    simp only [List.length_cons]
    rw [show s.eigenvectors.length + 1 - 2 = (s.eigenvectors.length - 2) + 1 by omega, List.take_succ_cons]
  have hne : s.eigenvectors ≠ [] := by
    intro e
    simp [e] at h
  unfold layerSolveResultPostInit
  rw [hb]
  simp only [LayerShapes.cons, List.cons_append, checkCompatible_cons]
  have h1 : (d :: s.eigenvectors).getLast? = s.eigenvectors.getLast? := by
    rw [List.getLast?_cons]
    cases hl : s.eigenvectors.getLast? with
    | none => exact absurd (List.getLast?_eq_none_iff.1 hl) hne
    | some x => rfl
  have h2 : (d :: s.eigenvectors).dropLast = d :: s.eigenvectors.dropLast := by
    cases he : s.eigenvectors with
    | nil => exact absurd he hne
    | cons x y => rfl
  rw [h1, h2]
  simp only [ne_eq, List.cons.injEq, true_and, List.length_cons]
  cases s.tangentNdim <;> simp

theorem BatchLayer.build_cons {x y : BatchLayer n} (d : ℕ) (h : y.shapes = x.shapes.cons d) (hx : x.build = .ok x) : y.build = .ok y := by
  unfold BatchLayer.build at hx ⊢
  rw [h, layerSolveResultPostInit_cons _ _ (by simp [BatchLayer.shapes])]
  obtain ⟨u, hu, -⟩ := bind_eq_ok.1 hx
  rw [hu]
  rfl

theorem LayersStacked.dropFirst {l x : BatchLayer n} {layers : List (BatchLayer n)} (h : LayersStacked l (x :: layers))
    (hx : x.build = .ok x) :
    ∃ xs, l.dropFirst = .ok xs ∧ (∀ s ∈ xs.leafShapes, s.head? = some layers.length) ∧
      ∀ j (hj : j < layers.length), xs.sliceFirst j = layers[j].build := by
  obtain ⟨w, w1, w2, w3⟩ := h.wavelength.dropFirst
  obtain ⟨k, k1, k2, k3⟩ := h.inPlaneWavevector.dropFirst
  obtain ⟨u, u1, u2, u3⟩ := h.u.dropFirst
  obtain ⟨v, v1, v2, v3⟩ := h.v.dropFirst
  obtain ⟨q, q1, q2, q3⟩ := h.eigenvalues.dropFirst
  obtain ⟨p, p1, p2, p3⟩ := h.eigenvectors.dropFirst
  obtain ⟨a, a1, a2, a3⟩ := h.zPermittivity.dropFirst
  obtain ⟨b, b1, b2, b3⟩ := h.inverseZPermittivity.dropFirst
  obtain ⟨c, c1, c2, c3⟩ := h.zPermeability.dropFirst
  obtain ⟨d, d1, d2, d3⟩ := h.inverseZPermeability.dropFirst
  obtain ⟨e, e1, e2, e3⟩ := h.transversePermeability.dropFirst
  simp only [List.length_map] at w2 k2 u2 v2 q2 p2 a2 b2 c2 d2 e2
  have ht := h.tangent x (by simp)
  let xs : BatchLayer n :=
    { wavelength := w, inPlaneWavevector := k, u := u, v := v, expansion := l.expansion, eigenvalues := q, eigenvectors := p,
      zPermittivity := a, inverseZPermittivity := b, zPermeability := c, inverseZPermeability := d, transversePermeability := e,
      tangentNdim := l.tangentNdim }
  have hst : LayersStacked xs layers :=
    ⟨w3, k3, u3, v3, fun y hy => h.expansion y (by simp [hy]), q3, p3, a3, b3, c3, d3, e3, fun y hy => h.tangent y (by simp [hy])⟩
  refine ⟨xs, ?_, ?_, fun j hj => hst.sliceFirst hj⟩
  · unfold BatchLayer.dropFirst BatchLayer.mapLeaves
    beta_reduce
    rw [w1, k1, u1, v1, q1, p1, a1, b1, c1, d1, e1]
    simp only [bind, Except.bind, Option.map_id, id]
    refine BatchLayer.build_cons (x := x) (y := xs) layers.length ?_ hx
    simp only [BatchLayer.shapes, LayerShapes.cons, xs, w2, k2, u2, v2, q2, p2, a2, b2, c2, d2, e2, ht, List.cons_append]
  · intro s hs
    simp only [BatchLayer.leafShapes, xs, w2, k2, u2, v2, q2, p2, a2, b2, c2, d2, e2, List.mem_cons, List.not_mem_nil, or_false] at hs
    rcases hs with rfl | rfl | rfl | rfl | rfl | rfl | rfl | rfl | rfl | rfl | rfl <;> rfl

theorem mapM_range_ok {β : Type} {f : ℕ → Res β} {l : List β} (h : ∀ j (hj : j < l.length), f j = .ok l[j]) :
    (List.range l.length).mapM f = .ok l := by
  have key : ∀ k, k ≤ l.length → (List.range k).mapM f = .ok (l.take k) := by
    intro k
    induction k with
    | zero => intro _; rfl
    | succ k ih =>
      intro hk
      rw [List.range_succ, List.mapM_append, ih (by omega)]
      simp only [bind, Except.bind, List.mapM_cons, List.mapM_nil, h k (by omega), pure, Except.pure]
      rw [List.take_succ_eq_append_getElem (by omega)]
  rw [key _ le_rfl, List.take_length]

theorem LayersStacked.leafShapes {l : BatchLayer n} {layers : List (BatchLayer n)} (h : LayersStacked l layers) {x y : BatchLayer n}
    (hx : x ∈ layers) (hy : y ∈ layers) : x.leafShapes = y.leafShapes := by
  have key : ∀ {α : Type} (f : BatchLayer n → NDArray α) {a : NDArray α}, StackOf a (layers.map f) → (f x).shape = (f y).shape := by
    intro α f a hs
    have h1 := hs.shape (f x) (List.mem_map_of_mem hx)
    rw [hs.shape (f y) (List.mem_map_of_mem hy)] at h1
    exact (List.cons.inj h1).2.symm
  unfold BatchLayer.leafShapes
  rw [key (·.wavelength) h.wavelength, key (·.inPlaneWavevector) h.inPlaneWavevector, key (·.u) h.u, key (·.v) h.v,
    key (·.eigenvalues) h.eigenvalues, key (·.eigenvectors) h.eigenvectors, key (·.zPermittivity) h.zPermittivity,
    key (·.inverseZPermittivity) h.inverseZPermittivity, key (·.zPermeability) h.zPermeability,
    key (·.inverseZPermeability) h.inverseZPermeability, key (·.transversePermeability) h.transversePermeability]

theorem isBroadcastOf_const {S : List (List ℕ)} {s x : List ℕ} (h : IsBroadcastOf S x) (hm : s ∈ S) (hs : ∀ y ∈ S, y = s) : x = s :=
  (h.least s fun y hy => hs y hy ▸ .refl _).antisymm (h.upper s hm)

theorem scanLoopBatch_exact (L : List (BatchLayer n × ℝ)) (hL : ∀ x ∈ L, (∃ lat, LayerFits t r lat x.1) ∧ LayerComplete x.1)
    {shapes : List (List ℕ)} {s s' : BatchScatteringMatrix n} (h : SMatrixFits t r s) (he : SMatrixExact shapes s)
    (hs : appendLoopBatch s L = .ok s') :
    SMatrixExact ((L.map fun x => x.1.eigenvectors.shape).reverse ++ shapes) s' := by
  induction L generalizing s shapes with
  | nil =>
    obtain rfl := ok_inj.1 hs
    exact he
  | cons x L ih =>
    obtain ⟨l, d⟩ := x
    obtain ⟨⟨lat, hl⟩, hc⟩ := hL (l, d) (by simp)
    unfold appendLoopBatch at hs
    obtain ⟨s1, e1, e2⟩ := bind_eq_ok.1 hs
    obtain ⟨s2, e3, f2, -⟩ := appendLayerBatch_ok h hl d
    obtain rfl := ok_inj.1 (e1.symm.trans e3)
    have := ih (fun x hx => hL x (by simp [hx])) f2 (appendLayerBatch_exact h he hl hc e1) e2
    simpa using this

theorem stackSMatrixScanBatch_ok {l : BatchLayer n} {layers : List (BatchLayer n)} {thicknesses : NDArray ℝ} (hne : layers ≠ [])
    (hst : LayersStacked l layers) (hb : ∀ x ∈ layers, x.build = .ok x)
    (h : ∀ x ∈ layers, (∃ lat, LayerFits t r lat x) ∧ LayerComplete x) (hd : thicknesses.shape = [layers.length]) :
    ∃ s, stackSMatrixScanBatch l thicknesses = .ok s ∧ SMatrixFits t r s ∧
      (∀ x ∈ layers, s.s11.shape = x.eigenvectors.shape ∧ s.s12.shape = x.eigenvectors.shape ∧ s.s21.shape = x.eigenvectors.shape ∧
        s.s22.shape = x.eigenvectors.shape) ∧
      ∀ i, ValidIndex t i → ∀ rs, LayersElementsAt i layers rs →
        SameOk (s.elementAt i) (stackSMatrix rs (listOf thicknesses layers.length)) := by
  match layers, hne, hst, hb, h, hd with
  | x :: layers, _, hst, hb, h, hd =>
    obtain ⟨⟨lat, hx⟩, hc⟩ := h x (by simp)
    have hbx := hb x (by simp)
    obtain ⟨xs, ex, hhead, hsl⟩ := hst.dropFirst hbx
    have hstart : l.sliceFirst 0 = .ok x := by rw [hst.sliceFirst (by simp)]; exact hbx
    have hshape : l.eigenvectors.shape = (layers.length + 1) :: x.eigenvectors.shape := by
      have := hst.eigenvectors.shape x.eigenvectors (by simp)
      simpa using this
    have hds : listOf thicknesses (layers.length + 1) =
        thicknesses.get [0] :: (List.range layers.length).map fun j => thicknesses.get [j + 1] := by
      unfold listOf
      rw [List.range_succ_eq_map]
      simp [Function.comp_def]
    obtain ⟨ds, hds'⟩ : ∃ ds, ds = (List.range layers.length).map fun j => thicknesses.get [j + 1] := ⟨_, rfl⟩
    rw [← hds'] at hds
    have hlen : ds.length = layers.length := by simp [hds']
    have fit := identitySMatrixBatch_fits hx (thicknesses.get [0])
    have exact0 := identitySMatrixBatch_exact hc (thicknesses.get [0])
    -- all layers have the same shapes
    have same : ∀ y ∈ layers, y.eigenvectors.shape = x.eigenvectors.shape := by
      intro y hy
      have := hst.leafShapes (x := y) (y := x) (by simp [hy]) (by simp)
      simp only [BatchLayer.leafShapes, List.cons.injEq] at this
      tauto
    obtain ⟨s', es', fs', st', en', -⟩ := appendLayerBatch_ok fit hx (thicknesses.get [0])
    have exact1 := appendLayerBatch_exact fit exact0 hx hc es'
    have shape1 : s'.s11.shape = x.eigenvectors.shape := isBroadcastOf_const exact1.s11 (by simp) (by simp)
    have traced : s'.leafShapes = (identitySMatrixBatch x (thicknesses.get [0])).leafShapes := by
      unfold BatchScatteringMatrix.leafShapes
      rw [exact1.s12, exact1.s21, exact1.s22, shape1, st', en', ← hc.eigenvalues]
      rfl
    have hz : ∀ y ∈ layers.zip ds, (∃ lat, LayerFits t r lat y.1) ∧ LayerComplete y.1 := fun y hy => h y.1 (by
      have := List.of_mem_zip (a := y.1) (b := y.2) hy
      simp [this.1])
    obtain ⟨s, e, f, hs⟩ := appendLoopBatch_ok (layers.zip ds) (fun y hy => (hz y hy).1) fit
    have ex2 := scanLoopBatch_exact (layers.zip ds) hz fit exact0 e
    have shape2 : s.s11.shape = x.eigenvectors.shape := isBroadcastOf_const ex2.s11 (by simp) fun y hy => by
      rcases List.mem_append.1 hy with hy | hy
      · obtain ⟨z, hz, rfl⟩ := List.mem_map.1 (List.mem_reverse.1 hy)
        exact same _ (List.of_mem_zip (a := z.1) (b := z.2) hz).1
      · exact List.mem_singleton.1 hy
    refine ⟨s, ?_, f, fun y hy => ?_, fun i hi rs hrs => ?_⟩
    · have hds2 : (List.range (layers.length + 1)).map (fun j => thicknesses.get [j]) = thicknesses.get [0] :: ds := hds
      unfold stackSMatrixScanBatch
      rw [hd, hshape]
      simp only [List.length_cons, List.length_nil, ne_eq, not_true_eq_false, if_false, List.headD_cons, hds2, hlen,
        hstart, ex, bind, Except.bind, zero_add]
      unfold scanLayers
      rw [hlen, if_neg, show (identitySMatrixBatch x (thicknesses.get [0])).startThickness = thicknesses.get [0] from rfl, es']
      · have hm : (List.range layers.length).mapM xs.sliceFirst = .ok layers :=
          mapM_range_ok fun j hj => (hsl j hj).trans (hb _ (by simp))
        simp only [bind, Except.bind, traced, ne_eq, not_true_eq_false, if_false]
        rw [hm]
        exact e
      · rw [not_not, List.all_eq_true]
        intro y hy
        rw [hhead y hy]
        simp
    · have : y.eigenvectors.shape = x.eigenvectors.shape := by
        rcases List.mem_cons.1 hy with rfl | hy
        · rfl
        · exact same y hy
      rw [this, ex2.s12, ex2.s21, ex2.s22, shape2]
      simp
    · cases hrs with
      | @cons _ a _ rs ha hrs =>
        have g := hs i a a hi ha ha (rs.zip ds) (layersAt_zip hrs)
        rw [identitySMatrixBatch_elementAt ha] at g
        rw [List.length_cons, hds, stackSMatrix_cons _ _ _ _ (by rw [hlen]; exact hrs.length_eq.symm)]
        exact g

end Fmmax
