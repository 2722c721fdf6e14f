import Verif.Proofs.BatchFields

/-! The batch shapes of scattering matrices and of the amplitudes inside a stack. -/

namespace Fmmax

open Spec

variable {α β γ : Type} {t : List ℕ} {r n m : ℕ}

theorem Batch.zip_bounds {f : α → β → Res γ} {a : Batch α} {b : Batch β} {c : Batch γ} (h : Batch.zip f a b = .ok c) :
    BroadcastsTo a.shape c.shape ∧ BroadcastsTo b.shape c.shape := by
  unfold Batch.zip NDArray.zipWith at h
  cases hs : broadcastShapes a.shape b.shape with
  | none =>
    rw [hs] at h
    cases h
  | some s =>
    rw [hs] at h
    obtain rfl := ok_inj.1 h
    exact broadcastShapes_bounds hs

theorem Batch.solve_bounds {p q : Type} [Fintype p] [DecidableEq p] {a : Batch (Matrix p p ℂ)} {b : Batch (Matrix p q ℂ)}
    {c : Batch (Matrix p q ℂ)} (h : a.solve b = .ok c) : BroadcastsTo a.shape c.shape ∧ BroadcastsTo b.shape c.shape := by
  unfold Batch.solve at h
  split at h
  · cases h
  · exact Batch.zip_bounds h

/-- Two shapes that can be broadcast to a common shape have a least such shape. -/
theorem exists_broadcast {a b : List ℕ} (ha : BroadcastsTo a t) (hb : BroadcastsTo b t) :
    ∃ s, BroadcastsTo s t ∧ IsBroadcastOf [a, b] s := by
  obtain ⟨c, -, h⟩ := Batch.zip_to (t := t) (fun (_ _ : Unit) => (.ok () : Res Unit)) (a := { shape := a, get := fun _ => .ok () })
    (b := { shape := b, get := fun _ => .ok () }) ha hb
  refine ⟨c.shape, h.broadcasts, fun x hx => ?_, fun s' hs => h.least (hs _ (by simp)) (hs _ (by simp))⟩
  simp only [List.mem_cons, List.not_mem_nil, or_false] at hx
  rcases hx with rfl | rfl
  exacts [h.left, h.right]

theorem Spec.IsBroadcastOf.congr {S S' : List (List ℕ)} {s : List ℕ} (h : IsBroadcastOf S s) (h1 : ∀ x ∈ S', ∃ y ∈ S, BroadcastsTo x y)
    (h2 : ∀ x ∈ S, ∃ y ∈ S', BroadcastsTo x y) : IsBroadcastOf S' s := by
  refine ⟨fun x hx => ?_, fun s' hs => h.least s' fun x hx => ?_⟩
  · obtain ⟨y, hy, hxy⟩ := h1 x hx
    exact hxy.trans (h.upper y hy)
  · obtain ⟨y, hy, hxy⟩ := h2 x hx
    exact hxy.trans (hs y hy)

theorem Spec.IsBroadcastOf.unique {S : List (List ℕ)} {s s' : List ℕ} (h : IsBroadcastOf S s) (h' : IsBroadcastOf S s') : s = s' :=
  (h.least _ h'.upper).antisymm (h'.least _ h.upper)

theorem interfaceMatricesBatch_bounds {l l' : BatchLayer n} {p q : Batch (ModeMatrix (Fin n))}
    (h : interfaceMatricesBatch l l' = .ok (p, q)) :
    BroadcastsTo l.eigenvectors.shape p.shape ∧ BroadcastsTo l'.eigenvectors.shape p.shape ∧
      BroadcastsTo l.eigenvectors.shape q.shape ∧ BroadcastsTo l'.eigenvectors.shape q.shape := by
  unfold interfaceMatricesBatch at h
  simp only [bind_eq_ok, ok_inj, Prod.mk.injEq] at h
  obtain ⟨o, -, o', -, a, ha, b, hb, b', hb', x1, hx1, t1, ht1, c, hc, t2, ht2, p', hp, q', hq, rfl, rfl⟩ := h
  have k1 := Batch.zip_bounds ha
  have k2 := Batch.zip_bounds hb
  have k3 := Batch.zip_bounds hb'
  have k4 := Batch.solve_bounds hx1
  have k5 := Batch.zip_bounds ht1
  have k6 := Batch.zip_bounds hp
  have k7 := Batch.zip_bounds hq
  have e1 : BroadcastsTo l.eigenvectors.shape t1.shape := (k1.2.trans k4.1).trans k5.2
  have e2 : BroadcastsTo l'.eigenvectors.shape t1.shape := ((k2.2.trans k3.1).trans k4.2).trans k5.2
  exact ⟨e1.trans k6.1, e2.trans k6.1, e1.trans k7.1, e2.trans k7.1⟩

/-- The blocks have the batch shape to which the given shapes are broadcast. -/
structure SMatrixExact (shapes : List (List ℕ)) (s : BatchScatteringMatrix n) : Prop where
  s11 : IsBroadcastOf shapes s.s11.shape
  s12 : s.s12.shape = s.s11.shape
  s21 : s.s21.shape = s.s11.shape
  s22 : s.s22.shape = s.s11.shape
  start : s.startLayer.eigenvectors.shape ∈ shapes
  last : s.endLayer.eigenvectors.shape ∈ shapes
  startComplete : LayerComplete s.startLayer
  lastComplete : LayerComplete s.endLayer

theorem LayerComplete.fits_of {lat : LatticeVectors} {l : BatchLayer n} {s : List ℕ} (hc : LayerComplete l) (h : LayerFits t r lat l)
    (hs : BroadcastsTo l.eigenvectors.shape s) : LayerFits s r lat l := by
  obtain ⟨K, hK1, hK2, hK3⟩ := h.inPlaneWavevector
  exact ⟨⟨hc.wavelength.trans hs, h.wavelength.rank⟩, ⟨K, hK1, (hc.inPlaneWavevector K hK1).trans hs, hK3⟩, h.lattice,
    ⟨hc.eigenvalues ▸ hs, h.eigenvalues.rank⟩, ⟨hs, h.eigenvectors.rank⟩, ⟨hc.zPermittivity.trans hs, h.zPermittivity.rank⟩,
    ⟨hc.inverseZPermittivity.trans hs, h.inverseZPermittivity.rank⟩, ⟨hc.zPermeability.trans hs, h.zPermeability.rank⟩,
    ⟨hc.inverseZPermeability.trans hs, h.inverseZPermeability.rank⟩, ⟨hc.transversePermeability.trans hs, h.transversePermeability.rank⟩⟩

theorem SMatrixExact.fits {shapes : List (List ℕ)} {s : BatchScatteringMatrix n} {T : List ℕ} (he : SMatrixExact shapes s)
    (h : SMatrixFits t r s) (hT : BroadcastsTo s.s11.shape T) : SMatrixFits T r s := by
  obtain ⟨lat, hl⟩ := h.start
  obtain ⟨lat', hl'⟩ := h.last
  exact ⟨⟨hT, h.s11.rank⟩, ⟨he.s12 ▸ hT, h.s12.rank⟩, ⟨he.s21 ▸ hT, h.s21.rank⟩, ⟨he.s22 ▸ hT, h.s22.rank⟩,
    ⟨lat, he.startComplete.fits_of hl ((he.s11.upper _ he.start).trans hT)⟩,
    ⟨lat', he.lastComplete.fits_of hl' ((he.s11.upper _ he.last).trans hT)⟩⟩

theorem SMatrixExact.reverse {shapes : List (List ℕ)} {s : BatchScatteringMatrix n} (he : SMatrixExact shapes s) :
    SMatrixExact shapes s.reverse :=
  ⟨he.s22 ▸ he.s11, he.s21.trans he.s22.symm, he.s12.trans he.s22.symm, he.s22.symm, he.last, he.start, he.lastComplete,
    he.startComplete⟩

theorem SMatrixExact.congr {S S' : List (List ℕ)} {s : BatchScatteringMatrix n} (he : SMatrixExact S s) (h : ∀ x, x ∈ S ↔ x ∈ S') :
    SMatrixExact S' s :=
  ⟨he.s11.congr (fun x hx => ⟨x, (h x).2 hx, .refl _⟩) fun x hx => ⟨x, (h x).1 hx, .refl _⟩, he.s12, he.s21, he.s22,
    (h _).1 he.start, (h _).1 he.last, he.startComplete, he.lastComplete⟩

theorem identitySMatrixBatch_exact {l : BatchLayer n} (hc : LayerComplete l) (d : ℝ) :
    SMatrixExact [l.eigenvectors.shape] (identitySMatrixBatch l d) := by
  refine ⟨⟨fun x hx => ?_, fun s' hs => ?_⟩, rfl, rfl, rfl, by simp [identitySMatrixBatch], by simp [identitySMatrixBatch], hc, hc⟩
  · rw [List.mem_singleton.1 hx]
    exact hc.eigenvalues ▸ .refl _
  · show BroadcastsTo l.eigenvalues.shape s'
    rw [hc.eigenvalues]
    exact hs _ (by simp)

theorem appendLayerBatch_exact {lat' : LatticeVectors} {shapes : List (List ℕ)} {s s' : BatchScatteringMatrix n} {l' : BatchLayer n}
    {d' : ℝ} (h : SMatrixFits t r s) (he : SMatrixExact shapes s) (h' : LayerFits t r lat' l') (hc : LayerComplete l')
    (hs : appendLayerBatch s l' d' = .ok s') : SMatrixExact (l'.eigenvectors.shape :: shapes) s' := by
  obtain ⟨T, -, bT⟩ := exists_broadcast h.s11.broadcasts h'.eigenvectors.broadcasts
  have b1 := bT.upper s.s11.shape (by simp)
  have b2 := bT.upper l'.eigenvectors.shape (by simp)
  obtain ⟨s2, e2, f2, st, en, -⟩ := appendLayerBatch_ok (he.fits h b1) (hc.fits_of h' b2) d'
  obtain rfl := ok_inj.1 (hs.symm.trans e2)
  have lower : ∀ x, BroadcastsTo s.s11.shape x → BroadcastsTo l'.eigenvectors.shape x → BroadcastsTo x T → x = T := by
    intro x h1 h2 h3
    refine h3.antisymm (bT.least _ fun y hy => ?_)
    simp only [List.mem_cons, List.not_mem_nil, or_false] at hy
    rcases hy with rfl | rfl
    exacts [h1, h2]
  have all := hs
  unfold appendLayerBatch at all
  simp only [bind_eq_ok, ok_inj] at all
  obtain ⟨⟨I, J⟩, eI, X, eX, Y, eY, U, eU, F, eF, A, eA, G, eG, G', eG', G'', eG'', B, eB, H, eH, H1, eH1, C, eC, H2, eH2, H3, eH3,
      H4, eH4, D, eD, rfl⟩ := all
  obtain ⟨-, i2, -, i4⟩ := interfaceMatricesBatch_bounds eI
  have kX : BroadcastsTo s.s11.shape X.shape := he.s12 ▸ (Batch.zip_bounds eX).2
  have kU := Batch.zip_bounds eU
  have kU1 : BroadcastsTo s.s11.shape U.shape := (kX.trans (Batch.zip_bounds eY).1).trans kU.2
  have kU2 : BroadcastsTo l'.eigenvectors.shape U.shape := i2.trans kU.1
  have kH := Batch.zip_bounds eH
  have kH1 : BroadcastsTo s.s11.shape H.shape := he.s22 ▸ kH.1
  have kH2 : BroadcastsTo l'.eigenvectors.shape H.shape := i4.trans kH.2
  have sA : A.shape = T := lower _ (kU1.trans (Batch.solve_bounds eA).1) (kU2.trans (Batch.solve_bounds eA).1) f2.s11.broadcasts
  have sB : B.shape = T := lower _ (kU1.trans (Batch.solve_bounds eB).1) (kU2.trans (Batch.solve_bounds eB).1) f2.s12.broadcasts
  have oC := (Batch.zip_bounds eH1).1.trans (Batch.zip_bounds eC).1
  have sC : C.shape = T := lower _ (kH1.trans oC) (kH2.trans oC) f2.s21.broadcasts
  have oD := (Batch.zip_bounds eH2).1.trans (Batch.zip_bounds eD).1
  have sD : D.shape = T := lower _ (kH1.trans oD) (kH2.trans oD) f2.s22.broadcasts
  refine ⟨?_, sB.trans sA.symm, sC.trans sA.symm, sD.trans sA.symm, List.mem_cons_of_mem _ he.start, List.mem_cons_self,
    he.startComplete, hc⟩
  show IsBroadcastOf _ A.shape
  rw [sA]
  refine ⟨fun x hx => ?_, fun s' hs' => bT.least s' fun y hy => ?_⟩
  · rcases List.mem_cons.1 hx with rfl | hx
    · exact b2
    · exact (he.s11.upper x hx).trans b1
  · simp only [List.mem_cons, List.not_mem_nil, or_false] at hy
    rcases hy with rfl | rfl
    · exact he.s11.least s' fun x hx => hs' x (List.mem_cons_of_mem _ hx)
    · exact hs' _ List.mem_cons_self

theorem pairSMatrixBatch_exact {lat lat' : LatticeVectors} {l l' : BatchLayer n} {d d' : ℝ} {s : BatchScatteringMatrix n}
    (h : LayerFits t r lat l) (hc : LayerComplete l) (h' : LayerFits t r lat' l') (hc' : LayerComplete l')
    (hs : pairSMatrixBatch l d l' d' = .ok s) : SMatrixExact [l'.eigenvectors.shape, l.eigenvectors.shape] s := by
  obtain ⟨T, -, bT⟩ := exists_broadcast h'.eigenvectors.broadcasts h.eigenvectors.broadcasts
  have b1 := bT.upper l.eigenvectors.shape (by simp)
  have b2 := bT.upper l'.eigenvectors.shape (by simp)
  obtain ⟨s2, e2, f2, st, en, -⟩ := pairSMatrixBatch_ok (hc.fits_of h b1) (hc'.fits_of h' b2) d d'
  obtain rfl := ok_inj.1 (hs.symm.trans e2)
  have lower : ∀ x, BroadcastsTo l.eigenvectors.shape x → BroadcastsTo l'.eigenvectors.shape x → BroadcastsTo x T → x = T := by
    intro x h1 h2 h3
    refine h3.antisymm (bT.least _ fun y hy => ?_)
    simp only [List.mem_cons, List.not_mem_nil, or_false] at hy
    rcases hy with rfl | rfl
    exacts [h2, h1]
  have all := hs
  unfold pairSMatrixBatch at all
  simp only [bind_eq_ok, ok_inj] at all
  obtain ⟨⟨I, J⟩, eI, A, eA, X, eX, B, eB, C, eC, Y, eY, Z, eZ, D, eD, rfl⟩ := all
  obtain ⟨i1, i2, i3, i4⟩ := interfaceMatricesBatch_bounds eI
  have sA : A.shape = T := lower _ (i1.trans (Batch.solve_bounds eA).1) (i2.trans (Batch.solve_bounds eA).1) f2.s11.broadcasts
  have sB : B.shape = T := lower _ (i1.trans (Batch.solve_bounds eB).1) (i2.trans (Batch.solve_bounds eB).1) f2.s12.broadcasts
  have sC : C.shape = T := lower _ (i3.trans (Batch.zip_bounds eC).1) (i4.trans (Batch.zip_bounds eC).1) f2.s21.broadcasts
  have oD := (Batch.zip_bounds eY).1.trans (Batch.zip_bounds eD).1
  have sD : D.shape = T := lower _ (i3.trans oD) (i4.trans oD) f2.s22.broadcasts
  refine ⟨?_, sB.trans sA.symm, sC.trans sA.symm, sD.trans sA.symm, by simp, by simp, hc, hc'⟩
  show IsBroadcastOf _ A.shape
  rw [sA]
  exact bT

theorem appendAllBatch_exact (L : List (BatchLayer n × ℝ)) (hL : ∀ x ∈ L, (∃ lat, LayerFits t r lat x.1) ∧ LayerComplete x.1)
    {shapes : List (List ℕ)} {s : BatchScatteringMatrix n} {S : List (BatchScatteringMatrix n)} (h : SMatrixFits t r s)
    (he : SMatrixExact shapes s) (hS : appendAllBatch s L = .ok S) (j : ℕ) (hj : j < S.length) :
    SMatrixExact (shapes ++ ((L.take (j + 1)).map fun x => x.1.eigenvectors.shape)) S[j] := by
  induction L generalizing s S shapes j with
  | nil =>
    obtain rfl := ok_inj.1 hS
    simp at hj
  | cons x L ih =>
    obtain ⟨l, d⟩ := x
    obtain ⟨⟨lat, hl⟩, hc⟩ := hL (l, d) (by simp)
    unfold appendAllBatch at hS
    simp only [bind_eq_ok, ok_inj] at hS
    obtain ⟨s', hs', tail, htail, rfl⟩ := hS
    obtain ⟨s2, e2, f2, -⟩ := appendLayerBatch_ok h hl d
    obtain rfl := ok_inj.1 (hs'.symm.trans e2)
    have ex := appendLayerBatch_exact h he hl hc hs'
    cases j with
    | zero =>
      refine ex.congr fun x => ?_
      simp only [List.mem_cons, List.mem_append, Nat.zero_add, List.take_succ_cons, List.take_zero, List.map_cons, List.map_nil,
        List.not_mem_nil, or_false]
      tauto
    | succ j =>
      refine (ih (fun x hx => hL x (List.mem_cons_of_mem _ hx)) f2 ex htail j (by simpa using hj)).congr fun x => ?_
      simp only [List.cons_append, List.mem_cons, List.mem_append, List.take_succ_cons, List.map_cons]
      tauto

theorem stackSMatricesBatch_exact {layers : List (BatchLayer n)} {thicknesses : List ℝ}
    (hlen : layers.length = thicknesses.length) (h : ∀ l ∈ layers, (∃ lat, LayerFits t r lat l) ∧ LayerComplete l)
    {S : List (BatchScatteringMatrix n)} (hS : stackSMatricesBatch layers thicknesses = .ok S) (j : ℕ) (hj : j < S.length) :
    SMatrixExact ((layers.take (j + 1)).map fun l => l.eigenvectors.shape) S[j] := by
  unfold stackSMatricesBatch at hS
  rw [if_neg (not_not.2 hlen)] at hS
  match layers, thicknesses, hlen, h with
  | [], [], _, h => cases hS
  | [l], [d], _, h =>
    obtain rfl := ok_inj.1 hS
    obtain rfl : j = 0 := by simpa using hj
    exact identitySMatrixBatch_exact (h l (by simp)).2 d
  | l0 :: l1 :: rest, d0 :: d1 :: ds, hlen, h =>
    obtain ⟨⟨lat0, h0⟩, c0⟩ := h l0 (by simp)
    obtain ⟨⟨lat1, h1⟩, c1⟩ := h l1 (by simp)
    simp only [List.zip_cons_cons, bind_eq_ok, ok_inj] at hS
    obtain ⟨s1, hs1, tail, htail, rfl⟩ := hS
    obtain ⟨s2, e2, f2, -⟩ := pairSMatrixBatch_ok h0 h1 d0 d1
    obtain rfl := ok_inj.1 (hs1.symm.trans e2)
    have ex := pairSMatrixBatch_exact h0 c0 h1 c1 hs1
    match j with
    | 0 => exact identitySMatrixBatch_exact c0 d0
    | 1 =>
      refine ex.congr fun x => ?_
      simp
      tauto
    | j + 2 =>
      refine (appendAllBatch_exact (rest.zip ds) (fun x hx => h x.1 (by
        simp only [List.mem_cons]
        exact Or.inr (Or.inr (List.of_mem_zip hx).1))) f2 ex htail j (by simpa using hj)).congr fun x => ?_
      have hz : ∀ (k : ℕ), (((rest.zip ds).take k).map fun x => x.1.eigenvectors.shape) =
          (rest.take k).map fun l => l.eigenvectors.shape := by
        intro k
        have hl : rest.length = ds.length := by simpa using hlen
        have : (rest.zip ds).map Prod.fst = rest := List.map_fst_zip (by omega)
        conv_rhs => rw [← this, ← List.map_take, List.map_map]
        rfl
      rw [hz]
      simp
      tauto

/-- Before and after every layer: the batch shapes of the layers up to and from that layer. -/
theorem stackSMatricesInteriorBatch_exact {layers : List (BatchLayer n)} {thicknesses : List ℝ}
    (hlen : layers.length = thicknesses.length) (h : ∀ l ∈ layers, (∃ lat, LayerFits t r lat l) ∧ LayerComplete l)
    {S : List (BatchScatteringMatrix n × BatchScatteringMatrix n)} (hS : stackSMatricesInteriorBatch layers thicknesses = .ok S)
    (hl : S.length = layers.length) (j : ℕ) (hj : j < S.length) :
    SMatrixExact ((layers.take (j + 1)).map fun l => l.eigenvectors.shape) S[j].1 ∧
      SMatrixExact ((layers.drop j).map fun l => l.eigenvectors.shape) S[j].2 := by
  unfold stackSMatricesInteriorBatch at hS
  simp only [bind_eq_ok, ok_inj] at hS
  obtain ⟨B, hB, A, hA, rfl⟩ := hS
  have hne : layers ≠ [] := by
    rintro rfl
    rw [hl] at hj
    simp at hj
  obtain ⟨B', eB', lB, -⟩ := stackSMatricesBatch_ok hne hlen fun l hl => (h l hl).1
  obtain rfl := ok_inj.1 (hB.symm.trans eB')
  obtain ⟨A', eA', lA, -⟩ := stackSMatricesBatch_ok (t := t) (r := r) (layers := layers.reverse) (thicknesses := thicknesses.reverse)
    (by simpa using hne) (by simpa using hlen) (fun l hl => (h l (List.mem_reverse.1 hl)).1)
  obtain rfl := ok_inj.1 (hA.symm.trans eA')
  rw [List.length_reverse] at lA
  rw [hl] at hj
  constructor
  · rw [List.getElem_zip]
    exact stackSMatricesBatch_exact hlen h hB j (by omega)
  · rw [List.getElem_zip]
    simp only [List.getElem_map, List.getElem_reverse]
    have := stackSMatricesBatch_exact (t := t) (r := r) (layers := layers.reverse) (thicknesses := thicknesses.reverse)
      (by simpa using hlen) (fun l hl => h l (List.mem_reverse.1 hl)) hA (A.length - 1 - j) (by omega)
    refine (this.reverse).congr fun x => ?_
    rw [show A.length - 1 - j + 1 = layers.length - j by omega, List.take_reverse,
      show layers.length - (layers.length - j) = j by omega, List.map_reverse, List.mem_reverse]

/-- The amplitudes in all layers of a stack have one batch shape: that to which the layers and the given amplitudes are broadcast. -/
theorem stackAmplitudesBatch_shape {layers : List (BatchLayer n)} {thicknesses : List ℝ} (hlen : layers.length = thicknesses.length)
    (h : ∀ l ∈ layers, (∃ lat, LayerFits t r lat l) ∧ LayerComplete l)
    {S : List (BatchScatteringMatrix n × BatchScatteringMatrix n)} (hS : stackSMatricesInteriorBatch layers thicknesses = .ok S)
    (hl : S.length = layers.length) {a0 bN : Amplitudes n m} {out : List (Amplitudes n m × Amplitudes n m)}
    (ho : List.Forall₂ (fun P x => BroadcastsTo x.1.shape t ∧ x.2.shape = x.1.shape ∧
        IsBroadcastOf [P.1.s11.shape, P.1.s12.shape, P.2.s21.shape, P.2.s22.shape, a0.shape, bN.shape] x.1.shape) S out) :
    ∀ x ∈ out, IsBroadcastOf (a0.shape :: bN.shape :: layers.map fun l => l.eigenvectors.shape) x.1.shape := by
  intro x hx
  obtain ⟨j, hj, rfl⟩ := List.mem_iff_getElem.1 hx
  have hjS : j < S.length := by
    have := ho.length_eq
    omega
  obtain ⟨e1, e2⟩ := stackSMatricesInteriorBatch_exact hlen h hS hl j hjS
  have hb := ((List.forall₂_iff_get.1 ho).2 j hjS hj).2.2
  simp only [List.get_eq_getElem] at hb
  rw [e1.s12, e2.s21, e2.s22] at hb
  have mem : ∀ y ∈ layers.map fun l => l.eigenvectors.shape,
      (y ∈ (layers.take (j + 1)).map fun l => l.eigenvectors.shape) ∨ y ∈ (layers.drop j).map fun l => l.eigenvectors.shape := by
    intro y hy
    obtain ⟨l, hl', rfl⟩ := List.mem_map.1 hy
    rw [← List.take_append_drop j layers, List.mem_append] at hl'
    rcases hl' with hl' | hl'
    · exact Or.inl (List.mem_map.2 ⟨l, List.take_subset_take_left _ (by omega) hl', rfl⟩)
    · exact Or.inr (List.mem_map.2 ⟨l, hl', rfl⟩)
  refine ⟨fun y hy => ?_, fun s' hs => hb.least s' fun y hy => ?_⟩
  · simp only [List.mem_cons] at hy
    rcases hy with rfl | rfl | hy
    · exact hb.upper _ (by simp)
    · exact hb.upper _ (by simp)
    · rcases mem y hy with hy | hy
      · exact (e1.s11.upper y hy).trans (hb.upper _ (by simp))
      · exact (e2.s11.upper y hy).trans (hb.upper _ (by simp))
  · have k1 : BroadcastsTo S[j].1.s11.shape s' := e1.s11.least s' fun y hy => by
      obtain ⟨l, hl', rfl⟩ := List.mem_map.1 hy
      exact hs _ (by
        simp only [List.mem_cons, List.mem_map]
        exact Or.inr (Or.inr ⟨l, List.mem_of_mem_take hl', rfl⟩))
    have k2 : BroadcastsTo S[j].2.s11.shape s' := e2.s11.least s' fun y hy => by
      obtain ⟨l, hl', rfl⟩ := List.mem_map.1 hy
      exact hs _ (by
        simp only [List.mem_cons, List.mem_map]
        exact Or.inr (Or.inr ⟨l, List.mem_of_mem_drop hl', rfl⟩))
    simp only [List.mem_cons, List.not_mem_nil, or_false] at hy
    rcases hy with rfl | rfl | rfl | rfl | rfl | rfl
    exacts [k1, k1, k2, k2, hs _ (by simp), hs _ (by simp)]

end Fmmax
