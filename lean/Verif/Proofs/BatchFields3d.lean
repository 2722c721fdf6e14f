import Verif.Proofs.BatchShape
import Verif.Model.BatchFields3d

/-! Fields in an xy plane and in three dimensions, with batch dimensions. -/

namespace Fmmax

open Spec

variable {α β γ κ : Type} {t : List ℕ} {r n m : ℕ}

/-! ### Components -/

theorem Fields.mapM_eq_ok {f : α → Res β} {F : Fields α} {G : Fields β} : F.mapM f = .ok G ↔
    f F.ex = .ok G.ex ∧ f F.ey = .ok G.ey ∧ f F.ez = .ok G.ez ∧ f F.hx = .ok G.hx ∧ f F.hy = .ok G.hy ∧ f F.hz = .ok G.hz := by
  unfold Fields.mapM
  simp only [bind_eq_ok, ok_inj]
  constructor
  · rintro ⟨a, ha, b, hb, c, hc, d, hd, e, he, f, hf, rfl⟩
    exact ⟨ha, hb, hc, hd, he, hf⟩
  · rintro ⟨ha, hb, hc, hd, he, hf⟩
    exact ⟨_, ha, _, hb, _, hc, _, hd, _, he, _, hf, rfl⟩

/-- The same operation on every component, with batch axes. -/
theorem mapM_batch {k : Batch α → Res (Batch β)} {h : List ℕ → α → Res β} {s s' : List ℕ} {P : List ℕ → Prop}
    (hk : ∀ y : Batch α, y.shape = s → ∃ z, k y = .ok z ∧ z.shape = s' ∧ ∀ i, P i → z.elementAt i = y.elementAt i >>= h i)
    {F : Fields (Batch α)} (hF : BatchFieldsShape F s) :
    ∃ g, F.mapM k = .ok g ∧ BatchFieldsShape g s' ∧ ∀ i, P i → (∀ v, BatchFieldsAt g i v → ∃ f, BatchFieldsAt F i f) ∧
      ∀ f, BatchFieldsAt F i f → ∀ v, BatchFieldsAt g i v ↔ f.mapM (h i) = .ok v := by
  obtain ⟨a, ea, sa, ha⟩ := hk F.ex hF.ex
  obtain ⟨b, eb, sb, hb⟩ := hk F.ey hF.ey
  obtain ⟨c, ec, sc, hc⟩ := hk F.ez hF.ez
  obtain ⟨d, ed, sd, hd⟩ := hk F.hx hF.hx
  obtain ⟨e, ee, se, he⟩ := hk F.hy hF.hy
  obtain ⟨f, ef, sf, hf⟩ := hk F.hz hF.hz
  refine ⟨{ ex := a, ey := b, ez := c, hx := d, hy := e, hz := f }, Fields.mapM_eq_ok.2 ⟨ea, eb, ec, ed, ee, ef⟩,
    ⟨sa, sb, sc, sd, se, sf⟩, fun i hi => ⟨fun v hv => ?_, fun w hw v => ?_⟩⟩
  · obtain ⟨h1, h2, h3, h4, h5, h6⟩ := hv
    simp only at h1 h2 h3 h4 h5 h6
    rw [ha i hi, bind_eq_ok] at h1
    rw [hb i hi, bind_eq_ok] at h2
    rw [hc i hi, bind_eq_ok] at h3
    rw [hd i hi, bind_eq_ok] at h4
    rw [he i hi, bind_eq_ok] at h5
    rw [hf i hi, bind_eq_ok] at h6
    obtain ⟨x1, h1, -⟩ := h1
    obtain ⟨x2, h2, -⟩ := h2
    obtain ⟨x3, h3, -⟩ := h3
    obtain ⟨x4, h4, -⟩ := h4
    obtain ⟨x5, h5, -⟩ := h5
    obtain ⟨x6, h6, -⟩ := h6
    exact ⟨{ ex := x1, ey := x2, ez := x3, hx := x4, hy := x5, hz := x6 }, h1, h2, h3, h4, h5, h6⟩
  · rw [Fields.mapM_eq_ok]
    have k1 : a.elementAt i = h i w.ex := by rw [ha i hi, hw.ex]; rfl
    have k2 : b.elementAt i = h i w.ey := by rw [hb i hi, hw.ey]; rfl
    have k3 : c.elementAt i = h i w.ez := by rw [hc i hi, hw.ez]; rfl
    have k4 : d.elementAt i = h i w.hx := by rw [hd i hi, hw.hx]; rfl
    have k5 : e.elementAt i = h i w.hy := by rw [he i hi, hw.hy]; rfl
    have k6 : f.elementAt i = h i w.hz := by rw [hf i hi, hw.hz]; rfl
    constructor
    · rintro ⟨h1, h2, h3, h4, h5, h6⟩
      exact ⟨k1 ▸ h1, k2 ▸ h2, k3 ▸ h3, k4 ▸ h4, k5 ▸ h5, k6 ▸ h6⟩
    · rintro ⟨h1, h2, h3, h4, h5, h6⟩
      exact ⟨k1.trans h1, k2.trans h2, k3.trans h3, k4.trans h4, k5.trans h5, k6.trans h6⟩

theorem validateFieldsBatch_ok (hn : 0 < n) (hm : 0 < m) {s : List ℕ} (hs : ∀ d ∈ s, 0 < d)
    {F : Fields (Batch (Matrix (Fin n) (Fin m) ℂ))} (hF : BatchFieldsShape F s) : validateFieldsBatch F = .ok () := by
  have p : ∀ d ∈ [n, m], 0 < d := by
    intro d hd
    simp only [List.mem_cons, List.not_mem_nil, or_false] at hd
    omega
  unfold validateFieldsBatch
  rw [hF.ex, hF.ey, hF.ez, hF.hx, hF.hy, hF.hz]
  refine (C76_amplitudes (s ++ [n, m]) [s ++ [n, m], s ++ [n, m], s ++ [n, m], s ++ [n, m], s ++ [n, m]] n ?_).1
    ⟨⟨_, _, rfl⟩, s ++ [n, m], ?_⟩
  · intro x hx
    simp only [List.mem_cons, List.not_mem_nil, or_false, or_self] at hx
    rw [hx]
    exact positive_append hs p
  · intro x hx
    simp only [List.mem_cons, List.not_mem_nil, or_false, or_self] at hx
    rw [hx]
    exact .refl _

theorem vectorsOf_ok {x : NDArray ℝ} {K : List ℕ} (hx : x.shape = K ++ [2]) (hK : BroadcastsTo K t) :
    (vectorsOf x).shape = K ∧ ∀ i, i.length = t.length → (vectorsOf x).elementAt i = .ok (x.elementAt (i ++ [0]), x.elementAt (i ++ [1])) := by
  have hs : (vectorsOf x).shape = K := by
    show dropLastN 1 x.shape = K
    rw [hx, dropLastN]
    exact List.take_left' (by simp)
  refine ⟨hs, fun i hi => ?_⟩
  have hil : K.length ≤ i.length := by rw [hi]; exact hK.length_le
  have ek : ∀ c, c < 2 → x.elementAt (i ++ [c]) = x.get (broadcastIndex K i ++ [c]) := by
    intro c hc
    unfold NDArray.elementAt
    rw [hx, broadcastIndex_append hil (by simp), broadcastIndex_single hc]
  rw [ek 0 (by omega), ek 1 (by omega)]
  unfold NDArray.elementAt
  rw [hs]
  rfl

theorem ones_broadcastsTo {r : ℕ} {s : List ℕ} (h : r ≤ s.length) : BroadcastsTo (List.replicate r 1) s := by
  refine ⟨s.take (s.length - r), s.drop (s.length - r), (List.take_append_drop _ _).symm, ?_⟩
  rw [List.forall₂_iff_get]
  refine ⟨by simp; omega, fun j h1 h2 => Or.inl (by simp)⟩

theorem unitCellCoordinatesBatch_ok {lat : LatticeVectors} {l : BatchLayer n} (h : LayerFits t r lat l) (shape cells : ℕ × ℕ) :
    ∃ xy, unitCellCoordinatesBatch l.u l.v shape cells = .ok xy ∧ xy.shape = List.replicate r 1 ∧
      ∀ i x, i.length = t.length → l.elementAt i = .ok x → xy.elementAt i = .ok fun p =>
        unitCellCoordinates x.primitiveLatticeVectors shape cells p.1 p.2 := by
  have hr : r ≤ t.length := by
    have := h.eigenvectors.broadcasts.length_le
    rw [h.eigenvectors.rank] at this
    exact this
  have ho : BroadcastsTo (List.replicate r 1) t := ones_broadcastsTo hr
  obtain ⟨su, hu⟩ := vectorsOf_ok (t := t) h.lattice.u_shape ho
  obtain ⟨sv, hv⟩ := vectorsOf_ok (t := t) h.lattice.v_shape ho
  obtain ⟨xy, exy, rxy⟩ := Batch.zip_to (t := t) (fun (u v : ℝ × ℝ) => .ok fun (p : Fin (cells.1 * shape.1) × Fin (cells.2 * shape.2)) =>
    unitCellCoordinates { u := u, v := v } shape cells p.1 p.2) (a := vectorsOf l.u) (b := vectorsOf l.v) (su ▸ ho) (sv ▸ ho)
  refine ⟨xy, exy, ?_, fun i x hi hx => ?_⟩
  · exact (rxy.least (su ▸ .refl _) (sv ▸ .refl _)).antisymm (su ▸ rxy.left)
  · rw [rxy.element i hi, hu i hi, hv i hi, (BatchLayer.elementAt_ok hx).lattice]
    rfl

/-- What a function for xy slices does with a layer: for fields with one batch shape to which the layer can be broadcast it returns
fields of that shape, which at every batch index are those of a single calculation. -/
def SliceFits (t : List ℕ) (slice : BatchSliceFn n κ) (single : FieldsXYSliceFn (Fin n) κ) (l : BatchLayer n) : Prop :=
  ∀ m (F : Fields (Batch (Matrix (Fin n) (Fin m) ℂ))) s, 0 < m → BatchFieldsShape F s → BroadcastsTo s t →
    BroadcastsTo l.eigenvectors.shape s → ∃ g xy, slice m F l = .ok (g, xy) ∧ BatchFieldsShape g s ∧
      ∀ i x, ValidIndex t i → l.elementAt i = .ok x → (∃ c, xy.elementAt i = .ok c) ∧
        (∀ v, BatchFieldsAt g i v → ∃ f, BatchFieldsAt F i f) ∧
        ∀ f, BatchFieldsAt F i f → ∀ v c, (BatchFieldsAt g i v ∧ xy.elementAt i = .ok c) ↔ single m f x = .ok (v, c)

theorem gridSliceBatch_fits (hn : 0 < n) (ht : ∀ d ∈ t, 0 < d) {lat : LatticeVectors} {l : BatchLayer n} (h : LayerFits t r lat l)
    (hc : LayerComplete l) {shape cells : ℕ × ℕ} (hv : validateShapeForExpansion shape l.expansion = .ok ()) :
    SliceFits t (gridSliceBatch shape cells) (gridSlice shape cells) l := by
  intro m F s hm hF hs hL
  obtain ⟨xy, exy, sxy, hxy⟩ := unitCellCoordinatesBatch_ok h shape cells
  obtain ⟨K, hK1, hK2, hK3⟩ := h.inPlaneWavevector
  obtain ⟨sk, hk⟩ := vectorsOf_ok (t := t) hK1 hK2
  have hrs : r ≤ s.length := by
    have := hL.length_le
    rw [h.eigenvectors.rank] at this
    exact this
  have bxs : BroadcastsTo xy.shape s := sxy ▸ ones_broadcastsTo hrs
  have bks : BroadcastsTo (vectorsOf l.inPlaneWavevector).shape s := sk ▸ (hc.inPlaneWavevector K hK1).trans hL
  obtain ⟨ph, eph, rph⟩ := Batch.zip_to (t := t) (fun (k : ℝ × ℝ) (xy : Fin (cells.1 * shape.1) × Fin (cells.2 * shape.2) → ℝ × ℝ) =>
    (.ok fun p => Complex.exp (Complex.I * (k.1 * (xy p).1 + k.2 * (xy p).2)) :
      Res (Fin (cells.1 * shape.1) × Fin (cells.2 * shape.2) → ℂ))) (bks.trans hs) (bxs.trans hs)
  have bps : BroadcastsTo ph.shape s := rph.least bks bxs
  set onGrid : Batch (Matrix (Fin n) (Fin m) ℂ) → Res (Batch (Fin (cells.1 * shape.1) × Fin (cells.2 * shape.2) → Fin m → ℂ)) := fun y => do
    validateShapeForExpansion shape l.expansion
    Batch.zip (fun (f : Fin m → Matrix (Fin shape.1) (Fin shape.2) ℂ) (phase : Fin (cells.1 * shape.1) × Fin (cells.2 * shape.2) → ℂ) =>
      .ok fun (p : Fin (cells.1 * shape.1) × Fin (cells.2 * shape.2)) b => f b (tileIndex p.1) (tileIndex p.2) * phase p)
        (y.map fun y => ifftColumns y l.expansion shape.1 shape.2) ph with honGrid
  obtain ⟨g, eg, sg, hg⟩ := mapM_batch (k := onGrid) (s := s) (s' := s) (F := F) (P := fun i => i.length = t.length)
    (h := fun i y => do
      let f ← ifftColumns y l.expansion shape.1 shape.2
      let phase ← ph.elementAt i
      .ok fun (p : Fin (cells.1 * shape.1) × Fin (cells.2 * shape.2)) b => f b (tileIndex p.1) (tileIndex p.2) * phase p) (by
    intro y hy
    obtain ⟨z, ez, rz⟩ := Batch.zip_to (t := t) (fun (f : Fin m → Matrix (Fin shape.1) (Fin shape.2) ℂ) phase =>
      (.ok fun (p : Fin (cells.1 * shape.1) × Fin (cells.2 * shape.2)) b => f b (tileIndex p.1) (tileIndex p.2) * phase p :
        Res (Fin (cells.1 * shape.1) × Fin (cells.2 * shape.2) → Fin m → ℂ)))
      (a := y.map fun y => ifftColumns y l.expansion shape.1 shape.2) (b := ph) (by show BroadcastsTo y.shape t; rw [hy]; exact hs)
      rph.broadcasts
    refine ⟨z, ?_, ?_, fun i hi => ?_⟩
    · rw [honGrid]
      simp only [bind_eq_ok]
      exact ⟨(), hv, ez⟩
    · refine (rz.least ?_ bps).antisymm ?_
      · show BroadcastsTo y.shape s
        rw [hy]
        exact .refl _
      · exact hy ▸ rz.left
    · rw [rz.element i hi, Batch.elementAt_map]
      cases y.elementAt i <;> rfl) hF
  refine ⟨g, xy, ?_, sg, fun i x hi hx => ⟨⟨_, hxy i x (validIndex_length hi) hx⟩, (hg i (validIndex_length hi)).1, fun f hf v c => ?_⟩⟩
  · unfold gridSliceBatch fieldsOnGridBatch
    rw [validateFieldsBatch_ok hn hm (broadcastsTo_pos hs ht) hF]
    simp only [bind_eq_ok, ok_inj]
    exact ⟨(), trivial, xy, exy, ph, eph, g, eg, rfl⟩
  · have hil := validIndex_length hi
    have ea := BatchLayer.elementAt_ok hx
    have e1 := hxy i x hil hx
    have e2 := rph.element i hil
    rw [hk i hil, e1, ← ea.inPlaneWavevector] at e2
    rw [(hg i hil).2 f hf v, e1, e2]
    unfold gridSlice fieldsOnGrid
    rw [ea.expansion]
    simp only [bind_eq_ok, ok_inj, Prod.mk.injEq]
    constructor
    · rintro ⟨h1, rfl⟩
      exact ⟨v, h1, rfl, rfl⟩
    · rintro ⟨v', h1, rfl, h2⟩
      exact ⟨h1, h2⟩

theorem coordinateSliceBatch_fits (hn : 0 < n) (ht : ∀ d ∈ t, 0 < d) {lat : LatticeVectors} {l : BatchLayer n} (h : LayerFits t r lat l)
    (hc : LayerComplete l) (xy : κ → ℝ × ℝ) : SliceFits t (coordinateSliceBatch xy) (coordinateSlice xy) l := by
  intro m F s hm hF hs hL
  obtain ⟨K, hK1, hK2, hK3⟩ := h.inPlaneWavevector
  obtain ⟨kt, ekt, -, skt, hkt⟩ := transverse_ok hK1 hK2 hK3 h.lattice l.expansion
  have bks : BroadcastsTo (waveVectors (n := n) kt).shape s := skt ▸ (hc.inPlaneWavevector K hK1).trans hL
  set at' : Batch (Matrix (Fin n) (Fin m) ℂ) → Res (Batch (κ → Fin m → ℂ)) := fun y => do
    let f ← y.zip (fun (y : Matrix (Fin n) (Fin m) ℂ) k => .ok fun (p : κ) b =>
      ∑ i, y i b * Complex.exp (Complex.I * (kxOf k i * (xy p).1 + kyOf k i * (xy p).2))) (waveVectors (n := n) kt)
    f.reshapeTo F.ex.shape with hat
  obtain ⟨g, eg, sg, hg⟩ := mapM_batch (k := at') (s := s) (s' := s) (F := F) (P := fun i => i.length = t.length)
    (h := fun i y => do
      let k ← (waveVectors (n := n) kt).elementAt i
      .ok fun (p : κ) b => ∑ i, y i b * Complex.exp (Complex.I * (kxOf k i * (xy p).1 + kyOf k i * (xy p).2))) (by
    intro y hy
    obtain ⟨z, ez, rz⟩ := Batch.zip_to (t := t) (fun (y : Matrix (Fin n) (Fin m) ℂ) k => (.ok fun (p : κ) b =>
      ∑ i, y i b * Complex.exp (Complex.I * (kxOf k i * (xy p).1 + kyOf k i * (xy p).2)) : Res (κ → Fin m → ℂ)))
      (a := y) (b := waveVectors (n := n) kt) (by rw [hy]; exact hs) (bks.trans hs)
    have sz : z.shape = s := (rz.least (hy ▸ .refl _) bks).antisymm (hy ▸ rz.left)
    refine ⟨z, ?_, sz, fun i hi => rz.element i hi⟩
    rw [hat]
    simp only [bind_eq_ok]
    refine ⟨z, ez, ?_⟩
    unfold Batch.reshapeTo
    rw [if_pos (sz.trans hF.ex.symm)]) hF
  refine ⟨g, { shape := [], get := fun _ => .ok xy }, ?_, sg, fun i x hi hx => ⟨⟨xy, rfl⟩, (hg i (validIndex_length hi)).1, fun f hf v c => ?_⟩⟩
  · unfold coordinateSliceBatch fieldsOnCoordinatesBatch
    rw [validateFieldsBatch_ok hn hm (broadcastsTo_pos hs ht) hF]
    simp only [bind_eq_ok, ok_inj]
    exact ⟨(), trivial, kt, ekt, g, eg, rfl⟩
  · have hil := validIndex_length hi
    have ea := BatchLayer.elementAt_ok hx
    have hlat := h.lattice.elementAt (i := i) (by rw [hil, ← hK3]; exact hK2.length_le)
    have ekti := hkt i hi
    rw [← hlat, ← ea.lattice, ← ea.inPlaneWavevector, ← ea.expansion] at ekti
    rw [(hg i hil).2 f hf v, ekti]
    unfold coordinateSlice fieldsOnCoordinates
    rw [Fields.mapM_eq_ok]
    cases transverseWavevectors x.inPlaneWavevector x.primitiveLatticeVectors x.expansion with
    | error e => simp [bind, Except.bind]
    | ok k =>
      simp only [bind, Except.bind, ok_inj, Prod.mk.injEq, NDArray.elementAt, Fields.ext_iff]
      exact Iff.rfl

/-! ### One layer -/

theorem propagateAmplitudesBatch_ok (hn : 0 < n) (hm : 0 < m) (ht : ∀ d ∈ t, 0 < d) {lat : LatticeVectors} {l : BatchLayer n}
    (h : LayerFits t r lat l) (hc : LayerComplete l) {a : Amplitudes n m} (ha : BroadcastsTo a.shape t) (distance : Fin m → ℝ) :
    ∃ out, propagateAmplitudesBatch a distance l = .ok out ∧ BroadcastsTo out.shape t ∧
      IsBroadcastOf [a.shape, l.eigenvectors.shape] out.shape ∧
      ∀ i x p, ValidIndex t i → l.elementAt i = .ok x → a.elementAt i = .ok p → out.elementAt i = .ok (propagateAmplitude p distance x) := by
  obtain ⟨out, e, hr⟩ := Batch.zip_to (t := t) (fun (a fd : Matrix (Fin n ⊕ Fin n) (Fin m) ℂ) => .ok (Matrix.of fun i c => a i c * fd i c)) (a := a)
    (b := l.eigenvalues.map fun q => .ok (Matrix.of fun i c => Complex.exp (Complex.I * q i * distance c))) ha
    h.eigenvalues.broadcasts
  refine ⟨out, ?_, hr.broadcasts, ⟨fun s hs => ?_, fun s' hs => hr.least (hs _ (by simp)) ?_⟩, fun i x p hi hx hp => ?_⟩
  · unfold propagateAmplitudesBatch
    have p : ∀ d ∈ [2 * n, m], 0 < d := by
      intro d hd
      simp only [List.mem_cons, List.not_mem_nil, or_false] at hd
      omega
    rw [(C76_amplitudes (a.shape ++ [2 * n, m]) [] (2 * n) (by
      intro s hs
      rw [List.mem_singleton.1 hs]
      exact positive_append (broadcastsTo_pos ha ht) p)).1 ⟨⟨_, _, rfl⟩, a.shape ++ [2 * n, m], by
        intro s hs
        rw [List.mem_singleton.1 hs]
        exact .refl _⟩]
    exact e
  · simp only [List.mem_cons, List.not_mem_nil, or_false] at hs
    rcases hs with rfl | rfl
    · exact hr.left
    · exact hc.eigenvalues ▸ hr.right
  · show BroadcastsTo l.eigenvalues.shape s'
    rw [hc.eigenvalues]
    exact hs _ (by simp)
  · rw [hr.element i (validIndex_length hi), hp, Batch.elementAt_map, (BatchLayer.elementAt_ok hx).eigenvalues]
    rfl

theorem colocateAmplitudesBatch_ok (hn : 0 < n) (hm : 0 < m) (ht : ∀ d ∈ t, 0 < d) {lat : LatticeVectors} {l : BatchLayer n}
    (h : LayerFits t r lat l) (hc : LayerComplete l) {a b : Amplitudes n m} (ha : BroadcastsTo a.shape t) (hb : BroadcastsTo b.shape t)
    (zOffset : Fin m → ℝ) (thickness : ℝ) :
    ∃ f g, colocateAmplitudesBatch a b zOffset l thickness = .ok (f, g) ∧ BroadcastsTo f.shape t ∧ BroadcastsTo g.shape t ∧
      IsBroadcastOf [a.shape, l.eigenvectors.shape] f.shape ∧ IsBroadcastOf [b.shape, l.eigenvectors.shape] g.shape ∧
      ∀ i x p q, ValidIndex t i → l.elementAt i = .ok x → a.elementAt i = .ok p → b.elementAt i = .ok q →
        f.elementAt i = .ok (colocateAmplitudes p q zOffset x thickness).1 ∧
        g.elementAt i = .ok (colocateAmplitudes p q zOffset x thickness).2 := by
  obtain ⟨f, ef, bf, sf, hf⟩ := propagateAmplitudesBatch_ok hn hm ht h hc ha zOffset
  obtain ⟨g, eg, bg, sg, hg⟩ := propagateAmplitudesBatch_ok hn hm ht h hc hb fun c => thickness - zOffset c
  refine ⟨f, g, ?_, bf, bg, sf, sg, fun i x p q hi hx hp hq => ⟨hf i x p hi hx hp, hg i x q hi hx hq⟩⟩
  unfold colocateAmplitudesBatch
  rw [validateAmplitudes_ok hn hm ht ha hb]
  simp only [bind_eq_ok, ok_inj]
  exact ⟨(), trivial, f, ef, g, eg, rfl⟩

theorem batchFieldsAt_map {F : Fields (Batch α)} {i : List ℕ} (k : α → β) {v : Fields β} :
    BatchFieldsAt (F.map fun x => x.map fun x => .ok (k x)) i v ↔ ∃ f, BatchFieldsAt F i f ∧ v = f.map k := by
  have e : ∀ (x : Batch α) (y : β), (x.map fun x => .ok (k x) : Batch β).elementAt i = .ok y ↔ ∃ z, x.elementAt i = .ok z ∧ y = k z := by
    intro x y
    rw [Batch.elementAt_map]
    simp only [bind_eq_ok, ok_inj]
    exact ⟨fun ⟨z, h1, h2⟩ => ⟨z, h1, h2.symm⟩, fun ⟨z, h1, h2⟩ => ⟨z, h1, h2.symm⟩⟩
  constructor
  · rintro ⟨h1, h2, h3, h4, h5, h6⟩
    simp only [Fields.map, e] at h1 h2 h3 h4 h5 h6
    obtain ⟨x1, g1, h1⟩ := h1
    obtain ⟨x2, g2, h2⟩ := h2
    obtain ⟨x3, g3, h3⟩ := h3
    obtain ⟨x4, g4, h4⟩ := h4
    obtain ⟨x5, g5, h5⟩ := h5
    obtain ⟨x6, g6, h6⟩ := h6
    exact ⟨{ ex := x1, ey := x2, ez := x3, hx := x4, hy := x5, hz := x6 }, ⟨g1, g2, g3, g4, g5, g6⟩, Fields.ext h1 h2 h3 h4 h5 h6⟩
  · rintro ⟨f, ⟨g1, g2, g3, g4, g5, g6⟩, rfl⟩
    exact ⟨(e _ _).2 ⟨_, g1, rfl⟩, (e _ _).2 ⟨_, g2, rfl⟩, (e _ _).2 ⟨_, g3, rfl⟩, (e _ _).2 ⟨_, g4, rfl⟩, (e _ _).2 ⟨_, g5, rfl⟩,
      (e _ _).2 ⟨_, g6, rfl⟩⟩

theorem layerFields3dBatch_ok (hn : 0 < n) (hm : 0 < m) (ht : ∀ d ∈ t, 0 < d) {lat : LatticeVectors} {l : BatchLayer n}
    (h : LayerFits t r lat l) (hc : LayerComplete l) {a b : Amplitudes n m} (ha : BroadcastsTo a.shape t) (hab : a.shape = b.shape)
    {slice : BatchSliceFn n κ} {single : FieldsXYSliceFn (Fin n) κ} (hslice : SliceFits t slice single l) (thickness : ℝ) {znum : ℕ}
    (hz : 0 < znum) :
    ∃ g xy s, layerFields3dBatch a b l thickness znum slice = .ok (g, xy, linspace thickness znum) ∧ BatchFieldsShape g s ∧
      BroadcastsTo s t ∧ IsBroadcastOf [a.shape, l.eigenvectors.shape] s ∧
      ∀ i x p q, ValidIndex t i → l.elementAt i = .ok x → a.elementAt i = .ok p → b.elementAt i = .ok q →
        (∃ c, xy.elementAt i = .ok c) ∧
        ∀ v c z, (BatchFieldsAt g i v ∧ xy.elementAt i = .ok c ∧ z = linspace thickness znum) ↔
          layerFields3d p q x thickness znum single = .ok (v, c, z) := by
  have hzm : 0 < znum * m := Nat.mul_pos hz hm
  set aFlat : Amplitudes n (znum * m) := a.map fun a => .ok (Matrix.of fun i c => a i c.modNat) with haF
  set bFlat : Amplitudes n (znum * m) := b.map fun b => .ok (Matrix.of fun i c => b i c.modNat) with hbF
  have sa : aFlat.shape = a.shape := rfl
  have sb : bFlat.shape = a.shape := hab.symm
  obtain ⟨f, g, efg, bf, bg, sf, sg, hfg⟩ := colocateAmplitudesBatch_ok hn hzm ht h hc (a := aFlat) (b := bFlat) (sa ▸ ha) (sb ▸ ha)
    (fun c => linspace thickness znum c.divNat) thickness
  rw [sa] at sf
  rw [sb] at sg
  have hgf : g.shape = f.shape := sg.unique sf
  obtain ⟨F, s, eF, sF, shF, hF⟩ := fieldsFromWaveAmplitudesBatch_ok hn hzm ht h hc bf hgf
  have lf : BroadcastsTo f.shape s := sF.upper _ (by simp)
  have ssf : IsBroadcastOf [a.shape, l.eigenvectors.shape] s := by
    refine ⟨fun x hx => (sf.upper x hx).trans lf, fun s' hs => sF.least s' fun x hx => ?_⟩
    simp only [List.mem_cons, List.not_mem_nil, or_false] at hx
    rcases hx with rfl | rfl
    · exact hs _ (by simp)
    · exact sf.least s' hs
  have bs : BroadcastsTo s t := sF.least t fun x hx => by
    simp only [List.mem_cons, List.not_mem_nil, or_false] at hx
    rcases hx with rfl | rfl
    exacts [h.eigenvectors.broadcasts, bf]
  obtain ⟨G, xy, eG, sG, hG⟩ := hslice (znum * m) F s hzm shF bs (ssf.upper _ (by simp))
  have sG' : BatchFieldsShape (G.map fun x => (x.map fun x => .ok fun p (k : Fin znum) (j : Fin m) => x p (flatIndex k j) :
      Batch (κ → Fin znum → Fin m → ℂ))) s := ⟨sG.ex, sG.ey, sG.ez, sG.hx, sG.hy, sG.hz⟩
  refine ⟨_, xy, s, ?_, sG', bs, ssf, fun i x p q hi hx hp hq => ?_⟩
  · unfold layerFields3dBatch
    rw [if_neg (not_not.2 hab)]
    simp only [bind_eq_ok, ok_inj]
    refine ⟨(f, g), efg, F, eF, (G, xy), eG, (), ?_, rfl⟩
    unfold fieldsAsArray
    rw [if_pos]
    rw [sG.ex, sG.ey, sG.ez, sG.hx, sG.hy, sG.hz]
    exact ⟨rfl, rfl, rfl, rfl⟩
  · obtain ⟨hc', hstrict, hval⟩ := hG i x hi hx
    refine ⟨hc', fun v c z => ?_⟩
    have ep : aFlat.elementAt i = .ok (Matrix.of fun i c => p i c.modNat) := by
      rw [haF, Batch.elementAt_map, hp]
      rfl
    have eq : bFlat.elementAt i = .ok (Matrix.of fun i c => q i c.modNat) := by
      rw [hbF, Batch.elementAt_map, hq]
      rfl
    obtain ⟨e1, e2⟩ := hfg i x _ _ hi hx ep eq
    have hFi := hF i x _ _ hi hx e1 e2
    rw [batchFieldsAt_map]
    unfold layerFields3d
    simp only [bind_eq_ok, ok_inj, Prod.mk.injEq]
    constructor
    · rintro ⟨⟨w, hw, rfl⟩, hxy, rfl⟩
      obtain ⟨φ, hφ⟩ := hstrict w hw
      exact ⟨φ, (hFi φ).1 hφ, (w, c), (hval φ hφ w c).1 ⟨hw, hxy⟩, rfl, rfl, rfl⟩
    · rintro ⟨φ, hφ, ⟨w, c'⟩, hwc, rfl, rfl, rfl⟩
      obtain ⟨hw, hxy⟩ := (hval φ ((hFi φ).2 hφ) w c').2 hwc
      exact ⟨⟨w, hw, rfl⟩, hxy, rfl⟩

/-! ### Stacks -/

/-- The amplitudes of a layer have one batch shape, which can be broadcast to `t`, and the layer fits. -/
structure RequestFits (t : List ℕ) (r : ℕ) (slice : BatchSliceFn n κ) (single : FieldsXYSliceFn (Fin n) κ) (R : BatchLayerRequest n m) :
    Prop where
  layer : ∃ lat, LayerFits t r lat R.layer
  complete : LayerComplete R.layer
  broadcasts : BroadcastsTo R.a.shape t
  shape : R.a.shape = R.b.shape
  slice : SliceFits t slice single R.layer
  znum : 0 < R.znum

/-- A batch element of a layer and its amplitudes. -/
structure RequestAt (i : List ℕ) (R : BatchLayerRequest n m) (q : LayerRequest (Fin n) m) : Prop where
  a : R.a.elementAt i = .ok q.a
  b : R.b.elementAt i = .ok q.b
  layer : R.layer.elementAt i = .ok q.layer
  thickness : R.thickness = q.thickness
  znum : R.znum = q.znum

/-- A batch element of coordinates that may be missing. -/
def OptionAt (i : List ℕ) : Option (Batch α) → Option α → Prop
  | none, none => True
  | some x, some y => x.elementAt i = .ok y
  | _, _ => False

theorem forall₂_append_left {R : α → β → Prop} {a b : List α} {c : List β} :
    List.Forall₂ R (a ++ b) c ↔ ∃ x y, c = x ++ y ∧ List.Forall₂ R a x ∧ List.Forall₂ R b y := by
  constructor
  · intro h
    refine ⟨c.take a.length, c.drop a.length, (List.take_append_drop _ _).symm, ?_, ?_⟩
    · exact List.forall₂_take_append c a b h.flip |>.flip
    · exact List.forall₂_drop_append c a b h.flip |>.flip
  · rintro ⟨x, y, rfl, h1, h2⟩
    exact List.rel_append h1 h2

theorem forall₂_ofFn_left {R : α → β → Prop} {k : ℕ} {f : Fin k → α} {c : List β} :
    List.Forall₂ R (List.ofFn f) c ↔ ∃ g : Fin k → β, c = List.ofFn g ∧ ∀ j, R (f j) (g j) := by
  constructor
  · intro h
    have hl : k = c.length := by simpa using h.length_eq
    subst hl
    refine ⟨fun j => c[j], by simp, fun j => ?_⟩
    have := (List.forall₂_iff_get.1 h).2 j (by simp) j.2
    simpa using this
  · rintro ⟨g, rfl, hg⟩
    rw [List.forall₂_iff_get]
    refine ⟨by simp, fun j h1 h2 => ?_⟩
    simpa using hg ⟨j, by simpa using h1⟩

theorem stackFieldsLoopBatch_ok (hn : 0 < n) (hm : 0 < m) (ht : ∀ d ∈ t, 0 < d) {slice : BatchSliceFn n κ}
    {single : FieldsXYSliceFn (Fin n) κ} (rs : List (BatchLayerRequest n m)) (hrs : ∀ R ∈ rs, RequestFits t r slice single R) (z0 : ℝ)
    (xy0 : Option (Batch (κ → ℝ × ℝ))) :
    ∃ shapes gs zs xy, stackFieldsLoopBatch slice z0 xy0 rs = .ok (shapes, gs, zs, xy) ∧
      List.Forall₂ (fun R s => s.1 = s.2 ∧ IsBroadcastOf [R.a.shape, R.layer.eigenvectors.shape] s.1) rs shapes ∧
      (∀ g ∈ gs, ∃ s ∈ shapes, BatchFieldsShape g s.1) ∧ (rs ≠ [] → xy ≠ none) ∧
      ∀ i, ValidIndex t i → ∀ qs, List.Forall₂ (RequestAt i) rs qs → ∀ c0, OptionAt i xy0 c0 → ∀ vs z c,
        (List.Forall₂ (fun g v => BatchFieldsAt g i v) gs vs ∧ z = zs ∧ OptionAt i xy c) ↔
          stackFieldsLoop single z0 c0 qs = .ok (vs, z, c) := by
  induction rs generalizing z0 xy0 with
  | nil =>
    refine ⟨[], [], [], xy0, rfl, .nil, by simp, by simp, fun i hi qs hqs c0 hc0 vs z c => ?_⟩
    cases hqs
    unfold stackFieldsLoop
    simp only [ok_inj, Prod.mk.injEq, List.forall₂_nil_left_iff]
    have e : OptionAt i xy0 c ↔ c0 = c := by
      cases xy0 with
      | none =>
        cases c0 with
        | none => cases c <;> simp [OptionAt]
        | some _ => exact hc0.elim
      | some x =>
        cases c0 with
        | none => exact hc0.elim
        | some y =>
          cases c with
          | none => simp [OptionAt]
          | some c =>
            have hc0 : x.elementAt i = .ok y := hc0
            simp only [OptionAt, hc0, ok_inj, Option.some.injEq]
    rw [e]
    constructor
    · rintro ⟨rfl, rfl, rfl⟩
      exact ⟨rfl, rfl, rfl⟩
    · rintro ⟨rfl, rfl, rfl⟩
      exact ⟨rfl, rfl, rfl⟩
  | cons R rs ih =>
    have hR := hrs R (by simp)
    obtain ⟨lat, hl⟩ := hR.layer
    obtain ⟨g, xy1, s, eg, sg, bs, ss, hg⟩ := layerFields3dBatch_ok hn hm ht hl hR.complete hR.broadcasts hR.shape hR.slice R.thickness
      hR.znum
    obtain ⟨shapes, gs, zs, xy, el, hsh, hgs, hxy, hv⟩ := ih (fun R hR => hrs R (List.mem_cons_of_mem _ hR)) (z0 + R.thickness) (some xy1)
    refine ⟨(g.ex.shape, g.hx.shape) :: shapes,
      List.ofFn (fun k : Fin R.znum => g.map fun x => x.map fun x => .ok fun p j => x p k j) ++ gs,
      List.ofFn (fun k : Fin R.znum => linspace R.thickness R.znum k + z0) ++ zs, xy, ?_, .cons ⟨?_, ?_⟩ hsh, fun G hG => ?_, fun _ => ?_,
      fun i hi qs hqs c0 hc0 vs z c => ?_⟩
    · unfold stackFieldsLoopBatch
      simp only [bind_eq_ok, ok_inj]
      exact ⟨_, eg, _, el, rfl⟩
    · rw [sg.ex, sg.hx]
    · rw [sg.ex]
      exact ss
    · rcases List.mem_append.1 hG with hG | hG
      · obtain ⟨k, rfl⟩ := (List.mem_ofFn' _ _).1 hG
        exact ⟨_, List.mem_cons_self, by
          show BatchFieldsShape _ g.ex.shape
          rw [sg.ex]
          exact ⟨sg.ex, sg.ey, sg.ez, sg.hx, sg.hy, sg.hz⟩⟩
      · obtain ⟨s', h1, h2⟩ := hgs G hG
        exact ⟨s', List.mem_cons_of_mem _ h1, h2⟩
    · cases rs with
      | nil =>
        have := ok_inj.1 el
        simp only [Prod.mk.injEq] at this
        rw [← this.2.2.2]
        simp
      | cons _ _ => exact hxy (by simp)
    · cases hqs with
      | @cons _ q _ qs hq hqs =>
        obtain ⟨a, b, l, d, zn⟩ := q
        obtain ⟨q1, q2, q3, q4, q5⟩ := hq
        simp only at q1 q2 q3 q4 q5
        subst q4 q5
        obtain ⟨⟨c1, hc1⟩, hval⟩ := hg i l a b hi q3 q1 q2
        have hrest := hv i hi qs hqs (some c1) hc1
        unfold stackFieldsLoop
        simp only [bind_eq_ok, ok_inj, Prod.mk.injEq]
        rw [forall₂_append_left]
        constructor
        · rintro ⟨⟨x, y, rfl, h1, h2⟩, rfl, h3⟩
          obtain ⟨w, rfl, hw⟩ := forall₂_ofFn_left.1 h1
          simp only [batchFieldsAt_map] at hw
          obtain ⟨v, hv0, -⟩ := hw ⟨0, hR.znum⟩
          have hall : ∀ k, w k = v.map fun x p j => x p k j := by
            intro k
            obtain ⟨v', hv', e⟩ := hw k
            have : v' = v := Fields.ext (ok_inj.1 (hv'.ex.symm.trans hv0.ex)) (ok_inj.1 (hv'.ey.symm.trans hv0.ey))
              (ok_inj.1 (hv'.ez.symm.trans hv0.ez)) (ok_inj.1 (hv'.hx.symm.trans hv0.hx)) (ok_inj.1 (hv'.hy.symm.trans hv0.hy))
              (ok_inj.1 (hv'.hz.symm.trans hv0.hz))
            rw [e, this]
          refine ⟨(v, c1, linspace R.thickness R.znum), (hval v c1 _).1 ⟨hv0, hc1, rfl⟩, (y, zs, c), (hrest y zs c).1 ⟨h2, rfl, h3⟩, ?_, rfl, rfl⟩
          congr 2
          funext k
          exact (hall k).symm
        · rintro ⟨⟨v, c1', zo⟩, h1, ⟨y, zs', c'⟩, h2, rfl, rfl, rfl⟩
          obtain ⟨hv0, hc1', rfl⟩ := (hval v c1' zo).2 h1
          obtain rfl := ok_inj.1 (hc1.symm.trans hc1')
          obtain ⟨g1, rfl, g3⟩ := (hrest y zs' c').2 h2
          exact ⟨⟨_, _, rfl, forall₂_ofFn_left.2 ⟨_, rfl, fun k => (batchFieldsAt_map _).2 ⟨v, hv0, rfl⟩⟩, g1⟩, rfl, g3⟩

theorem zipRequestsBatch_length {A : List (Amplitudes n m × Amplitudes n m)} {L : List (BatchLayer n)} {D : List ℝ} {Z : List ℕ}
    (h1 : L.length = A.length) (h2 : D.length = A.length) (h3 : Z.length = A.length) : (zipRequestsBatch A L D Z).length = A.length := by
  induction A generalizing L D Z with
  | nil => cases L <;> rfl
  | cons a A ih =>
    match L, D, Z, h1, h2, h3 with
    | l :: L, d :: D, z :: Z, h1, h2, h3 =>
      simp only [zipRequestsBatch, List.length_cons]
      rw [ih (by simpa using h1) (by simpa using h2) (by simpa using h3)]

theorem mem_zipRequestsBatch {A : List (Amplitudes n m × Amplitudes n m)} {L : List (BatchLayer n)} {D : List ℝ} {Z : List ℕ}
    {R : BatchLayerRequest n m} (hR : R ∈ zipRequestsBatch A L D Z) : (R.a, R.b) ∈ A ∧ R.layer ∈ L ∧ R.znum ∈ Z := by
  induction A generalizing L D Z with
  | nil => simp [zipRequestsBatch] at hR
  | cons a A ih =>
    match L, D, Z, hR with
    | [], _, _, hR => simp [zipRequestsBatch] at hR
    | l :: L, [], _, hR => simp [zipRequestsBatch] at hR
    | l :: L, d :: D, [], hR => simp [zipRequestsBatch] at hR
    | l :: L, d :: D, z :: Z, hR =>
      simp only [zipRequestsBatch, List.mem_cons] at hR ⊢
      rcases hR with rfl | hR
      · exact ⟨Or.inl rfl, Or.inl rfl, Or.inl rfl⟩
      · obtain ⟨g1, g2, g3⟩ := ih hR
        exact ⟨Or.inr g1, Or.inr g2, Or.inr g3⟩

theorem requestsAt {i : List ℕ} {A : List (Amplitudes n m × Amplitudes n m)} {L : List (BatchLayer n)} (D : List ℝ) (Z : List ℕ)
    {as : List (Matrix (Fin n ⊕ Fin n) (Fin m) ℂ × Matrix (Fin n ⊕ Fin n) (Fin m) ℂ)} {ls : List (LayerSolveResult (Fin n))}
    (hA : List.Forall₂ (fun P p => P.1.elementAt i = .ok p.1 ∧ P.2.elementAt i = .ok p.2) A as)
    (hL : List.Forall₂ (fun l a => l.elementAt i = .ok a) L ls) :
    List.Forall₂ (RequestAt i) (zipRequestsBatch A L D Z) (zipRequests as ls D Z) := by
  induction hA generalizing L ls D Z with
  | nil => exact .nil
  | cons ha _ ih =>
    cases hL with
    | nil => exact .nil
    | cons hl hL =>
      match D, Z with
      | [], _ => exact .nil
      | d :: D, [] => exact .nil
      | d :: D, z :: Z => exact .cons ⟨ha.1, ha.2, hl, rfl, rfl⟩ (ih D Z hL)

theorem stackFields3dBatch_ok (hn : 0 < n) (hm : 0 < m) (ht : ∀ d ∈ t, 0 < d) {slice : BatchSliceFn n κ}
    {single : FieldsXYSliceFn (Fin n) κ} {A : List (Amplitudes n m × Amplitudes n m)} {L : List (BatchLayer n)} {D : List ℝ} {Z : List ℕ}
    (h1 : L.length = A.length) (h2 : D.length = A.length) (h3 : Z.length = A.length) (hne : A ≠ [])
    (hfit : ∀ R ∈ zipRequestsBatch A L D Z, RequestFits t r slice single R) {s : List ℕ}
    (hs : ∀ R ∈ zipRequestsBatch A L D Z, IsBroadcastOf [R.a.shape, R.layer.eigenvectors.shape] s) :
    ∃ gs zs xy, stackFields3dBatch A L D Z slice = .ok (gs, zs, xy) ∧ (∀ g ∈ gs, BatchFieldsShape g s) ∧
      ∀ i, ValidIndex t i → ∀ as ls, List.Forall₂ (fun P p => P.1.elementAt i = .ok p.1 ∧ P.2.elementAt i = .ok p.2) A as →
        List.Forall₂ (fun l a => l.elementAt i = .ok a) L ls → ∀ vs z c,
          (List.Forall₂ (fun g v => BatchFieldsAt g i v) gs vs ∧ z = zs ∧ xy.elementAt i = .ok c) ↔
            stackFields3d as ls D Z single = .ok (vs, z, c) := by
  obtain ⟨shapes, gs, zs, xy, el, hsh, hgs, hxy, hv⟩ := stackFieldsLoopBatch_ok hn hm ht _ hfit 0 none
  have hzl := zipRequestsBatch_length h1 h2 h3
  have hzne : zipRequestsBatch A L D Z ≠ [] := by
    intro h
    rw [h] at hzl
    exact hne (List.length_eq_zero_iff.1 hzl.symm)
  have hall : ∀ x ∈ shapes, x = (s, s) := by
    intro x hx
    obtain ⟨j, hj, rfl⟩ := List.mem_iff_getElem.1 hx
    have hj' : j < (zipRequestsBatch A L D Z).length := by
      have := hsh.length_eq
      omega
    have g := (List.forall₂_iff_get.1 hsh).2 j hj' hj
    simp only [List.get_eq_getElem] at g
    have e := g.2.unique (hs _ (List.getElem_mem hj'))
    exact Prod.ext e (g.1.symm.trans e)
  cases hx : xy with
  | none => exact absurd hx (hxy hzne)
  | some c' =>
    subst hx
    refine ⟨gs, zs, c', ?_, fun g hg => ?_, fun i hi as ls has hls vs z c => ?_⟩
    · unfold stackFields3dBatch
      rw [if_neg (by rw [h1, h2, h3]; simp), el]
      simp only [bind, Except.bind]
      match shapes, hsh.length_eq, hall with
      | [], h, _ =>
        exfalso
        exact hzne (List.length_eq_zero_iff.1 h)
      | x :: rest, _, hall =>
        simp only
        rw [if_pos]
        intro y hy
        rw [hall y (List.mem_cons_of_mem _ hy), hall x List.mem_cons_self]
    · obtain ⟨x, hx, hg'⟩ := hgs g hg
      rw [hall x hx] at hg'
      exact hg'
    · have g := hv i hi _ (requestsAt D Z has hls) none trivial vs z
      have l1 := has.length_eq
      have l2 := hls.length_eq
      unfold stackFields3d
      rw [if_neg (by rw [← l2, ← l1, h1, h2, h3]; simp)]
      simp only [bind_eq_ok]
      constructor
      · rintro ⟨g1, g2, g3⟩
        exact ⟨(vs, z, some c), (g (some c)).1 ⟨g1, g2, g3⟩, rfl⟩
      · rintro ⟨⟨vs', z', c''⟩, g1, g2⟩
        cases c'' with
        | none => cases g2
        | some c'' =>
          have e := ok_inj.1 g2
          simp only [Prod.mk.injEq] at e
          obtain ⟨rfl, rfl, rfl⟩ := e
          exact (g (some c'')).2 g1

end Fmmax
