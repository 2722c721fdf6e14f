import Verif.Proofs.BatchSources
import Verif.Props.BatchFields3d

/-! Property C108: sources inside a stack with batch dimensions. -/

namespace Fmmax

open Spec

variable {t : List ℕ} {r n m : ℕ} {κ : Type}

/-- C108: `polarization_terms` with batch dimensions: the terms have at least the rank of the layer, a shape between that of the
sources and that to which the layer and the sources are broadcast together, and are those of the elements. -/
theorem C108_polarization_terms {lat : LatticeVectors} {l : BatchLayer n} (h : LayerFits t r lat l) (hc : LayerComplete l)
    {jx jy jz : Batch (Matrix (Fin n) (Fin m) ℂ)} (hj : BroadcastsTo jx.shape t) (hy : jy.shape = jx.shape) (hz : jz.shape = jx.shape) :
    ∃ p, polarizationTermsBatch jx jy jz l = .ok p ∧ BroadcastsTo p.shape t ∧ r ≤ p.shape.length ∧ BroadcastsTo jx.shape p.shape ∧
      (∀ s', BroadcastsTo l.eigenvectors.shape s' → BroadcastsTo jx.shape s' → BroadcastsTo p.shape s') ∧
      ∀ i x a b c, ValidIndex t i → l.elementAt i = .ok x → jx.elementAt i = .ok a → jy.elementAt i = .ok b →
        jz.elementAt i = .ok c → ∀ v, p.elementAt i = .ok v ↔ polarizationTerms a b c x = .ok v :=
  polarizationTermsBatch_ok h hc hj hy hz

/-- C108: sources whose components have different batch shapes are rejected, also if the shapes can be broadcast together. -/
theorem C108_polarization_terms_shapes {l : BatchLayer n} {jx jy jz : Batch (Matrix (Fin n) (Fin m) ℂ)}
    (h : ¬(jx.shape = jy.shape ∧ jy.shape = jz.shape)) : polarizationTermsBatch jx jy jz l = .error .valueError := by
  unfold polarizationTermsBatch
  rw [if_pos h]

/-- C108: `amplitudes_for_source` with batch dimensions, for sources between two parts of a stack.  If the layers of the first part and
the first layer of the second part are broadcast together to the shape `s`, and the layers of the second part and the last layer of the
first part to the same shape `s`, then the calculation succeeds for sources of any batch shape that can be broadcast to `t`.  All six
amplitudes have one batch shape, that to which `s` and the shape of the sources are broadcast together, and at each batch index they are
the amplitudes computed from the elements at that index. -/
theorem C108_amplitudes {before after : List (BatchLayer n)} {tBefore tAfter : List ℝ} (hlb : before.length = tBefore.length)
    (hla : after.length = tAfter.length) (hb : ∀ l ∈ before, (∃ lat, LayerFits t r lat l) ∧ LayerComplete l)
    (ha : ∀ l ∈ after, (∃ lat, LayerFits t r lat l) ∧ LayerComplete l) {last first : BatchLayer n}
    (hlast : before.getLast? = some last) (hfirst : after.head? = some first) {s : List ℕ}
    (h1 : IsBroadcastOf (first.eigenvectors.shape :: before.map fun l => l.eigenvectors.shape) s)
    (h2 : IsBroadcastOf (last.eigenvectors.shape :: after.map fun l => l.eigenvectors.shape) s)
    {jx jy jz : Batch (Matrix (Fin n) (Fin m) ℂ)} (hj : BroadcastsTo jx.shape t) (hy : jy.shape = jx.shape) (hz : jz.shape = jx.shape) :
    ∃ Sb Sa A T, stackSMatrixBatch before tBefore = .ok Sb ∧ stackSMatrixBatch after tAfter = .ok Sa ∧
      amplitudesForSourceBatch jx jy jz Sb Sa = .ok A ∧ IsBroadcastOf [s, jx.shape] T ∧ BroadcastsTo T t ∧ SourceAmplitudesShape A T ∧
      ∀ i, ValidIndex t i → ∀ x y a b c sb sa, LayersElementsAt i before x → LayersElementsAt i after y → jx.elementAt i = .ok a →
        jy.elementAt i = .ok b → jz.elementAt i = .ok c → stackSMatrix x tBefore = .ok sb → stackSMatrix y tAfter = .ok sa →
        ∀ v, SourceAmplitudesAt A i v ↔ amplitudesForSource a b c sb sa = .ok v := by
  obtain ⟨Sb, e1, f1, g1⟩ := C96_stack (t := t) (r := r) (by rintro rfl; simp at hlast) hlb fun l hl => (hb l hl).1
  obtain ⟨Sa, e2, f2, g2⟩ := C96_stack (t := t) (r := r) (by rintro rfl; simp at hfirst) hla fun l hl => (ha l hl).1
  obtain ⟨x1, -, z1⟩ := stackSMatrixBatch_exact hlb hb e1
  obtain ⟨x2, y2, -⟩ := stackSMatrixBatch_exact hla ha e2
  rw [hlast, Option.some.injEq] at z1
  rw [hfirst, Option.some.injEq] at y2
  obtain ⟨A, T, k1, k2, k3, k4, k5⟩ := amplitudesForSourceBatch_ok f1 f2 x1 x2 (s := s) (by rw [← y2]; exact h1)
    (by rw [← z1]; exact h2) hj hy hz
  exact ⟨Sb, Sa, A, T, e1, e2, k1, k2, k3, k4, fun i hi x y a b c sb sa hx hy ha hb hc hsb hsa =>
    k5 i sb sa a b c hi ((g1 i hi x hx sb).2 hsb) ((g2 i hi y hy sa).2 hsa) ha hb hc⟩

/-- C108, a finding: `emission_matrix` joins blocks that contain the scattering matrix of one part each.  If the two shapes of
`C108_amplitudes` differ, for example because only a layer that does not touch the source has an additional batch axis, then
`amplitudes_for_source` raises, although all shapes can be broadcast together. -/
theorem C108_finding_unequal_shapes {before after : List (BatchLayer n)} {tBefore tAfter : List ℝ}
    (hlb : before.length = tBefore.length) (hla : after.length = tAfter.length)
    (hb : ∀ l ∈ before, (∃ lat, LayerFits t r lat l) ∧ LayerComplete l)
    (ha : ∀ l ∈ after, (∃ lat, LayerFits t r lat l) ∧ LayerComplete l) {last first : BatchLayer n}
    (hlast : before.getLast? = some last) (hfirst : after.head? = some first) {s s' : List ℕ}
    (h1 : IsBroadcastOf (first.eigenvectors.shape :: before.map fun l => l.eigenvectors.shape) s)
    (h2 : IsBroadcastOf (last.eigenvectors.shape :: after.map fun l => l.eigenvectors.shape) s') (hne : s ≠ s')
    {jx jy jz : Batch (Matrix (Fin n) (Fin m) ℂ)} (hj : BroadcastsTo jx.shape t) (hy : jy.shape = jx.shape) (hz : jz.shape = jx.shape) :
    ∃ Sb Sa, stackSMatrixBatch before tBefore = .ok Sb ∧ stackSMatrixBatch after tAfter = .ok Sa ∧
      amplitudesForSourceBatch jx jy jz Sb Sa = .error .typeError := by
  obtain ⟨Sb, e1, f1, -⟩ := C96_stack (t := t) (r := r) (by rintro rfl; simp at hlast) hlb fun l hl => (hb l hl).1
  obtain ⟨Sa, e2, f2, -⟩ := C96_stack (t := t) (r := r) (by rintro rfl; simp at hfirst) hla fun l hl => (ha l hl).1
  obtain ⟨x1, -, z1⟩ := stackSMatrixBatch_exact hlb hb e1
  obtain ⟨x2, y2, -⟩ := stackSMatrixBatch_exact hla ha e2
  rw [hlast, Option.some.injEq] at z1
  rw [hfirst, Option.some.injEq] at y2
  subst z1 y2
  obtain ⟨latb, lb⟩ := f1.last
  obtain ⟨p, ep, -⟩ := polarizationTermsBatch_ok lb x1.lastComplete hj hy hz
  obtain ⟨sa, sb, k1, k2, k3, -⟩ := emissionMatrixBatch_ok f1 f2 x1.lastComplete x2.startComplete
  have bb := x1.s12 ▸ x1.s11
  have ba := x2.s21 ▸ x2.s11
  have ml : Sb.endLayer.eigenvectors.shape ∈ before.map fun l => l.eigenvectors.shape :=
    List.mem_map.2 ⟨_, List.mem_of_mem_getLast? hlast, rfl⟩
  have mf : Sa.startLayer.eigenvectors.shape ∈ after.map fun l => l.eigenvectors.shape :=
    List.mem_map.2 ⟨_, List.mem_of_mem_head? hfirst, rfl⟩
  have esb : sb = s := by
    refine k2.unique ⟨fun x hx => ?_, fun s' hs' => h1.least _ fun x hx => ?_⟩
    · simp only [List.mem_cons, List.not_mem_nil, or_false] at hx
      rcases hx with rfl | rfl | rfl
      · exact h1.upper _ (List.mem_cons_of_mem _ ml)
      · exact h1.upper _ (by simp)
      · exact bb.least _ fun x hx => h1.upper _ (List.mem_cons_of_mem _ hx)
    · rcases List.mem_cons.1 hx with rfl | hx
      · exact hs' _ (by simp)
      · exact (bb.upper _ hx).trans (hs' _ (by simp))
  have esa : sa = s' := by
    refine k1.unique ⟨fun x hx => ?_, fun s' hs' => h2.least _ fun x hx => ?_⟩
    · simp only [List.mem_cons, List.not_mem_nil, or_false] at hx
      rcases hx with rfl | rfl | rfl
      · exact h2.upper _ (by simp)
      · exact h2.upper _ (List.mem_cons_of_mem _ mf)
      · exact ba.least _ fun x hx => h2.upper _ (List.mem_cons_of_mem _ hx)
    · rcases List.mem_cons.1 hx with rfl | hx
      · exact hs' _ (by simp)
      · exact (ba.upper _ hx).trans (hs' _ (by simp))
  refine ⟨Sb, Sa, e1, e2, ?_⟩
  unfold amplitudesForSourceBatch
  rw [ep, k3 (by rw [esa, esb]; exact hne.symm)]
  rfl

theorem emittedFields_of_layers (hn : 0 < n) (hm : 0 < m) (ht : ∀ d ∈ t, 0 < d) {slice : BatchSliceFn n κ}
    {single : FieldsXYSliceFn (Fin n) κ} {before after : List (BatchLayer n)} {tBefore tAfter : List ℝ}
    {znum : List ℕ} (hlb : before.length = tBefore.length)
    (hla : after.length = tAfter.length) (hzl : znum.length = before.length + after.length) (hz0 : ∀ z ∈ znum, 0 < z)
    (hb : ∀ l ∈ before, (∃ lat, LayerFits t r lat l) ∧ LayerComplete l)
    (ha : ∀ l ∈ after, (∃ lat, LayerFits t r lat l) ∧ LayerComplete l) {last first : BatchLayer n}
    (hlast : before.getLast? = some last) (hfirst : after.head? = some first) {s : List ℕ}
    (h1 : IsBroadcastOf (first.eigenvectors.shape :: before.map fun l => l.eigenvectors.shape) s)
    (h2 : IsBroadcastOf (last.eigenvectors.shape :: after.map fun l => l.eigenvectors.shape) s)
    {jx jy jz : Batch (Matrix (Fin n) (Fin m) ℂ)} (hj : BroadcastsTo jx.shape t) (hy : jy.shape = jx.shape) (hz : jz.shape = jx.shape)
    (hslice : ∀ l ∈ before ++ after, SliceFits t slice single l) :
    ∃ Sb Sa A Ib Ia out gs zs xy T, stackSMatrixBatch before tBefore = .ok Sb ∧ stackSMatrixBatch after tAfter = .ok Sa ∧
      amplitudesForSourceBatch jx jy jz Sb Sa = .ok A ∧ stackSMatricesInteriorBatch before tBefore = .ok Ib ∧
      stackSMatricesInteriorBatch after tAfter = .ok Ia ∧
      stackAmplitudesInteriorWithSourceBatch Ib Ia A.backwardBeforeEnd A.forwardAfterStart = .ok out ∧
      stackFields3dBatch out (before ++ after) (tBefore ++ tAfter) znum slice = .ok (gs, zs, xy) ∧ IsBroadcastOf [s, jx.shape] T ∧
      (∀ g ∈ gs, BatchFieldsShape g T) ∧
      ∀ i, ValidIndex t i → ∀ x y a b c sb sa v ib ia o, LayersElementsAt i before x → LayersElementsAt i after y →
        jx.elementAt i = .ok a → jy.elementAt i = .ok b → jz.elementAt i = .ok c → stackSMatrix x tBefore = .ok sb →
        stackSMatrix y tAfter = .ok sa → amplitudesForSource a b c sb sa = .ok v → stackSMatricesInterior x tBefore = .ok ib →
        stackSMatricesInterior y tAfter = .ok ia →
        stackAmplitudesInteriorWithSource ib ia v.backwardBeforeEnd v.forwardAfterStart = .ok o → ∀ vs z p,
          (List.Forall₂ (fun g v => BatchFieldsAt g i v) gs vs ∧ z = zs ∧ xy.elementAt i = .ok p) ↔
            stackFields3d o (x ++ y) (tBefore ++ tAfter) znum single = .ok (vs, z, p) := by
  have hneb : before ≠ [] := by rintro rfl; simp at hlast
  have hnea : after ≠ [] := by rintro rfl; simp at hfirst
  obtain ⟨Sb, Sa, A, T, e1, e2, e3, bT, tT, sA, vA⟩ := C108_amplitudes hlb hla hb ha hlast hfirst h1 h2 hj hy hz
  obtain ⟨Ib, e4, l4, f4, v4⟩ := C105_interior (t := t) (r := r) hneb hlb fun l hl => (hb l hl).1
  obtain ⟨Ia, e5, l5, f5, v5⟩ := C105_interior (t := t) (r := r) hnea hla fun l hl => (ha l hl).1
  have tb : BroadcastsTo A.backwardBeforeEnd.shape t := sA.backwardBeforeEnd ▸ tT
  have ta : BroadcastsTo A.forwardAfterStart.shape t := sA.forwardAfterStart ▸ tT
  obtain ⟨o1, k1, fo1, g1⟩ := stackAmplitudesInteriorBatch_ok hn hm ht Ib f4 (a0 := A.backwardBeforeEnd.zerosLike)
    (bN := A.backwardBeforeEnd) tb tb
  obtain ⟨o2, k2, fo2, g2⟩ := stackAmplitudesInteriorBatch_ok hn hm ht Ia f5 (a0 := A.forwardAfterStart)
    (bN := A.forwardAfterStart.zerosLike) ta ta
  obtain ⟨out, e6, l6, v6⟩ := C106_amplitudes_with_source hn hm ht f4 f5 tb ta
  have eo : out = o1 ++ o2 := by
    unfold stackAmplitudesInteriorWithSourceBatch at e6
    rw [k1, k2] at e6
    exact (ok_inj.1 e6).symm
  have us : BroadcastsTo s T := bT.upper _ (by simp)
  have lb : ∀ l ∈ before ++ after, BroadcastsTo l.eigenvectors.shape T := by
    intro l hl
    rcases List.mem_append.1 hl with hl | hl
    · exact (h1.upper _ (List.mem_cons_of_mem _ (List.mem_map.2 ⟨l, hl, rfl⟩))).trans us
    · exact (h2.upper _ (List.mem_cons_of_mem _ (List.mem_map.2 ⟨l, hl, rfl⟩))).trans us
  have least : ∀ {L : List (BatchLayer n)} {a b u : List ℕ}, (∀ l ∈ L, BroadcastsTo l.eigenvectors.shape T) → a = T → b = T →
      IsBroadcastOf (a :: b :: L.map fun l => l.eigenvectors.shape) u → u = T := by
    intro L a b u hL ea eb hu
    subst ea eb
    refine hu.unique ⟨fun x hx => ?_, fun s' hs' => hs' _ (by simp)⟩
    simp only [List.mem_cons, List.mem_map] at hx
    rcases hx with rfl | rfl | ⟨l, hl, rfl⟩
    · exact .refl _
    · exact .refl _
    · exact hL l hl
  have so : ∀ x ∈ out, x.1.shape = T ∧ x.2.shape = x.1.shape := by
    intro x hx
    rw [eo, List.mem_append] at hx
    rcases hx with hx | hx
    · refine ⟨least (fun l hl => lb l (List.mem_append_left _ hl)) sA.backwardBeforeEnd sA.backwardBeforeEnd
        (stackAmplitudesBatch_shape hlb hb e4 l4 fo1 x hx), ?_⟩
      obtain ⟨j, hj, rfl⟩ := List.mem_iff_getElem.1 hx
      exact ((List.forall₂_iff_get.1 fo1).2 j (by have := fo1.length_eq; omega) hj).2.1
    · refine ⟨least (fun l hl => lb l (List.mem_append_right _ hl)) sA.forwardAfterStart sA.forwardAfterStart
        (stackAmplitudesBatch_shape hla ha e5 l5 fo2 x hx), ?_⟩
      obtain ⟨j, hj, rfl⟩ := List.mem_iff_getElem.1 hx
      exact ((List.forall₂_iff_get.1 fo2).2 j (by have := fo2.length_eq; omega) hj).2.1
  have hall : ∀ l ∈ before ++ after, (∃ lat, LayerFits t r lat l) ∧ LayerComplete l := by
    intro l hl
    rcases List.mem_append.1 hl with hl | hl
    · exact hb l hl
    · exact ha l hl
  have hone : out ≠ [] := by
    rintro rfl
    rw [List.length_nil] at l6
    exact hneb (List.length_eq_zero_iff.1 (by omega))
  obtain ⟨gs, zs, xy, e7, hg, hv⟩ := stackFields3dBatch_ok (r := r) hn hm ht (slice := slice) (single := single) (A := out)
    (L := before ++ after) (D := tBefore ++ tAfter) (Z := znum) (by simp; omega) (by simp; omega) (by omega) hone
    (fun R hR => by
      obtain ⟨m1, m2, m3⟩ := mem_zipRequestsBatch hR
      exact ⟨(hall _ m2).1, (hall _ m2).2, (so _ m1).1 ▸ tT, (so _ m1).2.symm, hslice _ m2, hz0 _ m3⟩)
    (s := T)
    (fun R hR => by
      obtain ⟨m1, m2, m3⟩ := mem_zipRequestsBatch hR
      have e := (so _ m1).1
      simp only at e
      rw [e]
      exact isBroadcastOf_pair (lb _ m2))
  refine ⟨Sb, Sa, A, Ib, Ia, out, gs, zs, xy, T, e1, e2, e3, e4, e5, e6, e7, bT, hg,
    fun i hi x y a b c sb sa v ib ia o hx hy ha hb hc hsb hsa hv' hib hia ho => ?_⟩
  have hA := (vA i hi x y a b c sb sa hx hy ha hb hc hsb hsa v).2 hv'
  exact hv i hi o (x ++ y) ((v6 i hi ib ia _ _ hA.backwardBeforeEnd hA.forwardAfterStart ((v4 i hi x hx ib).2 hib)
    ((v5 i hi y hy ia).2 hia) o).2 ho) (List.rel_append hx hy)

/-- C108: the emitted fields on a grid.  Scattering matrices of the two parts, emitted amplitudes, interior scattering matrices,
amplitudes in all layers and fields in three dimensions are computed with batch dimensions; all slices have the batch shape to which the
layers and the sources are broadcast together, and the fields at a batch index are those computed from the elements. -/
theorem C108_fields (hn : 0 < n) (hm : 0 < m) (ht : ∀ d ∈ t, 0 < d) {before after : List (BatchLayer n)} {tBefore tAfter : List ℝ}
    {znum : List ℕ} (hlb : before.length = tBefore.length)
    (hla : after.length = tAfter.length) (hzl : znum.length = before.length + after.length) (hz0 : ∀ z ∈ znum, 0 < z)
    (hb : ∀ l ∈ before, (∃ lat, LayerFits t r lat l) ∧ LayerComplete l)
    (ha : ∀ l ∈ after, (∃ lat, LayerFits t r lat l) ∧ LayerComplete l) {last first : BatchLayer n}
    (hlast : before.getLast? = some last) (hfirst : after.head? = some first) {s : List ℕ}
    (h1 : IsBroadcastOf (first.eigenvectors.shape :: before.map fun l => l.eigenvectors.shape) s)
    (h2 : IsBroadcastOf (last.eigenvectors.shape :: after.map fun l => l.eigenvectors.shape) s)
    {jx jy jz : Batch (Matrix (Fin n) (Fin m) ℂ)} (hj : BroadcastsTo jx.shape t) (hy : jy.shape = jx.shape) (hz : jz.shape = jx.shape)
    {shape cells : ℕ × ℕ} (hv : ∀ l ∈ before ++ after, validateShapeForExpansion shape l.expansion = .ok ()) :
    ∃ Sb Sa A Ib Ia out gs zs xy T, stackSMatrixBatch before tBefore = .ok Sb ∧ stackSMatrixBatch after tAfter = .ok Sa ∧
      amplitudesForSourceBatch jx jy jz Sb Sa = .ok A ∧ stackSMatricesInteriorBatch before tBefore = .ok Ib ∧
      stackSMatricesInteriorBatch after tAfter = .ok Ia ∧
      stackAmplitudesInteriorWithSourceBatch Ib Ia A.backwardBeforeEnd A.forwardAfterStart = .ok out ∧
      stackFields3dBatch out (before ++ after) (tBefore ++ tAfter) znum (gridSliceBatch shape cells) = .ok (gs, zs, xy) ∧
      IsBroadcastOf [s, jx.shape] T ∧ (∀ g ∈ gs, BatchFieldsShape g T) ∧
      ∀ i, ValidIndex t i → ∀ x y a b c sb sa v ib ia o, LayersElementsAt i before x → LayersElementsAt i after y →
        jx.elementAt i = .ok a → jy.elementAt i = .ok b → jz.elementAt i = .ok c → stackSMatrix x tBefore = .ok sb →
        stackSMatrix y tAfter = .ok sa → amplitudesForSource a b c sb sa = .ok v → stackSMatricesInterior x tBefore = .ok ib →
        stackSMatricesInterior y tAfter = .ok ia →
        stackAmplitudesInteriorWithSource ib ia v.backwardBeforeEnd v.forwardAfterStart = .ok o → ∀ vs z p,
          (List.Forall₂ (fun g v => BatchFieldsAt g i v) gs vs ∧ z = zs ∧ xy.elementAt i = .ok p) ↔
            stackFields3d o (x ++ y) (tBefore ++ tAfter) znum (gridSlice shape cells) = .ok (vs, z, p) :=
  emittedFields_of_layers hn hm ht hlb hla hzl hz0 hb ha hlast hfirst h1 h2 hj hy hz fun l hl => by
    obtain ⟨⟨lat, q1⟩, q2⟩ : (∃ lat, LayerFits t r lat l) ∧ LayerComplete l := by
      rcases List.mem_append.1 hl with hl | hl
      · exact hb l hl
      · exact ha l hl
    exact gridSliceBatch_fits hn ht q1 q2 (hv l hl)

/-- C108: the emitted fields at given points. -/
theorem C108_fields_on_coordinates (hn : 0 < n) (hm : 0 < m) (ht : ∀ d ∈ t, 0 < d) {before after : List (BatchLayer n)}
    {tBefore tAfter : List ℝ} {znum : List ℕ} (hlb : before.length = tBefore.length)
    (hla : after.length = tAfter.length) (hzl : znum.length = before.length + after.length) (hz0 : ∀ z ∈ znum, 0 < z)
    (hb : ∀ l ∈ before, (∃ lat, LayerFits t r lat l) ∧ LayerComplete l)
    (ha : ∀ l ∈ after, (∃ lat, LayerFits t r lat l) ∧ LayerComplete l) {last first : BatchLayer n}
    (hlast : before.getLast? = some last) (hfirst : after.head? = some first) {s : List ℕ}
    (h1 : IsBroadcastOf (first.eigenvectors.shape :: before.map fun l => l.eigenvectors.shape) s)
    (h2 : IsBroadcastOf (last.eigenvectors.shape :: after.map fun l => l.eigenvectors.shape) s)
    {jx jy jz : Batch (Matrix (Fin n) (Fin m) ℂ)} (hj : BroadcastsTo jx.shape t) (hy : jy.shape = jx.shape) (hz : jz.shape = jx.shape)
    (points : κ → ℝ × ℝ) :
    ∃ Sb Sa A Ib Ia out gs zs xy T, stackSMatrixBatch before tBefore = .ok Sb ∧ stackSMatrixBatch after tAfter = .ok Sa ∧
      amplitudesForSourceBatch jx jy jz Sb Sa = .ok A ∧ stackSMatricesInteriorBatch before tBefore = .ok Ib ∧
      stackSMatricesInteriorBatch after tAfter = .ok Ia ∧
      stackAmplitudesInteriorWithSourceBatch Ib Ia A.backwardBeforeEnd A.forwardAfterStart = .ok out ∧
      stackFields3dBatch out (before ++ after) (tBefore ++ tAfter) znum (coordinateSliceBatch points) = .ok (gs, zs, xy) ∧
      IsBroadcastOf [s, jx.shape] T ∧ (∀ g ∈ gs, BatchFieldsShape g T) ∧
      ∀ i, ValidIndex t i → ∀ x y a b c sb sa v ib ia o, LayersElementsAt i before x → LayersElementsAt i after y →
        jx.elementAt i = .ok a → jy.elementAt i = .ok b → jz.elementAt i = .ok c → stackSMatrix x tBefore = .ok sb →
        stackSMatrix y tAfter = .ok sa → amplitudesForSource a b c sb sa = .ok v → stackSMatricesInterior x tBefore = .ok ib →
        stackSMatricesInterior y tAfter = .ok ia →
        stackAmplitudesInteriorWithSource ib ia v.backwardBeforeEnd v.forwardAfterStart = .ok o → ∀ vs z p,
          (List.Forall₂ (fun g v => BatchFieldsAt g i v) gs vs ∧ z = zs ∧ xy.elementAt i = .ok p) ↔
            stackFields3d o (x ++ y) (tBefore ++ tAfter) znum (coordinateSlice points) = .ok (vs, z, p) :=
  emittedFields_of_layers hn hm ht hlb hla hzl hz0 hb ha hlast hfirst h1 h2 hj hy hz fun l hl => by
    obtain ⟨⟨lat, q1⟩, q2⟩ : (∃ lat, LayerFits t r lat l) ∧ LayerComplete l := by
      rcases List.mem_append.1 hl with hl | hl
      · exact hb l hl
      · exact ha l hl
    exact coordinateSliceBatch_fits hn ht q1 q2 points

/-! ### Examples -/

section

variable (eig : Matrix (Fin 1 ⊕ Fin 1) (Fin 1 ⊕ Fin 1) ℂ → (Fin 1 ⊕ Fin 1 → ℂ) × Matrix (Fin 1 ⊕ Fin 1) (Fin 1 ⊕ Fin 1) ℂ)

/-- Two dipoles whose strengths depend on the wavelength, of shape `(3, 1, 1, 2)`. -/
noncomputable def exampleDipoles : Batch (Matrix (Fin 1) (Fin 2) ℂ) :=
  { shape := [3, 1], get := fun i => .ok (Matrix.of fun _ b => (i.headD 0 : ℕ) + (b : ℕ)) }

theorem exampleDipoles_broadcasts : BroadcastsTo exampleDipoles.shape [3, 2] :=
  ⟨[], [3, 2], rfl, .cons (Or.inr rfl) (.cons (Or.inl rfl) .nil)⟩

theorem isBroadcastOf_same {s : List ℕ} {S : List (List ℕ)} (hne : S ≠ []) (h : ∀ x ∈ S, x = s) : IsBroadcastOf S s := by
  refine ⟨fun x hx => h x hx ▸ .refl _, fun s' hs' => ?_⟩
  obtain ⟨x, hx⟩ := List.exists_mem_of_ne_nil _ hne
  exact h x hx ▸ hs' x hx

theorem example_solved {M : BatchMedium 1} (hM : M ∈ [exampleVacuum, exampleDispersive, examplePatterned, exampleVacuum]) :
    ∃ L, eigensolveIsotropicMediaBatch eig exampleWavelengths exampleWavevectors (exampleAxis 0) (exampleAxis 1) M.permittivity
        (fun _ => (0, 0)) M.formulation = .ok L ∧ (∃ lat, LayerFits [3, 2] 2 lat L) ∧ LayerComplete L ∧
      L.expansion = (fun _ => (0, 0)) ∧ L.eigenvectors.shape = [3, 2] := by
  obtain ⟨h1, h2, h3, h4⟩ := example_media M hM
  obtain ⟨L, hL, hs⟩ := C96_isotropic eig (by omega) example_batchInputs h1 h2 (fun i _ => example_wavelengths_ne_zero i) h4
    (fun _ => (0, 0)) M.formulation
  rw [h3] at hs
  refine ⟨L, hL, ⟨_, hs.fits⟩, hs.complete, eigensolveIsotropicMediaBatch_expansion eig hL, ?_⟩
  have b1 : BroadcastsTo [3, 1] L.eigenvectors.shape := hs.shape [3, 1] (by simp [exampleWavelengths])
  have b2 : BroadcastsTo [2] L.eigenvectors.shape := hs.shape [2] (by simp)
  obtain ⟨c, hc, hcs⟩ := broadcastShapes_exists b1 b2
  obtain rfl : c = [3, 2] := (Option.some.inj ((show broadcastShapes [3, 1] [2] = some [3, 2] by rfl).symm.trans hc)).symm
  exact hs.fits.eigenvectors.broadcasts.antisymm hcs.1

/-- Dipoles between the second and the third layer of the stack solved beside C96: the emitted fields are computed for all wavelengths
and wavevectors. -/
example : ∃ (before after : List (BatchLayer 1)) (Sb Sa : _) (A : BatchSourceAmplitudes 1 2) (Ib Ia out gs zs xy : _),
    List.Forall₂ (fun M L => eigensolveIsotropicMediaBatch eig exampleWavelengths exampleWavevectors (exampleAxis 0) (exampleAxis 1)
      M.permittivity (fun _ => (0, 0)) M.formulation = .ok L) [exampleVacuum, exampleDispersive, examplePatterned, exampleVacuum]
      (before ++ after) ∧ before.length = 2 ∧
    stackSMatrixBatch before [1, 2] = .ok Sb ∧ stackSMatrixBatch after [3, 1] = .ok Sa ∧
    amplitudesForSourceBatch exampleDipoles exampleDipoles exampleDipoles Sb Sa = .ok A ∧
    stackSMatricesInteriorBatch before [1, 2] = .ok Ib ∧ stackSMatricesInteriorBatch after [3, 1] = .ok Ia ∧
    stackAmplitudesInteriorWithSourceBatch Ib Ia A.backwardBeforeEnd A.forwardAfterStart = .ok out ∧
    stackFields3dBatch out (before ++ after) [1, 2, 3, 1] [5, 6, 7, 8] (gridSliceBatch (4, 4) (1, 2)) = .ok (gs, zs, xy) := by
  obtain ⟨v, v1, v2, v3, v4, v5⟩ := example_solved eig (M := exampleVacuum) (by simp)
  obtain ⟨d, d1, d2, d3, d4, d5⟩ := example_solved eig (M := exampleDispersive) (by simp)
  obtain ⟨p, p1, p2, p3, p4, p5⟩ := example_solved eig (M := examplePatterned) (by simp)
  obtain ⟨Sb, Sa, A, Ib, Ia, out, gs, zs, xy, T, e1, e2, e3, e4, e5, e6, e7, -⟩ := C108_fields (t := [3, 2]) (r := 2) (m := 2)
    (before := [v, d]) (after := [p, v]) (tBefore := [1, 2]) (tAfter := [3, 1]) (znum := [5, 6, 7, 8]) (s := [3, 2])
    (shape := (4, 4)) (cells := (1, 2)) (by omega) (by omega) (by simp) rfl rfl rfl (by simp)
    (by simp only [List.mem_cons, List.not_mem_nil, or_false, forall_eq_or_imp, forall_eq]; exact ⟨⟨v2, v3⟩, d2, d3⟩)
    (by simp only [List.mem_cons, List.not_mem_nil, or_false, forall_eq_or_imp, forall_eq]; exact ⟨⟨p2, p3⟩, v2, v3⟩)
    rfl rfl (isBroadcastOf_same (by simp) (by simp [v5, d5, p5])) (isBroadcastOf_same (by simp) (by simp [v5, d5, p5]))
    exampleDipoles_broadcasts (jy := exampleDipoles) (jz := exampleDipoles) rfl rfl
    (by simp only [List.cons_append, List.nil_append, List.mem_cons, List.not_mem_nil, or_false, forall_eq_or_imp, forall_eq, v4, d4, p4]
        exact ⟨example_shape, example_shape, example_shape, example_shape⟩)
  exact ⟨[v, d], [p, v], Sb, Sa, A, Ib, Ia, out, gs, zs, xy, .cons v1 (.cons d1 (.cons p1 (.cons v1 .nil))), rfl, e1, e2, e3, e4, e5,
    e6, e7⟩

/-- Uniform media of `d` permittivities, of shape `(d, 1, 1)`. -/
def exampleSweep (d : ℕ) : NDArray ℂ := { shape := [d, 1, 1], get := fun i => i.headD 0 + 1 }

theorem example_sweep (d : ℕ) (hd : 0 < d) : ∃ L : BatchLayer 1,
    eigensolveIsotropicMediaBatch (nx := 1) (ny := 1) eig { shape := [1], get := fun _ => 1 } { shape := [2], get := fun _ => 0 } (exampleAxis 0)
        (exampleAxis 1) (exampleSweep d) (fun _ => (0, 0)) .fft = .ok L ∧ (∃ lat, LayerFits [d] 1 lat L) ∧ LayerComplete L ∧
      L.eigenvectors.shape = [d] := by
  have h : BatchInputs [d] { shape := [1], get := fun _ => 1 } { shape := [2], get := fun _ => 0 } (exampleAxis 0) (exampleAxis 1) [] 0
      ⟨(1, 0), (0, 1)⟩ :=
    { positive := by simpa using hd
      wavelength := ⟨[], [d], rfl, .cons (Or.inl rfl) .nil⟩
      wavevector_shape := rfl
      wavevector := .nil _
      lattice_rank := by simp
      lattice :=
        { u_shape := rfl, v_shape := rfl, eq := by simp [latticeAt, exampleAxis], independent := by simp [Independent] } }
  obtain ⟨L, hL, hs⟩ := C96_isotropic (nx := 1) (ny := 1) eig (by omega) h (p := exampleSweep d) (P := [d]) rfl (.refl _)
    (fun _ _ => one_ne_zero) (fun _ i _ => by
      show (((broadcastIndex [d, 1, 1] (i ++ [0, 0])).headD 0 : ℕ) : ℂ) + 1 ≠ 0
      norm_cast) (fun _ => (0, 0)) .fft
  refine ⟨L, hL, ⟨_, hs.fits⟩, hs.complete, ?_⟩
  exact hs.fits.eigenvectors.broadcasts.antisymm (hs.shape [d] (by simp))

/-- Sources at the second interface of three layers: a sweep of the permittivity of the second layer works, one of the first layer
alone raises. -/
example : ∃ (one two : BatchLayer 1) (Sb Sb' Sa : BatchScatteringMatrix 1) (A : BatchSourceAmplitudes 1 2) (j : _),
    one.eigenvectors.shape = [1] ∧ two.eigenvectors.shape = [2] ∧ stackSMatrixBatch [one, two] [1, 2] = .ok Sb ∧
    stackSMatrixBatch [two, one] [1, 2] = .ok Sb' ∧ stackSMatrixBatch [one] [1] = .ok Sa ∧
    amplitudesForSourceBatch j j j Sb Sa = .ok A ∧ amplitudesForSourceBatch j j j Sb' Sa = .error .typeError := by
  obtain ⟨one, -, ⟨lat, o2⟩, o3, o4⟩ := example_sweep eig 1 (by omega)
  obtain ⟨two, -, w2, w3, w4⟩ := example_sweep eig 2 (by omega)
  have b12 : BroadcastsTo [1] [2] := ⟨[], [2], rfl, .cons (Or.inl rfl) .nil⟩
  have o2' : ∃ lat, LayerFits [2] 1 lat one := ⟨lat, o3.fits_of o2 (o4 ▸ b12)⟩
  set j : Batch (Matrix (Fin 1) (Fin 2) ℂ) := { shape := [], get := fun _ => .ok (Matrix.of fun _ _ => 1) } with hj
  have f12 : ∀ l ∈ [one, two], (∃ lat, LayerFits [2] 1 lat l) ∧ LayerComplete l := by
    simp only [List.mem_cons, List.not_mem_nil, or_false, forall_eq_or_imp, forall_eq]
    exact ⟨⟨o2', o3⟩, w2, w3⟩
  have f1 : ∀ l ∈ [one], (∃ lat, LayerFits [2] 1 lat l) ∧ LayerComplete l := by
    simp only [List.mem_cons, List.not_mem_nil, or_false, forall_eq]
    exact ⟨o2', o3⟩
  have two' : ∀ S : List (List ℕ), [2] ∈ S → (∀ x ∈ S, x = [1] ∨ x = [2]) → IsBroadcastOf S [2] := by
    refine fun S h1 h2 => ⟨fun x hx => ?_, fun s' hs' => hs' _ h1⟩
    rcases h2 x hx with rfl | rfl
    · exact b12
    · exact .refl _
  obtain ⟨Sb, Sa, A, -, e1, e2, e3, -⟩ := C108_amplitudes (t := [2]) (r := 1) (before := [one, two]) (after := [one])
    (tBefore := [1, 2]) (tAfter := [1]) rfl rfl f12 f1 rfl rfl (s := [2]) (two' _ (by simp [w4]) (by simp [o4, w4]))
    (two' _ (by simp [w4]) (by simp [o4, w4])) (jx := j) (jy := j) (jz := j) (.nil _) rfl rfl
  obtain ⟨Sb', Sa', g1, g2, g3⟩ := C108_finding_unequal_shapes (t := [2]) (r := 1) (before := [two, one]) (after := [one])
    (tBefore := [1, 2]) (tAfter := [1]) rfl rfl (fun l hl => f12 l (by simp only [List.mem_cons, List.not_mem_nil, or_false] at hl ⊢; tauto))
    f1 rfl rfl (s := [2]) (s' := [1]) (two' _ (by simp [w4]) (by simp [o4, w4])) (isBroadcastOf_same (by simp) (by simp [o4])) (by simp)
    (jx := j) (jy := j) (jz := j) (.nil _) rfl rfl
  obtain rfl := ok_inj.1 (e2.symm.trans g2)
  exact ⟨one, two, Sb, Sb', Sa, A, j, o4, w4, e1, g1, e2, e3, g3⟩

end

end Fmmax
