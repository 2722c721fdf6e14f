import Verif.Proofs.BatchAmplitudes
import Verif.Proofs.FluxBatchSum
import Verif.Spec.BatchAmplitudes
import Verif.Props.BatchFields3d
import Verif.Props.SourceShapes
import Verif.Props.AutoGrid

/-! Property theorem C113: `amplitudes_for_fields` and the automatic grid with batch dimensions. -/

namespace Fmmax

open Spec

variable {t : List ℕ} {r n m : ℕ}

theorem fieldGridShapes_ok (hm : 0 < m) (ht : ∀ d ∈ t, 0 < d) {B s : List ℕ} (hB : BroadcastsTo B t) (hst : BroadcastsTo s t)
    {axes : Option (ℤ × ℤ)} {grid shape : ℕ × ℕ} (hgrid : IsGridShape axes (s.length + 3) B grid) (hg1 : 0 < grid.1) (hg2 : 0 < grid.2)
    (h1 : 0 < shape.1) (h2 : 0 < shape.2) :
    fieldGridShapes (s ++ [grid.1 * shape.1, grid.2 * shape.2, m]) (s ++ [grid.1 * shape.1, grid.2 * shape.2, m])
      (s ++ [grid.1 * shape.1, grid.2 * shape.2, m]) (s ++ [grid.1 * shape.1, grid.2 * shape.2, m]) B axes = .ok (grid, shape) := by
  refine ((C82_field_shapes _ _ _ _ _ _ ?_ (broadcastsTo_pos hB ht)).1 grid shape).2 ⟨s, m, rfl, rfl, rfl, rfl, ⟨t, ?_⟩, ?_⟩
  · intro d hd
    simp only [List.mem_append, List.mem_cons, List.not_mem_nil, or_false] at hd
    rcases hd with hd | rfl | rfl | rfl
    · exact broadcastsTo_pos hst ht d hd
    · exact Nat.mul_pos hg1 h1
    · exact Nat.mul_pos hg2 h2
    · exact hm
  · intro x hx
    simp only [List.mem_cons, List.not_mem_nil, or_false] at hx
    rcases hx with rfl | rfl
    exacts [hB, hst]
  · simpa using hgrid

theorem gridShape_pos {axes : Option (ℤ × ℤ)} {k : ℕ} {B : List ℕ} {grid : ℕ × ℕ} (h : IsGridShape axes k B grid) (hB : ∀ d ∈ B, 0 < d) :
    0 < grid.1 ∧ 0 < grid.2 := by
  cases axes with
  | none =>
    cases h
    simp
  | some ij =>
    obtain ⟨a, b, -, -, -, -, -, h1, h2⟩ := h
    exact ⟨hB _ (List.mem_of_getElem? h1), hB _ (List.mem_of_getElem? h2)⟩

/-- C113: `amplitudes_for_fields` for fields with batch dimensions on a grid that covers as many unit cells as the Brillouin grid has
points: the amplitudes have the batch shape to which the layer and the fields are broadcast together, and at every batch index they are
the amplitudes for the fields and the layer at that index. -/
theorem C113_amplitudes_for_fields (hm : 0 < m) (ht : ∀ d ∈ t, 0 < d) {lat : LatticeVectors} {l : BatchLayer n}
    (h : LayerFits t r lat l) (hc : LayerComplete l) {ex ey hx hy : Batch (ℕ → ℕ → Fin m → ℂ)} {s : List ℕ} (hst : BroadcastsTo s t)
    (hex : ex.shape = s) (hey : ey.shape = s) (hhx : hx.shape = s) (hhy : hy.shape = s) {axes : Option (ℤ × ℤ)} {grid shape : ℕ × ℕ}
    (hgrid : IsGridShape axes (s.length + 3) l.eigenvectors.shape grid) (h1 : 0 < shape.1) (h2 : 0 < shape.2)
    (hv : validateShapeForExpansion shape l.expansion = .ok ()) :
    ∃ A B, amplitudesForFieldsBatch (grid.1 * shape.1, grid.2 * shape.2) ex ey hx hy l axes = .ok (A, B) ∧
      IsBroadcastOf [l.eigenvectors.shape, s] A.shape ∧ B.shape = A.shape ∧
      ∀ i x, ValidIndex t i → l.elementAt i = .ok x → ∀ fex fey fhx fhy, ex.elementAt i = .ok fex → ey.elementAt i = .ok fey →
        hx.elementAt i = .ok fhx → hy.elementAt i = .ok fhy → ∀ a b,
          (A.elementAt i = .ok a ∧ B.elementAt i = .ok b) ↔
            amplitudesForFields (grid.1 * shape.1, grid.2 * shape.2) fex fey fhx fhy x grid = .ok (a, b) := by
  obtain ⟨hg1, hg2⟩ := gridShape_pos hgrid (broadcastsTo_pos h.eigenvectors.broadcasts ht)
  exact amplitudesForFieldsBatch_ok h hc hst hex hey hhx hhy
    (fieldGridShapes_ok hm ht h.eigenvectors.broadcasts hst hgrid hg1 hg2 h1 h2) rfl rfl hg1 hg2 hv

/-- C113: fields whose shapes are not equal, not compatible with the batch shape of the layer, or not divided by the Brillouin grid
are rejected before anything is computed. -/
theorem C113_rejected (hm : 0 < m) {l : BatchLayer n} {ex ey hx hy : Batch (ℕ → ℕ → Fin m → ℂ)} {N : ℕ × ℕ} (hN : 0 < N.1 ∧ 0 < N.2)
    (hs : ∀ d ∈ ex.shape, 0 < d) (hl : ∀ d ∈ l.eigenvectors.shape, 0 < d) {axes : Option (ℤ × ℤ)}
    (h : ¬(ey.shape = ex.shape ∧ hx.shape = ex.shape ∧ hy.shape = ex.shape ∧ Broadcastable [l.eigenvectors.shape, ex.shape] ∧
      ∃ grid : ℕ × ℕ, IsGridShape axes (ex.shape.length + 3) l.eigenvectors.shape grid ∧ grid.1 ∣ N.1 ∧ grid.2 ∣ N.2)) :
    amplitudesForFieldsBatch N ex ey hx hy l axes = .error .valueError ∨
      amplitudesForFieldsBatch N ex ey hx hy l axes = .error .indexError := by
  obtain ⟨k1, k2⟩ := C82_field_shapes (ex.shape ++ [N.1, N.2, m]) (ey.shape ++ [N.1, N.2, m]) (hx.shape ++ [N.1, N.2, m])
    (hy.shape ++ [N.1, N.2, m]) l.eigenvectors.shape axes (by
      intro d hd
      simp only [List.mem_append, List.mem_cons, List.not_mem_nil, or_false] at hd
      rcases hd with hd | rfl | rfl | rfl
      exacts [hs d hd, hN.1, hN.2, hm]) hl
  unfold amplitudesForFieldsBatch
  rcases k2 with ⟨⟨grid, cell⟩, hr⟩ | hr | hr
  · exfalso
    obtain ⟨lead, f, e1, e2, e3, e4, e5, e6⟩ := (k1 grid cell).1 hr
    obtain ⟨rfl, e0⟩ := List.append_inj' e1 rfl
    obtain ⟨e0, e0'⟩ := List.cons.inj e0
    replace e0' := (List.cons.inj e0').1
    have tail : ∀ {a b : List ℕ}, a ++ [N.1, N.2, m] = b ++ [N.1, N.2, m] → a = b := fun e => List.append_cancel_right e
    refine h ⟨tail e2, tail e3, tail e4, e5, grid, by simpa using e6, ⟨_, e0⟩, ⟨_, e0'⟩⟩
  · exact Or.inl (by rw [hr]; rfl)
  · exact Or.inr (by rw [hr]; rfl)

/-! ### Fields sampled over the Brillouin zone -/

theorem zoneIndex_valid {a b b₁ b₂ : ℕ} (ha : t[a]? = some b₁) (hb : t[b]? = some b₂) {i : List ℕ} (hi : ValidIndex t i)
    (p : Fin b₁ × Fin b₂) : ValidIndex t (zoneIndex a b i p) := by
  have hl := validIndex_length hi
  have hi' := (List.forall₂_iff_get.1 hi).2
  refine List.forall₂_iff_get.2 ⟨by simp [zoneIndex, hl], fun j h1 h2 => ?_⟩
  simp only [List.get_eq_getElem, zoneIndex, List.getElem_set]
  simp only [zoneIndex, List.length_set] at h1
  split_ifs with e1 e2
  · subst e1
    rw [List.getElem?_eq_getElem h2, Option.some_inj] at hb
    rw [hb]
    exact p.2.2
  · subst e2
    rw [List.getElem?_eq_getElem h2, Option.some_inj] at ha
    rw [ha]
    exact p.1.2
  · exact hi' j h1 h2

theorem zoneIndex_self {a b b₁ b₂ : ℕ} (ha : t[a]? = some b₁) (hb : t[b]? = some b₂) {i : List ℕ} (hi : ValidIndex t i) :
    ∃ p : Fin b₁ × Fin b₂, zoneIndex a b i p = i := by
  have hl := validIndex_length hi
  have hi' := (List.forall₂_iff_get.1 hi).2
  obtain ⟨ha1, ha2⟩ := List.getElem?_eq_some_iff.1 ha
  obtain ⟨hb1, hb2⟩ := List.getElem?_eq_some_iff.1 hb
  have k1 := hi' a (by omega) ha1
  have k2 := hi' b (by omega) hb1
  simp only [List.get_eq_getElem] at k1 k2
  refine ⟨(⟨i[a]'(by omega), by omega⟩, ⟨i[b]'(by omega), by omega⟩), ?_⟩
  simp [zoneIndex]

/-- The position along the axes `a` and `b` of an index with replaced positions. -/
theorem zoneIndex_getD {a b b₁ b₂ : ℕ} (hab : a ≠ b) (ha : t[a]? = some b₁) (hb : t[b]? = some b₂) {i : List ℕ} (hi : ValidIndex t i)
    (p : Fin b₁ × Fin b₂) : (zoneIndex a b i p).getD a 0 = p.1 ∧ (zoneIndex a b i p).getD b 0 = p.2 := by
  have hl := validIndex_length hi
  obtain ⟨ha1, -⟩ := List.getElem?_eq_some_iff.1 ha
  obtain ⟨hb1, -⟩ := List.getElem?_eq_some_iff.1 hb
  have ha' : a < i.length := by omega
  have hb' : b < i.length := by omega
  constructor
  · rw [List.getD_eq_getElem _ _ (by simp [zoneIndex]; omega)]
    simp [zoneIndex, List.getElem_set, hab.symm]
  · rw [List.getD_eq_getElem _ _ (by simp [zoneIndex]; omega)]
    simp [zoneIndex]

/-- C113: amplitudes for a calculation whose in-plane wavevectors sample the Brillouin zone along two batch axes.  The fields they give
on the supercell, averaged over the Brillouin zone with `keepdims=True`, are decomposed by `amplitudes_for_fields` without cross-talk:
the amplitudes are recovered at every batch index. -/
theorem C113_supercell_round_trip (hn : 0 < n) (hm : 0 < m) {lat : LatticeVectors} {l : BatchLayer n} {b₁ b₂ : ℕ}
    (h : LayerFits l.eigenvectors.shape r lat l) (hc : LayerComplete l) (ht : ∀ d ∈ l.eigenvectors.shape, 0 < d)
    (hG : Function.Injective l.expansion) {a b : ℕ} (hab : a ≠ b) (ha : l.eigenvectors.shape[a]? = some b₁)
    (hb : l.eigenvectors.shape[b]? = some b₂)
    {zone : List (List (ℝ × ℝ))} (hzone : brillouinZoneInPlaneWavevector [(b₁ : ℤ), (b₂ : ℤ)] lat = .ok zone)
    (hl : ∀ i, ValidIndex l.eigenvectors.shape i → ∃ x, l.elementAt i = .ok x ∧
      (zone[i.getD a 0]?.bind fun row => row[i.getD b 0]?) = some x.inPlaneWavevector ∧ IsUnit x.eigenvectors.det ∧
      IsUnit (magneticToElectric x).det)
    {forward backward : Amplitudes n m} (hfs : BroadcastsTo forward.shape l.eigenvectors.shape) (hbs : backward.shape = forward.shape)
    (hfb : ∀ i, ValidIndex l.eigenvectors.shape i → ∃ p q, forward.elementAt i = .ok p ∧ backward.elementAt i = .ok q)
    {F : Fields (Batch (Matrix (Fin n) (Fin m) ℂ))} (hF : fieldsFromWaveAmplitudesBatch forward backward l = .ok F) {shape : ℕ × ℕ}
    (h1 : 0 < shape.1) (h2 : 0 < shape.2) (hv : validateShapeForExpansion shape l.expansion = .ok ())
    {g : Fields (Batch (Fin (b₁ * shape.1) × Fin (b₂ * shape.2) → Fin m → ℂ))}
    {xy : Batch (Fin (b₁ * shape.1) × Fin (b₂ * shape.2) → ℝ × ℝ)} (hg : fieldsOnGridBatch F l shape (b₁, b₂) = .ok (g, xy))
    (hfin : ∀ i, ValidIndex l.eigenvectors.shape i → ∃ v, BatchFieldsAt g i v)
    {ex ey hx hy : Batch (ℕ → ℕ → Fin m → ℂ)} {s : List ℕ} (hst : BroadcastsTo s l.eigenvectors.shape)
    (hrank : s.length = l.eigenvectors.shape.length)
    (hex : ex.shape = s) (hey : ey.shape = s) (hhx : hx.shape = s) (hhy : hy.shape = s)
    (mex : IsZoneAverage l.eigenvectors.shape a b g.ex ex) (mey : IsZoneAverage l.eigenvectors.shape a b g.ey ey)
    (mhx : IsZoneAverage l.eigenvectors.shape a b g.hx hx) (mhy : IsZoneAverage l.eigenvectors.shape a b g.hy hy) :
    ∃ A B, amplitudesForFieldsBatch (b₁ * shape.1, b₂ * shape.2) ex ey hx hy l (some ((a : ℤ), (b : ℤ))) = .ok (A, B) ∧
      A.shape = l.eigenvectors.shape ∧ B.shape = l.eigenvectors.shape ∧
      ∀ i, ValidIndex l.eigenvectors.shape i → A.elementAt i = forward.elementAt i ∧ B.elementAt i = backward.elementAt i := by
  have la := (List.getElem?_eq_some_iff.1 ha).1
  have lb := (List.getElem?_eq_some_iff.1 hb).1
  obtain ⟨A, B, eA, sA, sB, hA⟩ := C113_amplitudes_for_fields hm ht h hc hst hex hey hhx hhy (axes := some ((a : ℤ), (b : ℤ)))
    (grid := (b₁, b₂)) ⟨a, b, hab, by omega, by omega, Or.inl rfl, Or.inl rfl, ha, hb⟩ h1 h2 hv
  have sA' : A.shape = l.eigenvectors.shape := by
    refine (sA.least _ ?_).antisymm (sA.upper _ (by simp))
    simpa using ⟨.refl _, hst⟩
  refine ⟨A, B, eA, sA', sB.trans sA', fun i hi => ?_⟩
  obtain ⟨F', sF, eF, hF1, hF2, hF3⟩ := C106_fields hn hm ht h hc hfs hbs
  obtain rfl : F' = F := ok_inj.1 (eF.symm.trans hF)
  have hsF : BroadcastsTo sF l.eigenvectors.shape := hF1.least _ (by simpa using ⟨.refl _, hfs⟩)
  obtain ⟨g', xy', eg, -, hg3⟩ := gridSliceBatch_fits hn ht h hc (cells := (b₁, b₂)) hv m F' sF hm hF2 hsF (hF1.upper _ (by simp))
  obtain ⟨rfl, rfl⟩ : g' = g ∧ xy' = xy := Prod.mk.inj (ok_inj.1 (eg.symm.trans hg))
  have hJ := fun p => zoneIndex_valid ha hb hi (b₁ := b₁) (b₂ := b₂) p
  choose L hL1 hL2 hL3 hL4 using fun p => hl _ (hJ p)
  choose P Q hP hQ using fun p => hfb _ (hJ p)
  choose V hV using fun p => hfin _ (hJ p)
  choose C hC using fun p => (hg3 _ _ (hJ p) (hL1 p)).1
  choose W hW using fun p => (hg3 _ _ (hJ p) (hL1 p)).2.1 _ (hV p)
  have kW := fun p => (hF3 _ _ _ _ (hJ p) (hL1 p) (hP p) (hQ p) _).1 (hW p)
  have kV := fun p => ((hg3 _ _ (hJ p) (hL1 p)).2.2 _ (hW p) _ _).1 ⟨hV p, hC p⟩
  obtain ⟨K, hK1, hK2, hK3⟩ := h.inPlaneWavevector
  have hlat : ∀ p, (L p).primitiveLatticeVectors = lat := by
    intro p
    rw [(BatchLayer.elementAt_ok (hL1 p)).lattice]
    refine h.lattice.elementAt ?_
    rw [validIndex_length (hJ p), ← hK3]
    exact hK2.length_le
  obtain ⟨p₀, hp₀⟩ := zoneIndex_self ha hb hi (b₁ := b₁) (b₂ := b₂)
  obtain ⟨fex, q1, q1'⟩ := mex i hi _ fun p => (hV p).ex
  obtain ⟨fey, q2, q2'⟩ := mey i hi _ fun p => (hV p).ey
  obtain ⟨fhx, q3, q3'⟩ := mhx i hi _ fun p => (hV p).hx
  obtain ⟨fhy, q4, q4'⟩ := mhy i hi _ fun p => (hV p).hy
  have hk : ∀ p : Fin b₁ × Fin b₂, (zone[(p.1 : ℕ)]?.bind fun row => row[(p.2 : ℕ)]?) = some (L p).inPlaneWavevector := by
    intro p
    have := hL2 p
    rw [(zoneIndex_getD hab ha hb hi p).1, (zoneIndex_getD hab ha hb hi p).2] at this
    exact this
  have key := C48_bloch_components L hlat (fun p => (BatchLayer.elementAt_ok (hL1 p)).expansion) hG hzone hk P Q W V C kW kV
    q1' q2' q3' q4' p₀ (hL3 p₀) (hL4 p₀)
  have hx₀ := hL1 p₀
  have hP₀ := hP p₀
  have hQ₀ := hQ p₀
  rw [hp₀] at hx₀ hP₀ hQ₀
  obtain ⟨r1, r2⟩ := (hA i _ hi hx₀ _ _ _ _ q1 q2 q3 q4 _ _).2 key
  exact ⟨r1.trans hP₀.symm, r2.trans hQ₀.symm⟩

/-! ### The automatic grid -/

theorem sumIndices_ones (k : ℕ) (f : List ℕ → ℝ) : sumIndices (List.replicate k 1) f = f (List.replicate k 0) := by
  induction k generalizing f with
  | zero => rfl
  | succ k ih => simp [List.replicate_succ, sumIndices, ih]

theorem norm_single {u : NDArray ℝ} {k : ℕ} (hu : u.shape = List.replicate k 1 ++ [2]) :
    u.norm = length (u.get (List.replicate k 0 ++ [0]), u.get (List.replicate k 0 ++ [1])) := by
  unfold NDArray.norm NDArray.sumAll length
  show Real.sqrt (sumIndices u.shape fun i => u.get i ^ 2) = _
  rw [hu, sumIndices_append, sumIndices_ones]
  simp [sumIndices, Finset.sum_range_succ]

/-- C113: with one lattice, `stack_fields_3d_auto_grid` of a calculation with batch dimensions chooses the grid of a calculation
without, and the fields at every batch index are those of the calculation for that index. -/
theorem C113_auto_grid (hn : 0 < n) (hm : 0 < m) (ht : ∀ d ∈ t, 0 < d) {layers : List (BatchLayer n)} {thicknesses : List ℝ}
    {lat : LatticeVectors} (hne : layers ≠ []) (hlen : layers.length = thicknesses.length)
    (h : ∀ l ∈ layers, LayerFits t r lat l ∧ LayerComplete l) {a0 bN : Amplitudes n m}
    (h0 : BroadcastsTo a0.shape t) (hN : BroadcastsTo bN.shape t) {spacing : ℝ} (hs : 0 < spacing) (hd : ∀ d ∈ thicknesses, 0 ≤ d)
    {shape cells : ℕ × ℕ} {znum : List ℕ} (h1 : IsNearestCount spacing (length lat.u) shape.1)
    (h2 : IsNearestCount spacing (length lat.v) shape.2) (h3 : List.Forall₂ (fun d m => IsNearestCount spacing d m) thicknesses znum)
    (hz : ∀ z ∈ znum, 0 < z) (hv : ∀ l ∈ layers, validateShapeForExpansion shape l.expansion = .ok ()) :
    ∃ S out gs zs xy, stackSMatricesInteriorBatch layers thicknesses = .ok S ∧ stackAmplitudesInteriorBatch a0 bN S = .ok out ∧
      stackFields3dAutoGridBatch out layers thicknesses spacing cells = .ok ⟨shape, znum, gs, zs, xy⟩ ∧
      ∀ i, ValidIndex t i → ∀ a b rs, a0.elementAt i = .ok a → bN.elementAt i = .ok b → LayersElementsAt i layers rs → ∀ ss x,
        stackSMatricesInterior rs thicknesses = .ok ss → stackAmplitudesInterior a b ss = .ok x → ∀ vs z c,
          (List.Forall₂ (fun g v => BatchFieldsAt g i v) gs vs ∧ z = zs ∧ xy.elementAt i = .ok c) ↔
            stackFields3dAutoGrid x rs thicknesses spacing cells = .ok ⟨shape, znum, vs, z, c⟩ := by
  obtain ⟨S, out, gs, zs, xy, s, e1, e2, e3, -, -, e4⟩ := C107_stack_fields_3d hn hm ht hne hlen
    (by rw [← h3.length_eq, hlen]) hz (fun l hl => ⟨⟨lat, (h l hl).1⟩, (h l hl).2⟩) h0 hN hv (cells := cells)
  obtain ⟨l, rest, rfl⟩ := List.exists_cons_of_ne_nil hne
  refine ⟨S, out, gs, zs, xy, e1, e2, ?_, fun i hi a b rs ha hb hrs ss x hss hx vs z c => ?_⟩
  · have hlat := (h l (by simp)).1.lattice
    have hu : l.u.norm = length lat.u := by
      rw [norm_single hlat.u_shape, ← hlat.eq]
      rfl
    have hv' : l.v.norm = length lat.v := by
      rw [norm_single hlat.v_shape, ← hlat.eq]
      rfl
    unfold stackFields3dAutoGridBatch
    simp only [bind_eq_ok]
    exact ⟨_, (numGridpoints_eq_ok hs (hu ▸ Real.sqrt_nonneg _)).2 (hu ▸ h1), _, (numGridpoints_eq_ok hs (hv' ▸ Real.sqrt_nonneg _)).2
      (hv' ▸ h2), _, (layerGridpoints_eq_ok hs hd).2 h3, _, e3, rfl⟩
  · rw [e4 i hi a b rs ha hb hrs ss x hss hx]
    cases hrs with
    | cons hx0 hrest =>
      rename_i y ys
      have hlat : y.primitiveLatticeVectors = lat := by
        have hf := (h l (by simp)).1
        obtain ⟨K, -, hK2, hK3⟩ := hf.inPlaneWavevector
        rw [(BatchLayer.elementAt_ok hx0).lattice]
        refine hf.lattice.elementAt ?_
        rw [validIndex_length hi, ← hK3]
        exact hK2.length_le
      rw [C79_auto_grid hs hd, hlat]
      exact ⟨fun e => ⟨h1, h2, h3, e⟩, fun e => e.2.2.2⟩

/-! ### Examples -/

/-- The layer of the examples in `Verif/Props/Sources.lean` for a grid of two times three in-plane wavevectors. -/
noncomputable def zoneLayer (K : ℕ → ℕ → ℝ × ℝ) : BatchLayer 4 where
  wavelength := ⟨[1, 1], fun _ => 1⟩
  inPlaneWavevector := ⟨[2, 3, 2], fun i => if i.getD 2 0 = 0 then (K (i.getD 0 0) (i.getD 1 0)).1 else (K (i.getD 0 0) (i.getD 1 0)).2⟩
  u := ⟨[1, 1, 2], fun i => if i.getD 2 0 = 0 then 1 else 0⟩
  v := ⟨[1, 1, 2], fun i => if i.getD 2 0 = 0 then 1 else 2⟩
  expansion := exampleExpansion
  eigenvalues := ⟨[2, 3], fun _ => .ok fun _ => Complex.I⟩
  eigenvectors := ⟨[2, 3], fun _ => .ok 1⟩
  zPermittivity := ⟨[1, 1], fun _ => .ok (-1)⟩
  inverseZPermittivity := ⟨[1, 1], fun _ => .ok (-1)⟩
  zPermeability := ⟨[1, 1], fun _ => .ok 1⟩
  inverseZPermeability := ⟨[1, 1], fun _ => .ok 1⟩
  transversePermeability := ⟨[1, 1], fun _ => .ok 1⟩
  tangentNdim := none

theorem ones_two : BroadcastsTo [1, 1] [2, 3] := ⟨[], [2, 3], rfl, .cons (Or.inl rfl) (.cons (Or.inl rfl) .nil)⟩

theorem zoneLayer_fits (K : ℕ → ℕ → ℝ × ℝ) : LayerFits [2, 3] 2 { u := (1, 0), v := (1, 2) } (zoneLayer K) :=
  ⟨⟨ones_two, rfl⟩, ⟨[2, 3], rfl, .refl _, rfl⟩, ⟨rfl, rfl, by simp [latticeAt, zoneLayer], by norm_num [Independent]⟩, ⟨.refl _, rfl⟩,
    ⟨.refl _, rfl⟩, ⟨ones_two, rfl⟩, ⟨ones_two, rfl⟩, ⟨ones_two, rfl⟩, ⟨ones_two, rfl⟩, ⟨ones_two, rfl⟩⟩

theorem zoneLayer_complete (K : ℕ → ℕ → ℝ × ℝ) : LayerComplete (zoneLayer K) := by
  refine ⟨rfl, ones_two, fun K' h => ?_, ones_two, ones_two, ones_two, ones_two, ones_two⟩
  have : K' = [2, 3] := List.append_cancel_right (bs := [2]) h.symm
  rw [this]
  exact .refl _

theorem index_two {i : List ℕ} (hi : ValidIndex [2, 3] i) : ∃ p q, i = [p, q] ∧ p < 2 ∧ q < 3 := by
  cases hi with
  | cons h1 h =>
    cases h with
    | cons h2 h => cases h; exact ⟨_, _, rfl, h1, h2⟩

theorem zoneLayer_at (K : ℕ → ℕ → ℝ × ℝ) (p q : ℕ) : (zoneLayer K).elementAt [p, q] = .ok (metalLayer (K p q)) := by
  simp [BatchLayer.elementAt, zoneLayer, NDArray.elementAt, broadcastIndex, bind, Except.bind, metalLayer]

theorem exampleShape : validateShapeForExpansion (3, 5) exampleExpansion = .ok () := (validateShape_ok_iff _).2 exampleExpansion_resolved

/-- The two times three wavevectors of the Brillouin grid of an oblique lattice. -/
theorem example_zone : ∃ (zone : List (List (ℝ × ℝ))) (K : ℕ → ℕ → ℝ × ℝ),
    brillouinZoneInPlaneWavevector [((2 : ℕ) : ℤ), ((3 : ℕ) : ℤ)] { u := (1, 0), v := (1, 2) } = .ok zone ∧
      ∀ p q, p < 2 → q < 3 → (zone[p]?.bind fun row => row[q]?) = some (K p q) := by
  have hi : Independent ((1, 0) : ℝ × ℝ) (1, 2) := by norm_num [Independent]
  obtain ⟨zone, hzone, -⟩ := C10_brillouin_grid { u := (1, 0), v := (1, 2) } hi 2 3 (by norm_num) (by norm_num)
  have hk : ∀ p q, ∃ k, p < 2 → q < 3 → (zone[p]?.bind fun row => row[q]?) = some k := by
    intro p q
    by_cases h : p < 2 ∧ q < 3
    · obtain ⟨row, k, h1, h2, -⟩ := brillouin_entry { u := (1, 0), v := (1, 2) } hi 2 3 (by norm_num) (by norm_num) zone hzone h.1 h.2
      exact ⟨k, fun _ _ => by rw [h1, Option.bind_some, h2]⟩
    · exact ⟨(0, 0), fun h1 h2 => absurd ⟨h1, h2⟩ h⟩
  choose K hK using hk
  exact ⟨zone, K, hzone, hK⟩

/-- Any amplitudes on this Brillouin grid are recovered from the average of their fields. -/
example (P Q : ℕ → ℕ → Matrix (Fin 4 ⊕ Fin 4) (Fin 1) ℂ) : ∃ K : ℕ → ℕ → ℝ × ℝ, ∃ ex ey hx hy : Batch (ℕ → ℕ → Fin 1 → ℂ), ∃ A B,
    ex.shape = [1, 1] ∧ amplitudesForFieldsBatch (6, 15) ex ey hx hy (zoneLayer K) (some (0, 1)) = .ok (A, B) ∧ A.shape = [2, 3] ∧
      ∀ p q, p < 2 → q < 3 → A.elementAt [p, q] = .ok (P p q) ∧ B.elementAt [p, q] = .ok (Q p q) := by
  obtain ⟨zone, K, hzone, hK⟩ := example_zone
  have ht : ∀ d ∈ [2, 3], 0 < d := by simp
  set forward : Amplitudes 4 1 := ⟨[2, 3], fun i => .ok (P (i.getD 0 0) (i.getD 1 0))⟩ with hforward
  set backward : Amplitudes 4 1 := ⟨[2, 3], fun i => .ok (Q (i.getD 0 0) (i.getD 1 0))⟩ with hbackward
  have ef : ∀ p q, forward.elementAt [p, q] = .ok (P p q) := by
    intro p q
    simp [hforward, NDArray.elementAt, broadcastIndex]
  have eb : ∀ p q, backward.elementAt [p, q] = .ok (Q p q) := by
    intro p q
    simp [hbackward, NDArray.elementAt, broadcastIndex]
  obtain ⟨F, s, eF, hF1, hF2, hF3⟩ := C106_fields (by omega) (by omega) ht (zoneLayer_fits K) (zoneLayer_complete K)
    (a := forward) (b := backward) (.refl _) rfl
  have hs : BroadcastsTo s [2, 3] := hF1.least _ (by simpa using ⟨.refl _, .refl _⟩)
  obtain ⟨g, xy, eg, -, hg⟩ := C106_fields_on_grid (by omega) (by omega) ht (zoneLayer_fits K) (zoneLayer_complete K) hF2 hs
    (hF1.upper _ (by simp)) (cells := (2, 3)) exampleShape
  have hfin : ∀ p q, p < 2 → q < 3 → ∃ v, BatchFieldsAt g [p, q] v := by
    intro p q hp hq
    have hi : ValidIndex [2, 3] [p, q] := .cons hp (.cons hq .nil)
    have h1 := (hF3 _ _ _ _ hi (zoneLayer_at K p q) (ef p q) (eb p q) _).2 (fieldsFromWaveAmplitudes_eq_ok.2
      ⟨metalLayer_wellPosed _, fun _ => Complex.I_ne_zero, rfl⟩)
    obtain ⟨v, c, h2, -⟩ := C44_grid_eq_coordinates _ (cells := (2, 3)) exampleExpansion_injective (l := metalLayer (K p q))
      (shape := (3, 5)) exampleExpansion_resolved (metalLayer_wellPosed _).2.1
    exact ⟨v, ((hg _ _ _ hi (zoneLayer_at K p q) h1 _ _).2 h2).1⟩
  have average : ∀ w : Batch (Fin (2 * 3) × Fin (3 * 5) → Fin 1 → ℂ), ∃ f : Batch (ℕ → ℕ → Fin 1 → ℂ), f.shape = [1, 1] ∧
      IsZoneAverage [2, 3] 0 1 (b₁ := 2) (b₂ := 3) (shape := (3, 5)) w f := by
    intro w
    by_cases h : ∃ v : Fin 2 × Fin 3 → Fin (2 * 3) × Fin (3 * 5) → Fin 1 → ℂ, ∀ p, w.elementAt [(p.1 : ℕ), (p.2 : ℕ)] = .ok (v p)
    · obtain ⟨v, hv⟩ := h
      refine ⟨⟨[1, 1], fun _ => .ok fun i j c => if h : i < 2 * 3 ∧ j < 3 * 5 then (∑ p, v p (⟨i, h.1⟩, ⟨j, h.2⟩) c) / ((2 : ℕ) * (3 : ℕ))
        else 0⟩, rfl, fun i hi v' hv' => ⟨_, rfl, fun r c => ?_⟩⟩
      obtain ⟨p, q, rfl, -⟩ := index_two hi
      have : v' = v := by
        funext x
        have := (hv' x).symm.trans (hv x)
        exact ok_inj.1 this
      rw [dif_pos ⟨r.1.2, r.2.2⟩, this]
    · refine ⟨⟨[1, 1], fun _ => .error .nonFinite⟩, rfl, fun i hi v' hv' => absurd ⟨v', fun x => ?_⟩ h⟩
      obtain ⟨p, q, rfl, -⟩ := index_two hi
      exact hv' x
  obtain ⟨ex, sx, mx⟩ := average g.ex
  obtain ⟨ey, sy, my⟩ := average g.ey
  obtain ⟨hx, sx', mx'⟩ := average g.hx
  obtain ⟨hy, sy', my'⟩ := average g.hy
  obtain ⟨A, B, h1, h2, -, h3⟩ := C113_supercell_round_trip (r := 2) (l := zoneLayer K) (by omega) (by omega) (zoneLayer_fits K)
    (zoneLayer_complete K) ht exampleExpansion_injective (a := 0) (b := 1) (by omega) (b₁ := 2) (b₂ := 3) rfl rfl hzone (by
      intro i hi
      obtain ⟨p, q, rfl, hp, hq⟩ := index_two hi
      exact ⟨_, zoneLayer_at K p q, hK p q hp hq, by rw [metalLayer, Matrix.det_one]; exact isUnit_one, metalLayer_magneticToElectric _⟩)
    (forward := forward) (backward := backward) (.refl _) rfl (by
      intro i hi
      obtain ⟨p, q, rfl, -⟩ := index_two hi
      exact ⟨_, _, ef p q, eb p q⟩) eF (shape := (3, 5)) (by simp) (by simp) exampleShape eg (by
      intro i hi
      obtain ⟨p, q, rfl, hp, hq⟩ := index_two hi
      exact hfin p q hp hq) (s := [1, 1]) ones_two rfl sx sy sx' sy' mx my mx' my'
  refine ⟨K, ex, ey, hx, hy, A, B, sx, h1, h2, fun p q hp hq => ?_⟩
  rw [← ef p q, ← eb p q]
  exact h3 _ (.cons hp (.cons hq .nil))

/-- Fields of another shape, or on a grid of seven points, which two does not divide, are rejected. -/
example (K : ℕ → ℕ → ℝ × ℝ) : amplitudesForFieldsBatch (n := 4) (m := 1) (7, 15) ⟨[1, 1], fun _ => .ok 0⟩ ⟨[1, 1], fun _ => .ok 0⟩
    ⟨[1, 1], fun _ => .ok 0⟩ ⟨[1, 1], fun _ => .ok 0⟩ (zoneLayer K) (some (0, 1)) = .error .valueError ∨
    amplitudesForFieldsBatch (n := 4) (m := 1) (7, 15) ⟨[1, 1], fun _ => .ok 0⟩ ⟨[1, 1], fun _ => .ok 0⟩
    ⟨[1, 1], fun _ => .ok 0⟩ ⟨[1, 1], fun _ => .ok 0⟩ (zoneLayer K) (some (0, 1)) = .error .indexError := by
  refine C113_rejected (by omega) (by simp) (by simp) (by simp [zoneLayer]) ?_
  rintro ⟨-, -, -, -, grid, ⟨a, b, -, ha', -, ha, hb, h1, h2⟩, h3, -⟩
  obtain rfl : a = 0 := by
    simp only [List.length_cons, List.length_nil] at ha ha'
    omega
  simp only [zoneLayer, List.getElem?_cons_zero, Option.some_inj] at h1
  rw [← h1] at h3
  omega

/-- The automatic grid of two layers of thickness one with a spacing of a quarter: four by nine points for every wavevector, as the
lattice vectors have the lengths `1` and `√5`. -/
example (K : ℕ → ℕ → ℝ × ℝ) (a b : Amplitudes 4 1) (ha : a.shape = [2, 3]) (hb : b.shape = [1, 1]) :
    ∃ S out gs zs xy, stackSMatricesInteriorBatch [zoneLayer K, zoneLayer K] [1, 1] = .ok S ∧
      stackAmplitudesInteriorBatch a b S = .ok out ∧
      stackFields3dAutoGridBatch out [zoneLayer K, zoneLayer K] [1, 1] (1 / 4) (1, 2) = .ok ⟨(4, 9), [4, 4], gs, zs, xy⟩ := by
  have count : IsNearestCount (1 / 4) 1 4 := by norm_num [IsNearestCount]
  obtain ⟨S, out, gs, zs, xy, h1, h2, h3, -⟩ := C113_auto_grid (t := [2, 3]) (r := 2) (n := 4) (m := 1) (by omega) (by omega) (by simp)
    (layers := [zoneLayer K, zoneLayer K]) (thicknesses := [1, 1]) (lat := { u := (1, 0), v := (1, 2) }) (by simp) rfl
    (by simp only [List.forall_mem_cons, List.not_mem_nil, false_implies, implies_true, and_true]
        exact ⟨⟨zoneLayer_fits K, zoneLayer_complete K⟩, zoneLayer_fits K, zoneLayer_complete K⟩)
    (a0 := a) (bN := b) (ha ▸ .refl _) (hb ▸ ones_two) (spacing := 1 / 4) (by norm_num) (by norm_num) (shape := (4, 9)) (cells := (1, 2))
    (znum := [4, 4]) (by
      have : length ((1, 0) : ℝ × ℝ) = 1 := by simp [length]
      rw [this]
      exact count) (by
      have h5 : length ((1, 2) : ℝ × ℝ) = Real.sqrt 5 := by norm_num [length]
      have hl : (223 / 100 : ℝ) < Real.sqrt 5 := Real.lt_sqrt_of_sq_lt (by norm_num)
      have hu : Real.sqrt 5 < (224 / 100 : ℝ) := (Real.sqrt_lt' (by norm_num)).2 (by norm_num)
      have habs : |((9 : ℕ) : ℝ) * (1 / 4) - Real.sqrt 5| < 1 / 4 / 2 := by
        rw [abs_lt]
        push_cast
        constructor <;> linarith
      rw [h5]
      exact ⟨habs.le, fun e => absurd e habs.ne⟩) (.cons count (.cons count .nil)) (by simp) (by
      have : validateShapeForExpansion (4, 9) exampleExpansion = .ok () := by
        refine (validateShape_ok_iff _).2 ?_
        obtain ⟨h1, h2⟩ := exampleExpansion_resolved
        exact ⟨h1, fun i => by have := h2 i; omega⟩
      simp only [List.forall_mem_cons, List.not_mem_nil, false_implies, implies_true, and_true]
      exact ⟨this, this⟩)
  exact ⟨S, out, gs, zs, xy, h1, h2, h3⟩

end Fmmax
