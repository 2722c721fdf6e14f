import Verif.Proofs.BatchScan
import Verif.Props.BatchStack

namespace Fmmax

open Spec

variable {α : Type} {t : List ℕ} {n : ℕ}

/-- A slice of an array along its leading axis, which may have length one. -/
def NDArray.sliceOf (a : NDArray α) (j : ℕ) : NDArray α :=
  { shape := a.shape.tail, get := fun i => a.get ((if a.shape.headD 1 = 1 then 0 else j) :: i) }

/-- A slice of a layer along the leading axes. -/
def BatchLayer.sliceOf (l : BatchLayer n) (j : ℕ) : BatchLayer n :=
  { wavelength := l.wavelength.sliceOf j, inPlaneWavevector := l.inPlaneWavevector.sliceOf j, u := l.u.sliceOf j, v := l.v.sliceOf j,
    expansion := l.expansion, eigenvalues := l.eigenvalues.sliceOf j, eigenvectors := l.eigenvectors.sliceOf j,
    zPermittivity := l.zPermittivity.sliceOf j, inverseZPermittivity := l.inverseZPermittivity.sliceOf j,
    zPermeability := l.zPermeability.sliceOf j, inverseZPermeability := l.inverseZPermeability.sliceOf j,
    transversePermeability := l.transversePermeability.sliceOf j, tangentNdim := l.tangentNdim.map (· - 1) }

theorem NDArray.sliceOf_elementAt {a : NDArray α} {j : ℕ} {i : List ℕ} (h : a.shape.length = i.length + 1) :
    (a.sliceOf j).elementAt i = a.elementAt (j :: i) := by
  unfold NDArray.elementAt NDArray.sliceOf broadcastIndex
  cases hs : a.shape with
  | nil => simp [hs] at h
  | cons d s =>
    rw [hs] at h
    have h' : s.length = i.length := by simpa using h
    simp [h']

theorem BroadcastsTo.tail {m : ℕ} {s : List ℕ} (h : BroadcastsTo s (m :: t)) (hs : s.length = t.length + 1) :
    BroadcastsTo s.tail t ∧ (s.headD 1 = 1 ∨ s.headD 1 = m) := by
  obtain ⟨lead, tail, e, hf⟩ := h
  have hl := hf.length_eq
  cases lead with
  | cons x lead =>
    have := congrArg List.length e
    simp at this
    omega
  | nil =>
    rw [List.nil_append] at e
    subst e
    cases hf with
    | cons h1 h2 => exact ⟨⟨[], t, rfl, h2⟩, h1⟩

theorem Fits.sliceOf {m : ℕ} {a : NDArray α} (h : Fits (m :: t) (t.length + 1) a) (j : ℕ) : Fits t t.length (a.sliceOf j) :=
  ⟨(BroadcastsTo.tail h.broadcasts h.rank).1, by simp [NDArray.sliceOf, h.rank]⟩

theorem SingleLattice.sliceOf {r : ℕ} {u v : NDArray ℝ} {lat : LatticeVectors} (h : SingleLattice (r + 1) u v lat) (j : ℕ) :
    SingleLattice r (u.sliceOf j) (v.sliceOf j) lat := by
  refine ⟨by simp [NDArray.sliceOf, h.u_shape, List.replicate_succ], by simp [NDArray.sliceOf, h.v_shape, List.replicate_succ], ?_,
    h.independent⟩
  rw [← h.eq]
  unfold latticeAt
  simp [NDArray.sliceOf, h.u_shape, h.v_shape, List.replicate_succ]

theorem tail_append_two {s K : List ℕ} (h : s = K ++ [2]) (hK : K ≠ []) : s.tail = K.tail ++ [2] := by
  subst h
  cases K with
  | nil => exact absurd rfl hK
  | cons x K => rfl

theorem LayerFits.sliceOf {m : ℕ} {lat : LatticeVectors} {l : BatchLayer n} (h : LayerFits (m :: t) (t.length + 1) lat l) (j : ℕ) :
    LayerFits t t.length lat (l.sliceOf j) := by
  obtain ⟨K, hK1, hK2, hK3⟩ := h.inPlaneWavevector
  exact ⟨h.wavelength.sliceOf j, ⟨K.tail, tail_append_two hK1 (by rintro rfl; simp at hK3), (BroadcastsTo.tail hK2 hK3).1, by simp [hK3]⟩,
    h.lattice.sliceOf j, h.eigenvalues.sliceOf j, h.eigenvectors.sliceOf j, h.zPermittivity.sliceOf j, h.inverseZPermittivity.sliceOf j,
    h.zPermeability.sliceOf j, h.inverseZPermeability.sliceOf j, h.transversePermeability.sliceOf j⟩

theorem LayerComplete.sliceOf {m : ℕ} {lat : LatticeVectors} {l : BatchLayer n} (h : LayerFits (m :: t) (t.length + 1) lat l)
    (hc : LayerComplete l) (j : ℕ) : LayerComplete (l.sliceOf j) := by
  obtain ⟨K, hK1, hK2, hK3⟩ := h.inPlaneWavevector
  have key : ∀ {s : List ℕ}, BroadcastsTo s l.eigenvectors.shape → s.length = t.length + 1 → BroadcastsTo s.tail l.eigenvectors.shape.tail := by
    intro s hs hl
    have hr := h.eigenvectors.rank
    cases he : l.eigenvectors.shape with
    | nil => rw [he] at hr; simp at hr
    | cons d e =>
      rw [he] at hs hr
      exact (BroadcastsTo.tail hs (by simp at hr; omega)).1
  refine ⟨?_, key hc.wavelength h.wavelength.rank, fun K' hK' => ?_, key hc.zPermittivity h.zPermittivity.rank,
    key hc.inverseZPermittivity h.inverseZPermittivity.rank, key hc.zPermeability h.zPermeability.rank,
    key hc.inverseZPermeability h.inverseZPermeability.rank, key hc.transversePermeability h.transversePermeability.rank⟩
  · show l.eigenvalues.shape.tail = l.eigenvectors.shape.tail
    rw [hc.eigenvalues]
  · have e : l.inPlaneWavevector.shape.tail = K' ++ [2] := hK'
    rw [tail_append_two hK1 (by rintro rfl; simp at hK3)] at e
    rw [← List.append_cancel_right e]
    exact key (hc.inPlaneWavevector K hK1) hK3

theorem BatchLayer.sliceOf_elementAt {m : ℕ} {lat : LatticeVectors} {l : BatchLayer n} (h : LayerFits (m :: t) (t.length + 1) lat l) (j : ℕ)
    {i : List ℕ} (hi : i.length = t.length) : (l.sliceOf j).elementAt i = l.elementAt (j :: i) := by
  obtain ⟨K, hK1, hK2, hK3⟩ := h.inPlaneWavevector
  have key : ∀ {α : Type} {a : NDArray α}, Fits (m :: t) (t.length + 1) a → (a.sliceOf j).elementAt i = a.elementAt (j :: i) :=
    fun hf => NDArray.sliceOf_elementAt (by rw [hf.rank, hi])
  have key2 : ∀ {a : NDArray ℝ} (c : ℕ), a.shape.length = t.length + 2 → (a.sliceOf j).elementAt (i ++ [c]) = a.elementAt (j :: i ++ [c]) :=
    fun c hf => NDArray.sliceOf_elementAt (by rw [hf]; simp [hi])
  have k1 : l.inPlaneWavevector.shape.length = t.length + 2 := by rw [hK1]; simp [hK3]
  have u1 : l.u.shape.length = t.length + 2 := by rw [h.lattice.u_shape]; simp
  have v1 : l.v.shape.length = t.length + 2 := by rw [h.lattice.v_shape]; simp
  unfold BatchLayer.elementAt
  simp only [BatchLayer.sliceOf]
  rw [key h.eigenvalues, key h.eigenvectors, key h.zPermittivity, key h.inverseZPermittivity, key h.zPermeability,
    key h.inverseZPermeability, key h.transversePermeability, key h.wavelength, key2 0 k1, key2 1 k1, key2 0 u1, key2 1 u1, key2 0 v1,
    key2 1 v1]

theorem NDArray.repeatFirst_stackOf {β : Type} (m : ℕ) {f : β → NDArray α} {a : NDArray α} (s : ℕ → β) (hf : ∀ j, f (s j) = a.sliceOf j) :
    StackOf (a.repeatFirst m) (((List.range m).map s).map f) := by
  refine ⟨fun x hx => ?_, fun j hj i => ?_⟩
  · obtain ⟨y, hy, rfl⟩ := List.mem_map.1 hx
    obtain ⟨j, -, rfl⟩ := List.mem_map.1 hy
    rw [hf]
    simp [NDArray.repeatFirst, NDArray.sliceOf]
  · simp only [List.getElem_map, List.getElem_range, hf]
    rfl

theorem BatchLayer.repeatFirst_stacked {m : ℕ} {l : BatchLayer n} (ht : ∀ d, l.tangentNdim = some d → 0 < d) :
    LayersStacked (l.repeatFirst m) ((List.range m).map l.sliceOf) := by
  refine ⟨NDArray.repeatFirst_stackOf m _ fun j => rfl, NDArray.repeatFirst_stackOf m _ fun j => rfl, NDArray.repeatFirst_stackOf m _ fun j => rfl,
    NDArray.repeatFirst_stackOf m _ fun j => rfl, fun x hx => ?_, NDArray.repeatFirst_stackOf m _ fun j => rfl,
    NDArray.repeatFirst_stackOf m _ fun j => rfl, NDArray.repeatFirst_stackOf m _ fun j => rfl, NDArray.repeatFirst_stackOf m _ fun j => rfl,
    NDArray.repeatFirst_stackOf m _ fun j => rfl, NDArray.repeatFirst_stackOf m _ fun j => rfl, NDArray.repeatFirst_stackOf m _ fun j => rfl,
    fun x hx => ?_⟩
  · obtain ⟨j, -, rfl⟩ := List.mem_map.1 hx
    rfl
  · obtain ⟨j, -, rfl⟩ := List.mem_map.1 hx
    show l.tangentNdim = (l.tangentNdim.map (· - 1)).map (· + 1)
    cases hd : l.tangentNdim with
    | none => rfl
    | some d =>
      have := ht d hd
      simp
      omega

theorem BatchLayer.build_built {x l : BatchLayer n} (h : x.build = .ok l) : l.build = .ok l := by
  have := h
  unfold BatchLayer.build at this
  obtain ⟨_, -, e⟩ := bind_eq_ok.1 this
  obtain rfl := ok_inj.1 e
  exact h

theorem BatchLayer.build_tangent {l : BatchLayer n} (h : l.build = .ok l) {d : ℕ} (hd : l.tangentNdim = some d) :
    d = l.eigenvectors.shape.length + 2 := by
  unfold BatchLayer.build layerSolveResultPostInit at h
  have e : l.shapes.tangentNdim = some d := hd
  rw [e] at h
  obtain ⟨_, h, -⟩ := bind_eq_ok.1 h
  obtain ⟨_, -, h⟩ := bind_eq_ok.1 h
  obtain ⟨_, -, h⟩ := bind_eq_ok.1 h
  obtain ⟨_, -, h⟩ := bind_eq_ok.1 h
  obtain ⟨_, -, h⟩ := bind_eq_ok.1 h
  split at h
  · cases h
  · split at h
    · cases h
    · split at h
      · cases h
      · obtain ⟨_, -, h⟩ := bind_eq_ok.1 h
        obtain ⟨_, -, h⟩ := bind_eq_ok.1 h
        obtain ⟨_, -, h⟩ := bind_eq_ok.1 h
        obtain ⟨_, -, h⟩ := bind_eq_ok.1 h
        obtain ⟨_, -, h⟩ := bind_eq_ok.1 h
        simp only at h
        split at h
        · cases h
        · next hh =>
          rw [not_not] at hh
          simpa [BatchLayer.shapes] using hh

/-- The layers of a batched eigensolve, repeated along the leading axis where needed, can be used in a scan. -/
theorem stackSMatrixScanBatch_repeat {m : ℕ} {lat : LatticeVectors} {l : BatchLayer n} {thicknesses : NDArray ℝ} (hn : 0 < n) (hm : 0 < m)
    (ht : ∀ d ∈ t, 0 < d) (hb : l.build = .ok l) (h : LayerFits (m :: t) (t.length + 1) lat l) (hc : LayerComplete l)
    (hd : thicknesses.shape = [m]) :
    ∃ s, stackSMatrixScanBatch (l.repeatFirst m) thicknesses = .ok s ∧ SMatrixFits t t.length s ∧
      s.s11.shape = l.eigenvectors.shape.tail ∧ s.s12.shape = l.eigenvectors.shape.tail ∧ s.s21.shape = l.eigenvectors.shape.tail ∧
      s.s22.shape = l.eigenvectors.shape.tail ∧
      ∀ i, ValidIndex t i → ∀ rs : List (LayerSolveResult (Fin n)),
        List.Forall₂ (fun j a => l.elementAt (j :: i) = .ok a) (List.range m) rs →
        SameOk (s.elementAt i) (stackSMatrix rs (listOf thicknesses m)) := by
  have htan : ∀ d, l.tangentNdim = some d → d = t.length + 3 := by
    intro d hd
    rw [BatchLayer.build_tangent hb hd, h.eigenvectors.rank]
  have hlen : ((List.range m).map l.sliceOf).length = m := by simp
  obtain ⟨s, e, f, hsh, hs⟩ := stackSMatrixScanBatch_ok (t := t) (r := t.length) (thicknesses := thicknesses)
    (layers := (List.range m).map l.sliceOf) (by
      intro e
      rw [e] at hlen
      simp at hlen
      omega) (BatchLayer.repeatFirst_stacked (l := l) (m := m) fun d hd => by rw [htan d hd]; omega)
    (fun x hx => by
      obtain ⟨j, -, rfl⟩ := List.mem_map.1 hx
      refine BatchLayer.build_ok hn ht (h.sliceOf j) (hc.sliceOf h j) fun d hd => ?_
      have hd' : l.tangentNdim.map (· - 1) = some d := hd
      cases he : l.tangentNdim with
      | none => rw [he] at hd'; cases hd'
      | some d' =>
        rw [he] at hd'
        have h1 := htan d' he
        have h2 : d' - 1 = d := Option.some.inj hd'
        omega)
    (fun x hx => by
      obtain ⟨j, -, rfl⟩ := List.mem_map.1 hx
      exact ⟨⟨lat, h.sliceOf j⟩, hc.sliceOf h j⟩) (by rw [hlen]; exact hd)
  obtain ⟨s1, s2, s3, s4⟩ := hsh (l.sliceOf 0) (List.mem_map.2 ⟨0, by simpa using hm, rfl⟩)
  refine ⟨s, e, f, s1, s2, s3, s4, fun i hi rs hrs => ?_⟩
  rw [hlen] at hs
  refine hs i hi rs ?_
  unfold LayersElementsAt
  rw [List.forall₂_map_left_iff]
  exact hrs.imp fun {j a} hj => by rw [BatchLayer.sliceOf_elementAt h j (validIndex_length hi)]; exact hj

/-! ### One lattice -/

theorem checkCompatible_cases (a b : List ℕ) : checkCompatible a b = .ok () ∨ checkCompatible a b = .error .valueError := by
  unfold checkCompatible incompatible batchCompatibleShapes
  simp only [List.cons_ne_nil, if_false, bind, Except.bind]
  split <;> simp

theorem checkCompatible_leading {a b : List ℕ} {x y : ℕ} (hx : x ≠ 1) (hxy : x < y) : checkCompatible (x :: a) (y :: b) = .error .valueError := by
  unfold checkCompatible incompatible batchCompatibleShapes
  simp only [List.cons_ne_nil, if_false, bind, Except.bind, List.length_cons]
  by_cases hl : a.length = b.length
  · simp only [List.map_cons, List.map_nil, List.length_cons, hl, maxList, List.foldr_cons, List.foldr_nil, Nat.max_zero, max_self,
      padShape, Nat.sub_self, List.replicate_zero, List.nil_append, List.range_succ_eq_map, List.map_map, List.all_cons, List.all_nil,
      List.zip_cons_cons, List.any_cons, List.getD_cons_zero]
    have : max x y = y := max_eq_right hxy.le
    simp [this, hx, hxy.ne]
  · simp [hl]

theorem checkThen_cases {x : Res Unit} {f : Unit → Res Unit} (h : x = .ok () ∨ x = .error .valueError)
    (h' : f () = .ok () ∨ f () = .error .valueError) : x >>= f = .ok () ∨ x >>= f = .error .valueError := by
  rcases h with h | h <;> rw [h]
  · exact h'
  · exact Or.inr rfl

theorem checkThen_error {x : Res Unit} {f : Unit → Res Unit} (h : x = .ok () ∨ x = .error .valueError) (h' : f () = .error .valueError) :
    x >>= f = .error .valueError := by
  rcases h with h | h <;> rw [h]
  · exact h'
  · rfl

theorem layerSolveResultPostInit_cases {s : LayerShapes} (h : s.eigenvectors ≠ []) :
    layerSolveResultPostInit s = .ok () ∨ layerSolveResultPostInit s = .error .valueError := by
  unfold layerSolveResultPostInit
  refine checkThen_cases (checkCompatible_cases _ _) (checkThen_cases (checkCompatible_cases _ _) (checkThen_cases (checkCompatible_cases _ _)
    (checkThen_cases (checkCompatible_cases _ _) ?_)))
  cases hl : s.eigenvectors.getLast? with
  | none => exact absurd (List.getLast?_eq_none_iff.1 hl) h
  | some m =>
    simp only
    split
    · exact Or.inr rfl
    · split
      · exact Or.inr rfl
      · refine checkThen_cases (checkCompatible_cases _ _) (checkThen_cases (checkCompatible_cases _ _) (checkThen_cases (checkCompatible_cases _ _)
          (checkThen_cases (checkCompatible_cases _ _) (checkThen_cases (checkCompatible_cases _ _) ?_))))
        cases s.tangentNdim with
        | none => exact Or.inl rfl
        | some d =>
          simp only
          split
          · exact Or.inr rfl
          · exact Or.inl rfl

theorem BatchLayer.build_cases (l : BatchLayer n) : l.build = .ok l ∨ l.build = .error .valueError := by
  unfold BatchLayer.build
  rcases layerSolveResultPostInit_cases (s := l.shapes) (by simp [BatchLayer.shapes]) with h | h <;> rw [h]
  · exact Or.inl rfl
  · exact Or.inr rfl

theorem BatchLayer.mapLeaves_eq {f : ∀ {α : Type}, NDArray α → Res (NDArray α)} {rank : ℕ → ℕ} {l : BatchLayer n}
    {w k u v : NDArray ℝ} {q p a b c d e} (hw : f l.wavelength = .ok w) (hk : f l.inPlaneWavevector = .ok k) (hu : f l.u = .ok u)
    (hv : f l.v = .ok v) (hq : f l.eigenvalues = .ok q) (hp : f l.eigenvectors = .ok p) (ha : f l.zPermittivity = .ok a)
    (hb : f l.inverseZPermittivity = .ok b) (hc : f l.zPermeability = .ok c) (hd : f l.inverseZPermeability = .ok d)
    (he : f l.transversePermeability = .ok e) :
    l.mapLeaves f rank = BatchLayer.build
      { wavelength := w, inPlaneWavevector := k, u := u, v := v, expansion := l.expansion, eigenvalues := q, eigenvectors := p,
        zPermittivity := a, inverseZPermittivity := b, zPermeability := c, inverseZPermeability := d, transversePermeability := e,
        tangentNdim := l.tangentNdim.map rank } := by
  unfold BatchLayer.mapLeaves
  beta_reduce
  rw [hw, hk, hu, hv, hq, hp, ha, hb, hc, hd, he]
  rfl

/-- Layers with one lattice cannot be used in a scan over two or more layers. -/
theorem stackSMatrixScanBatch_lattice {r m : ℕ} {lat : LatticeVectors} {l : BatchLayer n} {thicknesses : NDArray ℝ} {e : List ℕ} (hm : 2 ≤ m)
    (ht : ∀ d ∈ t, 0 < d) (h : LayerFits t r lat l) (he : l.eigenvectors.shape = m :: e) (hd : thicknesses.shape = [m]) :
    stackSMatrixScanBatch l thicknesses = .error .valueError := by
  obtain ⟨K, hK1, hK2, hK3⟩ := h.inPlaneWavevector
  obtain ⟨r, rfl⟩ : ∃ r', r = r' + 1 := by
    have := h.eigenvectors.rank
    rw [he] at this
    exact ⟨e.length, by simpa using this.symm⟩
  have slice : ∀ {α : Type} {a : NDArray α} {d : ℕ} {s : List ℕ}, a.shape = d :: s → 0 < d → ∃ b, a.sliceFirst 0 = .ok b := by
    intro α a d s hs h0
    unfold NDArray.sliceFirst
    rw [hs]
    simp only [h0, if_true]
    exact ⟨_, rfl⟩
  have drop : ∀ {α : Type} {a : NDArray α} {d : ℕ} {s : List ℕ}, a.shape = d :: s → ∃ b, a.dropFirst = .ok b ∧ b.shape = (d - 1) :: s := by
    intro α a d s hs
    unfold NDArray.dropFirst
    rw [hs]
    exact ⟨_, rfl, rfl⟩
  have cons : ∀ {s : List ℕ}, BroadcastsTo s t → s.length = r + 1 → ∃ d s', s = d :: s' ∧ 0 < d := by
    intro s hs hl
    cases s with
    | nil => simp at hl
    | cons d s => exact ⟨d, s, rfl, broadcastsTo_pos hs ht d (by simp)⟩
  obtain ⟨_, _, w1, w2⟩ := cons h.wavelength.broadcasts h.wavelength.rank
  obtain ⟨_, _, k1, k2⟩ := cons hK2 hK3
  obtain ⟨_, _, q1, q2⟩ := cons h.eigenvalues.broadcasts h.eigenvalues.rank
  obtain ⟨_, _, a1, a2⟩ := cons h.zPermittivity.broadcasts h.zPermittivity.rank
  obtain ⟨_, _, b1, b2⟩ := cons h.inverseZPermittivity.broadcasts h.inverseZPermittivity.rank
  obtain ⟨_, _, c1, c2⟩ := cons h.zPermeability.broadcasts h.zPermeability.rank
  obtain ⟨_, _, d1, d2⟩ := cons h.inverseZPermeability.broadcasts h.inverseZPermeability.rank
  obtain ⟨_, _, t1, t2⟩ := cons h.transversePermeability.broadcasts h.transversePermeability.rank
  rw [k1, List.cons_append] at hK1
  have u1 : l.u.shape = 1 :: (List.replicate r 1 ++ [2]) := h.lattice.u_shape
  have v1 : l.v.shape = 1 :: (List.replicate r 1 ++ [2]) := h.lattice.v_shape
  have start : ∃ x : BatchLayer n, l.sliceFirst 0 = x.build := by
    obtain ⟨_, hw⟩ := slice w1 w2
    obtain ⟨_, hk⟩ := slice hK1 k2
    obtain ⟨_, hu⟩ := slice u1 one_pos
    obtain ⟨_, hv⟩ := slice v1 one_pos
    obtain ⟨_, hq⟩ := slice q1 q2
    obtain ⟨_, hp⟩ := slice he (by omega)
    obtain ⟨_, ha⟩ := slice a1 a2
    obtain ⟨_, hb⟩ := slice b1 b2
    obtain ⟨_, hc⟩ := slice c1 c2
    obtain ⟨_, hd⟩ := slice d1 d2
    obtain ⟨_, he⟩ := slice t1 t2
    exact ⟨_, BatchLayer.mapLeaves_eq hw hk hu hv hq hp ha hb hc hd he⟩
  have rest : l.dropFirst = .error .valueError := by
    obtain ⟨_, hw, -⟩ := drop w1
    obtain ⟨_, hk, -⟩ := drop hK1
    obtain ⟨u', hu, su⟩ := drop u1
    obtain ⟨_, hv, -⟩ := drop v1
    obtain ⟨_, hq, -⟩ := drop q1
    obtain ⟨p', hp, sp⟩ := drop he
    obtain ⟨_, ha, -⟩ := drop a1
    obtain ⟨_, hb, -⟩ := drop b1
    obtain ⟨_, hc, -⟩ := drop c1
    obtain ⟨_, hd, -⟩ := drop d1
    obtain ⟨_, he, -⟩ := drop t1
    unfold BatchLayer.dropFirst
    rw [BatchLayer.mapLeaves_eq hw hk hu hv hq hp ha hb hc hd he]
    unfold BatchLayer.build
    have : ∀ s : LayerShapes, s.u = u'.shape → s.eigenvectors = p'.shape ++ [2 * n, 2 * n] →
        layerSolveResultPostInit s = .error .valueError := by
      intro s hsu hsp
      have hbs : s.batchShape = p'.shape := by
        unfold LayerShapes.batchShape dropLastN
        rw [hsp]
        simp
      unfold layerSolveResultPostInit
      refine checkThen_error (checkCompatible_cases _ _) (checkThen_error (checkCompatible_cases _ _) ?_)
      rw [hsu, hbs, su, sp, List.cons_append, checkCompatible_leading (by omega) (by omega)]
      rfl
    rw [this _ rfl rfl]
    rfl
  obtain ⟨x, hx⟩ := start
  unfold stackSMatrixScanBatch
  rw [hd, he]
  simp only [List.length_cons, List.length_nil, zero_add, ne_eq, not_true_eq_false, if_false, List.headD_cons, List.length_map,
    List.length_range]
  rw [hx, rest]
  rcases x.build_cases with hb | hb <;> rw [hb] <;> rfl

end Fmmax
