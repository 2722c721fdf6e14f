import Verif.Spec.BatchSolve
import Verif.Proofs.NDArray
import Verif.Proofs.Basic
import Verif.Proofs.Profile
import Verif.Props.Shapes
import Verif.Props.Validation

/-! Lemmas for the eigensolves and scattering matrices with batch dimensions. -/

namespace Fmmax

open Spec

variable {α β γ : Type} {t : List ℕ} {r : ℕ}

theorem broadcastRev_bounds {s u w : List ℕ} (h : broadcastRev s u = some w) : BroadcastsRev s w ∧ BroadcastsRev u w := by
  have self : ∀ s : List ℕ, BroadcastsRev s s := by
    intro s
    induction s with
    | nil => trivial
    | cons a s ih => exact ⟨Or.inr rfl, ih⟩
  induction s generalizing u w with
  | nil =>
    simp only [broadcastRev, Option.some.injEq] at h
    subst h
    exact ⟨trivial, self _⟩
  | cons a s ih =>
    cases u with
    | nil =>
      simp only [broadcastRev, Option.some.injEq] at h
      subst h
      exact ⟨self _, trivial⟩
    | cons b u =>
      rw [broadcastRev] at h
      split_ifs at h with h1 h2 h3
      · obtain ⟨x, hx, rfl⟩ := Option.map_eq_some_iff.1 h
        exact ⟨⟨Or.inr rfl, (ih hx).1⟩, ⟨Or.inr h1.symm, (ih hx).2⟩⟩
      · obtain ⟨x, hx, rfl⟩ := Option.map_eq_some_iff.1 h
        exact ⟨⟨Or.inl h2, (ih hx).1⟩, ⟨Or.inr rfl, (ih hx).2⟩⟩
      · obtain ⟨x, hx, rfl⟩ := Option.map_eq_some_iff.1 h
        exact ⟨⟨Or.inr rfl, (ih hx).1⟩, ⟨Or.inl h3, (ih hx).2⟩⟩

theorem broadcastShapes_bounds {s u w : List ℕ} (h : broadcastShapes s u = some w) : BroadcastsTo s w ∧ BroadcastsTo u w := by
  obtain ⟨x, hx, rfl⟩ := Option.map_eq_some_iff.1 h
  obtain ⟨h1, h2⟩ := broadcastRev_bounds hx
  rw [broadcastsTo_iff_rev, broadcastsTo_iff_rev, List.reverse_reverse]
  exact ⟨h1, h2⟩

theorem broadcastsRev_trans {a b c : List ℕ} (h : BroadcastsRev a b) (h' : BroadcastsRev b c) : BroadcastsRev a c := by
  induction a generalizing b c with
  | nil => trivial
  | cons x a ih =>
    cases b with
    | nil => exact absurd h (by simp [BroadcastsRev])
    | cons y b =>
      cases c with
      | nil => exact absurd h' (by simp [BroadcastsRev])
      | cons z c =>
        refine ⟨?_, ih h.2 h'.2⟩
        rcases h.1 with h1 | h1
        · exact Or.inl h1
        · rcases h'.1 with h2 | h2
          · exact Or.inl (h1.trans h2)
          · exact Or.inr (h1.trans h2)

theorem Spec.BroadcastsTo.trans {a b c : List ℕ} (h : BroadcastsTo a b) (h' : BroadcastsTo b c) : BroadcastsTo a c := by
  rw [broadcastsTo_iff_rev] at *
  exact broadcastsRev_trans h h'

theorem broadcastRev_rank {s t u : List ℕ} (h : broadcastRev s t = some u) : u.length = max s.length t.length := by
  induction s generalizing t u with
  | nil => simp [broadcastRev] at h; simp [h]
  | cons m s ih =>
    cases t with
    | nil => simp [broadcastRev] at h; simp [← h]
    | cons k t =>
      simp only [broadcastRev] at h
      split_ifs at h <;>
      · obtain ⟨w, hw, rfl⟩ := Option.map_eq_some_iff.1 h
        simp [ih hw]

theorem broadcastShapes_rank {s t u : List ℕ} (h : broadcastShapes s t = some u) : u.length = max s.length t.length := by
  obtain ⟨x, hx, rfl⟩ := Option.map_eq_some_iff.1 h
  have := broadcastRev_rank hx
  simpa using this

theorem Fits.of_shape {a : NDArray α} {b : NDArray β} (h : Fits t r a) (hs : b.shape = a.shape) : Fits t r b :=
  ⟨hs ▸ h.broadcasts, hs ▸ h.rank⟩

theorem Fits.map {a : Batch α} (h : Fits t r a) (f : α → Res β) : Fits t r (Batch.map f a) := ⟨h.broadcasts, h.rank⟩

theorem Batch.elementAt_map (f : α → Res β) (a : Batch α) (i : List ℕ) :
    (Batch.map f a).elementAt i = a.elementAt i >>= f := rfl

/-- The result of an operation on two arrays with broadcasting. -/
structure ZipResult (t : List ℕ) (r : ℕ) (f : α → β → Res γ) (a : Batch α) (b : Batch β) (c : Batch γ) : Prop where
  fits : Fits t r c
  shape : broadcastShapes a.shape b.shape = some c.shape
  left : BroadcastsTo a.shape c.shape
  right : BroadcastsTo b.shape c.shape
  element : ∀ i, i.length = t.length → c.elementAt i = (do
    let x ← a.elementAt i
    let y ← b.elementAt i
    f x y)

theorem Batch.zip_ok (f : α → β → Res γ) {a : Batch α} {b : Batch β} (ha : Fits t r a) (hb : Fits t r b) :
    ∃ c, Batch.zip f a b = .ok c ∧ ZipResult t r f a b c := by
  obtain ⟨c, h1, h2, h3, h4⟩ := zipWith_elementAt (fun x y => do
    let x ← x
    let y ← y
    f x y) ha.broadcasts hb.broadcasts
  refine ⟨c, h1, ⟨h2, ?_⟩, h3, (broadcastShapes_bounds h3).1, (broadcastShapes_bounds h3).2, h4⟩
  rw [broadcastShapes_rank h3, ha.rank, hb.rank, max_self]

theorem Batch.solve_ok {n m : Type} [Fintype n] [DecidableEq n] {a : Batch (Matrix n n ℂ)} {b : Batch (Matrix n m ℂ)}
    (ha : Fits t r a) (hb : Fits t r b) : ∃ c, a.solve b = .ok c ∧ ZipResult t r Fmmax.solve a b c := by
  unfold Batch.solve
  rw [if_neg (by rw [ha.rank, hb.rank]; omega)]
  exact Batch.zip_ok _ ha hb

theorem Batch.block_ok {n : Type} {a b c d : Batch (Matrix n n ℂ)} (ha : Fits t r a) (hb : b.shape = a.shape)
    (hc : c.shape = a.shape) (hd : d.shape = a.shape) :
    ∃ m, Batch.block a b c d = .ok m ∧ Fits t r m ∧ m.shape = a.shape ∧ ∀ i, m.elementAt i = (do
      let x ← a.elementAt i
      let y ← b.elementAt i
      let z ← c.elementAt i
      let w ← d.elementAt i
      .ok (Matrix.fromBlocks x y z w)) := by
  unfold Batch.block
  rw [if_pos ⟨hb.symm, hc.symm, hd.symm⟩]
  refine ⟨_, rfl, ⟨ha.broadcasts, ha.rank⟩, rfl, fun i => ?_⟩
  unfold NDArray.elementAt
  rw [hb, hc, hd]

theorem ZipResult.same_shape {α' β' γ' : Type} {f : α → β → Res γ} {a : Batch α} {b : Batch β} {c : Batch γ}
    {f' : α' → β' → Res γ'} {a' : Batch α'} {b' : Batch β'} {c' : Batch γ'} (h : ZipResult t r f a b c)
    (h' : ZipResult t r f' a' b' c') (ha : a'.shape = a.shape) (hb : b'.shape = b.shape) : c'.shape = c.shape := by
  have e := h'.shape
  rw [ha, hb, h.shape] at e
  exact (Option.some.inj e).symm

section Matrices

variable {ι : Type} [Fintype ι] [DecidableEq ι]

theorem scriptKMatrixBatch_ok {z : Batch (Matrix ι ι ℂ)} {k : Batch (ι → ℝ × ℝ)} (hz : Fits t r z) (hk : Fits t r k) :
    ∃ c, scriptKMatrixBatch z k = .ok c ∧ Fits t r c ∧ BroadcastsTo z.shape c.shape ∧ BroadcastsTo k.shape c.shape ∧
      ∀ i, i.length = t.length → c.elementAt i = (do
        let k ← k.elementAt i
        let z ← z.elementAt i
        scriptKMatrixPatterned z k) := by
  set kx : Batch (ι → ℂ) := k.map fun k => .ok (kxOf k) with hkx
  set ky : Batch (ι → ℂ) := k.map fun k => .ok (kyOf k) with hky
  have fx : Fits t r kx := hk.map _
  have fy : Fits t r ky := hk.map _
  obtain ⟨zx, ex, rx⟩ := Batch.solve_ok hz (fx.map fun v => .ok (diag v))
  obtain ⟨zy, ey, ry⟩ := Batch.solve_ok hz (fy.map fun v => .ok (diag v))
  have hzs : zy.shape = zx.shape := rx.same_shape ry rfl rfl
  obtain ⟨a, ea, ra⟩ := Batch.zip_ok (fun v x => .ok (Fmmax.rowScale v x)) fy ry.fits
  obtain ⟨b, eb, rb⟩ := Batch.zip_ok (fun v x => .ok (Fmmax.rowScale v x)) (fy.map fun v => .ok fun i => -v i) rx.fits
  obtain ⟨c, ec, rc⟩ := Batch.zip_ok (fun v x => .ok (Fmmax.rowScale v x)) (fx.map fun v => .ok fun i => -v i) ry.fits
  obtain ⟨d, ed, rd⟩ := Batch.zip_ok (fun v x => .ok (Fmmax.rowScale v x)) fx rx.fits
  obtain ⟨m, em, fm, sm, hm⟩ := Batch.block_ok ra.fits (ra.same_shape rb rfl hzs.symm) (ra.same_shape rc rfl rfl)
    (ra.same_shape rd rfl hzs.symm)
  refine ⟨m, ?_, fm, ?_, ?_, fun i hi => ?_⟩
  · unfold scriptKMatrixBatch
    simp only [bind_eq_ok]
    exact ⟨zx, ex, zy, ey, a, ea, b, eb, c, ec, d, ed, em⟩
  · rw [sm]
    exact ry.left.trans ra.right
  · rw [sm]
    exact ra.left
  · rw [hm, ra.element i hi, rb.element i hi, rc.element i hi, rd.element i hi, ry.element i hi, rx.element i hi,
      hky, hkx]
    simp only [Batch.elementAt_map]
    cases k.elementAt i with
    | error e => rfl
    | ok k =>
      cases z.elementAt i with
      | error e => rfl
      | ok z =>
        show _ = scriptKMatrixPatterned z k
        unfold scriptKMatrixPatterned Fmmax.solve
        by_cases hz : IsUnit z.det
        · simp only [bind, Except.bind, if_pos hz]
        · simp only [bind, Except.bind, if_neg hz]

theorem kMatrixBatch_ok {z : Batch (Matrix ι ι ℂ)} {k : Batch (ι → ℝ × ℝ)} (hz : Fits t r z) (hk : Fits t r k) :
    ∃ c, kMatrixBatch z k = .ok c ∧ Fits t r c ∧ BroadcastsTo z.shape c.shape ∧ BroadcastsTo k.shape c.shape ∧
      ∀ i, i.length = t.length → c.elementAt i = (do
        let k ← k.elementAt i
        let z ← z.elementAt i
        kMatrixPatterned z k) := by
  set kx : Batch (ι → ℂ) := k.map fun k => .ok (kxOf k) with hkx
  set ky : Batch (ι → ℂ) := k.map fun k => .ok (kyOf k) with hky
  have fx : Fits t r kx := hk.map _
  have fy : Fits t r ky := hk.map _
  obtain ⟨zx, ex, rx⟩ := Batch.solve_ok hz (fx.map fun v => .ok (diag v))
  obtain ⟨zy, ey, ry⟩ := Batch.solve_ok hz (fy.map fun v => .ok (diag v))
  have hzs : zy.shape = zx.shape := rx.same_shape ry rfl rfl
  obtain ⟨a, ea, ra⟩ := Batch.zip_ok (fun v x => .ok (Fmmax.rowScale v x)) fx rx.fits
  obtain ⟨b, eb, rb⟩ := Batch.zip_ok (fun v x => .ok (Fmmax.rowScale v x)) fx ry.fits
  obtain ⟨c, ec, rc⟩ := Batch.zip_ok (fun v x => .ok (Fmmax.rowScale v x)) fy rx.fits
  obtain ⟨d, ed, rd⟩ := Batch.zip_ok (fun v x => .ok (Fmmax.rowScale v x)) fy ry.fits
  obtain ⟨m, em, fm, sm, hm⟩ := Batch.block_ok ra.fits (ra.same_shape rb rfl hzs) (ra.same_shape rc rfl rfl)
    (ra.same_shape rd rfl hzs)
  refine ⟨m, ?_, fm, ?_, ?_, fun i hi => ?_⟩
  · unfold kMatrixBatch
    simp only [bind_eq_ok]
    exact ⟨zx, ex, zy, ey, a, ea, b, eb, c, ec, d, ed, em⟩
  · rw [sm]
    exact rx.left.trans ra.right
  · rw [sm]
    exact ra.left
  · rw [hm, ra.element i hi, rb.element i hi, rc.element i hi, rd.element i hi, ry.element i hi, rx.element i hi,
      hky, hkx]
    simp only [Batch.elementAt_map]
    cases k.elementAt i with
    | error e => rfl
    | ok k =>
      cases z.elementAt i with
      | error e => rfl
      | ok z =>
        show _ = kMatrixPatterned z k
        unfold kMatrixPatterned Fmmax.solve
        by_cases hz : IsUnit z.det
        · simp only [bind, Except.bind, if_pos hz]
        · simp only [bind, Except.bind, if_neg hz]

theorem omegaScriptKMatrixBatch_ok {w : NDArray ℝ} {z : Batch (Matrix ι ι ℂ)} {mu : Batch (Matrix (ι ⊕ ι) (ι ⊕ ι) ℂ)}
    {k : Batch (ι → ℝ × ℝ)} (hw : Fits t r w) (hz : Fits t r z) (hm : Fits t r mu) (hk : Fits t r k) :
    ∃ c, omegaScriptKMatrixBatch w z mu k = .ok c ∧ Fits t r c ∧ BroadcastsTo w.shape c.shape ∧ BroadcastsTo z.shape c.shape ∧
      BroadcastsTo k.shape c.shape ∧ BroadcastsTo mu.shape c.shape ∧ ∀ i, i.length = t.length → SameOk (c.elementAt i) (do
        let k ← k.elementAt i
        let z ← z.elementAt i
        let mu ← mu.elementAt i
        omegaScriptKMatrixPatterned (w.elementAt i) z mu k) := by
  obtain ⟨s, es, fs, hs1, hs2, hs3⟩ := scriptKMatrixBatch_ok hz hk
  set o : Batch ℂ := w.map (fun w => do
    let o ← angularFrequency w
    .ok ((o : ℂ) ^ 2)) with ho
  have fo : Fits t r o := ⟨hw.broadcasts, hw.rank⟩
  obtain ⟨x, ex, rx⟩ := Batch.zip_ok (fun (o : ℂ) (m : Matrix (ι ⊕ ι) (ι ⊕ ι) ℂ) => .ok (o • m)) fo hm
  obtain ⟨y, ey, ry⟩ := Batch.zip_ok (fun x y : Matrix (ι ⊕ ι) (ι ⊕ ι) ℂ => .ok (x - y)) rx.fits fs
  refine ⟨y, ?_, ry.fits, rx.left.trans ry.left, hs1.trans ry.right, hs2.trans ry.right, rx.right.trans ry.left,
    fun i hi v => ?_⟩
  · unfold omegaScriptKMatrixBatch
    simp only [bind_eq_ok]
    exact ⟨s, es, x, ex, ey⟩
  · rw [ry.element i hi, rx.element i hi, hs3 i hi]
    have eo : o.elementAt i = (do
        let o ← angularFrequency (w.elementAt i)
        .ok ((o : ℂ) ^ 2)) := rfl
    rw [eo]
    cases k.elementAt i <;> cases z.elementAt i <;> cases mu.elementAt i <;>
      cases ha : angularFrequency (w.elementAt i) <;>
      simp only [bind, Except.bind, omegaScriptKMatrixPatterned, reduceCtorEq, ha]
    · split <;> simp

end Matrices

/-! ### Eigensolves -/

theorem Spec.BroadcastsTo.sameRank {s t : List ℕ} (h : BroadcastsTo s t) (hl : s.length = t.length) :
    List.Forall₂ (fun a b => a = 1 ∨ a = b) s t := by
  have := broadcastsTo_padded h
  rwa [hl, Nat.sub_self, List.replicate_zero, List.nil_append] at this

theorem sameRankBroadcastable_append {s t : List ℕ} (h : BroadcastsTo s t) (hl : s.length = t.length) (x : List ℕ) :
    SameRankBroadcastable (s ++ x) (t ++ x) := by
  refine List.rel_append (R := fun a b : ℕ => a = b ∨ a = 1 ∨ b = 1) ?_ ?_
  · exact (h.sameRank hl).imp fun a b h => by rcases h with h | h <;> simp [h]
  · exact List.forall₂_same.2 fun _ _ => Or.inl rfl

theorem broadcastsTo_pos {s t : List ℕ} (h : BroadcastsTo s t) (ht : ∀ d ∈ t, 0 < d) : ∀ d ∈ s, 0 < d := by
  obtain ⟨lead, tail, rfl, h⟩ := h
  intro d hd
  obtain ⟨i, hi, rfl⟩ := List.mem_iff_getElem.1 hd
  have hl := h.length_eq
  have := (List.forall₂_iff_get.1 h).2 i hi (by omega)
  simp only [List.get_eq_getElem] at this
  rcases this with h1 | h1
  · omega
  · rw [h1]
    exact ht _ (by simp)

variable {n : ℕ}

theorem elementAt_lattice {r : ℕ} {u : NDArray ℝ} (hu : u.shape = List.replicate r 1 ++ [2]) {i : List ℕ} (hi : r ≤ i.length)
    {c : ℕ} (hc : c < 2) : u.elementAt (i ++ [c]) = u.get (List.replicate r 0 ++ [c]) := by
  unfold NDArray.elementAt
  rw [hu, broadcastIndex_append (by simpa using hi) (by simp), broadcastIndex_replicate_one hi, broadcastIndex_single hc]

theorem SingleLattice.elementAt {u v : NDArray ℝ} {l : LatticeVectors} (h : SingleLattice r u v l) {i : List ℕ} (hi : r ≤ i.length) :
    ({ u := (u.elementAt (i ++ [0]), u.elementAt (i ++ [1])), v := (v.elementAt (i ++ [0]), v.elementAt (i ++ [1])) } :
      LatticeVectors) = l := by
  rw [elementAt_lattice h.u_shape hi (by omega), elementAt_lattice h.u_shape hi (by omega),
    elementAt_lattice h.v_shape hi (by omega), elementAt_lattice h.v_shape hi (by omega), ← h.eq]
  rfl

theorem transverse_ok {k u v : NDArray ℝ} {K : List ℕ} {l : LatticeVectors} (hk : k.shape = K ++ [2]) (hKt : BroadcastsTo K t)
    (hKr : K.length = r) (hl : SingleLattice r u v l) (G : Fin n → ℤ × ℤ) :
    ∃ kt, transverseWavevectorsBatch k u v G = .ok kt ∧ kt.shape = K ++ [n, 2] ∧ (waveVectors (n := n) kt).shape = K ∧
      ∀ i, ValidIndex t i → (waveVectors (n := n) kt).elementAt i =
        transverseWavevectors (k.elementAt (i ++ [0]), k.elementAt (i ++ [1])) l G := by
  obtain ⟨kt, h1, h2, h3⟩ := transverseWavevectorsBatch_eq (n := n) hk hl.u_shape hl.v_shape (by omega)
    (by rw [hl.eq]; exact hl.independent) G
  have hs : (waveVectors (n := n) kt).shape = K := by
    show dropLastN 2 kt.shape = K
    rw [h2, dropLastN]
    exact List.take_left' (by simp)
  refine ⟨kt, h1, h2, hs, fun i hi => ?_⟩
  have hv := broadcastIndex_valid hKt hi
  obtain ⟨w, h4, h5⟩ := h3 _ hv
  rw [hl.eq] at h4
  have hil : K.length ≤ i.length := by rw [validIndex_length hi]; exact hKt.length_le
  have ek : ∀ c, c < 2 → k.elementAt (i ++ [c]) = k.get (broadcastIndex K i ++ [c]) := by
    intro c hc
    unfold NDArray.elementAt
    rw [hk, broadcastIndex_append hil (by simp), broadcastIndex_single hc]
  rw [ek 0 (by omega), ek 1 (by omega), h4]
  unfold NDArray.elementAt
  rw [hs]
  show Except.ok _ = Except.ok w
  congr 1
  funext x
  exact Prod.ext (h5 x).1 (h5 x).2

theorem latticePositive {r : ℕ} : ∀ d ∈ List.replicate r 1 ++ [2], 0 < d := by
  intro d hd
  simp only [List.mem_append, List.mem_replicate, List.mem_singleton] at hd
  omega

theorem positive_append {s x : List ℕ} (hs : ∀ d ∈ s, 0 < d) (hx : ∀ d ∈ x, 0 < d) : ∀ d ∈ s ++ x, 0 < d := by
  intro d hd
  rcases List.mem_append.1 hd with h | h
  · exact hs d h
  · exact hx d h

/-- Attributes with batch shapes that broadcast to that of the eigenvectors pass the validation. -/
theorem BatchLayer.build_ok {l : BatchLayer n} {lat : LatticeVectors} (hn : 0 < n) (ht : ∀ d ∈ t, 0 < d) (h : LayerFits t r lat l)
    (hc : LayerComplete l) (htan : ∀ d, l.tangentNdim = some d → d = r + 2) : l.build = .ok l := by
  obtain ⟨hq, hw, hk, hz, hz', hm, hm', hmt⟩ := hc
  obtain ⟨K, hK1, hK2, hK3⟩ := h.inPlaneWavevector
  have pos : ∀ {α : Type} {a : NDArray α}, Fits t r a → ∀ d ∈ a.shape, 0 < d := fun hf => broadcastsTo_pos hf.broadcasts ht
  have p2 : ∀ x y : ℕ, 0 < x → 0 < y → ∀ d ∈ [x, y], 0 < d := by
    intro x y hx hy d hd
    simp only [List.mem_cons, List.not_mem_nil, or_false] at hd
    rcases hd with rfl | rfl <;> assumption
  have post : layerSolveResultPostInit l.shapes = .ok () := by
    refine (C76_layer_solve_result l.shapes (by simp [BatchLayer.shapes]) ?_).1 ⟨l.eigenvectors.shape, 2 * n, ?_⟩
    · constructor <;> simp only [BatchLayer.shapes]
      · exact pos h.wavelength
      · rw [hK1]
        exact positive_append (broadcastsTo_pos hK2 ht) (by simp)
      · rw [h.lattice.u_shape]; exact latticePositive
      · rw [h.lattice.v_shape]; exact latticePositive
      · exact hn
      · exact positive_append (pos h.eigenvectors) (p2 _ _ (by omega) (by omega))
      · exact positive_append (pos h.zPermittivity) (p2 _ _ hn hn)
      · exact positive_append (pos h.inverseZPermittivity) (p2 _ _ hn hn)
      · exact positive_append (pos h.zPermeability) (p2 _ _ hn hn)
      · exact positive_append (pos h.inverseZPermeability) (p2 _ _ hn hn)
      · exact positive_append (pos h.transversePermeability) (p2 _ _ (by omega) (by omega))
    · have lat : SameRankBroadcastable (List.replicate r 1 ++ [2]) (l.eigenvectors.shape ++ [2]) :=
        sameRankBroadcastable_append (Spec.BroadcastsTo.replicate_one (by rw [h.eigenvectors.rank])) (by
          rw [h.eigenvectors.rank, List.length_replicate]) _
      constructor <;> simp only [BatchLayer.shapes]
      · rw [hq]
      · have := sameRankBroadcastable_append hw (by rw [h.wavelength.rank, h.eigenvectors.rank]) []
        simpa using this
      · rw [hK1]
        exact sameRankBroadcastable_append (hk K hK1) (by rw [hK3, h.eigenvectors.rank]) _
      · rw [h.lattice.u_shape]; exact lat
      · rw [h.lattice.v_shape]; exact lat
      · exact sameRankBroadcastable_append hz (by rw [h.zPermittivity.rank, h.eigenvectors.rank]) _
      · exact sameRankBroadcastable_append hz' (by rw [h.inverseZPermittivity.rank, h.eigenvectors.rank]) _
      · exact sameRankBroadcastable_append hm (by rw [h.zPermeability.rank, h.eigenvectors.rank]) _
      · exact sameRankBroadcastable_append hm' (by rw [h.inverseZPermeability.rank, h.eigenvectors.rank]) _
      · exact sameRankBroadcastable_append hmt (by rw [h.transversePermeability.rank, h.eigenvectors.rank]) _
      · intro d hd
        rw [htan d hd, h.eigenvectors.rank]
  unfold BatchLayer.build
  rw [post]
  rfl

/-- The batched numerical eigensolve of one lattice succeeds, with the broadcast shape, and solves each batch element. -/
theorem numericalEigensolveBatch_ok
    (eig : Matrix (Fin n ⊕ Fin n) (Fin n ⊕ Fin n) ℂ → (Fin n ⊕ Fin n → ℂ) × Matrix (Fin n ⊕ Fin n) (Fin n ⊕ Fin n) ℂ)
    {w k u v : NDArray ℝ} {K : List ℕ} {l : LatticeVectors} (hn : 0 < n) (ht : ∀ d ∈ t, 0 < d) (hw : Fits t r w)
    (hk : k.shape = K ++ [2]) (hKt : BroadcastsTo K t) (hKr : K.length = r) (hl : SingleLattice r u v l)
    {M : Batch (FourierMatrices (Fin n))} (hM : Fits t r M) (G : Fin n → ℤ × ℤ) {tan : Option ℕ} (htan : ∀ d, tan = some d → d = r + 2) :
    ∃ out, numericalEigensolveBatch eig w k u v (BatchMatrices.of M) G tan = .ok out ∧ LayerFits t r l out ∧
      LayerComplete out ∧ BroadcastsTo w.shape out.eigenvectors.shape ∧ BroadcastsTo K out.eigenvectors.shape ∧
      BroadcastsTo M.shape out.eigenvectors.shape ∧
      ∀ i, ValidIndex t i → SameOk (out.elementAt i) (do
        let m ← M.elementAt i
        numericalEigensolve eig (w.elementAt i) (k.elementAt (i ++ [0]), k.elementAt (i ++ [1])) l m G) := by
  obtain ⟨kt, hkt, hks, hkw, hke⟩ := transverse_ok (n := n) hk hKt hKr hl G
  have fk : Fits t r (waveVectors (n := n) kt) := ⟨hkw ▸ hKt, hkw ▸ hKr⟩
  obtain ⟨km, ekm, fkm, b1, b2, hkm⟩ := kMatrixBatch_ok (z := (BatchMatrices.of M).zPermeability) (hM.map _) fk
  obtain ⟨om, eom, fom, b3, b4, b5, b6, hom⟩ := omegaScriptKMatrixBatch_ok (w := w) (z := (BatchMatrices.of M).zPermittivity)
    (mu := (BatchMatrices.of M).transversePermeability) hw (hM.map _) (hM.map _) fk
  obtain ⟨x, ex, rx⟩ := Batch.zip_ok (fun x y : Matrix (Fin n ⊕ Fin n) (Fin n ⊕ Fin n) ℂ => .ok (x * y))
    (a := (BatchMatrices.of M).transversePermittivity) (hM.map _) fom
  obtain ⟨y, ey, ry⟩ := Batch.zip_ok (fun x y : Matrix (Fin n ⊕ Fin n) (Fin n ⊕ Fin n) ℂ => .ok (x * y)) fkm
    (b := (BatchMatrices.of M).transversePermeability) (hM.map _)
  obtain ⟨z, ez, rz⟩ := Batch.zip_ok (fun x y : Matrix (Fin n ⊕ Fin n) (Fin n ⊕ Fin n) ℂ => .ok (x - y)) rx.fits ry.fits
  set out : BatchLayer n :=
    { wavelength := w, inPlaneWavevector := k, u := u, v := v, expansion := G,
      eigenvalues := z.map fun A => .ok fun i => selectEigenvaluesSign (csqrt ((eig A).1 i)),
      eigenvectors := z.map fun A => .ok (eig A).2,
      zPermittivity := (BatchMatrices.of M).zPermittivity, inverseZPermittivity := (BatchMatrices.of M).inverseZPermittivity,
      zPermeability := (BatchMatrices.of M).zPermeability, inverseZPermeability := (BatchMatrices.of M).inverseZPermeability,
      transversePermeability := (BatchMatrices.of M).transversePermeability, tangentNdim := tan } with hout
  have hfits : LayerFits t r l out := ⟨hw, ⟨K, hk, hKt, hKr⟩, hl, rz.fits.map _, rz.fits.map _, hM.map _, hM.map _, hM.map _,
    hM.map _, hM.map _⟩
  have bw : BroadcastsTo w.shape z.shape := (b3.trans rx.right).trans rz.left
  have bK : BroadcastsTo K z.shape := by
    rw [← hkw]
    exact (b5.trans rx.right).trans rz.left
  have bM : BroadcastsTo M.shape z.shape := rx.left.trans rz.left
  have hcomplete : LayerComplete out := by
    refine ⟨rfl, bw, ?_, bM, bM, bM, bM, bM⟩
    intro K' hK'
    have e := hk.symm.trans hK'
    rw [← List.append_cancel_right e]
    exact bK
  refine ⟨out, ?_, hfits, hcomplete, bw, bK, bM, fun i hi v => ?_⟩
  · unfold numericalEigensolveBatch
    simp only [bind_eq_ok]
    refine ⟨kt, hkt, km, ekm, om, eom, x, ex, y, ey, z, ez, ?_⟩
    exact BatchLayer.build_ok hn ht hfits hcomplete htan
  · have hil := validIndex_length hi
    have hz := rz.element i hil
    rw [rx.element i hil, ry.element i hil, hkm i hil, hke i hi] at hz
    have hlat := hl.elementAt (i := i) (by rw [hil, ← hKr]; exact hKt.length_le)
    have ho := hom i hil
    rw [hke i hi] at ho
    have e1 : ∀ {β : Type} (f : FourierMatrices (Fin n) → Res β), (M.map f).elementAt i = M.elementAt i >>= f := fun _ => rfl
    have eout : out.elementAt i = (do
        let A ← z.elementAt i
        let m ← M.elementAt i
        .ok { wavelength := w.elementAt i, inPlaneWavevector := (k.elementAt (i ++ [0]), k.elementAt (i ++ [1])),
              primitiveLatticeVectors := l, expansion := G,
              eigenvalues := fun i => selectEigenvaluesSign (csqrt ((eig A).1 i)), eigenvectors := (eig A).2,
              zPermittivityMatrix := m.zPermittivity, inverseZPermittivityMatrix := m.inverseZPermittivity,
              zPermeabilityMatrix := m.zPermeability, inverseZPermeabilityMatrix := m.inverseZPermeability,
              transversePermeabilityMatrix := m.transversePermeability }) := by
      unfold BatchLayer.elementAt
      rw [hout]
      simp only [BatchMatrices.of, Batch.elementAt_map, hlat]
      cases z.elementAt i <;> cases M.elementAt i <;> rfl
    rw [eout]
    simp only [BatchMatrices.of, Batch.elementAt_map] at hz ho
    cases hMi : M.elementAt i with
    | error e =>
      rw [hMi] at hz
      have : ∀ A, z.elementAt i ≠ .ok A := by
        intro A hA
        rw [hz] at hA
        cases hA
      cases hzi : z.elementAt i with
      | error e' => simp [bind, Except.bind]
      | ok A => exact absurd hzi (this A)
    | ok m =>
      rw [hMi] at hz ho
      have main : SameOk (z.elementAt i) (do
          let k ← transverseWavevectors (k.elementAt (i ++ [0]), k.elementAt (i ++ [1])) l G
          eigenproblemMatrix (w.elementAt i) k m) := by
        intro A
        rw [hz]
        unfold eigenproblemMatrix
        have ho' : ∀ B, om.elementAt i = .ok B ↔ (do
            let k ← transverseWavevectors (k.elementAt (i ++ [0]), k.elementAt (i ++ [1])) l G
            omegaScriptKMatrixPatterned (w.elementAt i) m.zPermittivity m.transversePermeability k) = .ok B := ho
        cases hkk : transverseWavevectors (k.elementAt (i ++ [0]), k.elementAt (i ++ [1])) l G with
        | error e =>
          simp only [bind, Except.bind, reduceCtorEq, iff_false]
          cases om.elementAt i <;> simp
        | ok kk =>
          rw [hkk] at ho'
          simp only [bind, Except.bind] at ho' ⊢
          cases hob : om.elementAt i with
          | error e =>
            have : ∀ B, omegaScriptKMatrixPatterned (w.elementAt i) m.zPermittivity m.transversePermeability kk ≠ .ok B := by
              intro B hB
              rw [← ho' B, hob] at hB
              cases hB
            cases hkm' : kMatrixPatterned m.zPermeability kk with
            | error e => simp
            | ok c =>
              cases ho2 : omegaScriptKMatrixPatterned (w.elementAt i) m.zPermittivity m.transversePermeability kk with
              | error e => simp
              | ok B => exact absurd ho2 (this B)
          | ok B =>
            rw [(ho' B).1 hob]
            cases hkm' : kMatrixPatterned m.zPermeability kk with
            | error e => simp
            | ok c => simp
      unfold numericalEigensolve
      show (z.elementAt i >>= fun A => _) = .ok v ↔ _
      simp only [bind_eq_ok]
      constructor
      · rintro ⟨A, hA, m', hm', h3⟩
        cases hm'
        obtain ⟨kk, h1, h2⟩ := bind_eq_ok.1 ((main A).1 hA)
        exact ⟨m, rfl, kk, h1, A, h2, h3⟩
      · rintro ⟨m', hm', kk, h1, A, h2, h3⟩
        cases hm'
        exact ⟨A, (main A).2 (bind_eq_ok.2 ⟨kk, h1, h2⟩), m, rfl, h3⟩

end Fmmax
