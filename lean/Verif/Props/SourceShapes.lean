import Verif.Model.SourceShapes
import Verif.Spec.SourceShapes
import Verif.Props.Shapes
import Verif.Props.Profile
import Verif.Props.Sources

/-! Property theorems C82, C83: shapes and batch dimensions of fields and sources. -/

set_option linter.unusedSectionVars false

namespace Fmmax

open Spec

/-! ### C82 -/

/-- `inferBrillouinGridShape` succeeds exactly with the shape of the Brillouin grid; otherwise ValueError or IndexError is raised. -/
theorem inferBrillouinGridShape_iff (axes : Option (ℤ × ℤ)) (rank : ℕ) (batch : List ℕ) :
    (∀ grid, inferBrillouinGridShape axes rank batch = .ok grid ↔ IsGridShape axes rank batch grid) ∧
      ((∃ grid, inferBrillouinGridShape axes rank batch = .ok grid) ∨ inferBrillouinGridShape axes rank batch = .error .valueError ∨
        inferBrillouinGridShape axes rank batch = .error .indexError) := by
  rcases axes with _ | ⟨i, j⟩
  · refine ⟨fun grid => ?_, Or.inl ⟨_, rfl⟩⟩
    simp only [inferBrillouinGridShape, IsGridShape, ok_inj, eq_comm]
  rcases C68_rejects [i, j] rank with ⟨out, hout⟩ | herr
  · obtain ⟨h1, h2, h3⟩ := (C68_absolute_axes _ _ _).1 hout
    simp only [List.map_cons, List.map_nil] at h2
    subst h2
    have hi := h1 i (by simp)
    have hj := h1 j (by simp)
    simp only [List.nodup_cons, List.mem_singleton, List.not_mem_nil, not_false_eq_true, List.nodup_nil, and_true] at h3
    generalize ha : (if i < 0 then i + (rank : ℤ) else i) = a at *
    generalize hb : (if j < 0 then j + (rank : ℤ) else j) = b at *
    have ha0 : 0 ≤ a ∧ a < rank ∧ (i = a ∨ i = a - rank) := by split_ifs at ha <;> omega
    have hb0 : 0 ≤ b ∧ b < rank ∧ (j = b ∨ j = b - rank) := by split_ifs at hb <;> omega
    have huniq : ∀ c : ℕ, c < rank → (i = c ∨ i = (c : ℤ) - rank) → c = a.toNat := by
      intro c hc h; split_ifs at ha <;> omega
    have huniq' : ∀ c : ℕ, c < rank → (j = c ∨ j = (c : ℤ) - rank) → c = b.toNat := by
      intro c hc h; split_ifs at hb <;> omega
    have hval : inferBrillouinGridShape (some (i, j)) rank batch =
        match batch[a.toNat]?, batch[b.toNat]? with
        | some m, some n => .ok (m, n)
        | _, _ => .error .indexError := by
      simp only [inferBrillouinGridShape, hout, Bind.bind, Except.bind]
      rcases batch[a.toNat]? with _ | m <;> rcases batch[b.toNat]? with _ | n <;> rfl
    rw [hval]
    constructor
    · intro grid
      constructor
      · intro h
        rcases hm : batch[a.toNat]? with _ | m
        · rw [hm] at h; simp at h
        rcases hn : batch[b.toNat]? with _ | n
        · rw [hm, hn] at h; simp at h
        rw [hm, hn] at h
        simp only [ok_inj] at h
        subst h
        exact ⟨a.toNat, b.toNat, by omega, by omega, by omega, by omega, by omega, hm, hn⟩
      · rintro ⟨c, d, -, hc, hd, hic, hjd, hm, hn⟩
        rw [huniq c hc hic] at hm
        rw [huniq' d hd hjd] at hn
        rw [hm, hn]
    · rcases batch[a.toNat]? with _ | m
      · exact Or.inr (Or.inr rfl)
      rcases batch[b.toNat]? with _ | n
      · exact Or.inr (Or.inr rfl)
      · exact Or.inl ⟨_, rfl⟩
  · have hval : inferBrillouinGridShape (some (i, j)) rank batch = .error .valueError := by
      simp only [inferBrillouinGridShape, herr, Bind.bind, Except.bind]
    rw [hval]
    refine ⟨fun grid => ⟨fun h => (by simp at h), ?_⟩, Or.inr (Or.inl rfl)⟩
    rintro ⟨a, b, hab, ha, hb, hi, hj, -⟩
    have : absoluteAxes [i, j] rank = .ok [(a : ℤ), (b : ℤ)] := by
      rw [C68_absolute_axes]
      refine ⟨?_, ?_, ?_⟩
      · intro x hx
        simp only [List.mem_cons, List.not_mem_nil, or_false] at hx
        rcases hx with rfl | rfl <;> omega
      · simp only [List.map_cons, List.map_nil, List.cons.injEq, and_true]
        constructor <;> split_ifs <;> omega
      · simp; omega
    rw [this] at herr
    simp at herr

/-- **C82** `amplitudes_for_fields` accepts fields exactly if all have the same shape, the batch axes of which can be broadcast with
those of the layer, and the grid of the fields is divided into unit cells by the Brillouin grid, which is that of the layer along the
given axes.  All other shapes raise ValueError or IndexError. -/
theorem C82_field_shapes (ex ey hx hy batch : List ℕ) (axes : Option (ℤ × ℤ)) (hex : ∀ n ∈ ex, 0 < n) (hb : ∀ n ∈ batch, 0 < n) :
    (∀ grid cell, fieldGridShapes ex ey hx hy batch axes = .ok (grid, cell) ↔
      ∃ lead fields, ex = lead ++ [grid.1 * cell.1, grid.2 * cell.2, fields] ∧ ey = ex ∧ hx = ex ∧ hy = ex ∧
        Broadcastable [batch, lead] ∧ IsGridShape axes ex.length batch grid) ∧
      ((∃ r, fieldGridShapes ex ey hx hy batch axes = .ok r) ∨ fieldGridShapes ex ey hx hy batch axes = .error .valueError ∨
        fieldGridShapes ex ey hx hy batch axes = .error .indexError) := by
  by_cases h0 : ¬(ex = ey ∧ ey = hx ∧ hx = hy) ∨ ex.length < 3
  · unfold fieldGridShapes
    rw [if_pos h0]
    refine ⟨fun grid cell => ⟨fun h => (by simp at h), ?_⟩, Or.inr (Or.inl rfl)⟩
    rintro ⟨lead, fields, h1, rfl, rfl, rfl, -⟩
    rw [h1] at h0
    simp at h0
  push Not at h0
  obtain ⟨⟨rfl, rfl, rfl⟩, hlen⟩ := h0
  obtain ⟨lead, nx, ny, nf, rfl⟩ : ∃ lead nx ny nf, ex = lead ++ [nx, ny, nf] := by
    have hl : (ex.drop (ex.length - 3)).length = 3 := by simp; omega
    obtain ⟨a, b, c, h⟩ := List.length_eq_three.1 hl
    exact ⟨ex.take (ex.length - 3), a, b, c, by rw [← h, List.take_append_drop]⟩
  have hd : dropLastN 3 (lead ++ [nx, ny, nf]) = lead := by
    unfold dropLastN
    exact List.take_left' (by simp)
  have hx : (lead ++ [nx, ny, nf]).getD ((lead ++ [nx, ny, nf]).length - 3) 0 = nx := by
    rw [List.getD_append_right _ _ _ _ (by simp)]; simp
  have hy : (lead ++ [nx, ny, nf]).getD ((lead ++ [nx, ny, nf]).length - 2) 0 = ny := by
    rw [List.getD_append_right _ _ _ _ (by simp)]; simp
  obtain ⟨c, hc, hcb⟩ := C67_batch_compatible [batch, lead, lead, lead, lead] (by simp) (by
    intro s hs n hn
    simp only [List.mem_cons, List.not_mem_nil, or_false] at hs
    rcases hs with rfl | rfl | rfl | rfl | rfl
    · exact hb n hn
    all_goals exact hex n (List.mem_append_left _ hn))
  have hcb' : c = true ↔ Broadcastable [batch, lead] := by
    rw [hcb]
    exact exists_congr fun t => by simp
  have hval : fieldGridShapes (lead ++ [nx, ny, nf]) (lead ++ [nx, ny, nf]) (lead ++ [nx, ny, nf]) (lead ++ [nx, ny, nf]) batch axes =
      if ¬c then .error .valueError else (inferBrillouinGridShape axes (lead ++ [nx, ny, nf]).length batch).bind fun grid =>
        if grid.1 = 0 then .error .zeroDivision
        else if nx % grid.1 ≠ 0 then .error .valueError
        else if grid.2 = 0 then .error .zeroDivision
        else if ny % grid.2 ≠ 0 then .error .valueError
        else .ok (grid, (nx / grid.1, ny / grid.2)) := by
    unfold fieldGridShapes
    rw [if_neg (by simp)]
    simp only [hd, hc, hx, hy, Bind.bind, Except.bind]
  rw [hval]
  rcases Bool.eq_false_or_eq_true c with rfl | rfl
  swap
  · refine ⟨fun grid cell => ⟨fun h => by simp at h, ?_⟩, Or.inr (Or.inl (by simp))⟩
    rintro ⟨lead', fields, h1, -, -, -, h2, -⟩
    obtain ⟨rfl, -⟩ := List.append_inj' h1 rfl
    exact absurd (hcb'.2 h2) (by simp)
  rw [if_neg (by simp)]
  have hB := hcb'.1 rfl
  obtain ⟨hg1, hg2⟩ := inferBrillouinGridShape_iff axes (lead ++ [nx, ny, nf]).length batch
  have hpos : ∀ grid, IsGridShape axes (lead ++ [nx, ny, nf]).length batch grid → grid.1 ≠ 0 ∧ grid.2 ≠ 0 := by
    intro grid h
    rcases axes with _ | ⟨i, j⟩
    · cases h; simp
    · obtain ⟨a, b, -, -, -, -, -, h1, h2⟩ := h
      exact ⟨(hb _ (List.mem_of_getElem? h1)).ne', (hb _ (List.mem_of_getElem? h2)).ne'⟩
  have inj : ∀ {lead' : List ℕ} {a b c : ℕ}, lead ++ [nx, ny, nf] = lead' ++ [a, b, c] → lead = lead' ∧ nx = a ∧ ny = b := by
    intro lead' a b c h
    obtain ⟨h1, h2⟩ := List.append_inj' h rfl
    simp only [List.cons.injEq] at h2
    exact ⟨h1, h2.1, h2.2.1⟩
  rcases hg2 with ⟨g, hg⟩ | hg | hg
  · have hg' := (hg1 g).1 hg
    obtain ⟨p1, p2⟩ := hpos g hg'
    rw [hg]
    simp only [Except.bind, if_neg p1, if_neg p2]
    have huniq : ∀ grid, IsGridShape axes (lead ++ [nx, ny, nf]).length batch grid → grid = g := by
      intro grid h
      have := (hg1 grid).2 h
      rw [hg, ok_inj] at this
      exact this.symm
    constructor
    · intro grid cell
      constructor
      · intro h
        split_ifs at h with h1 h2
        · push Not at h1 h2
          rw [ok_inj, Prod.mk.injEq] at h
          obtain ⟨rfl, rfl⟩ := h
          exact ⟨lead, nf, by rw [Nat.mul_div_cancel' (Nat.dvd_of_mod_eq_zero h1), Nat.mul_div_cancel' (Nat.dvd_of_mod_eq_zero h2)],
            trivial, trivial, trivial, hB, hg'⟩
      · rintro ⟨lead', fields, h1, -, -, -, -, h2⟩
        obtain ⟨-, e1, e2⟩ := inj h1
        obtain rfl := huniq grid h2
        rw [if_neg (by rw [e1]; simp), if_neg (by rw [e2]; simp), e1, e2, Nat.mul_div_cancel_left _ (Nat.pos_of_ne_zero p1),
          Nat.mul_div_cancel_left _ (Nat.pos_of_ne_zero p2)]
    · by_cases h1 : nx % g.1 ≠ 0
      · exact Or.inr (Or.inl (if_pos h1))
      by_cases h2 : ny % g.2 ≠ 0
      · rw [if_neg h1]; exact Or.inr (Or.inl (if_pos h2))
      · rw [if_neg h1, if_neg h2]; exact Or.inl ⟨_, rfl⟩
  all_goals
    rw [hg]
    refine ⟨fun grid cell => ⟨fun h => by simp [Except.bind] at h, ?_⟩, by simp [Except.bind]⟩
    rintro ⟨lead', fields, h1, -, -, -, -, h2⟩
    rw [(hg1 grid).2 h2] at hg
    simp at hg

/-- A layer solved for three wavelengths on a 4 x 2 Brillouin grid, fields on a 4 x 2 supercell of 5 x 6 unit cells. -/
example : fieldGridShapes [1, 1, 1, 20, 12, 7] [1, 1, 1, 20, 12, 7] [1, 1, 1, 20, 12, 7] [1, 1, 1, 20, 12, 7] [3, 4, 2] (some (1, 2)) =
    .ok ((4, 2), (5, 6)) := by
  refine ((C82_field_shapes _ _ _ _ _ _ (by simp) (by simp)).1 (4, 2) (5, 6)).2 ⟨[1, 1, 1], 7, rfl, rfl, rfl, rfl, ⟨[3, 4, 2], ?_⟩,
    1, 2, by simp, by simp, by simp, by simp, by simp, by simp, by simp⟩
  intro s hs
  simp only [List.mem_cons, List.not_mem_nil, or_false] at hs
  rcases hs with rfl | rfl <;> exact ⟨[], [3, 4, 2], rfl, by simp⟩

/-- **C82, finding** The documentation calls `brillouin_grid_axes` batch axes, but negative axes are counted from the end of the fields,
which have three further axes: for fields with all the batch axes of the layer, `(-2, -1)` always raises IndexError. -/
theorem C82_finding_negative_axes (shape batch : List ℕ) (hlen : shape.length = batch.length + 3) :
    inferBrillouinGridShape (some (-2, -1)) shape.length batch = .error .indexError := by
  have hout : absoluteAxes [-2, -1] shape.length = .ok [(shape.length : ℤ) - 2, (shape.length : ℤ) - 1] := by
    rw [C68_absolute_axes]
    refine ⟨?_, ?_, ?_⟩
    · intro x hx
      simp only [List.mem_cons, List.not_mem_nil, or_false] at hx
      rcases hx with rfl | rfl <;> omega
    · simp only [List.map_cons, List.map_nil, List.cons.injEq, and_true]
      constructor <;> rw [if_pos (by norm_num)] <;> omega
    · simp
  simp only [inferBrillouinGridShape, hout, Bind.bind, Except.bind]
  rw [List.getElem?_eq_none (by omega)]

/-- **C82, finding** Fields that can be broadcast with the batch axes of the layer are rejected if an axis of the grid is not smaller
than the rank of the fields. -/
theorem C82_finding_broadcast_rejected : Broadcastable [[2, 5, 4, 4], []] ∧
    fieldGridShapes [8, 8, 1] [8, 8, 1] [8, 8, 1] [8, 8, 1] [2, 5, 4, 4] (some (2, 3)) = .error .valueError ∧
    fieldGridShapes [1, 8, 8, 1] [1, 8, 8, 1] [1, 8, 8, 1] [1, 8, 8, 1] [2, 5, 4, 4] (some (2, 3)) = .ok ((4, 4), (2, 2)) := by
  refine ⟨⟨[2, 5, 4, 4], ?_⟩, by decide, by decide⟩
  intro s hs
  simp only [List.mem_cons, List.not_mem_nil, or_false] at hs
  rcases hs with rfl | rfl
  · exact ⟨[], [2, 5, 4, 4], rfl, by simp⟩
  · exact ⟨[2, 5, 4, 4], [], rfl, by simp⟩

/-! ### C83 -/

variable {n m S : ℕ} {B : List ℕ}

theorem NDArray.elementAt_of_valid {α : Type} {a : NDArray α} {i : List ℕ} (h : ValidIndex a.shape i) : a.elementAt i = a.get i := by
  unfold NDArray.elementAt; rw [broadcastIndex_of_valid h]

theorem validIndex_append_two {b : List ℕ} (hb : ValidIndex B b) {t s : ℕ} (ht : t < n) (hs : s < S) :
    ValidIndex (B ++ [n, S]) (b ++ [t, s]) :=
  List.rel_append hb (.cons ht (.cons hs .nil))

/-- The terms shared by point and Gaussian sources. -/
theorem pointSourceTerms_eq {location inPlane u v : NDArray ℝ} (hloc : location.shape = [S, 2]) (hi : inPlane.shape = B ++ [2])
    (hu : u.shape = List.replicate m 1 ++ [2]) (hv : v.shape = List.replicate m 1 ++ [2]) (hm : m ≤ B.length + 1)
    (hl : Independent (latticeAt u v (List.replicate m 0)).u (latticeAt u v (List.replicate m 0)).v) (G : Fin n → ℤ × ℤ) :
    ∃ kx ky coeffs, pointSourceTerms location inPlane u v G = .ok (kx, ky, coeffs) ∧ kx.shape = B ++ [n, 1] ∧ ky.shape = B ++ [n, 1] ∧
      coeffs.shape = B ++ [n, S] ∧
      ∀ b, ValidIndex B b → ∃ kt, transverseWavevectors (inPlane.get (b ++ [0]), inPlane.get (b ++ [1]))
          (latticeAt u v (List.replicate m 0)) G = .ok kt ∧
        ∀ (t : Fin n) (s : Fin S), kx.elementAt (b ++ [(t : ℕ), (s : ℕ)]) = (kt t).1 ∧ ky.elementAt (b ++ [(t : ℕ), (s : ℕ)]) = (kt t).2 ∧
          coeffs.get (b ++ [(t : ℕ), (s : ℕ)]) = Complex.exp (-Complex.I * ((kt t).1 * location.get [(s : ℕ), 0] +
            (kt t).2 * location.get [(s : ℕ), 1] : ℝ)) := by
  obtain ⟨k, hk, hks, hkg⟩ := transverseWavevectorsBatch_eq hi hu hv hm hl G
  have hshape : ∀ c, ((k.selectLast c).expandLast).shape = B ++ [n, 1] := by
    intro c
    simp only [NDArray.expandLast, NDArray.selectLast, hks]
    rw [show B ++ [n, 2] = (B ++ [n]) ++ [2] by simp, List.dropLast_concat]
    simp
  have hbt : BroadcastsTo (B ++ [n, 1]) (B ++ [n, S]) :=
    (BroadcastsTo.refl B).append (.cons (Or.inr rfl) (.cons (Or.inl rfl) .nil))
  have hcs : ∀ c, (location.column c).shape = [S] := by intro c; simp [NDArray.column, hloc]
  have hxt : BroadcastsTo [S] (B ++ [n, S]) := ⟨B ++ [n], [S], by simp, by simp⟩
  obtain ⟨p1, e1, b1, s1, g1⟩ := zipWith_elementAt (fun x y : ℝ => x * y) (a := (k.selectLast 0).expandLast) (b := location.column 0)
    (t := B ++ [n, S]) (by rw [hshape]; exact hbt) (by rw [hcs]; exact hxt)
  obtain ⟨p2, e2, b2, s2, g2⟩ := zipWith_elementAt (fun x y : ℝ => x * y) (a := (k.selectLast 1).expandLast) (b := location.column 1)
    (t := B ++ [n, S]) (by rw [hshape]; exact hbt) (by rw [hcs]; exact hxt)
  have hps : broadcastShapes (B ++ [n, 1]) [S] = some (B ++ [n, S]) := by
    unfold broadcastShapes
    simp only [List.reverse_append, List.reverse_cons, List.reverse_nil, List.nil_append, List.cons_append, broadcastRev]
    split_ifs with h
    · simp [h]
    · simp
  rw [hshape, hcs, hps, Option.some.injEq] at s1 s2
  obtain ⟨p3, e3, b3, s3, g3⟩ := zipWith_elementAt (fun x y : ℝ => x + y) (a := p1) (b := p2) (t := B ++ [n, S]) b1 b2
  rw [← s1, ← s2, broadcastShapes_self, Option.some.injEq] at s3
  refine ⟨(k.selectLast 0).expandLast, (k.selectLast 1).expandLast, p3.map fun p : ℝ => Complex.exp (-Complex.I * (p : ℂ)), ?_,
    hshape 0, hshape 1, s3.symm, fun b hb => ?_⟩
  · unfold pointSourceTerms
    simp only [hk, e1, e2, e3, Bind.bind, Except.bind]
  · obtain ⟨kt, h1, h2⟩ := hkg b hb
    refine ⟨kt, h1, fun t s => ?_⟩
    have hlen : (b ++ [(t : ℕ), (s : ℕ)]).length = (B ++ [n, S]).length := by
      have : b.length = B.length := List.Forall₂.length_eq hb
      simp [this]
    have hv' : ValidIndex (B ++ [n, S]) (b ++ [(t : ℕ), (s : ℕ)]) := validIndex_append_two hb t.2 s.2
    have hk' : ∀ c, ((k.selectLast c).expandLast).elementAt (b ++ [(t : ℕ), (s : ℕ)]) = k.get (b ++ [(t : ℕ), c]) := by
      intro c
      unfold NDArray.elementAt
      rw [hshape, show B ++ [n, 1] = (B ++ [n]) ++ [1] by simp, show b ++ [(t : ℕ), (s : ℕ)] = (b ++ [(t : ℕ)]) ++ [(s : ℕ)] by simp,
        broadcastIndex_append (by simp [List.Forall₂.length_eq hb]) (by simp), broadcastIndex_one,
        broadcastIndex_of_valid (List.rel_append hb (.cons t.2 .nil))]
      simp [NDArray.expandLast, NDArray.selectLast]
    have hx' : ∀ c, (location.column c).elementAt (b ++ [(t : ℕ), (s : ℕ)]) = location.get [(s : ℕ), c] := by
      intro c
      unfold NDArray.elementAt
      rw [hcs, show b ++ [(t : ℕ), (s : ℕ)] = (b ++ [(t : ℕ)]) ++ [(s : ℕ)] by simp, broadcastIndex_lead (by simp),
        broadcastIndex_single s.2]
      simp [NDArray.column]
    refine ⟨(hk' 0).trans (h2 t).1, (hk' 1).trans (h2 t).2, ?_⟩
    show Complex.exp (-Complex.I * (p3.get _ : ℂ)) = _
    have := g3 _ hlen
    rw [NDArray.elementAt_of_valid (by rw [← s3]; exact hv'), g1 _ hlen, g2 _ hlen, hk', hk', hx', hx', (h2 t).1, (h2 t).2] at this
    rw [this]

theorem validateSourceShapes_ok {location inPlane : List ℕ} (hloc : location = [S, 2]) (hi : inPlane = B ++ [2]) :
    validateSourceShapes location inPlane = .ok () := by
  subst hloc; subst hi
  simp [validateSourceShapes]

/-- **C83** For in-plane wavevectors with any batch shape, `dirac_delta_source` has shape `batch + (num_terms, num_sources)` and gives
for each batch element the coefficients for its in-plane wavevector. -/
theorem C83_dirac_batch {location inPlane u v : NDArray ℝ} (hloc : location.shape = [S, 2]) (hi : inPlane.shape = B ++ [2])
    (hu : u.shape = List.replicate m 1 ++ [2]) (hv : v.shape = List.replicate m 1 ++ [2]) (hm : m ≤ B.length + 1)
    (l : LatticeVectors) (hl : latticeAt u v (List.replicate m 0) = l) (hind : Independent l.u l.v) (G : Fin n → ℤ × ℤ) :
    ∃ out, diracDeltaSourceBatch location inPlane u v G = .ok out ∧ out.shape = B ++ [n, S] ∧
      ∀ b, ValidIndex B b → diracDeltaSource (fun s : Fin S => (location.get [(s : ℕ), 0], location.get [(s : ℕ), 1]))
        (inPlane.get (b ++ [0]), inPlane.get (b ++ [1])) l G = .ok (Matrix.of fun t s => out.get (b ++ [(t : ℕ), (s : ℕ)])) := by
  subst hl
  obtain ⟨kx, ky, c, h1, -, -, h2, h3⟩ := pointSourceTerms_eq hloc hi hu hv hm hind G
  refine ⟨c, ?_, h2, fun b hb => ?_⟩
  · unfold diracDeltaSourceBatch
    simp only [validateSourceShapes_ok hloc hi, h1, Bind.bind, Except.bind]
  · obtain ⟨kt, h4, h5⟩ := h3 b hb
    unfold diracDeltaSource
    rw [h4]
    refine congrArg Except.ok ?_
    ext t s
    simp only [Matrix.of_apply, (h5 t s).2.2, kxOf, kyOf]
    push_cast
    rfl

/-- **C83** `gaussian_source` likewise, for widths of any shape that can be broadcast to that of the result. -/
theorem C83_gaussian_batch {fwhm location inPlane u v : NDArray ℝ} (hloc : location.shape = [S, 2]) (hi : inPlane.shape = B ++ [2])
    (hu : u.shape = List.replicate m 1 ++ [2]) (hv : v.shape = List.replicate m 1 ++ [2]) (hm : m ≤ B.length + 1)
    (l : LatticeVectors) (hl : latticeAt u v (List.replicate m 0) = l) (hind : Independent l.u l.v) (G : Fin n → ℤ × ℤ)
    (hf : BroadcastsTo fwhm.shape (B ++ [n, S])) :
    ∃ out, gaussianSourceBatch fwhm location inPlane u v G = .ok out ∧ out.shape = B ++ [n, S] ∧
      ∀ b, ValidIndex B b → ∀ (t : Fin n) (s : Fin S), ∃ c,
        gaussianSource (fwhm.elementAt (b ++ [(t : ℕ), (s : ℕ)])) (fun s : Fin S => (location.get [(s : ℕ), 0], location.get [(s : ℕ), 1]))
          (inPlane.get (b ++ [0]), inPlane.get (b ++ [1])) l G = .ok c ∧ out.get (b ++ [(t : ℕ), (s : ℕ)]) = c t s := by
  subst hl
  obtain ⟨kx, ky, c, h1, hkx, hky, h2, h3⟩ := pointSourceTerms_eq hloc hi hu hv hm hind G
  have hbt : BroadcastsTo (B ++ [n, 1]) (B ++ [n, S]) :=
    (BroadcastsTo.refl B).append (.cons (Or.inr rfl) (.cons (Or.inl rfl) .nil))
  obtain ⟨p1, e1, b1, s1, g1⟩ := zipWith_elementAt (fun x y : ℝ => x + y) (a := kx.map (· ^ 2)) (b := ky.map (· ^ 2))
    (t := B ++ [n, S]) (by simpa [NDArray.map, hkx] using hbt) (by simpa [NDArray.map, hky] using hbt)
  obtain ⟨p2, e2, b2, s2, g2⟩ := zipWith_elementAt (fun x y : ℝ => x * y)
    (a := (fwhm.map fun f => f / (2 * Real.sqrt (2 * Real.log 2))).map fun s => -(s ^ 2)) (b := p1)
    (t := B ++ [n, S]) hf b1
  obtain ⟨p3, e3, b3, s3, g3⟩ := zipWith_elementAt (fun x y : ℂ => x * y) (a := c)
    (b := p2.map fun e => Complex.exp ((e / 2 : ℝ) : ℂ)) (t := B ++ [n, S]) (by rw [h2]; exact BroadcastsTo.refl _) b2
  have hs3 : p3.shape = B ++ [n, S] := by
    rw [h2, broadcastShapes_of_broadcastsTo' (show BroadcastsTo (p2.map fun e => Complex.exp ((e / 2 : ℝ) : ℂ)).shape (B ++ [n, S]) from b2),
      Option.some.injEq] at s3
    exact s3.symm
  refine ⟨p3, ?_, hs3, fun b hb t s => ?_⟩
  · unfold gaussianSourceBatch
    simp only [validateSourceShapes_ok hloc hi, h1, e1, e2, e3, Bind.bind, Except.bind]
  · obtain ⟨kt, h4, h5⟩ := h3 b hb
    unfold gaussianSource
    rw [h4]
    refine ⟨_, rfl, ?_⟩
    have hlen : (b ++ [(t : ℕ), (s : ℕ)]).length = (B ++ [n, S]).length := by
      have : b.length = B.length := List.Forall₂.length_eq hb
      simp [this]
    have hv' : ValidIndex (B ++ [n, S]) (b ++ [(t : ℕ), (s : ℕ)]) := validIndex_append_two hb t.2 s.2
    have := g3 _ hlen
    rw [NDArray.elementAt_of_valid (by rw [hs3]; exact hv'), NDArray.elementAt_of_valid (by rw [h2]; exact hv')] at this
    rw [this, (h5 t s).2.2]
    have e4 : (p2.map fun e => Complex.exp ((e / 2 : ℝ) : ℂ)).elementAt (b ++ [(t : ℕ), (s : ℕ)]) =
        Complex.exp ((p2.elementAt (b ++ [(t : ℕ), (s : ℕ)]) / 2 : ℝ) : ℂ) := rfl
    have e5 : (kx.map (· ^ 2)).elementAt (b ++ [(t : ℕ), (s : ℕ)]) = kx.elementAt (b ++ [(t : ℕ), (s : ℕ)]) ^ 2 := rfl
    have e6 : (ky.map (· ^ 2)).elementAt (b ++ [(t : ℕ), (s : ℕ)]) = ky.elementAt (b ++ [(t : ℕ), (s : ℕ)]) ^ 2 := rfl
    have e7 : ((fwhm.map fun f => f / (2 * Real.sqrt (2 * Real.log 2))).map fun s => -(s ^ 2)).elementAt (b ++ [(t : ℕ), (s : ℕ)]) =
      -((fwhm.elementAt (b ++ [(t : ℕ), (s : ℕ)]) / (2 * Real.sqrt (2 * Real.log 2))) ^ 2) := rfl
    rw [e4, g2 _ hlen, g1 _ hlen, e5, e6, e7, (h5 t s).1, (h5 t s).2.1]
    simp only [Matrix.of_apply, kxOf, kyOf]
    push_cast
    rfl

/-- **C83** Locations that do not have shape `(num_sources, 2)`, and in-plane wavevectors of other than two components, raise ValueError. -/
theorem C83_rejects (fwhm location inPlane u v : NDArray ℝ) (G : Fin n → ℤ × ℤ) (hk : inPlane.shape ≠ [])
    (h : (¬∃ S, location.shape = [S, 2]) ∨ ¬∃ B, inPlane.shape = B ++ [2]) :
    diracDeltaSourceBatch location inPlane u v G = .error .valueError ∧
      gaussianSourceBatch fwhm location inPlane u v G = .error .valueError := by
  have hbad : validateSourceShapes location.shape inPlane.shape = .error .valueError := by
    unfold validateSourceShapes
    by_cases h0 : location.shape.length ≠ 2 ∨ location.shape.getLast? ≠ some 2
    · rw [if_pos h0]
    rw [if_neg h0]
    push Not at h0
    obtain ⟨a, b, hab⟩ := List.length_eq_two.1 h0.1
    have hb := h0.2
    rw [hab] at hb
    simp at hb
    obtain ⟨C, d, hC⟩ : ∃ C d, inPlane.shape = C ++ [d] := ⟨_, _, (List.dropLast_append_getLast hk).symm⟩
    rcases h with h | h
    · exact absurd ⟨a, by rw [hab, hb]⟩ h
    · rw [hC, List.getLast?_append]
      simp only [List.getLast?_singleton, Option.some_or]
      rw [if_pos]
      rintro rfl
      exact h ⟨C, hC⟩
  unfold diracDeltaSourceBatch gaussianSourceBatch
  simp only [hbad, Bind.bind, Except.bind, and_self]

/-- Two sources, three in-plane wavevectors, five orders on an oblique lattice; one width for each source. -/
example : ∃ out, gaussianSourceBatch ⟨[2], fun i => i.getD 0 0⟩ ⟨[2, 2], fun i => i.getD 0 0⟩ ⟨[3, 2], fun i => i.getD 0 0⟩ ⟨[2], fun i => if i.getLastD 0 = 0 then 2 else 1⟩
    ⟨[2], fun i => if i.getLastD 0 = 0 then 0 else 3⟩ plusOrders = .ok out ∧ out.shape = [3, 5, 2] := by
  obtain ⟨out, h1, h2, -⟩ := C83_gaussian_batch (m := 0) (B := [3]) (S := 2) (fwhm := ⟨[2], fun i => (i.getD 0 0 : ℝ)⟩)
    (location := ⟨[2, 2], fun i => (i.getD 0 0 : ℝ)⟩) (inPlane := ⟨[3, 2], fun i => (i.getD 0 0 : ℝ)⟩)
    (u := ⟨[2], fun i => if i.getLastD 0 = 0 then 2 else 1⟩) (v := ⟨[2], fun i => if i.getLastD 0 = 0 then 0 else 3⟩) rfl rfl rfl rfl
    (by simp) ⟨(2, 1), (0, 3)⟩ (by simp [latticeAt]) (by norm_num [Independent]) plusOrders ⟨[3, 5], [2], rfl, by simp⟩
  exact ⟨out, h1, h2⟩

end Fmmax
