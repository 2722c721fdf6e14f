import Verif.Model.Basis
import Verif.Spec.Lattice
import Verif.Proofs.Layer
import Verif.Proofs.NDArray
import Mathlib.Tactic.FieldSimp
import Mathlib.Analysis.SpecialFunctions.Complex.Log
import Mathlib.Tactic.Ring
import Mathlib.Tactic.NormNum
import Mathlib.Data.List.GetD

/-! Property theorems C01, C02, C12, C14: lattices and wavevectors. -/

set_option linter.unusedSectionVars false

namespace Fmmax

open Spec

/-! ### C01 -/

/-- **C01** The reciprocal of independent vectors is the dual basis, and it is an involution. -/
theorem C01_reciprocal_dual (l : LatticeVectors) (h : Independent l.u l.v) :
    ∃ r, reciprocal l = .ok r ∧
      dot r.u l.u = 1 ∧ dot r.u l.v = 0 ∧ dot r.v l.u = 0 ∧ dot r.v l.v = 1 ∧
      reciprocal r = .ok l := by
  unfold Independent at h
  have hc : crossProduct l.u l.v ≠ 0 := h
  refine ⟨_, reciprocal_eq_ok.2 ⟨hc, rfl⟩, ?_⟩
  obtain ⟨⟨a, b⟩, ⟨c, d⟩⟩ := l
  simp only
  obtain ⟨D, hD⟩ : ∃ D, crossProduct (a, b) (c, d) = D := ⟨_, rfl⟩
  rw [hD] at hc ⊢
  have hD' : a * d - b * c = D := hD
  simp only [dot]
  refine ⟨?_, ?_, ?_, ?_, ?_⟩
  · field_simp
    linear_combination hD'
  · field_simp
    ring
  · field_simp
    ring
  · field_simp
    linear_combination hD'
  · rw [reciprocal_eq_ok]
    have e : crossProduct (d / D, -c / D) (-b / D, a / D) = 1 / D := by
      simp only [crossProduct]
      field_simp
      linear_combination hD'
    simp only [e]
    refine ⟨one_div_ne_zero hc, ?_⟩
    ext <;> simp <;> field_simp

/-- Converse part: for dependent vectors the result is not finite. -/
theorem C01_reciprocal_dependent (l : LatticeVectors) (h : ¬ Independent l.u l.v) :
    reciprocal l = .error .nonFinite := by
  unfold Independent at h
  push Not at h
  unfold reciprocal
  have h' : crossProduct l.u l.v = 0 := h
  simp only [h', if_true]

/-- A hexagonal-like oblique cell. -/
example : Independent ((2, 0) : ℝ × ℝ) (1, 3) := by norm_num [Independent]

/-! ### C02 -/

/-- `u`, `v` hold, at batch index `idx`, the lattice vectors `latticeAt u v idx`. -/
def latticeAt (u v : NDArray ℝ) (idx : List ℕ) : LatticeVectors :=
  { u := (u.get (idx ++ [0]), u.get (idx ++ [1])), v := (v.get (idx ++ [0]), v.get (idx ++ [1])) }

/-- What C02 asks of lattice vectors with batch shape `batch`: the reciprocal is computed per batch element. -/
def ReciprocalPerElement (batch : List ℕ) : Prop :=
  ∀ u v : NDArray ℝ, u.shape = batch ++ [2] → v.shape = batch ++ [2] →
    (∀ idx, idx.length = batch.length → (∀ i (h : i < idx.length) (h' : i < batch.length), idx[i] < batch[i]) →
      Independent (latticeAt u v idx).u (latticeAt u v idx).v) →
    ∃ u' v', reciprocalBatch u v = .ok (u', v') ∧ u'.shape = batch ++ [2] ∧ v'.shape = batch ++ [2] ∧
      ∀ idx, idx.length = batch.length → (∀ i (h : i < idx.length) (h' : i < batch.length), idx[i] < batch[i]) →
        reciprocal (latticeAt u v idx) = .ok (latticeAt u' v' idx)

theorem zipWith_same {α β γ : Type} (f : α → β → γ) (a : NDArray α) (b : NDArray β) (h : a.shape = b.shape) :
    a.zipWith f b = .ok ⟨a.shape, fun idx =>
      f (a.get (broadcastIndex a.shape idx)) (b.get (broadcastIndex a.shape idx))⟩ := by
  unfold NDArray.zipWith
  rw [← h, broadcastShapes_self]

theorem broadcastIndex_of_lt (shape idx : List ℕ) (hl : idx.length = shape.length)
    (h : ∀ i (h : i < idx.length) (h' : i < shape.length), idx[i] < shape[i]) :
    broadcastIndex shape idx = idx := by
  unfold broadcastIndex
  rw [hl, Nat.sub_self, List.drop_zero]
  apply List.ext_getElem
  · simp [hl]
  · intro i h1 h2
    simp only [List.getElem_map, List.getElem_zip]
    split_ifs with h3
    · have := h i h2 (by omega)
      omega
    · rfl

/-- The reciprocal of a batch of any shape, before the division. -/
theorem reciprocalBatch_eq {batch : List ℕ} {u v : NDArray ℝ} (hu : u.shape = batch ++ [2])
    (hv : v.shape = batch ++ [2]) :
    reciprocalBatch u v = (do
      let c : NDArray ℝ := ⟨batch, fun idx =>
        u.get (broadcastIndex batch (broadcastIndex batch idx) ++ [0]) *
          v.get (broadcastIndex batch (broadcastIndex batch idx) ++ [1]) -
        u.get (broadcastIndex batch (broadcastIndex batch idx) ++ [1]) *
          v.get (broadcastIndex batch (broadcastIndex batch idx) ++ [0])⟩
      let a : NDArray ℝ := ⟨batch ++ [2], fun idx =>
        if idx.getLastD 0 = 0 then v.get (idx.dropLast ++ [1]) else -v.get (idx.dropLast ++ [0])⟩
      let up ← a.div c
      let b : NDArray ℝ := ⟨batch ++ [2], fun idx =>
        if idx.getLastD 0 = 0 then -u.get (idx.dropLast ++ [1]) else u.get (idx.dropLast ++ [0])⟩
      let vp ← b.div c
      .ok (up, vp)) := by
  have hs : ∀ k, (u.selectLast k).shape = batch := fun k => by simp [NDArray.selectLast, hu]
  have hs' : ∀ k, (v.selectLast k).shape = batch := fun k => by simp [NDArray.selectLast, hv]
  unfold reciprocalBatch crossProductBatch
  rw [zipWith_same _ _ _ ((hs 0).trans (hs' 1).symm), zipWith_same _ _ _ ((hs 1).trans (hs' 0).symm)]
  simp only [hs, bind, Except.bind]
  rw [zipWith_same (α := ℝ) (β := ℝ)]
  swap
  · rfl
  simp only [NDArray.stackLast, hs, hs', ne_eq, not_true_eq_false, if_false]
  rfl

/-- C02 fails for two lattices in a batch: each *component* is divided by the cross product of the batch element with
that index. -/
theorem C02_false_for_batch_of_two : ¬ ReciprocalPerElement [2] := by
  intro h
  let u : NDArray ℝ := ⟨[2, 2], fun idx => if idx = [0, 0] then 1 else if idx = [1, 0] then 2 else 0⟩
  let v : NDArray ℝ := ⟨[2, 2], fun idx => if idx = [0, 1] then 1 else if idx = [1, 1] then 1 else 0⟩
  obtain ⟨u', v', h1, -, -, h2⟩ := h u v rfl rfl (by
    intro idx hl hlt
    obtain ⟨i, rfl⟩ : ∃ i, idx = [i] := List.length_eq_one_iff.1 hl
    have := hlt 0 (by simp) (by simp)
    simp only [List.getElem_cons_zero] at this
    have : i = 0 ∨ i = 1 := by omega
    rcases this with rfl | rfl <;> norm_num [Independent, latticeAt, u, v])
  rw [reciprocalBatch_eq (batch := [2]) rfl rfl] at h1
  simp only [NDArray.div, NDArray.zipWith, broadcastShapes, broadcastRev, bind, Except.bind, ok_inj,
    List.reverse_cons, List.reverse_nil, List.nil_append, List.cons_append, if_true, Option.map_some,
    Prod.mk.injEq] at h1
  have h3 := h2 [1] rfl (by intro i h h'; simp at h; simp [h])
  rw [reciprocal_eq_ok] at h3
  have h4 := congrArg (fun l => l.u.1) h3.2
  obtain ⟨h5, -⟩ := h1
  rw [← h5] at h4
  norm_num [latticeAt, broadcastIndex, crossProduct, u, v] at h4

/-- C02 fails for three lattices in a batch: an error is raised. -/
theorem C02_false_for_larger_batch (n : ℕ) (hn : 3 ≤ n) (u v : NDArray ℝ) (hu : u.shape = [n, 2])
    (hv : v.shape = [n, 2]) : reciprocalBatch u v = .error .typeError := by
  rw [reciprocalBatch_eq (batch := [n]) hu hv]
  have h1 : ¬ (2 = n) := by omega
  have h2 : ¬ (n = 1) := by omega
  simp only [NDArray.div, NDArray.zipWith, broadcastShapes, broadcastRev, bind, Except.bind,
    List.reverse_cons, List.reverse_nil, List.nil_append, List.cons_append, h1, h2, if_false, Option.map_none,
    OfNat.ofNat_ne_one]

/-- **C02 partial** The reciprocal is computed per batch element when there is no batch dimension or when all batch
dimensions have length one (missing: longer batches, where it is false or raises). -/
theorem C02_reciprocal_singleton_batch_partial (n : ℕ) : ReciprocalPerElement (List.replicate n 1) := by
  intro u v hu hv hind
  have hbc : ∀ n, broadcastRev (2 :: List.replicate n 1) (List.replicate n 1) = some (2 :: List.replicate n 1) := by
    intro n
    cases n with
    | zero => rfl
    | succ n =>
      have : ∀ n, broadcastRev (List.replicate (n + 1) 1) (List.replicate n 1) = some (List.replicate (n + 1) 1) := by
        intro n
        induction n with
        | zero => rfl
        | succ n ih =>
          rw [List.replicate_succ (n := n + 1), List.replicate_succ (n := n), broadcastRev, ← List.replicate_succ, ih]
          simp
      conv_lhs => rw [List.replicate_succ (n := n)]
      rw [broadcastRev, ← List.replicate_succ, this]
      simp
  have hbs : broadcastShapes (List.replicate n 1 ++ [2]) (List.replicate n 1) = some (List.replicate n 1 ++ [2]) := by
    simp [broadcastShapes, hbc]
  rw [reciprocalBatch_eq hu hv]
  simp only [NDArray.div, NDArray.zipWith, hbs, bind, Except.bind]
  refine ⟨_, _, rfl, rfl, rfl, ?_⟩
  intro idx hl hlt
  have hidx : idx = List.replicate n 0 := by
    rw [List.length_replicate] at hl
    apply List.ext_getElem
    · simp [hl]
    · intro i h1 h2
      have := hlt i h1 (by simpa using h2)
      simpa using this
  have hb0 : ∀ k, k ≤ 1 → broadcastIndex (List.replicate n 1 ++ [2]) (idx ++ [k]) = idx ++ [k] := by
    intro k hk
    apply broadcastIndex_of_lt
    · simp [hidx]
    · intro i h1 h2
      simp only [hidx, List.getElem_append, List.length_replicate, List.getElem_replicate]
      split_ifs
      · omega
      · simp only [List.getElem_singleton]; omega
  have hz : ∀ l : List ℕ, l.length = n → broadcastIndex (List.replicate n 1) l = List.replicate n 0 := by
    intro l hl'
    unfold broadcastIndex
    simp only [List.length_replicate, hl', Nat.sub_self, List.drop_zero]
    apply List.ext_getElem
    · simp [hl']
    · intro i h1 h2; simp
  have hb1 : ∀ k, broadcastIndex (List.replicate n 1) (idx ++ [k]) = List.replicate n 0 := by
    intro k
    unfold broadcastIndex
    rw [List.length_append, hidx]
    simp only [List.length_replicate, List.length_singleton, Nat.add_sub_cancel_left]
    apply List.ext_getElem
    · simp
    · intro i h1 h2; simp
  have hb2 : broadcastIndex (List.replicate n 1) (List.replicate n 0) = List.replicate n 0 := hz _ (by simp)
  rw [reciprocal_eq_ok]
  have hI := hind idx hl hlt
  refine ⟨hI, ?_⟩
  subst hidx
  simp only [latticeAt, crossProduct, hb0 0 (by omega), hb0 1 (by omega), hb1, hb2]
  ext <;> simp

example : ∃ u v : NDArray ℝ, u.shape = List.replicate 2 1 ++ [2] ∧ v.shape = List.replicate 2 1 ++ [2] ∧
    Independent (latticeAt u v [0, 0]).u (latticeAt u v [0, 0]).v :=
  ⟨{ shape := [1, 1, 2], get := fun i => if i = [0, 0, 0] then 2 else 0 },
   { shape := [1, 1, 2], get := fun i => if i = [0, 0, 1] then 3 else 1 }, rfl, rfl, by
    norm_num [Independent, latticeAt]⟩

/-- A batch of rectangular lattices; the length of `u` is one plus the index along axis `d`. -/
noncomputable def stretchedU (batch : List ℕ) (d : ℕ) : NDArray ℝ :=
  ⟨batch ++ [2], fun idx => if idx.getLastD 0 = 0 then 1 + (idx.dropLast.getD d 0 : ℕ) else 0⟩

/-- The second lattice vectors of that batch. -/
noncomputable def unitV (batch : List ℕ) : NDArray ℝ :=
  ⟨batch ++ [2], fun idx => if idx.getLastD 0 = 0 then 0 else 1⟩

theorem latticeAt_stretched (batch : List ℕ) (d : ℕ) (idx : List ℕ) :
    latticeAt (stretchedU batch d) (unitV batch) idx = ⟨(1 + (idx.getD d 0 : ℕ), 0), (0, 1)⟩ := by
  simp [latticeAt, stretchedU, unitV]

/-- C02 fails for every batch with more than one lattice, whatever the batch shape. -/
theorem C02_false_for_every_batch (batch : List ℕ) (hpos : ∀ m ∈ batch, 0 < m) (hbig : ∃ m ∈ batch, m ≠ 1) :
    ¬ReciprocalPerElement batch := by
  classical
  -- the last axis longer than one
  obtain ⟨d, hd, hd1, hlast⟩ : ∃ d, ∃ h : d < batch.length, batch[d] ≠ 1 ∧
      ∀ e (h : e < batch.length), d < e → batch[e] = 1 := by
    have hne : ((Finset.range batch.length).filter fun i => batch.getD i 1 ≠ 1).Nonempty := by
      obtain ⟨m, hm, h1⟩ := hbig
      obtain ⟨i, hi, rfl⟩ := List.mem_iff_getElem.1 hm
      exact ⟨i, by simp [hi, h1]⟩
    have hmem := Finset.max'_mem _ hne
    simp only [Finset.mem_filter, Finset.mem_range] at hmem
    refine ⟨_, hmem.1, ?_, ?_⟩
    · have h2 := hmem.2
      rwa [List.getD_eq_getElem _ _ hmem.1] at h2
    · intro e he hde
      by_contra hc
      have := Finset.le_max' ((Finset.range batch.length).filter fun i => batch.getD i 1 ≠ 1) e (by simp [he, hc])
      omega
  intro h
  obtain ⟨u', v', h1, hs, -, h2⟩ := h (stretchedU batch d) (unitV batch) rfl rfl (by
    intro idx _ _
    rw [latticeAt_stretched]
    simp only [Independent, mul_one, zero_mul, sub_zero, ne_eq]
    positivity)
  rw [reciprocalBatch_eq (batch := batch) rfl rfl] at h1
  simp only [NDArray.div, NDArray.zipWith] at h1
  cases hb : broadcastShapes (batch ++ [2]) batch with
  | none =>
    rw [hb] at h1
    simp [bind, Except.bind] at h1
  | some w =>
    rw [hb] at h1
    simp only [bind, Except.bind, ok_inj, Prod.mk.injEq] at h1
    obtain ⟨rfl, -⟩ := h1
    simp only at hs
    subst hs
    set idx : List ℕ := (List.replicate batch.length 0).set d 1 with hidx
    have hlen : idx.length = batch.length := by simp [hidx]
    have h3 := h2 idx hlen (by
      intro i h h'
      have := hpos _ (List.getElem_mem h')
      simp only [hidx, List.getElem_set, List.getElem_replicate]
      split_ifs with e
      · subst e; omega
      · omega)
    rw [reciprocal_eq_ok] at h3
    have h4 := congrArg (fun l => l.u.1) h3.2
    rw [latticeAt_stretched] at h4
    have hb0 : broadcastIndex (batch ++ [2]) (idx ++ [0]) = idx ++ [0] := by
      apply broadcastIndex_of_lt
      · simp [hlen]
      · intro i g1 g2
        rw [List.getElem_append, List.getElem_append]
        by_cases hi : i < batch.length
        · rw [dif_pos (by omega), dif_pos hi]
          have := hpos _ (List.getElem_mem hi)
          simp only [hidx, List.getElem_set, List.getElem_replicate]
          split_ifs with e
          · subst e; omega
          · omega
        · rw [dif_neg (by omega), dif_neg hi]
          simp
    -- the index of the cross product has a zero at axis `d`
    have hbd : ∀ l : List ℕ, l.length = batch.length + 1 → l.getD (d + 1) 0 = 0 →
        (broadcastIndex batch l).getD d 0 = 0 ∧ (broadcastIndex batch l).length = batch.length := by
      intro l hl h0
      unfold broadcastIndex
      rw [hl, Nat.add_sub_cancel_left]
      constructor
      · rw [List.getD_eq_getElem?_getD, List.getElem?_map, (List.getElem?_zip_eq_some (z := (batch[d], l[d+1]'(by omega)))).2 ⟨by simp [hd], by simp⟩]
        rw [List.getD_eq_getElem _ _ (by omega)] at h0
        simp [h0]
      · simp [hl]
    have hbd2 : ∀ l : List ℕ, l.length = batch.length → l.getD d 0 = 0 → (broadcastIndex batch l).getD d 0 = 0 ∧
        (broadcastIndex batch l).length = batch.length := by
      intro l hl h0
      unfold broadcastIndex
      rw [hl, Nat.sub_self, List.drop_zero]
      constructor
      · rw [List.getD_eq_getElem?_getD, List.getElem?_map, (List.getElem?_zip_eq_some (z := (batch[d], l[d]'(by omega)))).2 ⟨by simp [hd], by simp⟩]
        rw [List.getD_eq_getElem _ _ (by omega)] at h0
        simp [h0]
      · simp [hl]
    have hi0 : (idx ++ [0]).getD (d + 1) 0 = 0 := by
      rw [List.getD_eq_getElem _ _ (by simp [hlen, hd]), List.getElem_append]
      split_ifs with g
      · simp [hidx]
      · simp
    obtain ⟨a1, a2⟩ := hbd (idx ++ [0]) (by simp [hlen]) hi0
    obtain ⟨b1, b2⟩ := hbd2 _ a2 a1
    obtain ⟨c1, -⟩ := hbd2 _ b2 b1
    have hd2 : idx.getD d 0 = 1 := by
      rw [List.getD_eq_getElem _ _ (by omega)]
      simp [hidx]
    simp only [latticeAt, hb0, crossProduct, hd2] at h4
    simp only [stretchedU, unitV, List.getLastD_concat, List.dropLast_concat, if_true, one_ne_zero, if_false, c1] at h4
    norm_num at h4

/-- **C02**: the batch shapes for which the reciprocal is computed per element are exactly those with a single lattice. -/
theorem C02_exactly_single_lattices (batch : List ℕ) (hpos : ∀ m ∈ batch, 0 < m) :
    ReciprocalPerElement batch ↔ ∀ m ∈ batch, m = 1 := by
  constructor
  · intro h m hm
    by_contra hc
    exact C02_false_for_every_batch batch hpos ⟨m, hm, hc⟩ h
  · intro h
    rw [List.eq_replicate_of_mem h]
    exact C02_reciprocal_singleton_batch_partial _

/-- C02, side finding: for a batch shape `(m, 1)` no error is raised; the result has batch shape `(m, m)`. -/
theorem C02_finding_outer_batch (m : ℕ) (hm : 2 ≤ m) (u v : NDArray ℝ) (hu : u.shape = [m, 1, 2]) (hv : v.shape = [m, 1, 2]) :
    ∃ u' v', reciprocalBatch u v = .ok (u', v') ∧ u'.shape = [m, m, 2] ∧ v'.shape = [m, m, 2] := by
  rw [reciprocalBatch_eq (batch := [m, 1]) hu hv]
  have h1 : ¬ m = 1 := by omega
  have h2 : ¬ 1 = m := by omega
  simp only [NDArray.div, NDArray.zipWith, broadcastShapes, broadcastRev, bind, Except.bind,
    List.reverse_cons, List.reverse_nil, List.nil_append, List.cons_append, h1, h2, if_false, if_true, Option.map_some,
    OfNat.ofNat_ne_one]
  exact ⟨_, _, rfl, rfl, rfl⟩

example : ¬ReciprocalPerElement [3, 1, 2] :=
  C02_false_for_every_batch [3, 1, 2] (by simp) ⟨3, by simp, by norm_num⟩

/-! ### C12 -/

/-- **C12** `transverse_wavevectors` returns `k0 + G` for the reciprocal vector `G` of every order (`G·u = 2πm`,
`G·v = 2πn`), the order `(0, 0)` gives `k0`, and every wavevector has the Bloch phase of `k0` under all lattice
translations. -/
theorem C12_transverse_wavevectors {ι : Type} (k0 : ℝ × ℝ) (l : LatticeVectors) (expansion : ι → ℤ × ℤ)
    (h : Independent l.u l.v) :
    ∃ k, transverseWavevectors k0 l expansion = .ok k ∧
      (∀ i, dot (k i - k0) l.u = 2 * Real.pi * (expansion i).1 ∧ dot (k i - k0) l.v = 2 * Real.pi * (expansion i).2) ∧
      (∀ i, expansion i = (0, 0) → k i = k0) ∧
      (∀ i (a b : ℤ),
        Complex.exp (Complex.I * (dot (k i) ((a : ℝ) • l.u + (b : ℝ) • l.v) : ℝ)) =
          Complex.exp (Complex.I * (dot k0 ((a : ℝ) • l.u + (b : ℝ) • l.v) : ℝ))) := by
  have hc : crossProduct l.u l.v ≠ 0 := h
  refine ⟨_, bind_eq_ok.2 ⟨_, reciprocal_eq_ok.2 ⟨hc, rfl⟩, rfl⟩, ?_⟩
  obtain ⟨⟨a, b⟩, ⟨c, d⟩⟩ := l
  obtain ⟨kx, ky⟩ := k0
  obtain ⟨D, hD⟩ : ∃ D, crossProduct (a, b) (c, d) = D := ⟨_, rfl⟩
  simp only at hc ⊢
  rw [hD] at hc ⊢
  have hD' : a * d - b * c = D := hD
  have hd : ∀ i,
      (dot ((kx + 2 * Real.pi * ((expansion i).1 * (d / D) + (expansion i).2 * (-b / D)),
        ky + 2 * Real.pi * ((expansion i).1 * (-c / D) + (expansion i).2 * (a / D))) - (kx, ky)) (a, b) =
          2 * Real.pi * (expansion i).1) ∧
      (dot ((kx + 2 * Real.pi * ((expansion i).1 * (d / D) + (expansion i).2 * (-b / D)),
        ky + 2 * Real.pi * ((expansion i).1 * (-c / D) + (expansion i).2 * (a / D))) - (kx, ky)) (c, d) =
          2 * Real.pi * (expansion i).2) := by
    intro i
    simp only [dot, Prod.mk_sub_mk, add_sub_cancel_left]
    constructor
    · field_simp
      linear_combination ((expansion i).1 : ℝ) * hD'
    · field_simp
      linear_combination ((expansion i).2 : ℝ) * hD'
  refine ⟨hd, ?_, ?_⟩
  · intro i hi
    simp [hi]
  · intro i p q
    obtain ⟨e1, e2⟩ := hd i
    rw [Complex.exp_eq_exp_iff_exists_int]
    refine ⟨(expansion i).1 * p + (expansion i).2 * q, ?_⟩
    simp only [dot, Prod.mk_sub_mk, add_sub_cancel_left] at e1 e2
    simp only [dot, Prod.smul_mk, Prod.mk_add_mk, smul_eq_mul]
    have e3 : ∀ x y : ℝ, (kx + x) * (p * a + q * c) + (ky + y) * (p * b + q * d) =
        (kx * (p * a + q * c) + ky * (p * b + q * d)) + p * (x * a + y * b) + q * (x * c + y * d) := by
      intros; ring
    rw [e3, e1, e2]
    push_cast
    ring

/-! ### C14 -/

/-- **C14** The grid has `num_unit_cells * shape` points, starts at the origin, moving by one full cell along either
axis adds exactly the corresponding lattice vector, and within a cell the points are equally spaced. -/
theorem C14_unit_cell_coordinates (l : LatticeVectors) (s1 s2 c1 c2 : ℕ) (h1 : 0 < s1) (h2 : 0 < s2) :
    (∀ (i : Fin (c1 * s1)) (j : Fin (c2 * s2)), i.1 = 0 → j.1 = 0 →
      unitCellCoordinates l (s1, s2) (c1, c2) i j = (0, 0)) ∧
    (∀ (i i' : Fin (c1 * s1)) (j : Fin (c2 * s2)), i'.1 = i.1 + s1 →
      unitCellCoordinates l (s1, s2) (c1, c2) i' j = unitCellCoordinates l (s1, s2) (c1, c2) i j + l.u) ∧
    (∀ (i : Fin (c1 * s1)) (j j' : Fin (c2 * s2)), j'.1 = j.1 + s2 →
      unitCellCoordinates l (s1, s2) (c1, c2) i j' = unitCellCoordinates l (s1, s2) (c1, c2) i j + l.v) ∧
    (∀ (i i' : Fin (c1 * s1)) (j j' : Fin (c2 * s2)),
      unitCellCoordinates l (s1, s2) (c1, c2) i' j' - unitCellCoordinates l (s1, s2) (c1, c2) i j =
        (((i' : ℝ) - (i : ℝ)) / s1) • l.u + (((j' : ℝ) - (j : ℝ)) / s2) • l.v) := by
  have hs1 : (s1 : ℝ) ≠ 0 := by exact_mod_cast h1.ne'
  have hs2 : (s2 : ℝ) ≠ 0 := by exact_mod_cast h2.ne'
  refine ⟨?_, ?_, ?_, ?_⟩
  · intro i j hi hj
    simp [unitCellCoordinates, hi, hj]
  · intro i i' j hi
    simp only [unitCellCoordinates, hi]
    ext
    · simp; field_simp; ring
    · simp; field_simp; ring
  · intro i j j' hj
    simp only [unitCellCoordinates, hj]
    ext
    · simp; field_simp; ring
    · simp; field_simp; ring
  · intro i i' j j'
    simp only [unitCellCoordinates]
    ext
    · simp; ring
    · simp; ring

example : unitCellCoordinates { u := (1, 0), v := (1, 2) } (4, 5) (2, 3) ⟨7, by norm_num⟩ ⟨2, by norm_num⟩ =
    unitCellCoordinates { u := (1, 0), v := (1, 2) } (4, 5) (2, 3) ⟨3, by norm_num⟩ ⟨2, by norm_num⟩ + (1, 0) :=
  (C14_unit_cell_coordinates { u := (1, 0), v := (1, 2) } 4 5 2 3 (by norm_num) (by norm_num)).2.1 _ _ _ (by norm_num)

example : ∃ k : Fin 2 → ℝ × ℝ,
    transverseWavevectors (1, 3) { u := (1, 0), v := (1, 2) } ![(0, 0), (3, -2)] = .ok k ∧ k 0 = (1, 3) := by
  obtain ⟨k, h1, -, h2, -⟩ := C12_transverse_wavevectors (1, 3) { u := (1, 0), v := (1, 2) } ![(0, 0), (3, -2)]
    (by norm_num [Independent])
  exact ⟨k, h1, h2 0 rfl⟩

end Fmmax
