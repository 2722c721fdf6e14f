import Verif.Model.Shapes
import Verif.Spec.Shapes
import Verif.Proofs.Basic
import Mathlib.Tactic.IntervalCases

/-! Property theorems C28, C67, C68: batch shapes and axes. -/

set_option linter.unusedSectionVars false

namespace Fmmax

open Spec

/-! ### C67 -/

theorem le_maxList {l : List ℕ} {x : ℕ} (h : x ∈ l) : x ≤ maxList l := by
  induction l with
  | nil => simp at h
  | cons y l ih =>
    simp only [maxList, List.foldr_cons] at *
    rcases List.mem_cons.1 h with rfl | h
    · exact le_max_left _ _
    · exact (ih h).trans (le_max_right _ _)

theorem maxList_le {l : List ℕ} {m : ℕ} (h : ∀ x ∈ l, x ≤ m) : maxList l ≤ m := by
  induction l with
  | nil => simp [maxList]
  | cons y l ih =>
    simp only [maxList, List.foldr_cons] at *
    exact max_le (h y (by simp)) (ih fun x hx => h x (by simp [hx]))

theorem maxList_mem {l : List ℕ} (h : l ≠ []) : maxList l ∈ l := by
  induction l with
  | nil => simp at h
  | cons y l ih =>
    simp only [maxList, List.foldr_cons] at *
    rcases eq_or_ne l [] with rfl | hl
    · simp
    · rcases le_total y (List.foldr max 0 l) with h1 | h1
      · rw [max_eq_right h1]; exact List.mem_cons_of_mem _ (ih hl)
      · rw [max_eq_left h1]; simp

theorem padShape_length {n : ℕ} {s : List ℕ} (h : s.length ≤ n) : (padShape n s).length = n := by
  simp [padShape]; omega

theorem forall₂_padShape {n : ℕ} {s t : List ℕ} (hn : s.length ≤ n) (hnt : n ≤ t.length) :
    BroadcastsTo s t ↔ List.Forall₂ (fun a b => a = 1 ∨ a = b) (padShape n s) (t.drop (t.length - n)) := by
  constructor
  · rintro ⟨lead, tail, rfl, h⟩
    have hl := h.length_eq
    simp only [List.length_append] at hnt ⊢
    have e : (lead ++ tail).drop (lead.length + tail.length - n) =
        lead.drop (lead.length + tail.length - n) ++ tail := by
      rw [List.drop_append_of_le_length (by omega)]
    rw [e]
    unfold padShape
    refine List.rel_append (R := fun a b : ℕ => a = 1 ∨ a = b) ?_ h
    rw [List.forall₂_iff_get]
    refine ⟨by simp; omega, ?_⟩
    intro i h1 h2
    left
    simp
  · intro h
    unfold padShape at h
    have hlen : (List.replicate (n - s.length) 1 ++ s).length = n := by simp; omega
    have h2 := List.forall₂_drop (n - s.length) h
    rw [List.drop_append_of_le_length (by simp), List.drop_replicate, Nat.sub_self, List.replicate_zero, List.nil_append,
      List.drop_drop] at h2
    exact ⟨_, _, (List.take_append_drop _ t).symm, h2⟩

/-- C67: shapes with positive dimensions are batch-compatible exactly when they can be broadcast together. -/
theorem C67_batch_compatible (shapes : List (List ℕ)) (hne : shapes ≠ []) (hpos : ∀ s ∈ shapes, ∀ n ∈ s, 0 < n) :
    ∃ b, batchCompatibleShapes shapes = .ok b ∧ (b = true ↔ Broadcastable shapes) := by
  unfold batchCompatibleShapes
  rw [if_neg hne]
  refine ⟨_, rfl, ?_⟩
  set N := maxList (shapes.map List.length) with hN
  have hlen : ∀ s ∈ shapes, s.length ≤ N := fun s hs => le_maxList (List.mem_map_of_mem hs)
  set col : ℕ → List ℕ := fun i => (shapes.map (padShape N)).map fun s => s.getD i 0 with hcol
  have hcheck : (((shapes.map (padShape N)).all fun s => !(s.zip ((List.range N).map fun i => maxList (col i))).any
      fun p => !(p.1 == 1 || p.1 == p.2)) = true) ↔
      ∀ s ∈ shapes, ∀ i < N, (padShape N s).getD i 0 = 1 ∨ (padShape N s).getD i 0 = maxList (col i) := by
    rw [List.all_eq_true]
    constructor
    · intro h s hs i hi
      have h1 := h _ (List.mem_map_of_mem hs)
      rw [Bool.not_eq_true', List.any_eq_false] at h1
      have hl := padShape_length (hlen s hs)
      have hmem : ((padShape N s).getD i 0, maxList (col i)) ∈ (padShape N s).zip ((List.range N).map fun i => maxList (col i)) := by
        rw [List.mem_iff_getElem]
        refine ⟨i, by simp [hl, hi], ?_⟩
        rw [List.getElem_zip]
        simp [List.getD_eq_getElem?_getD, hl, hi]
      have h2 := h1 _ hmem
      rw [or_iff_not_imp_left]
      simpa using h2
    · intro h p hp
      obtain ⟨s, hs, rfl⟩ := List.mem_map.1 hp
      rw [Bool.not_eq_true', List.any_eq_false]
      intro q hq
      obtain ⟨i, hi, rfl⟩ := List.mem_iff_getElem.1 hq
      have hl := padShape_length (hlen s hs)
      have hi' : i < N := by simp [hl] at hi; exact hi
      have h2 := h s hs i hi'
      rw [List.getElem_zip]
      simp only [List.getElem_map, List.getElem_range]
      rw [List.getD_eq_getElem?_getD, List.getElem?_eq_getElem (by omega), Option.getD_some] at h2
      rw [or_iff_not_imp_left] at h2
      simpa using h2
  rw [hcheck]
  constructor
  · intro h
    refine ⟨(List.range N).map fun i => maxList (col i), fun s hs => ?_⟩
    have hl := padShape_length (hlen s hs)
    rw [forall₂_padShape (n := N) (hlen s hs) (by simp)]
    rw [List.forall₂_iff_get]
    refine ⟨by simp [hl], ?_⟩
    intro i h1 h2
    have := h s hs i (by omega)
    rw [List.getD_eq_getElem?_getD, List.getElem?_eq_getElem (by omega), Option.getD_some] at this
    simpa using this
  · rintro ⟨t, ht⟩ s hs i hi
    have hNt : N ≤ t.length := by
      obtain ⟨s', hs', e⟩ := List.mem_map.1 (maxList_mem (l := shapes.map List.length) (by simpa using hne))
      rw [hN, ← e]
      obtain ⟨lead, tail, rfl, hf⟩ := ht s' hs'
      have := hf.length_eq
      simp; omega
    have hcell : ∀ s ∈ shapes, (padShape N s).getD i 0 = 1 ∨ (padShape N s).getD i 0 = (t.drop (t.length - N)).getD i 0 := by
      intro s hs
      have h1 := (forall₂_padShape (hlen s hs) hNt).1 (ht s hs)
      have hl := padShape_length (hlen s hs)
      have h2 := (List.forall₂_iff_get.1 h1).2 i (by omega) (by simp; omega)
      rw [List.getD_eq_getElem?_getD, List.getElem?_eq_getElem (by omega), Option.getD_some,
        List.getD_eq_getElem?_getD, List.getElem?_eq_getElem (by simp; omega), Option.getD_some]
      simpa using h2
    have hp : ∀ s ∈ shapes, 0 < (padShape N s).getD i 0 := by
      intro s hs
      have hl := padShape_length (hlen s hs)
      rw [List.getD_eq_getElem?_getD, List.getElem?_eq_getElem (by omega), Option.getD_some]
      have hm := List.getElem_mem (l := padShape N s) (n := i) (by omega)
      unfold padShape at hm ⊢
      rcases List.mem_append.1 hm with h | h
      · rw [List.eq_of_mem_replicate h]; exact one_pos
      · exact hpos s hs _ h
    have hle : ∀ s ∈ shapes, (padShape N s).getD i 0 ≤ maxList (col i) := fun s hs =>
      le_maxList (List.mem_map.2 ⟨_, List.mem_map_of_mem hs, rfl⟩)
    obtain ⟨p, hp', e⟩ := List.mem_map.1 (maxList_mem (l := col i) (by simpa [hcol] using hne))
    obtain ⟨s', hs', rfl⟩ := List.mem_map.1 hp'
    have a1 := hcell s hs
    have a2 := hcell s' hs'
    have a3 := hle s hs
    have a4 := hp s hs
    have a5 := hp s' hs'
    rw [← e] at a3 ⊢
    rcases a1 with a1 | a1
    · exact Or.inl a1
    · rcases a2 with a2 | a2
      · left; omega
      · right; omega

/-- C67, negative part: dimensions of length zero are treated more strictly than by numpy, `(0,)` and `(1,)` are rejected. -/
theorem C67_finding_zero_dimension :
    batchCompatibleShapes [[0], [1]] = .ok false ∧ Broadcastable [[0], [1]] := by
  refine ⟨by decide, [0], ?_⟩
  intro s hs
  refine ⟨[], [0], rfl, ?_⟩
  simp only [List.mem_cons, List.not_mem_nil, or_false] at hs
  rcases hs with rfl | rfl <;> simp

example : Broadcastable [[3, 1], [4], [1, 3, 4]] ∧ ¬Broadcastable [[3, 2], [4]] := by
  constructor
  · obtain ⟨b, hb, h⟩ := C67_batch_compatible [[3, 1], [4], [1, 3, 4]] (by simp) (by simp)
    rw [← h]
    have : (.ok b : Res Bool) = .ok true := hb.symm.trans (by decide)
    simpa using this
  · obtain ⟨b, hb, h⟩ := C67_batch_compatible [[3, 2], [4]] (by simp) (by simp)
    rw [← h]
    have : (.ok b : Res Bool) = .ok false := hb.symm.trans (by decide)
    simp only [Except.ok.injEq] at this
    simp [this]

/-! ### C68 -/

/-- C68: axes are returned exactly when they are in range and refer to distinct axes; negative axes count from the end. -/
theorem C68_absolute_axes (axes : List ℤ) (ndim : ℕ) (out : List ℤ) :
    absoluteAxes axes ndim = .ok out ↔
      (∀ a ∈ axes, -(ndim : ℤ) ≤ a ∧ a < ndim) ∧ out = (axes.map fun a : ℤ => if a < 0 then a + (ndim : ℤ) else a) ∧ out.Nodup := by
  unfold absoluteAxes
  by_cases hr : ∀ a ∈ axes, -(ndim : ℤ) ≤ a ∧ a < ndim
  · rw [if_neg (by simpa using hr)]
    have e : (axes.map fun d => d % (ndim : ℤ)) = axes.map fun a : ℤ => if a < 0 then a + (ndim : ℤ) else a := by
      refine List.map_congr_left fun a ha => ?_
      obtain ⟨h1, h2⟩ := hr a ha
      split_ifs with h
      · rw [← Int.add_emod_right]
        exact Int.emod_eq_of_lt (by omega) (by omega)
      · exact Int.emod_eq_of_lt (by omega) h2
    simp only [e]
    generalize (axes.map fun a => if a < 0 then a + (ndim : ℤ) else a) = l
    have hd : l.length = l.dedup.length ↔ l.Nodup := by
      constructor
      · intro h
        have := (List.dedup_sublist l).eq_of_length h.symm
        rw [← this]
        exact List.nodup_dedup l
      · intro h
        rw [h.dedup]
    by_cases hn : l.Nodup
    · rw [if_neg (by rw [ne_eq, not_not, hd]; exact hn), ok_inj]
      constructor
      · rintro rfl; exact ⟨hr, rfl, hn⟩
      · rintro ⟨-, rfl, -⟩; rfl
    · rw [if_pos (by rw [ne_eq, hd]; exact hn)]
      constructor
      · intro h; cases h
      · rintro ⟨-, rfl, h⟩; exact absurd h hn
  · rw [if_pos (by simpa using hr)]
    constructor
    · intro h; cases h
    · rintro ⟨h, -⟩; exact absurd h hr

/-- C68: everything else is rejected with a ValueError. -/
theorem C68_rejects (axes : List ℤ) (ndim : ℕ) :
    (∃ out, absoluteAxes axes ndim = .ok out) ∨ absoluteAxes axes ndim = .error .valueError := by
  unfold absoluteAxes
  dsimp only
  by_cases h1 : (axes.all fun a => decide (-(ndim : ℤ) ≤ a ∧ a < ndim)) = true
  · rw [if_neg (by simpa using h1)]
    by_cases h2 : (axes.map fun d => d % (ndim : ℤ)).length ≠ (axes.map fun d => d % (ndim : ℤ)).dedup.length
    · rw [if_pos h2]; exact Or.inr rfl
    · rw [if_neg h2]; exact Or.inl ⟨_, rfl⟩
  · rw [if_pos (by simpa using h1)]; exact Or.inr rfl

/-- C68: results are distinct axes in `[0, ndim)` and are left unchanged by a second application. -/
theorem C68_idempotent {axes : List ℤ} {ndim : ℕ} {out : List ℤ} (h : absoluteAxes axes ndim = .ok out) :
    (∀ a ∈ out, 0 ≤ a ∧ a < ndim) ∧ out.length = axes.length ∧ absoluteAxes out ndim = .ok out := by
  obtain ⟨hr, rfl, hn⟩ := (C68_absolute_axes _ _ _).1 h
  have hb : ∀ a ∈ (axes.map fun a => if a < 0 then a + (ndim : ℤ) else a), 0 ≤ a ∧ a < (ndim : ℤ) := by
    intro a ha
    obtain ⟨b, hb, rfl⟩ := List.mem_map.1 ha
    have := hr b hb
    split_ifs <;> omega
  refine ⟨hb, by simp, (C68_absolute_axes _ _ _).2 ⟨fun a ha => ?_, ?_, hn⟩⟩
  · have := hb a ha; omega
  · conv_lhs => rw [← List.map_id (axes.map fun a => if a < 0 then a + (ndim : ℤ) else a)]
    refine List.map_congr_left fun a ha => ?_
    have := hb a ha
    rw [if_neg (by omega)]
    rfl

example : absoluteAxes [-1, 1, 0] 4 = .ok [3, 1, 0] ∧ absoluteAxes [-1, 3] 4 = .error .valueError ∧
    absoluteAxes [4] 4 = .error .valueError := by decide

/-! ### C28 -/

theorem dropLastN_one (s : List ℕ) : dropLastN 1 s = s.dropLast := by
  rw [dropLastN, List.dropLast_eq_take]

theorem dropLastN_two (s : List ℕ) : dropLastN 2 s = s.dropLast.dropLast := by
  rw [dropLastN, List.dropLast_eq_take, List.dropLast_eq_take, List.take_take, List.length_take]
  congr 1
  omega

theorem expandedTo_atleastNd {α : Type} (x : NDArray α) {n : ℕ} (h : x.shape.length ≤ n) :
    ExpandedTo x (x.atleastNd n) n := by
  refine ⟨n - x.shape.length, rfl, by simp [NDArray.atleastNd]; omega, ?_⟩
  intro lead idx hl
  simp [NDArray.atleastNd, ← hl]

theorem validateAndBroadcast_two {w k u v : NDArray ℝ} {p : NDArray ℂ} {ps : List (NDArray ℂ)}
    (h : k.shape.getLast? = some 2) :
    validateAndBroadcast w k u v (p :: ps) =
      if ¬((p :: ps).all fun q => decide (p.shape = q.shape)) then Except.error Err.valueError
      else batchCompatibleShapes (batchShapesOf w k u v p) >>= fun compatible =>
        if !compatible then Except.error Err.valueError
        else
          let n := maxList [w.shape.length, k.shape.length - 1, u.shape.length - 1, v.shape.length - 1, p.shape.length - 2]
          Except.ok ⟨w.atleastNd n, k.atleastNd (n + 1), u.atleastNd (n + 1), v.atleastNd (n + 1),
            (p :: ps).map fun q => q.atleastNd (n + 2)⟩ := by
  unfold validateAndBroadcast
  rw [h, batchShapesOf, ← dropLastN_one, ← dropLastN_one, ← dropLastN_one, ← dropLastN_two]
  rfl

theorem all_shapes_eq (p : NDArray ℂ) (ps : List (NDArray ℂ)) :
    ((p :: ps).all fun q => decide (p.shape = q.shape)) = true ↔ ∀ q ∈ ps, q.shape = p.shape := by
  rw [List.all_eq_true]
  constructor
  · intro h q hq
    exact (of_decide_eq_true (h q (List.mem_cons_of_mem _ hq))).symm
  · intro h q hq
    rcases List.mem_cons.1 hq with rfl | hq
    · exact decide_eq_true rfl
    · exact decide_eq_true (h q hq).symm

theorem validateAndBroadcast_other {w k u v : NDArray ℝ} {p : NDArray ℂ} {ps : List (NDArray ℂ)} {d : ℕ} (hd : d ≠ 2)
    (h : k.shape.getLast? = some d) :
    validateAndBroadcast w k u v (p :: ps) = .error .valueError := by
  unfold validateAndBroadcast
  rw [h]
  split
  · simp_all
  · simp_all
  · simp_all
  · rfl

/-- C28: the shared validation.  It succeeds exactly when the wavevector has two components, the permittivities have equal shapes
and the batch shapes are broadcastable; then ranks are aligned.  Otherwise ValueError is raised. -/
theorem C28_validate (w k u v : NDArray ℝ) (p : NDArray ℂ) (ps : List (NDArray ℂ)) (hk : k.shape ≠ [])
    (hu : u.shape ≠ []) (hv : v.shape ≠ []) (hp : 2 ≤ p.shape.length)
    (hpos : ∀ s ∈ batchShapesOf w k u v p, ∀ n ∈ s, 0 < n) :
    (((k.shape.getLast? = some 2 ∧ ∀ q ∈ ps, q.shape = p.shape) ∧ Broadcastable (batchShapesOf w k u v p)) →
      ∃ args, validateAndBroadcast w k u v (p :: ps) = .ok args ∧
        RanksAligned w k u v (p :: ps) (batchShapesOf w k u v p) args) ∧
    (¬((k.shape.getLast? = some 2 ∧ ∀ q ∈ ps, q.shape = p.shape) ∧ Broadcastable (batchShapesOf w k u v p)) →
      validateAndBroadcast w k u v (p :: ps) = .error .valueError) := by
  obtain ⟨b, hb, hbr⟩ := C67_batch_compatible (batchShapesOf w k u v p) (by simp [batchShapesOf]) hpos
  obtain ⟨d, hd⟩ : ∃ d, k.shape.getLast? = some d := ⟨_, List.getLast?_eq_some_getLast hk⟩
  by_cases hd2 : d = 2
  · subst hd2
    rw [validateAndBroadcast_two hd, hd, hb]
    by_cases hs : ∀ q ∈ ps, q.shape = p.shape
    · rw [if_neg (not_not.2 ((all_shapes_eq p ps).2 hs))]
      by_cases hB : b = true
      · refine ⟨fun _ => ?_, fun h => absurd ⟨⟨rfl, hs⟩, hbr.1 hB⟩ h⟩
        subst hB
        refine ⟨_, rfl, ?_⟩
        set n := maxList [w.shape.length, k.shape.length - 1, u.shape.length - 1, v.shape.length - 1, p.shape.length - 2] with hn
        have hle : ∀ x ∈ [w.shape.length, k.shape.length - 1, u.shape.length - 1, v.shape.length - 1, p.shape.length - 2],
            x ≤ n := fun x hx => le_maxList hx
        have hmem := maxList_mem (l := [w.shape.length, k.shape.length - 1, u.shape.length - 1, v.shape.length - 1,
          p.shape.length - 2]) (by simp)
        rw [← hn] at hmem
        simp only [List.mem_cons, List.not_mem_nil, or_false, forall_eq_or_imp, forall_eq] at hle hmem
        obtain ⟨h1, h2, h3, h4, h5⟩ := hle
        have lk := List.length_pos_of_ne_nil hk
        have lu := List.length_pos_of_ne_nil hu
        have lv := List.length_pos_of_ne_nil hv
        refine ⟨n, ?_, ?_, expandedTo_atleastNd _ h1, expandedTo_atleastNd _ (by omega), expandedTo_atleastNd _ (by omega),
          expandedTo_atleastNd _ (by omega), ?_⟩
        · simp only [batchShapesOf, List.mem_cons, List.not_mem_nil, or_false, forall_eq_or_imp, forall_eq, List.length_dropLast]
          omega
        · simp only [batchShapesOf, List.mem_cons, List.not_mem_nil, or_false, exists_eq_or_imp, exists_eq_left,
            List.length_dropLast]
          omega
        · show List.Forall₂ _ (p :: ps) ((p :: ps).map fun q => q.atleastNd (n + 2))
          rw [List.forall₂_map_right_iff, List.forall₂_same]
          intro q hq
          refine expandedTo_atleastNd _ ?_
          rcases List.mem_cons.1 hq with rfl | hq
          · omega
          · rw [hs q hq]; omega
      · refine ⟨fun h => absurd (hbr.2 h.2) hB, fun _ => ?_⟩
        rw [Bool.not_eq_true] at hB
        subst hB
        rfl
    · rw [if_pos (mt (all_shapes_eq p ps).1 hs)]
      exact ⟨fun h => absurd h.1.2 hs, fun _ => rfl⟩
  · rw [validateAndBroadcast_other hd2 hd, hd]
    exact ⟨fun h => absurd (Option.some.inj h.1.1) hd2, fun _ => rfl⟩

/-- C28: `eigensolve_isotropic_media`. -/
theorem C28_isotropic (w k u v : NDArray ℝ) (p : NDArray ℂ) (hk : k.shape ≠ [])
    (hu : u.shape ≠ []) (hv : v.shape ≠ []) (hp : 2 ≤ p.shape.length)
    (hpos : ∀ s ∈ batchShapesOf w k u v p, ∀ n ∈ s, 0 < n) :
    ((k.shape.getLast? = some 2 ∧ Broadcastable (batchShapesOf w k u v p)) →
      ∃ args, validateIsotropic w k u v p = .ok args ∧ RanksAligned w k u v [p] (batchShapesOf w k u v p) args) ∧
    (¬(k.shape.getLast? = some 2 ∧ Broadcastable (batchShapesOf w k u v p)) →
      validateIsotropic w k u v p = .error .valueError) := by
  obtain ⟨h1, h2⟩ := C28_validate w k u v p [] hk hu hv hp hpos
  simp only [List.not_mem_nil, false_implies, implies_true, and_true] at h1 h2
  refine ⟨fun h => ?_, fun h => ?_⟩
  · obtain ⟨args, ha, hr⟩ := h1 h
    refine ⟨args, ?_, hr⟩
    unfold validateIsotropic
    rw [ha]
    show (if _ then _ else _) = _
    rw [if_neg]
    rintro ⟨g1, g2⟩
    apply g2
    obtain ⟨nb, -, -, -, -, -, -, hf⟩ := hr
    rw [List.all_eq_true]
    intro q hq
    obtain ⟨i, hi, rfl⟩ := List.mem_iff_getElem.1 hq
    have hl := hf.length_eq
    obtain ⟨m, e, -, -⟩ := (List.forall₂_iff_get.1 hf).2 i (by omega) hi
    have hi0 : i = 0 := by simp at hl; omega
    subst hi0
    simp only [List.get_eq_getElem, List.getElem_cons_zero] at e
    unfold isUniformShape at g1 ⊢
    rw [e, List.length_append, List.length_replicate]
    rw [show m + p.shape.length - 2 = (List.replicate m 1).length + (p.shape.length - 2) by simp; omega, List.drop_append,
      List.drop_eq_nil_of_le (by simp)]
    simpa using g1
  · unfold validateIsotropic
    rw [h2 h]
    rfl

/-- Two shapes are broadcastable when they are equal. -/
theorem broadcastRev_self (s : List ℕ) : broadcastRev s s = some s := by
  induction s with
  | nil => rfl
  | cons a s ih => simp [broadcastRev, ih]

/-- C28: the anisotropic entry points, without a given source for the tangent field.  They succeed exactly under the stated
conditions.  Missing from the full claim: the exception is a TypeError, not a ValueError, if the shapes of `permittivity_xx` and
`permittivity_yy` cannot be broadcast together. -/
theorem C28_general_anisotropic_partial (w k u v : NDArray ℝ) (exx exy eyx eyy ezz mxx mxy myx myy mzz : NDArray ℂ)
    (hk : k.shape ≠ []) (hu : u.shape ≠ []) (hv : v.shape ≠ []) (hp : 2 ≤ exx.shape.length)
    (hpos : ∀ s ∈ batchShapesOf w k u v exx, ∀ n ∈ s, 0 < n) :
    (((k.shape.getLast? = some 2 ∧ ∀ q ∈ [exy, eyx, eyy, ezz, mxx, mxy, myx, myy, mzz], q.shape = exx.shape) ∧
        Broadcastable (batchShapesOf w k u v exx)) →
      ∃ args source, validateGeneralAnisotropic w k u v exx exy eyx eyy ezz mxx mxy myx myy mzz none = .ok args ∧
        RanksAligned w k u v ([exx, exy, eyx, eyy, ezz, mxx, mxy, myx, myy, mzz] ++ source) (batchShapesOf w k u v exx) args) ∧
    (¬((k.shape.getLast? = some 2 ∧ ∀ q ∈ [exy, eyx, eyy, ezz, mxx, mxy, myx, myy, mzz], q.shape = exx.shape) ∧
        Broadcastable (batchShapesOf w k u v exx)) →
      validateGeneralAnisotropic w k u v exx exy eyx eyy ezz mxx mxy myx myy mzz none = .error .valueError ∨
      (broadcastShapes exx.shape eyy.shape = none ∧
        validateGeneralAnisotropic w k u v exx exy eyx eyy ezz mxx mxy myx myy mzz none = .error .typeError)) := by
  unfold validateGeneralAnisotropic
  by_cases hun : isUniformShape exx.shape = true
  · rw [if_pos hun]
    obtain ⟨h1, h2⟩ := C28_validate w k u v exx [exy, eyx, eyy, ezz, mxx, mxy, myx, myy, mzz] hk hu hv hp hpos
    constructor
    · intro h
      obtain ⟨args, ha, hr⟩ := h1 h
      refine ⟨args, [], ?_, by simpa using hr⟩
      rw [if_neg, ha]
      rw [not_not, List.all_eq_true]
      intro q hq
      rcases List.mem_cons.1 hq with rfl | hq
      · exact hun
      · rw [h.1.2 q hq]; exact hun
    · intro h
      left
      by_cases hc : ([exx, exy, eyx, eyy, ezz, mxx, mxy, myx, myy, mzz].all fun p => isUniformShape p.shape) = true
      · rw [if_neg (by simpa using hc), h2 h]
      · rw [if_pos (by simpa using hc)]
  · rw [if_neg hun]
    unfold NDArray.zipWith
    rcases hs : broadcastShapes exx.shape eyy.shape with _ | s
    · constructor
      · intro h
        rw [h.1.2 eyy (by simp)] at hs
        simp [broadcastShapes, broadcastRev_self] at hs
      · intro h
        exact Or.inr ⟨rfl, rfl⟩
    · set src : NDArray ℂ := ⟨s, fun idx => (exx.get (broadcastIndex exx.shape idx) + eyy.get (broadcastIndex eyy.shape idx)) / 2⟩
        with hsrc
      obtain ⟨h1, h2⟩ := C28_validate w k u v exx [exy, eyx, eyy, ezz, mxx, mxy, myx, myy, mzz, src] hk hu hv hp hpos
      have key : (∀ q ∈ [exy, eyx, eyy, ezz, mxx, mxy, myx, myy, mzz, src], q.shape = exx.shape) ↔
          ∀ q ∈ [exy, eyx, eyy, ezz, mxx, mxy, myx, myy, mzz], q.shape = exx.shape := by
        have e : [exy, eyx, eyy, ezz, mxx, mxy, myx, myy, mzz, src] = [exy, eyx, eyy, ezz, mxx, mxy, myx, myy, mzz] ++ [src] := rfl
        constructor
        · intro h q hq
          exact h q (by rw [e]; exact List.mem_append_left _ hq)
        · intro h q hq
          have he : eyy.shape = exx.shape := h eyy (by simp)
          rw [he] at hs
          simp only [broadcastShapes, broadcastRev_self, Option.map_some, List.reverse_reverse, Option.some.injEq] at hs
          rw [e] at hq
          rcases List.mem_append.1 hq with hq | hq
          · exact h q hq
          · rw [List.mem_singleton.1 hq]; exact hs.symm
      rw [key] at h1 h2
      constructor
      · intro h
        obtain ⟨args, ha, hr⟩ := h1 h
        exact ⟨args, [src], ha, hr⟩
      · intro h
        exact Or.inl (h2 h)

/-- C28, negative part: patterned permittivities whose xx and yy components cannot be broadcast raise TypeError, from the average
taken before the validation. -/
theorem C28_false_value_error :
    validateAnisotropic ⟨[], fun _ => 1⟩ ⟨[2], fun _ => 0⟩ ⟨[2], fun _ => 1⟩ ⟨[2], fun _ => 1⟩
      ⟨[3, 3], fun _ => 1⟩ ⟨[3, 3], fun _ => 0⟩ ⟨[3, 3], fun _ => 0⟩ ⟨[4, 4], fun _ => 1⟩ ⟨[3, 3], fun _ => 1⟩ =
      .error .typeError := by
  simp [validateAnisotropic, validateGeneralAnisotropic, isUniformShape, NDArray.zipWith, broadcastShapes, broadcastRev]
  rfl

/-- C28: with equal shapes of `permittivity_xx` and `permittivity_yy`, in particular, only ValueError is raised by
`eigensolve_anisotropic_media`. -/
theorem C28_anisotropic (w k u v : NDArray ℝ) (exx exy eyx eyy ezz : NDArray ℂ) (hs : eyy.shape = exx.shape)
    (hk : k.shape ≠ []) (hu : u.shape ≠ []) (hv : v.shape ≠ []) (hp : 2 ≤ exx.shape.length)
    (hpos : ∀ s ∈ batchShapesOf w k u v exx, ∀ n ∈ s, 0 < n) :
    (((k.shape.getLast? = some 2 ∧ ∀ q ∈ [exy, eyx, ezz], q.shape = exx.shape) ∧
        Broadcastable (batchShapesOf w k u v exx)) ↔ ∃ args, validateAnisotropic w k u v exx exy eyx eyy ezz = .ok args) ∧
    ((∃ args, validateAnisotropic w k u v exx exy eyx eyy ezz = .ok args) ∨
      validateAnisotropic w k u v exx exy eyx eyy ezz = .error .valueError) := by
  obtain ⟨h1, h2⟩ := C28_general_anisotropic_partial w k u v exx exy eyx eyy ezz ⟨exx.shape, fun _ => 1⟩ ⟨exx.shape, fun _ => 0⟩
    ⟨exx.shape, fun _ => 0⟩ ⟨exx.shape, fun _ => 1⟩ ⟨exx.shape, fun _ => 1⟩ hk hu hv hp hpos
  have key : (∀ q ∈ [exy, eyx, eyy, ezz, ⟨exx.shape, fun _ => 1⟩, ⟨exx.shape, fun _ => 0⟩, ⟨exx.shape, fun _ => 0⟩,
      ⟨exx.shape, fun _ => 1⟩, (⟨exx.shape, fun _ => 1⟩ : NDArray ℂ)], q.shape = exx.shape) ↔
      ∀ q ∈ [exy, eyx, ezz], q.shape = exx.shape := by
    simp [hs]
  rw [key] at h1 h2
  rw [hs] at h2
  have hb : broadcastShapes exx.shape exx.shape ≠ none := by simp [broadcastShapes, broadcastRev_self]
  unfold validateAnisotropic
  dsimp only
  by_cases hc : (k.shape.getLast? = some 2 ∧ ∀ q ∈ [exy, eyx, ezz], q.shape = exx.shape) ∧
        Broadcastable (batchShapesOf w k u v exx)
  · obtain ⟨args, -, ha, -⟩ := h1 hc
    exact ⟨iff_of_true hc ⟨args, ha⟩, Or.inl ⟨args, ha⟩⟩
  · rcases h2 hc with e | ⟨e, -⟩
    · refine ⟨iff_of_false hc ?_, Or.inr e⟩
      rintro ⟨args, ha⟩
      rw [e] at ha
      cases ha
    · exact absurd e hb

example : ∃ (w k u v : NDArray ℝ) (p : NDArray ℂ), (∀ s ∈ batchShapesOf w k u v p, ∀ n ∈ s, 0 < n) ∧
    w.shape = [3, 1] ∧ k.shape = [4, 2] ∧ p.shape = [3, 1, 20, 20] ∧
    ∃ args, validateIsotropic w k u v p = .ok args ∧ args.angularFrequency.shape = [3, 1] ∧
      args.inPlaneWavevector.shape = [1, 4, 2] ∧ args.u.shape = [1, 1, 2] := by
  refine ⟨⟨[3, 1], fun _ => 1⟩, ⟨[4, 2], fun _ => 0⟩, ⟨[2], fun _ => 1⟩, ⟨[2], fun _ => 1⟩, ⟨[3, 1, 20, 20], fun _ => 2⟩,
    by simp [batchShapesOf], rfl, rfl, rfl, _, rfl, rfl, rfl, rfl⟩

end Fmmax
