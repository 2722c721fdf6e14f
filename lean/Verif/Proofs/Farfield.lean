import Verif.Model.Farfield
import Verif.Spec.Farfield
import Verif.Proofs.Fft
import Mathlib.Data.List.GetD
import Mathlib.Tactic.Linarith
import Mathlib.Tactic.Ring
import Mathlib.Tactic.FieldSimp

/-! Lemmas about unflattening, resizing and integrated flux. -/

namespace Fmmax

open Spec

variable {n : ℕ}

/-! ### Cells -/

theorem pyMin_eq_ok {f : Fin n → ℤ} {a : ℤ} : pyMin (List.ofFn f) = .ok a ↔ (∃ t, f t = a) ∧ ∀ t, a ≤ f t := by
  unfold pyMin
  cases h : (List.ofFn f).min? with
  | none =>
    simp only [reduceCtorEq, false_iff]
    rintro ⟨⟨t, ht⟩, -⟩
    rw [List.min?_eq_none_iff] at h
    have := congrArg List.length h
    simp only [List.length_ofFn, List.length_nil] at this
    exact absurd t.2 (by omega)
  | some b =>
    have hb := List.min?_eq_some_iff.1 h
    simp only [List.mem_ofFn, ok_inj] at hb ⊢
    constructor
    · rintro rfl
      exact ⟨hb.1, fun t => hb.2 _ ⟨t, rfl⟩⟩
    · rintro ⟨⟨t, rfl⟩, h2⟩
      obtain ⟨t', ht'⟩ := hb.1
      exact le_antisymm (hb.2 _ ⟨t, rfl⟩) (ht' ▸ h2 t')

theorem pyMax_eq_ok {f : Fin n → ℤ} {a : ℤ} : pyMax (List.ofFn f) = .ok a ↔ (∃ t, f t = a) ∧ ∀ t, f t ≤ a := by
  unfold pyMax
  cases h : (List.ofFn f).max? with
  | none =>
    simp only [reduceCtorEq, false_iff]
    rintro ⟨⟨t, ht⟩, -⟩
    rw [List.max?_eq_none_iff] at h
    have := congrArg List.length h
    simp only [List.length_ofFn, List.length_nil] at this
    exact absurd t.2 (by omega)
  | some b =>
    have hb := List.max?_eq_some_iff.1 h
    simp only [List.mem_ofFn, ok_inj] at hb ⊢
    constructor
    · rintro rfl
      exact ⟨hb.1, fun t => hb.2 _ ⟨t, rfl⟩⟩
    · rintro ⟨⟨t, rfl⟩, h2⟩
      obtain ⟨t', ht'⟩ := hb.1
      exact le_antisymm (ht' ▸ h2 t') (hb.2 _ ⟨t, rfl⟩)

theorem pyMin_exists (hn : 0 < n) (f : Fin n → ℤ) : ∃ a, pyMin (List.ofFn f) = .ok a := by
  unfold pyMin
  cases h : (List.ofFn f).min? with
  | some a => exact ⟨a, rfl⟩
  | none =>
    rw [List.min?_eq_none_iff] at h
    have := congrArg List.length h
    simp only [List.length_ofFn, List.length_nil] at this
    omega

theorem pyMax_exists (hn : 0 < n) (f : Fin n → ℤ) : ∃ a, pyMax (List.ofFn f) = .ok a := by
  unfold pyMax
  cases h : (List.ofFn f).max? with
  | some a => exact ⟨a, rfl⟩
  | none =>
    rw [List.max?_eq_none_iff] at h
    have := congrArg List.length h
    simp only [List.length_ofFn, List.length_nil] at this
    omega

theorem scatterIndex_of_lt {N : ℕ} {d : ℤ} (h0 : 0 ≤ d) (h1 : d < N) : scatterIndex N d = some d.toNat := by
  unfold scatterIndex
  simp only [not_lt.2 h0, if_false, h0, h1, and_self, if_true]

theorem orderBounds_exists (hn : 0 < n) (G : Fin n → ℤ × ℤ) : ∃ lo hi, OrderBounds G lo hi := by
  obtain ⟨a, ha⟩ := pyMin_exists hn fun t => (G t).1
  obtain ⟨b, hb⟩ := pyMin_exists hn fun t => (G t).2
  obtain ⟨c, hc⟩ := pyMax_exists hn fun t => (G t).1
  obtain ⟨d, hd⟩ := pyMax_exists hn fun t => (G t).2
  rw [pyMin_eq_ok] at ha hb
  rw [pyMax_eq_ok] at hc hd
  exact ⟨(a, b), (c, d), ha.1, hb.1, hc.1, hd.1, fun t => ⟨ha.2 t, hc.2 t⟩, fun t => ⟨hb.2 t, hd.2 t⟩⟩

theorem merged_bounds {g lo hi : ℤ} {N p : ℕ} (h : lo ≤ g ∧ g ≤ hi) (hp : p < N) :
    0 ≤ g * N + p - lo * N ∧ g * N + p - lo * N < (((hi - lo + 1) * N).toNat : ℤ) := by
  have h1 : 0 ≤ (g - lo) * N := mul_nonneg (by omega) (by omega)
  have h2 : (g - lo) * N ≤ (hi - lo) * N := mul_le_mul_of_nonneg_right (by omega) (by omega)
  have h3 : 0 ≤ (hi - lo) * (N : ℤ) := le_trans h1 h2
  have e : (((hi - lo + 1) * N).toNat : ℤ) = (hi - lo) * N + N := by
    rw [Int.toNat_of_nonneg (by linarith [show (hi - lo + 1) * (N : ℤ) = (hi - lo) * N + N by ring])]
    ring
  rw [e]
  have e2 : g * N + p - lo * N = (g - lo) * (N : ℤ) + p := by ring
  rw [e2]
  constructor
  · linarith [Int.natCast_nonneg p]
  · have : (p : ℤ) < N := by exact_mod_cast hp
    linarith

theorem merged_injective {a a' lo : ℤ} {N p p' : ℕ} (hp : p < N) (hp' : p' < N)
    (h : a * N + p - lo * N = a' * N + p' - lo * N) : a = a' ∧ p = p' := by
  have h1 : a * N + p = a' * N + (p' : ℤ) := by linarith
  have hN : (0 : ℤ) < N := by omega
  have h2 : (a * N + p) / (N : ℤ) = a := by
    rw [add_comm, Int.add_mul_ediv_right _ _ hN.ne', Int.ediv_eq_zero_of_lt (by omega) (by omega), zero_add]
  have h3 : (a' * N + p') / (N : ℤ) = a' := by
    rw [add_comm, Int.add_mul_ediv_right _ _ hN.ne', Int.ediv_eq_zero_of_lt (by omega) (by omega), zero_add]
  have h4 : a = a' := by rw [← h2, ← h3, h1]
  subst h4
  exact ⟨rfl, by omega⟩

/-- What is found in each cell. -/
theorem unflattenSource_eq {G : Fin n → ℤ × ℤ} (hG : Function.Injective G) {lo hi : ℤ × ℤ} (hb : OrderBounds G lo hi)
    (nx ny : ℕ) :
    ∃ src, unflattenSource G nx ny = .ok ((((hi.1 - lo.1 + 1) * nx).toNat, ((hi.2 - lo.2 + 1) * ny).toNat), src) ∧
      ∀ r c x, src r c = some x ↔
        IsMergedCell lo nx ny (G x.2.2) x.1 x.2.1 r c := by
  classical
  unfold IsMergedCell
  have h1 : pyMin (List.ofFn fun t => (G t).1) = .ok lo.1 := pyMin_eq_ok.2 ⟨hb.lo_mem1, fun t => (hb.le1 t).1⟩
  have h2 : pyMin (List.ofFn fun t => (G t).2) = .ok lo.2 := pyMin_eq_ok.2 ⟨hb.lo_mem2, fun t => (hb.le2 t).1⟩
  have h3 : pyMax (List.ofFn fun t => (G t).1) = .ok hi.1 := pyMax_eq_ok.2 ⟨hb.hi_mem1, fun t => (hb.le1 t).2⟩
  have h4 : pyMax (List.ofFn fun t => (G t).2) = .ok hi.2 := pyMax_eq_ok.2 ⟨hb.hi_mem2, fun t => (hb.le2 t).2⟩
  unfold unflattenSource unflattenShape unflattenIndices
  rw [h1, h2, h3, h4]
  simp only [bind, Except.bind]
  refine ⟨_, rfl, ?_⟩
  intro r c x
  have key : ∀ x : Fin nx × Fin ny × Fin n, ∀ r c : ℕ,
      (scatterIndex ((hi.1 - lo.1 + 1) * nx).toNat ((G x.2.2).1 * nx + (x.1 : ℕ) - lo.1 * nx) = some r ∧
       scatterIndex ((hi.2 - lo.2 + 1) * ny).toNat ((G x.2.2).2 * ny + (x.2.1 : ℕ) - lo.2 * ny) = some c) ↔
      (r : ℤ) = ((G x.2.2).1 - lo.1) * nx + (x.1 : ℕ) ∧ (c : ℤ) = ((G x.2.2).2 - lo.2) * ny + (x.2.1 : ℕ) := by
    intro x r c
    have b1 := merged_bounds (hb.le1 x.2.2) x.1.2
    have b2 := merged_bounds (hb.le2 x.2.2) x.2.1.2
    rw [scatterIndex_of_lt b1.1 b1.2, scatterIndex_of_lt b2.1 b2.2]
    have e1 : (G x.2.2).1 * nx + (x.1 : ℕ) - lo.1 * nx = ((G x.2.2).1 - lo.1) * (nx : ℤ) + (x.1 : ℕ) := by ring
    have e2 : (G x.2.2).2 * ny + (x.2.1 : ℕ) - lo.2 * ny = ((G x.2.2).2 - lo.2) * (ny : ℤ) + (x.2.1 : ℕ) := by ring
    rw [e1] at b1 ⊢
    rw [e2] at b2 ⊢
    simp only [Option.some.injEq]
    constructor
    · rintro ⟨rfl, rfl⟩
      exact ⟨Int.toNat_of_nonneg b1.1, Int.toNat_of_nonneg b2.1⟩
    · rintro ⟨h, h'⟩
      rw [← h, ← h']
      exact ⟨rfl, rfl⟩
  have inj : ∀ x y : Fin nx × Fin ny × Fin n, ∀ r c : ℕ,
      ((r : ℤ) = ((G x.2.2).1 - lo.1) * nx + (x.1 : ℕ) ∧ (c : ℤ) = ((G x.2.2).2 - lo.2) * ny + (x.2.1 : ℕ)) →
      ((r : ℤ) = ((G y.2.2).1 - lo.1) * nx + (y.1 : ℕ) ∧ (c : ℤ) = ((G y.2.2).2 - lo.2) * ny + (y.2.1 : ℕ)) → x = y := by
    rintro x y r c ⟨hr, hc⟩ ⟨hr', hc'⟩
    obtain ⟨e1, e2⟩ := merged_injective (lo := lo.1) x.1.2 y.1.2 (a := (G x.2.2).1) (a' := (G y.2.2).1) (by linarith)
    obtain ⟨e3, e4⟩ := merged_injective (lo := lo.2) x.2.1.2 y.2.1.2 (a := (G x.2.2).2) (a' := (G y.2.2).2) (by linarith)
    exact Prod.ext (Fin.ext e2) (Prod.ext (Fin.ext e4) (hG (Prod.ext e1 e3)))
  by_cases h : ∃ x : Fin nx × Fin ny × Fin n,
      scatterIndex ((hi.1 - lo.1 + 1) * nx).toNat ((G x.2.2).1 * nx + (x.1 : ℕ) - lo.1 * nx) = some r ∧
      scatterIndex ((hi.2 - lo.2 + 1) * ny).toNat ((G x.2.2).2 * ny + (x.2.1 : ℕ) - lo.2 * ny) = some c
  · have hs := (key _ _ _).1 h.choose_spec
    constructor
    · intro hx
      rw [dif_pos h] at hx
      have hx := Option.some.inj hx
      rw [← hx]
      exact hs
    · intro hx
      rw [dif_pos h]
      exact congrArg some (inj _ _ r c hs hx)
  · constructor
    · intro hx
      rw [dif_neg h] at hx
      cases hx
    · intro hx
      exact absurd ⟨x, (key _ _ _).2 hx⟩ h

/-! ### Reshape and transpose -/

theorem Spec.ValidIndex.length_eq {shape idx : List ℕ} (h : ValidIndex shape idx) : idx.length = shape.length :=
  List.Forall₂.length_eq h

theorem ravelIndex_append {s i : List ℕ} (h : i.length = s.length) (N k : ℕ) :
    ravelIndex (s ++ [N]) (i ++ [k]) = ravelIndex s i * N + k := by
  unfold ravelIndex
  rw [List.zip_append h.symm, List.foldl_append]
  rfl

theorem unravelIndex_append (s : List ℕ) (N k : ℕ) : unravelIndex (s ++ [N]) k = unravelIndex s (k / N) ++ [k % N] := by
  unfold unravelIndex
  simp [unravelRev]

theorem unravel_ravel {s i : List ℕ} (h : ValidIndex s i) : unravelIndex s (ravelIndex s i) = i := by
  induction s using List.reverseRecOn generalizing i with
  | nil =>
    obtain rfl : i = [] := List.forall₂_nil_right_iff.1 h
    rfl
  | append_singleton s N ih =>
    have hl := h.length_eq
    have hne : i ≠ [] := by
      rintro rfl
      simp at hl
    obtain ⟨i', k, rfl⟩ : ∃ i' k, i = i' ++ [k] := ⟨_, _, (List.dropLast_append_getLast hne).symm⟩
    simp only [List.length_append, List.length_singleton] at hl
    have hl : i'.length = s.length := by omega
    have h1 : ValidIndex s i' := by
      have := List.forall₂_take s.length h
      rwa [List.take_left' hl, List.take_left' rfl] at this
    have h2 : k < N := by
      have := List.forall₂_drop s.length h
      rw [List.drop_left' hl, List.drop_left' rfl] at this
      exact (List.forall₂_cons.1 this).1
    rw [ravelIndex_append hl, unravelIndex_append]
    have hN : 0 < N := by omega
    rw [show (ravelIndex s i' * N + k) / N = ravelIndex s i' by
        rw [add_comm, Nat.add_mul_div_right _ _ hN, Nat.div_eq_of_lt h2, zero_add],
      show (ravelIndex s i' * N + k) % N = k by
        rw [add_comm, Nat.add_mul_mod_self_right, Nat.mod_eq_of_lt h2], ih h1]

theorem map_range_getD (orig : List ℕ) : (List.range orig.length).map (fun d => orig.getD d 0) = orig := by
  apply List.ext_getElem
  · simp
  · intro k h1 h2
    simp [h2]

theorem transpose_get {α : Type} (a : NDArray α) {axes orig : List ℕ} (h : axes.Perm (List.range a.shape.length))
    (ho : orig.length = a.shape.length) :
    (a.transpose axes).get (axes.map fun d => orig.getD d 0) = a.get orig := by
  unfold NDArray.transpose
  simp only
  congr 1
  conv_rhs => rw [← map_range_getD orig, ho]
  refine List.map_congr_left fun d hd => ?_
  have hm : d ∈ axes := h.mem_iff.2 hd
  have hlt : axes.idxOf d < axes.length := List.idxOf_lt_length_of_mem hm
  rw [List.getD_eq_getElem _ _ (by simpa using hlt), List.getElem_map, List.getElem_idxOf]

theorem map_range'_getD {X Y Z : List ℕ} {a l : ℕ} (hX : X.length = a) (hY : Y.length = l) :
    (List.range' a l).map (fun d => (X ++ (Y ++ Z)).getD d 0) = Y := by
  apply List.ext_getElem
  · simp [hY]
  · intro k h1 h2
    simp only [List.getElem_map, List.getElem_range', one_mul]
    rw [List.getD_append_right _ _ _ _ (by omega), List.getD_append _ _ _ _ (by omega)]
    rw [show a + k - X.length = k by omega]
    exact List.getD_eq_getElem _ _ h2

theorem getD_append_cons {X Z : List ℕ} {y a : ℕ} (hX : X.length = a) : (X ++ y :: Z).getD a 0 = y := by
  rw [List.getD_append_right _ _ _ _ (by omega), hX, Nat.sub_self]
  rfl

/-- The axes with the Brillouin axes and the axis of orders moved to the end. -/
theorem moveToEnd_eq (a b c : ℕ) :
    moveToEnd (a + b + c + 4) [a, a + 1 + b, a + b + c + 2] =
      List.range' 0 a ++ (List.range' (a + 1) b ++ (List.range' (a + b + 2) c ++ [a + b + c + 3, a, a + 1 + b, a + b + c + 2])) := by
  have hr : List.range (a + b + c + 4) = List.range' 0 a ++ ([a] ++ (List.range' (a + 1) b ++ ([a + 1 + b] ++
      (List.range' (a + b + 2) c ++ ([a + b + c + 2] ++ [a + b + c + 3]))))) := by
    rw [List.range_eq_range']
    have e1 : a + b + c + 4 = a + (1 + (b + (1 + (c + (1 + 1))))) := by omega
    rw [e1]
    rw [← List.range'_append_1, ← List.range'_append_1, ← List.range'_append_1, ← List.range'_append_1,
      ← List.range'_append_1, ← List.range'_append_1]
    simp only [List.range'_one]
    congr 5 <;> first | omega | skip
    all_goals simp <;> omega
  have hb : (List.range (a + b + c + 4)).filter (fun i => decide (i ∉ [a, a + 1 + b, a + b + c + 2])) =
      List.range' 0 a ++ (List.range' (a + 1) b ++ (List.range' (a + b + 2) c ++ [a + b + c + 3])) := by
    rw [hr]
    simp only [List.filter_append]
    rw [List.filter_eq_self.2, List.filter_eq_nil_iff.2, List.filter_eq_self.2, List.filter_eq_nil_iff.2,
      List.filter_eq_self.2, List.filter_eq_nil_iff.2, List.filter_eq_self.2]
    · simp
    all_goals
      intro i hi
      simp only [List.mem_range'_1, List.mem_singleton] at hi
      simp only [List.mem_cons, List.not_mem_nil, or_false, decide_eq_true_eq]
      omega
  have hl : (List.range (a + b + c + 4)).filter (fun i => decide (i ∉
      List.range' 0 a ++ (List.range' (a + 1) b ++ (List.range' (a + b + 2) c ++ [a + b + c + 3])))) =
      [a, a + 1 + b, a + b + c + 2] := by
    rw [hr]
    simp only [List.filter_append]
    rw [List.filter_eq_nil_iff.2, List.filter_eq_self.2, List.filter_eq_nil_iff.2, List.filter_eq_self.2,
      List.filter_eq_nil_iff.2, List.filter_eq_self.2, List.filter_eq_nil_iff.2]
    · simp
    all_goals
      intro i hi
      simp only [List.mem_range'_1, List.mem_singleton] at hi
      simp only [List.mem_append, List.mem_range'_1, List.mem_singleton, decide_eq_true_eq]
      omega
  unfold moveToEnd
  simp only [hb, hl]
  simp

theorem moveToEnd_perm (ndim : ℕ) (last : List ℕ) : (moveToEnd ndim last).Perm (List.range ndim) := by
  unfold moveToEnd
  simp only
  have e : (List.range ndim).filter (fun i => decide (i ∉ (List.range ndim).filter fun i => decide (i ∉ last))) =
      (List.range ndim).filter fun i => !decide (i ∉ last) := by
    refine List.filter_congr fun i hi => ?_
    simp only [List.mem_filter, hi, true_and, decide_not, Bool.not_eq_true']
    simp
  rw [e]
  exact List.filter_append_perm _ _

theorem moveToEnd_swap (ndim a b c : ℕ) : moveToEnd ndim [a, b, c] = moveToEnd ndim [b, a, c] := by
  unfold moveToEnd
  have e : ∀ i, i ∈ [a, b, c] ↔ i ∈ [b, a, c] := by
    intro i
    simp only [List.mem_cons, List.not_mem_nil, or_false]
    tauto
  simp only [e]

theorem moveToEnd_map {X Y Z : List ℕ} {p q t s a b c : ℕ} (hX : X.length = a) (hY : Y.length = b) (hZ : Z.length = c) :
    (moveToEnd (a + b + c + 4) [a, a + 1 + b, a + b + c + 2]).map
      (fun d => (X ++ p :: (Y ++ q :: (Z ++ [t, s]))).getD d 0) = X ++ (Y ++ (Z ++ [s, p, q, t])) := by
  rw [moveToEnd_eq]
  simp only [List.map_append, List.map_cons, List.map_nil]
  have e1 := map_range'_getD (X := []) (Y := X) (Z := p :: (Y ++ q :: (Z ++ [t, s]))) (a := 0) rfl hX
  have e2 := map_range'_getD (X := X ++ [p]) (Y := Y) (Z := q :: (Z ++ [t, s])) (a := a + 1) (by simp [hX]) hY
  have e3 := map_range'_getD (X := X ++ p :: (Y ++ [q])) (Y := Z) (Z := [t, s]) (a := a + b + 2)
    (by simp [hX, hY]; omega) hZ
  have e4 := getD_append_cons (X := X ++ p :: (Y ++ q :: (Z ++ [t]))) (Z := []) (y := s) (a := a + b + c + 3)
    (by simp [hX, hY, hZ]; omega)
  have e5 := getD_append_cons (X := X) (Z := Y ++ q :: (Z ++ [t, s])) (y := p) (a := a) hX
  have e6 := getD_append_cons (X := X ++ p :: Y) (Z := Z ++ [t, s]) (y := q) (a := a + 1 + b) (by simp [hX, hY]; omega)
  have e7 := getD_append_cons (X := X ++ p :: (Y ++ q :: Z)) (Z := [s]) (y := t) (a := a + b + c + 2)
    (by simp [hX, hY, hZ]; omega)
  simp only [List.nil_append, List.append_assoc, List.cons_append] at e1 e2 e3 e4 e5 e6 e7
  rw [e1, e2, e3, e4, e5, e6, e7]

/-! ### Unflattening nd-arrays -/

theorem unflatten_eq {α : Type} {flat : NDArray α} {G : Fin n → ℤ × ℤ} {B : List ℕ} {nx ny : ℕ}
    (hs : flat.shape = B ++ [nx, ny, n]) {r : (ℕ × ℕ) × (ℕ → ℕ → Option (Fin nx × Fin ny × Fin n))}
    (hr : unflattenSource G nx ny = .ok r) :
    ∃ out, unflatten flat G = .ok out ∧ out.shape = B ++ [r.1.1, r.1.2] ∧
      ∀ b i j, b.length = B.length → out.get (b ++ [i, j]) =
        (r.2 i j).map fun x => flat.get (b ++ [(x.1 : ℕ), (x.2.1 : ℕ), (x.2.2 : ℕ)]) := by
  have hl : flat.shape.length = B.length + 3 := by rw [hs]; simp
  have e1 : flat.shape.getD (flat.shape.length - 1) 0 = n := by
    rw [hl, hs]
    simpa using getD_append_cons (X := B ++ [nx, ny]) (Z := []) (y := n) (a := B.length + 3 - 1) (by simp)
  have e2 : flat.shape.getD (flat.shape.length - 3) 0 = nx := by
    rw [hl, hs]; exact getD_append_cons (X := B) (Z := [ny, n]) (by simp)
  have e3 : flat.shape.getD (flat.shape.length - 2) 0 = ny := by
    rw [hl, hs]
    simpa using getD_append_cons (X := B ++ [nx]) (Z := [n]) (y := ny) (a := B.length + 3 - 2) (by simp)
  have e4 : flat.shape.take (flat.shape.length - 3) = B := by
    rw [hl, hs]; exact List.take_left' (by simp)
  unfold unflatten
  simp only [e1, e4]
  rw [if_neg (by omega), if_neg (by simp)]
  subst e2 e3
  rw [hr]
  refine ⟨_, rfl, rfl, fun b i j hb => ?_⟩
  simp only
  have f1 : (b ++ [i, j]).getD (flat.shape.length - 3) 0 = i :=
    getD_append_cons (X := b) (Z := [j]) (by rw [hl]; simp [hb])
  have f2 : (b ++ [i, j]).getD (flat.shape.length - 2) 0 = j := by
    rw [hl]
    simpa using getD_append_cons (X := b ++ [i]) (Z := []) (y := j) (a := B.length + 3 - 2) (by simp [hb])
  have f3 : (b ++ [i, j]).take (flat.shape.length - 3) = b := List.take_left' (by rw [hl]; simp [hb])
  rw [f1, f2, f3]

theorem reshape_split {α : Type} (flux : NDArray α) {B : List ℕ} {S : ℕ} (hs : flux.shape = B ++ [2 * n, S])
    {b : List ℕ} (hb : ValidIndex B b) {pol t s : ℕ} (hpol : pol < 2) (ht : t < n) (hsS : s < S) :
    (flux.reshape (B ++ [2, n, S])).get (b ++ [pol, t, s]) = flux.get (b ++ [pol * n + t, s]) := by
  unfold NDArray.reshape
  simp only
  have hl := hb.length_eq
  have e1 : ravelIndex (B ++ [2, n, S]) (b ++ [pol, t, s]) = ((ravelIndex B b * 2 + pol) * n + t) * S + s := by
    rw [show B ++ [2, n, S] = B ++ [2] ++ [n] ++ [S] by simp, show b ++ [pol, t, s] = b ++ [pol] ++ [t] ++ [s] by simp,
      ravelIndex_append (by simp [hl]), ravelIndex_append (by simp [hl]), ravelIndex_append hl]
  have e2 : ravelIndex (B ++ [2 * n, S]) (b ++ [pol * n + t, s]) = (ravelIndex B b * (2 * n) + (pol * n + t)) * S + s := by
    rw [show B ++ [2 * n, S] = B ++ [2 * n] ++ [S] by simp, show b ++ [pol * n + t, s] = b ++ [pol * n + t] ++ [s] by simp,
      ravelIndex_append (by simp [hl]), ravelIndex_append hl]
  have e3 : ravelIndex (B ++ [2, n, S]) (b ++ [pol, t, s]) = ravelIndex (B ++ [2 * n, S]) (b ++ [pol * n + t, s]) := by
    rw [e1, e2]; ring
  have hv : ValidIndex (B ++ [2 * n, S]) (b ++ [pol * n + t, s]) := by
    unfold ValidIndex
    refine List.rel_append hb ?_
    refine List.Forall₂.cons ?_ (List.Forall₂.cons hsS List.Forall₂.nil)
    have : pol * n ≤ 1 * n := Nat.mul_le_mul_right n (by omega)
    omega
  rw [e3, hs, unravel_ravel hv]

theorem absoluteAxes_pair {a b ndim : ℕ} (hab : a < b) (hb : b < ndim) {axes : ℤ × ℤ}
    (h1 : axes.1 = a ∨ axes.1 = a - ndim) (h2 : axes.2 = b ∨ axes.2 = b - ndim) :
    absoluteAxes [axes.1, axes.2] ndim = .ok [(a : ℤ), (b : ℤ)] := by
  have m1 : axes.1 % (ndim : ℤ) = a := by
    rcases h1 with h | h
    · rw [h]; exact Int.emod_eq_of_lt (by omega) (by omega)
    · rw [h, ← Int.add_emod_right, Int.sub_add_cancel]; exact Int.emod_eq_of_lt (by omega) (by omega)
  have m2 : axes.2 % (ndim : ℤ) = b := by
    rcases h2 with h | h
    · rw [h]; exact Int.emod_eq_of_lt (by omega) (by omega)
    · rw [h, ← Int.add_emod_right, Int.sub_add_cancel]; exact Int.emod_eq_of_lt (by omega) (by omega)
  unfold absoluteAxes
  rw [if_neg]
  · simp only [List.map_cons, List.map_nil, m1, m2]
    rw [if_neg]
    have hne : (a : ℤ) ≠ b := by omega
    rw [List.Nodup.dedup (by simp [hne])]
    simp
  · simp only [List.all_cons, List.all_nil, Bool.and_true, Bool.and_eq_true, decide_eq_true_eq, not_not]
    omega

/-- Moving the axes and unflattening, common to flux and wavevectors. -/
theorem unflatten_moved {α : Type} (a : NDArray α) {G : Fin n → ℤ × ℤ} {X Y Z : List ℕ} {nx ny S : ℕ}
    (hs : a.shape = X ++ nx :: (Y ++ ny :: (Z ++ [n, S])))
    {r : (ℕ × ℕ) × (ℕ → ℕ → Option (Fin nx × Fin ny × Fin n))} (hr : unflattenSource G nx ny = .ok r) :
    ∃ out, unflatten (a.transpose (moveToEnd (X.length + Y.length + Z.length + 4)
        [X.length, X.length + 1 + Y.length, X.length + Y.length + Z.length + 2])) G = .ok out ∧
      out.shape = X ++ (Y ++ (Z ++ [S, r.1.1, r.1.2])) ∧
      ∀ x y z s i j, x.length = X.length → y.length = Y.length → z.length = Z.length →
        out.get (x ++ (y ++ (z ++ [s, i, j]))) =
          (r.2 i j).map fun w => a.get (x ++ (w.1 : ℕ) :: (y ++ (w.2.1 : ℕ) :: (z ++ [(w.2.2 : ℕ), s]))) := by
  have hl : a.shape.length = X.length + Y.length + Z.length + 4 := by
    rw [hs]; simp; omega
  have hsh : (a.transpose (moveToEnd (X.length + Y.length + Z.length + 4)
      [X.length, X.length + 1 + Y.length, X.length + Y.length + Z.length + 2])).shape =
      (X ++ (Y ++ (Z ++ [S]))) ++ [nx, ny, n] := by
    unfold NDArray.transpose
    simp only
    rw [hs, moveToEnd_map rfl rfl rfl]
    simp
  obtain ⟨out, h1, h2, h3⟩ := unflatten_eq hsh hr
  refine ⟨out, h1, by rw [h2]; simp, fun x y z s i j hx hy hz => ?_⟩
  have h4 := h3 (x ++ (y ++ (z ++ [s]))) i j (by simp [hx, hy, hz])
  simp only [List.append_assoc, List.cons_append, List.nil_append] at h4
  rw [h4]
  congr 1
  funext w
  rw [← transpose_get a (axes := moveToEnd (X.length + Y.length + Z.length + 4)
    [X.length, X.length + 1 + Y.length, X.length + Y.length + Z.length + 2]) (by rw [hl]; exact moveToEnd_perm _ _)
    (by rw [hl]; simp [hx, hy, hz]; omega), moveToEnd_map hx hy hz]

theorem lastAxes_map4 {B : List ℕ} {p q r s a : ℕ} (hB : B.length = a) :
    (List.range (a + 4 - 4) ++ [a + 4 - 2, a + 4 - 1, a + 4 - 4, a + 4 - 3]).map (fun d => (B ++ [p, q, r, s]).getD d 0) =
      B ++ [r, s, p, q] := by
  have e0 := map_range'_getD (X := []) (Y := B) (Z := [p, q, r, s]) (a := 0) rfl hB
  have e1 := getD_append_cons (X := B ++ [p, q]) (Z := [s]) (y := r) (a := a + 4 - 2) (by simp [hB])
  have e2 := getD_append_cons (X := B ++ [p, q, r]) (Z := []) (y := s) (a := a + 4 - 1) (by simp [hB])
  have e3 := getD_append_cons (X := B) (Z := [q, r, s]) (y := p) (a := a + 4 - 4) (by simp [hB])
  have e4 := getD_append_cons (X := B ++ [p]) (Z := [r, s]) (y := q) (a := a + 4 - 3) (by simp [hB])
  simp only [List.nil_append, List.append_assoc, List.cons_append] at e0 e1 e2 e3 e4
  rw [List.map_append, show List.range (a + 4 - 4) = List.range' 0 a by rw [Nat.add_sub_cancel, List.range_eq_range'], e0]
  simp only [List.map_cons, List.map_nil, e1, e2, e3, e4]

theorem lastAxes_perm4 (a : ℕ) :
    (List.range (a + 4 - 4) ++ [a + 4 - 2, a + 4 - 1, a + 4 - 4, a + 4 - 3]).Perm (List.range (a + 4)) := by
  have e : List.range (a + 4) = List.range a ++ [a, a + 1, a + 2, a + 3] := by
    rw [List.range_succ, List.range_succ, List.range_succ, List.range_succ]; simp
  rw [e, Nat.add_sub_cancel]
  refine List.Perm.append_left _ ?_
  rw [show [a + 4 - 2, a + 4 - 1, a, a + 4 - 3] = [a + 2, a + 3] ++ [a, a + 1] by simp]
  exact List.perm_append_comm

theorem lastAxes_map3 {B : List ℕ} {p q r a : ℕ} (hB : B.length = a) :
    (List.range (a + 3 - 3) ++ [a + 3 - 2, a + 3 - 1, a + 3 - 3]).map (fun d => (B ++ [p, q, r]).getD d 0) =
      B ++ [q, r, p] := by
  have e0 := map_range'_getD (X := []) (Y := B) (Z := [p, q, r]) (a := 0) rfl hB
  have e1 := getD_append_cons (X := B ++ [p]) (Z := [r]) (y := q) (a := a + 3 - 2) (by simp [hB])
  have e2 := getD_append_cons (X := B ++ [p, q]) (Z := []) (y := r) (a := a + 3 - 1) (by simp [hB])
  have e3 := getD_append_cons (X := B) (Z := [q, r]) (y := p) (a := a + 3 - 3) (by simp [hB])
  simp only [List.nil_append, List.append_assoc, List.cons_append] at e0 e1 e2 e3
  rw [List.map_append, show List.range (a + 3 - 3) = List.range' 0 a by rw [Nat.add_sub_cancel, List.range_eq_range'], e0]
  simp only [List.map_cons, List.map_nil, e1, e2, e3]

theorem lastAxes_perm3 (a : ℕ) :
    (List.range (a + 3 - 3) ++ [a + 3 - 2, a + 3 - 1, a + 3 - 3]).Perm (List.range (a + 3)) := by
  have e : List.range (a + 3) = List.range a ++ [a, a + 1, a + 2] := by
    rw [List.range_succ, List.range_succ, List.range_succ]; simp
  rw [e, Nat.add_sub_cancel]
  refine List.Perm.append_left _ ?_
  rw [show [a + 3 - 2, a + 3 - 1, a] = [a + 1, a + 2] ++ [a] by simp]
  exact List.perm_append_comm (l₂ := [a])

theorem unflattenTransverseWavevectors_eq {α : Type} (k : NDArray α) {G : Fin n → ℤ × ℤ} {X Y Z : List ℕ} {nx ny : ℕ}
    (hs : k.shape = X ++ nx :: (Y ++ ny :: (Z ++ [n, 2]))) {axes : ℤ × ℤ}
    (h1 : axes.1 = X.length ∨ axes.1 = X.length - k.shape.length)
    (h2 : axes.2 = (X.length + 1 + Y.length : ℕ) ∨ axes.2 = (X.length + 1 + Y.length : ℕ) - k.shape.length)
    {r : (ℕ × ℕ) × (ℕ → ℕ → Option (Fin nx × Fin ny × Fin n))} (hr : unflattenSource G nx ny = .ok r) :
    ∃ out, unflattenTransverseWavevectors k G axes = .ok out ∧
      out.shape = X ++ (Y ++ (Z ++ [r.1.1, r.1.2, 2])) ∧
      ∀ x y z s i j, x.length = X.length → y.length = Y.length → z.length = Z.length →
        out.get (x ++ (y ++ (z ++ [i, j, s]))) =
          (r.2 i j).map fun w => k.get (x ++ (w.1 : ℕ) :: (y ++ (w.2.1 : ℕ) :: (z ++ [(w.2.2 : ℕ), s]))) := by
  have hl : k.shape.length = X.length + Y.length + Z.length + 4 := by
    rw [hs]; simp; omega
  obtain ⟨out, g1, g2, g3⟩ := unflatten_moved k hs hr
  have hl' : out.shape.length = (X ++ (Y ++ Z)).length + 3 := by rw [g2]; simp; omega
  have ha := absoluteAxes_pair (a := X.length) (b := X.length + 1 + Y.length) (ndim := k.shape.length) (by omega) (by omega)
    h1 h2
  have hd : k.shape.drop (k.shape.length - 2) = [n, 2] := by
    rw [hl, hs]
    rw [show X ++ nx :: (Y ++ ny :: (Z ++ [n, 2])) = (X ++ nx :: (Y ++ ny :: Z)) ++ [n, 2] by simp]
    exact List.drop_left' (by simp; omega)
  unfold unflattenTransverseWavevectors
  simp only
  rw [if_neg (by omega), if_neg (by simp [hd]), ha]
  simp only [bind, Except.bind, List.map_cons, List.map_nil, Int.toNat_natCast, List.cons_append, List.nil_append]
  rw [hl, show X.length + Y.length + Z.length + 4 - 2 = X.length + Y.length + Z.length + 2 by omega, g1]
  refine ⟨_, rfl, ?_, fun x y z s i j hx hy hz => ?_⟩
  · unfold NDArray.transpose
    simp only
    rw [hl', g2]
    rw [show X ++ (Y ++ (Z ++ [2, r.1.1, r.1.2])) = (X ++ (Y ++ Z)) ++ [2, r.1.1, r.1.2] by simp, lastAxes_map3 rfl]
    simp
  · rw [hl']
    have hB : (x ++ (y ++ z)).length = (X ++ (Y ++ Z)).length := by simp [hx, hy, hz]
    have key := transpose_get out (axes := List.range ((X ++ (Y ++ Z)).length + 3 - 3) ++ [(X ++ (Y ++ Z)).length + 3 - 2,
      (X ++ (Y ++ Z)).length + 3 - 1, (X ++ (Y ++ Z)).length + 3 - 3]) (orig := (x ++ (y ++ z)) ++ [s, i, j])
      (by rw [hl']; exact lastAxes_perm3 _) (by rw [hl']; simp [hx, hy, hz]; omega)
    rw [lastAxes_map3 hB] at key
    have h3 := g3 x y z s i j hx hy hz
    simp only [List.append_assoc] at key
    rw [key, h3]

theorem unflattenFlux_eq {α : Type} (flux : NDArray α) {G : Fin n → ℤ × ℤ} {X Y Z : List ℕ} {nx ny S : ℕ}
    (hs : flux.shape = X ++ nx :: (Y ++ ny :: (Z ++ [2 * n, S]))) (hpos : ∀ d ∈ flux.shape, 0 < d) {axes : ℤ × ℤ}
    (h1 : axes.1 = X.length ∨ axes.1 = X.length - flux.shape.length)
    (h2 : axes.2 = (X.length + 1 + Y.length : ℕ) ∨ axes.2 = (X.length + 1 + Y.length : ℕ) - flux.shape.length)
    {r : (ℕ × ℕ) × (ℕ → ℕ → Option (Fin nx × Fin ny × Fin n))} (hr : unflattenSource G nx ny = .ok r) :
    ∃ out, unflattenFlux flux G axes = .ok out ∧
      out.shape = X ++ (Y ++ (Z ++ [r.1.1, r.1.2, 2, S])) ∧
      ∀ x y z pol s i j, ValidIndex X x → ValidIndex Y y → ValidIndex Z z → pol < 2 → s < S →
        out.get (x ++ (y ++ (z ++ [i, j, pol, s]))) = (r.2 i j).map fun w =>
          flux.get (x ++ (w.1 : ℕ) :: (y ++ (w.2.1 : ℕ) :: (z ++ [pol * n + (w.2.2 : ℕ), s]))) := by
  have hl : flux.shape.length = X.length + Y.length + Z.length + 4 := by
    rw [hs]; simp; omega
  have hs' : flux.shape = (X ++ nx :: (Y ++ ny :: Z)) ++ [2 * n, S] := by rw [hs]; simp
  have ha := absoluteAxes_pair (a := X.length) (b := X.length + 1 + Y.length) (ndim := flux.shape.length) (by omega)
    (by omega) h1 h2
  have e1 : flux.shape.getD (flux.shape.length - 2) 0 = 2 * n := by
    rw [hl, hs']; exact getD_append_cons (X := X ++ nx :: (Y ++ ny :: Z)) (Z := [S]) (by simp; omega)
  have e2 : flux.shape.getD (flux.shape.length - 1) 0 = S := by
    rw [hl, hs']
    simpa using getD_append_cons (X := X ++ nx :: (Y ++ ny :: (Z ++ [2 * n]))) (Z := []) (y := S)
      (a := X.length + Y.length + Z.length + 4 - 1) (by simp; omega)
  have e3 : flux.shape.take (flux.shape.length - 2) = X ++ nx :: (Y ++ ny :: Z) := by
    rw [hl, hs']; exact List.take_left' (by simp; omega)
  have e4 : flux.shape.prod / ((X ++ nx :: (Y ++ ny :: Z)).prod * 2 * S) = n := by
    rw [hs', List.prod_append]
    have hB : 0 < (X ++ nx :: (Y ++ ny :: Z)).prod := by
      refine List.prod_pos fun d hd => hpos d ?_
      rw [hs']; exact List.mem_append_left _ hd
    have hS : 0 < S := hpos S (by rw [hs']; simp)
    generalize (X ++ nx :: (Y ++ ny :: Z)).prod = m at hB
    rw [show m * [2 * n, S].prod = n * (m * 2 * S) by simp; ring]
    exact Nat.mul_div_cancel _ (by positivity)
  have hsp : (flux.reshape ((X ++ nx :: (Y ++ ny :: Z)) ++ [2, n, S])).shape =
      X ++ nx :: (Y ++ ny :: ((Z ++ [2]) ++ [n, S])) := by
    unfold NDArray.reshape; simp
  have hlsp : (flux.reshape ((X ++ nx :: (Y ++ ny :: Z)) ++ [2, n, S])).shape.length =
      X.length + Y.length + (Z ++ [2]).length + 4 := by
    rw [hsp]; simp; omega
  obtain ⟨out, g1, g2, g3⟩ := unflatten_moved _ hsp hr
  have hl' : out.shape.length = (X ++ (Y ++ Z)).length + 4 := by rw [g2]; simp; omega
  unfold unflattenFlux
  simp only
  rw [if_neg (by omega), if_neg (not_not.2 e1), ha]
  simp only [bind, Except.bind, e2, e3, e4, List.map_cons, List.map_nil, Int.toNat_natCast, List.cons_append, List.nil_append]
  rw [hlsp]
  have hq : X.length + Y.length + (Z ++ [2]).length + 4 - 2 = X.length + Y.length + (Z ++ [2]).length + 2 := rfl
  rw [hq, g1]
  refine ⟨_, rfl, ?_, fun x y z pol s i j hx hy hz hpol hsS => ?_⟩
  · unfold NDArray.transpose
    simp only
    rw [hl', g2]
    rw [show X ++ (Y ++ (Z ++ [2] ++ [S, r.1.1, r.1.2])) = (X ++ (Y ++ Z)) ++ [2, S, r.1.1, r.1.2] by simp, lastAxes_map4 rfl]
    simp
  · have lx := hx.length_eq
    have ly := hy.length_eq
    have lz := hz.length_eq
    rw [hl']
    have hB : (x ++ (y ++ z)).length = (X ++ (Y ++ Z)).length := by simp [lx, ly, lz]
    have key := transpose_get out (axes := List.range ((X ++ (Y ++ Z)).length + 4 - 4) ++ [(X ++ (Y ++ Z)).length + 4 - 2,
      (X ++ (Y ++ Z)).length + 4 - 1, (X ++ (Y ++ Z)).length + 4 - 4, (X ++ (Y ++ Z)).length + 4 - 3])
      (orig := (x ++ (y ++ z)) ++ [pol, s, i, j])
      (by rw [hl']; exact lastAxes_perm4 _) (by rw [hl']; simp [lx, ly, lz]; omega)
    rw [lastAxes_map4 hB] at key
    have h3 := g3 x y (z ++ [pol]) s i j lx ly (by simp [lz])
    simp only [List.append_assoc, List.cons_append, List.nil_append] at key h3
    rw [key, h3]
    congr 1
    funext w
    have hv : ValidIndex (X ++ nx :: (Y ++ ny :: Z)) (x ++ (w.1 : ℕ) :: (y ++ (w.2.1 : ℕ) :: z)) :=
      List.rel_append hx (List.Forall₂.cons w.1.2 (List.rel_append hy (List.Forall₂.cons w.2.1.2 hz)))
    have h4 := reshape_split flux hs' hv hpol w.2.2.2 hsS
    simp only [List.append_assoc, List.cons_append] at h4
    rw [h4]

end Fmmax
