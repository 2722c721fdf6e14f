import Verif.Model.Validation
import Verif.Props.Shapes

/-! Property theorem C76: validation of shapes in constructors. -/

namespace Fmmax

open Spec

/-! ### C76 -/

/-- C76: lattice vectors given as jax arrays are accepted exactly if both have a trailing axis of length two. -/
theorem C76_lattice_vectors (u v : List ℕ) (hu : u ≠ []) (hv : v ≠ []) :
    ((∃ bu bv, u = bu ++ [2] ∧ v = bv ++ [2]) → latticeVectorsPostInit true u v = .ok ()) ∧
    ((¬∃ bu bv, u = bu ++ [2] ∧ v = bv ++ [2]) → latticeVectorsPostInit true u v = .error .valueError) := by
  obtain ⟨bu, a, rfl⟩ : ∃ bu a, u = bu ++ [a] := ⟨_, _, (List.dropLast_append_getLast hu).symm⟩
  obtain ⟨bv, b, rfl⟩ : ∃ bv b, v = bv ++ [b] := ⟨_, _, (List.dropLast_append_getLast hv).symm⟩
  simp only [latticeVectorsPostInit, List.getLast?_append, List.getLast?_singleton, Option.some_or, if_true]
  constructor
  · rintro ⟨cu, cv, h1, h2⟩
    obtain ⟨-, h1⟩ := List.append_inj' h1 rfl
    obtain ⟨-, h2⟩ := List.append_inj' h2 rfl
    cases h1; cases h2
    rfl
  · intro h
    by_cases ha : a = 2
    · by_cases hb : b = 2
      · exact absurd ⟨bu, bv, by rw [ha], by rw [hb]⟩ h
      · rw [if_neg (not_not.2 ha), if_pos hb]
    · rw [if_pos ha]

example : latticeVectorsPostInit true [3, 2] [2] = .ok () :=
  (C76_lattice_vectors [3, 2] [2] (by simp) (by simp)).1 ⟨[3], [], rfl, rfl⟩

example : latticeVectorsPostInit true [2, 3] [2] = .error .valueError :=
  (C76_lattice_vectors [2, 3] [2] (by simp) (by simp)).2 (by
    rintro ⟨bu, bv, h, -⟩
    have := congrArg List.getLast? h
    simp at this)

/-- C76, side finding: lattice vectors that are not jax arrays (e.g. numpy arrays) are not checked. -/
theorem C76_finding_unchecked (u v : List ℕ) : latticeVectorsPostInit false u v = .ok () := rfl

/-- C76: an expansion is accepted exactly if the coefficients have shape `(num, 2)`. -/
theorem C76_expansion (s : List ℕ) :
    ((∃ num, s = [num, 2]) → expansionPostInit s = .ok ()) ∧
    ((¬∃ num, s = [num, 2]) → expansionPostInit s = .error .valueError) := by
  unfold expansionPostInit
  constructor
  · rintro ⟨num, rfl⟩
    simp
  · intro h
    rw [if_pos]
    by_contra hn
    push Not at hn
    obtain ⟨a, b, rfl⟩ := List.length_eq_two.1 hn.1
    have := hn.2
    simp at this
    exact h ⟨a, by rw [this]⟩

/-- The shapes agree axis by axis up to broadcasting: same rank, and the lengths of each axis are equal or one of them is
one. -/
def SameRankBroadcastable (s t : List ℕ) : Prop := List.Forall₂ (fun a b => a = b ∨ a = 1 ∨ b = 1) s t

theorem sameRank_iff {s t : List ℕ} : SameRankBroadcastable s t ↔ s.length = t.length ∧ Broadcastable [s, t] := by
  unfold SameRankBroadcastable Broadcastable
  constructor
  · intro h
    refine ⟨h.length_eq, ?_⟩
    suffices ∃ w, List.Forall₂ (fun a b => a = 1 ∨ a = b) s w ∧ List.Forall₂ (fun a b => a = 1 ∨ a = b) t w by
      obtain ⟨w, h1, h2⟩ := this
      refine ⟨w, ?_⟩
      simp only [List.mem_cons, List.not_mem_nil, or_false, forall_eq_or_imp, forall_eq]
      exact ⟨⟨[], w, rfl, h1⟩, ⟨[], w, rfl, h2⟩⟩
    induction h with
    | nil => exact ⟨[], .nil, .nil⟩
    | cons hab _ ih =>
      obtain ⟨w, h1, h2⟩ := ih
      rcases hab with rfl | rfl | rfl
      · exact ⟨_ :: w, .cons (Or.inr rfl) h1, .cons (Or.inr rfl) h2⟩
      · exact ⟨_ :: w, .cons (Or.inl rfl) h1, .cons (Or.inr rfl) h2⟩
      · exact ⟨_ :: w, .cons (Or.inr rfl) h1, .cons (Or.inl rfl) h2⟩
  · rintro ⟨hl, w, hw⟩
    obtain ⟨l1, t1, e1, f1⟩ := hw s (by simp)
    obtain ⟨l2, t2, e2, f2⟩ := hw t (by simp)
    have g1 := f1.length_eq
    have g2 := f2.length_eq
    obtain ⟨-, rfl⟩ := List.append_inj' (e1.symm.trans e2) (by omega)
    clear e1 e2 hw g1 g2 hl
    induction f1 generalizing t with
    | nil =>
      cases f2
      exact .nil
    | cons hab _ ih =>
      cases f2 with
      | cons hcd f2 =>
        refine .cons ?_ (ih f2)
        rcases hab with h | h <;> rcases hcd with h' | h' <;> simp [h, h']

theorem checkCompatible_iff {s t : List ℕ} (hs : ∀ d ∈ s, 0 < d) (ht : ∀ d ∈ t, 0 < d) :
    (SameRankBroadcastable s t → checkCompatible s t = .ok ()) ∧
    (¬SameRankBroadcastable s t → checkCompatible s t = .error .valueError) := by
  obtain ⟨b, hb, hbr⟩ := C67_batch_compatible [s, t] (by simp) (by
    simp only [List.mem_cons, List.not_mem_nil, or_false, forall_eq_or_imp, forall_eq]
    exact ⟨hs, ht⟩)
  unfold checkCompatible incompatible
  rw [hb, sameRank_iff, ← hbr]
  simp only [bind, Except.bind]
  constructor
  · rintro ⟨h1, rfl⟩
    simp [h1]
  · intro h
    rw [if_pos]
    rw [Bool.or_eq_true, decide_eq_true_eq, Bool.not_eq_true']
    by_contra hn
    push Not at hn
    exact h ⟨hn.1, by simpa using hn.2⟩

theorem split_last_two {a : List ℕ} (h : 2 ≤ a.length) :
    ∃ b x y, a = b ++ [x, y] ∧ x = a.getD (a.length - 2) 0 := by
  have h0 : a ≠ [] := by rintro rfl; simp at h
  obtain ⟨a', y, rfl⟩ : ∃ a' y, a = a' ++ [y] := ⟨_, _, (List.dropLast_append_getLast h0).symm⟩
  have h1 : a' ≠ [] := by rintro rfl; simp at h
  obtain ⟨b, x, rfl⟩ : ∃ b x, a' = b ++ [x] := ⟨_, _, (List.dropLast_append_getLast h1).symm⟩
  exact ⟨b, x, y, by simp, by simp [List.getD_eq_getElem?_getD]⟩

/-- The documented shapes of the attributes of a layer, up to broadcasting: batch shape `batch`, `n` terms. -/
structure ShapesConsistent (s : LayerShapes) (batch : List ℕ) (rows : ℕ) : Prop where
  eigenvectors : s.eigenvectors = batch ++ [rows, 2 * s.numTerms]
  eigenvalues : s.eigenvalues = batch ++ [rows]
  wavelength : SameRankBroadcastable s.wavelength batch
  inPlaneWavevector : SameRankBroadcastable s.inPlaneWavevector (batch ++ [2])
  u : SameRankBroadcastable s.u (batch ++ [2])
  v : SameRankBroadcastable s.v (batch ++ [2])
  zPermittivity : SameRankBroadcastable s.zPermittivity (batch ++ [s.numTerms, s.numTerms])
  inverseZPermittivity : SameRankBroadcastable s.inverseZPermittivity (batch ++ [s.numTerms, s.numTerms])
  zPermeability : SameRankBroadcastable s.zPermeability (batch ++ [s.numTerms, s.numTerms])
  inverseZPermeability : SameRankBroadcastable s.inverseZPermeability (batch ++ [s.numTerms, s.numTerms])
  transversePermeability : SameRankBroadcastable s.transversePermeability (batch ++ [rows, 2 * s.numTerms])
  tangent : ∀ d, s.tangentNdim = some d → d = batch.length + 2

/-- No axis of length zero. -/
structure ShapesPositive (s : LayerShapes) : Prop where
  wavelength : ∀ d ∈ s.wavelength, 0 < d
  inPlaneWavevector : ∀ d ∈ s.inPlaneWavevector, 0 < d
  u : ∀ d ∈ s.u, 0 < d
  v : ∀ d ∈ s.v, 0 < d
  numTerms : 0 < s.numTerms
  eigenvectors : ∀ d ∈ s.eigenvectors, 0 < d
  zPermittivity : ∀ d ∈ s.zPermittivity, 0 < d
  inverseZPermittivity : ∀ d ∈ s.inverseZPermittivity, 0 < d
  zPermeability : ∀ d ∈ s.zPermeability, 0 < d
  inverseZPermeability : ∀ d ∈ s.inverseZPermeability, 0 < d
  transversePermeability : ∀ d ∈ s.transversePermeability, 0 < d

/-- C76: a `LayerSolveResult` whose eigenvectors have at least two axes is accepted exactly if all attributes have the
documented ranks and their axes agree up to broadcasting; otherwise ValueError is raised. -/
theorem C76_layer_solve_result (s : LayerShapes) (hrank : 2 ≤ s.eigenvectors.length) (hpos : ShapesPositive s) :
    ((∃ batch rows, ShapesConsistent s batch rows) → layerSolveResultPostInit s = .ok ()) ∧
    ((¬∃ batch rows, ShapesConsistent s batch rows) → layerSolveResultPostInit s = .error .valueError) := by
  obtain ⟨batch, rows, m, he⟩ : ∃ batch rows m, s.eigenvectors = batch ++ [rows, m] := by
    obtain ⟨b, x, y, h, -⟩ := split_last_two hrank
    exact ⟨b, x, y, h⟩
  have hb : s.batchShape = batch := by
    unfold LayerShapes.batchShape dropLastN
    rw [he]
    exact List.take_left' (by simp)
  have hbpos : ∀ d ∈ batch, 0 < d := fun d hd => hpos.eigenvectors d (by rw [he]; simp [hd])
  have h2pos : ∀ d ∈ batch ++ [2], 0 < d := by
    intro d hd
    rcases List.mem_append.1 hd with h | h
    · exact hbpos d h
    · simp at h; omega
  have hnpos : ∀ d ∈ batch ++ [s.numTerms, s.numTerms], 0 < d := by
    intro d hd
    rcases List.mem_append.1 hd with h | h
    · exact hbpos d h
    · simp at h; rw [h]; exact hpos.numTerms
  have uniq : ∀ b r, ShapesConsistent s b r → b = batch ∧ r = rows ∧ 2 * s.numTerms = m := by
    intro b r h
    have := h.eigenvectors
    rw [he] at this
    obtain ⟨h1, h2⟩ := List.append_inj' this rfl
    simp only [List.cons.injEq, and_true] at h2
    exact ⟨h1.symm, h2.1.symm, h2.2.symm⟩
  have hlast : s.eigenvectors.getLast? = some m := by rw [he]; simp
  have hdrop : s.eigenvectors.dropLast = batch ++ [rows] := by rw [he]; simp
  have c1 := checkCompatible_iff hpos.wavelength hbpos
  have c2 := checkCompatible_iff hpos.inPlaneWavevector h2pos
  have c3 := checkCompatible_iff hpos.u h2pos
  have c4 := checkCompatible_iff hpos.v h2pos
  have c5 := checkCompatible_iff hpos.inverseZPermittivity hnpos
  have c6 := checkCompatible_iff hpos.zPermittivity hnpos
  have c7 := checkCompatible_iff hpos.inverseZPermeability hnpos
  have c8 := checkCompatible_iff hpos.zPermeability hnpos
  have c9 := checkCompatible_iff hpos.transversePermeability hpos.eigenvectors
  unfold layerSolveResultPostInit
  rw [hb, hlast, hdrop]
  simp only [bind, Except.bind]
  constructor
  · rintro ⟨b, r, h⟩
    obtain ⟨rfl, rfl, hm⟩ := uniq b r h
    have e9 : SameRankBroadcastable s.transversePermeability s.eigenvectors := by
      rw [he, ← hm]; exact h.transversePermeability
    rw [c1.1 h.wavelength, c2.1 h.inPlaneWavevector, c3.1 h.u, c4.1 h.v, c5.1 h.inverseZPermittivity,
      c6.1 h.zPermittivity, c7.1 h.inverseZPermeability, c8.1 h.zPermeability, c9.1 e9]
    simp only
    rw [if_neg (by omega), if_neg (not_not.2 h.eigenvalues)]
    cases ht : s.tangentNdim with
    | none => rfl
    | some d =>
      simp only
      rw [if_neg]
      rw [h.tangent d ht, he]
      simp
  · intro h
    by_cases d1 : SameRankBroadcastable s.wavelength batch
    swap
    · rw [c1.2 d1]
    rw [c1.1 d1]
    by_cases d2 : SameRankBroadcastable s.inPlaneWavevector (batch ++ [2])
    swap
    · rw [c2.2 d2]
    rw [c2.1 d2]
    by_cases d3 : SameRankBroadcastable s.u (batch ++ [2])
    swap
    · rw [c3.2 d3]
    rw [c3.1 d3]
    by_cases d4 : SameRankBroadcastable s.v (batch ++ [2])
    swap
    · rw [c4.2 d4]
    rw [c4.1 d4]
    simp only
    by_cases hm : s.numTerms * 2 = m
    swap
    · rw [if_pos hm]
    rw [if_neg (not_not.2 hm)]
    by_cases hv : s.eigenvalues = batch ++ [rows]
    swap
    · rw [if_pos hv]
    rw [if_neg (not_not.2 hv)]
    by_cases d5 : SameRankBroadcastable s.inverseZPermittivity (batch ++ [s.numTerms, s.numTerms])
    swap
    · rw [c5.2 d5]
    rw [c5.1 d5]
    by_cases d6 : SameRankBroadcastable s.zPermittivity (batch ++ [s.numTerms, s.numTerms])
    swap
    · rw [c6.2 d6]
    rw [c6.1 d6]
    by_cases d7 : SameRankBroadcastable s.inverseZPermeability (batch ++ [s.numTerms, s.numTerms])
    swap
    · rw [c7.2 d7]
    rw [c7.1 d7]
    by_cases d8 : SameRankBroadcastable s.zPermeability (batch ++ [s.numTerms, s.numTerms])
    swap
    · rw [c8.2 d8]
    rw [c8.1 d8]
    by_cases d9 : SameRankBroadcastable s.transversePermeability s.eigenvectors
    swap
    · rw [c9.2 d9]
    rw [c9.1 d9]
    have hm' : 2 * s.numTerms = m := by omega
    cases ht : s.tangentNdim with
    | none =>
      exact absurd ⟨batch, rows, by rw [he, hm'], hv, d1, d2, d3, d4, d6, d5, d8, d7,
        by rw [hm', ← he]; exact d9, by intro d hd; rw [ht] at hd; cases hd⟩ h
    | some d =>
      simp only
      rw [if_pos]
      intro hd
      refine h ⟨batch, rows, by rw [he, hm'], hv, d1, d2, d3, d4, d6, d5, d8, d7,
        by rw [hm', ← he]; exact d9, ?_⟩
      intro d' hd'
      rw [ht] at hd'
      cases hd'
      rw [hd, he]
      simp

/-- Shapes of a batch of layers: three wavelengths, five terms. -/
def exampleShapes : LayerShapes where
  wavelength := [3, 1]
  inPlaneWavevector := [1, 4, 2]
  u := [1, 1, 2]
  v := [1, 1, 2]
  numTerms := 5
  eigenvalues := [3, 4, 10]
  eigenvectors := [3, 4, 10, 10]
  zPermittivity := [3, 1, 5, 5]
  inverseZPermittivity := [3, 1, 5, 5]
  zPermeability := [1, 1, 5, 5]
  inverseZPermeability := [1, 1, 5, 5]
  transversePermeability := [1, 1, 10, 10]
  tangentNdim := some 4

theorem exampleShapes_positive : ShapesPositive exampleShapes := by
  constructor <;> simp [exampleShapes]

example : layerSolveResultPostInit exampleShapes = .ok () :=
  (C76_layer_solve_result exampleShapes (by simp [exampleShapes]) exampleShapes_positive).1 ⟨[3, 4], 10, by
    constructor <;> simp [exampleShapes, SameRankBroadcastable]⟩

/-- C76, side finding: the checks are weaker than the documentation.  A layer is accepted although the in-plane wavevector has
one component, the eigenvectors are not square, the matrices of the permittivity are not `(num_terms, num_terms)`, and the
wavelength has a larger batch than the eigenvectors. -/
theorem C76_finding_weak_checks :
    layerSolveResultPostInit { exampleShapes with
      wavelength := [3, 7], inPlaneWavevector := [1, 1, 1], eigenvalues := [3, 1, 6], eigenvectors := [3, 1, 6, 10],
      zPermittivity := [3, 1, 1, 1], inverseZPermittivity := [3, 1, 1, 5],
      transversePermeability := [1, 1, 1, 10] } = .ok () := by
  refine (C76_layer_solve_result _ (by simp) ?_).1 ⟨[3, 1], 6, ?_⟩
  · constructor <;> simp [exampleShapes]
  · constructor <;> simp [exampleShapes, SameRankBroadcastable]

/-- C76: amplitudes are accepted exactly if the first has at least two axes, of which the last but one has one entry for each
mode, and all of them can be broadcast together. -/
theorem C76_amplitudes (a : List ℕ) (as : List (List ℕ)) (num : ℕ) (hpos : ∀ s ∈ a :: as, ∀ d ∈ s, 0 < d) :
    ((∃ b m, a = b ++ [num, m]) ∧ Broadcastable (a :: as) → validateAmplitudesShape (a :: as) num = .ok ()) ∧
    (¬((∃ b m, a = b ++ [num, m]) ∧ Broadcastable (a :: as)) →
      validateAmplitudesShape (a :: as) num = .error .valueError) := by
  obtain ⟨c, hc, hcb⟩ := C67_batch_compatible (a :: as) (by simp) hpos
  have key : (∃ b m, a = b ++ [num, m]) ↔ ¬a.length < 2 ∧ a.getD (a.length - 2) 0 = num := by
    constructor
    · rintro ⟨b, m, rfl⟩
      simp [List.getD_eq_getElem?_getD]
    · rintro ⟨h1, h2⟩
      obtain ⟨b, x, y, h, hx⟩ := split_last_two (not_lt.1 h1)
      exact ⟨b, y, by rw [← h2, ← hx]; exact h⟩
  rw [key, ← hcb]
  unfold validateAmplitudesShape
  simp only
  by_cases h1 : a.length < 2
  · rw [if_pos h1]
    exact ⟨fun h => absurd h1 h.1.1, fun _ => rfl⟩
  rw [if_neg h1]
  by_cases h2 : a.getD (a.length - 2) 0 = num
  · rw [if_neg (not_not.2 h2), hc]
    simp only [bind, Except.bind]
    cases c
    · exact ⟨fun h => absurd h.2 (by simp), fun _ => rfl⟩
    · exact ⟨fun _ => rfl, fun h => absurd ⟨⟨h1, h2⟩, rfl⟩ h⟩
  · rw [if_pos h2]
    exact ⟨fun h => absurd h.1.2 h2, fun _ => rfl⟩

example : validateAmplitudesShape [[3, 1, 10, 4], [5, 10, 1]] 10 = .ok () :=
  (C76_amplitudes [3, 1, 10, 4] [[5, 10, 1]] 10 (by simp)).1
    ⟨⟨[3, 1], 4, rfl⟩, [3, 5, 10, 4], by
      simp only [List.mem_cons, List.not_mem_nil, or_false, forall_eq_or_imp, forall_eq, BroadcastsTo]
      exact ⟨⟨[], _, rfl, by simp⟩, ⟨[3], [5, 10, 4], rfl, by simp⟩⟩⟩

end Fmmax
