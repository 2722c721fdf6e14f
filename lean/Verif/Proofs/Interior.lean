import Verif.Proofs.StackOps
import Verif.Model.Fields
import Mathlib.LinearAlgebra.Matrix.ToLinearEquiv

/-! Interior amplitudes of a stack. -/

set_option linter.unusedSectionVars false

namespace Fmmax

open Matrix Spec

variable {ι : Type} [Fintype ι] [DecidableEq ι] {β : Type}

/-- States of a stack split at one of its layers. -/
theorem consistent_split {sa sb : List (LayerState ι β)} {t : LayerState ι β} :
    Consistent (sa ++ t :: sb) ↔ Consistent (sa ++ [t]) ∧ Consistent (t :: sb) := by
  unfold Consistent
  rw [List.isChain_split]

theorem head?_append_cons (sa : List (LayerState ι β)) (t : LayerState ι β) (sb : List (LayerState ι β)) :
    (sa ++ t :: sb).head? = (sa ++ [t]).head? := by
  cases sa <;> rfl

theorem getLast?_append_cons (sa : List (LayerState ι β)) (t : LayerState ι β) (sb : List (LayerState ι β)) :
    (sa ++ t :: sb).getLast? = (t :: sb).getLast? := by
  rw [List.getLast?_append]
  cases h : (t :: sb).getLast? with
  | none => simp at h
  | some v => rfl

/-- Joining states of the stack before and after a layer which agree on the layer. -/
theorem join_states {pre post : List (LayerSolveResult ι × ℝ)} {p : LayerSolveResult ι × ℝ}
    {s1 s2 : List (LayerState ι β)} {l1 f2 : LayerState ι β} (g1 : geometry s1 = pre ++ [p]) (g2 : geometry s2 = p :: post)
    (c1 : Consistent s1) (c2 : Consistent s2) (hl : s1.getLast? = some l1) (hf : s2.head? = some f2)
    (ha : l1.a = f2.a) (hb : l1.b = f2.b) :
    ∃ sa sb, s1 = sa ++ [f2] ∧ s2 = f2 :: sb ∧ Consistent (sa ++ f2 :: sb) ∧
      geometry (sa ++ f2 :: sb) = pre ++ p :: post := by
  obtain ⟨sa, t, rfl, ga, gl, gt⟩ := geometry_snoc_inv g1
  simp only [List.getLast?_append, List.getLast?_singleton, Option.some_or, Option.some.injEq] at hl
  subst hl
  obtain ⟨u, sb, rfl⟩ : ∃ u sb, s2 = u :: sb := by
    cases s2 with
    | nil => simp at hf
    | cons u sb => exact ⟨u, sb, rfl⟩
  simp only [List.head?_cons, Option.some.injEq] at hf
  subst hf
  have hgu : (u.layer, u.thickness) = p := by
    simp only [geometry, List.map_cons, List.cons.injEq] at g2; exact g2.1
  have htu : t = u := LayerState.ext' (by rw [gl, ← hgu]) (by rw [gt, ← hgu]) ha hb
  subst htu
  refine ⟨sa, sb, rfl, rfl, consistent_split.2 ⟨c1, c2⟩, ?_⟩
  rw [geometry_append, ga, g2]

/-- The matrix inverted for the interior amplitudes is regular: otherwise the stack would have source-free excitations. -/
theorem interior_regular {P Q S : ScatteringMatrix ι} {pre post : List (LayerSolveResult ι × ℝ)}
    {p : LayerSolveResult ι × ℝ} (hP : IsSMatrix P (pre ++ [p])) (hQ : IsSMatrix Q (p :: post))
    (hS : IsSMatrix S (pre ++ p :: post)) : IsUnit (1 - P.s12 * Q.s21).det := by
  by_contra hn
  rw [isUnit_iff_ne_zero, not_not] at hn
  obtain ⟨v, hv0, hv⟩ := Matrix.exists_mulVec_eq_zero_iff.2 hn
  set x : Matrix (ι ⊕ ι) Unit ℂ := Matrix.of fun i _ => v i with hx
  have hx0 : x ≠ 0 := by
    intro h
    apply hv0
    funext i
    exact congrFun (congrFun h i) ()
  have hxe : x = P.s12 * (Q.s21 * x) := by
    ext i c
    have h1 := congrFun hv i
    rw [Matrix.sub_mulVec, Matrix.one_mulVec, Pi.sub_apply, Pi.zero_apply, sub_eq_zero] at h1
    rw [← Matrix.mul_assoc]
    exact h1
  obtain ⟨s1, f1, l1, g1, c1, e1, e2, e3, e4⟩ := hP.complete (0 : Matrix (ι ⊕ ι) Unit ℂ) (Q.s21 * x)
  obtain ⟨s2, f2, l2, g2, c2, k1, k2, k3, k4⟩ := hQ.complete x (0 : Matrix (ι ⊕ ι) Unit ℂ)
  have r1 := hP.sound s1 f1 l1 g1 c1 e1 e2
  have r2 := hQ.sound s2 f2 l2 g2 c2 k1 k2
  obtain ⟨sa, sb, rfl, rfl, cc, gg⟩ := join_states g1 g2 c1 c2 e2 k1
    (by rw [r1.1, e3, e4, k3, Matrix.mul_zero, zero_add, ← hxe])
    (by rw [r2.2, k3, k4, e4, Matrix.mul_zero, add_zero])
  obtain ⟨st, F, L, g, c, h1, h2, h3, h4⟩ := hS.complete (0 : Matrix (ι ⊕ ι) Unit ℂ) 0
  -- the zero excitation
  set zero : List (LayerState ι Unit) := (pre ++ p :: post).map fun q =>
    { layer := q.1, thickness := q.2, a := 0, b := 0 } with hzero
  have hz0 : ∀ {s : LayerState ι Unit}, s.a = 0 → s.b = 0 → WellPosed s.layer → (∀ i, s.layer.eigenvalues i ≠ 0) → ∀ z,
      FieldsAt s z 0 0 := by
    intro s ha hb hw hq z
    refine ⟨hw, hq, ?_, ?_⟩ <;> simp [ha, hb]
  have gz : geometry zero = pre ++ p :: post := by
    simp only [hzero, geometry, List.map_map]
    conv_rhs => rw [← List.map_id (pre ++ p :: post)]
    rfl
  have cz : Consistent zero := by
    have hch : (geometry (sa ++ f2 :: sb)).IsChain fun p q => (WellPosed p.1 ∧ ∀ i, p.1.eigenvalues i ≠ 0) ∧
        (WellPosed q.1 ∧ ∀ i, q.1.eigenvalues i ≠ 0) := by
      unfold geometry
      rw [List.isChain_map]
      refine List.IsChain.imp ?_ cc
      rintro s t ⟨e, h, h1, h2⟩
      exact ⟨⟨h1.1, h1.2.1⟩, ⟨h2.1, h2.2.1⟩⟩
    rw [gg] at hch
    unfold Consistent
    rw [hzero, List.isChain_map]
    refine List.IsChain.imp ?_ hch
    rintro s t ⟨⟨h1, h2⟩, h3, h4⟩
    exact ⟨0, 0, hz0 rfl rfl h1 h2 _, hz0 rfl rfl h3 h4 _⟩
  obtain ⟨zf, hzf1, hzf2, hzf3⟩ := geometry_head gz hS.start
  obtain ⟨zl, hzl1, hzl2, hzl3⟩ := geometry_getLast gz hS.finish
  have hmem : ∀ s ∈ zero, s.a = 0 ∧ s.b = 0 := by
    intro s hs
    rw [hzero, List.mem_map] at hs
    obtain ⟨q, -, rfl⟩ := hs
    exact ⟨rfl, rfl⟩
  have heq := hS.unique _ _ f1 l2 zf zl gg gz cc cz (by rw [head?_append_cons]; exact e1)
    (by rw [getLast?_append_cons]; exact k2) hzf1 hzl1
    (e3.trans (hmem zf (List.mem_of_mem_head? (by simp [hzf1]))).1.symm)
    (k4.trans (hmem zl (List.mem_of_mem_getLast? (by simp [hzl1]))).2.symm)
  have : f2 ∈ zero := by rw [← heq]; simp
  exact hx0 (k3.symm.trans (hmem f2 this).1)

/-- The amplitudes computed for an interior layer are those of the consistent excitation. -/
theorem amplitudesInterior_eq {P Q S : ScatteringMatrix ι} {sa sb : List (LayerState ι β)} {t first last : LayerState ι β}
    (hP : IsSMatrix P (geometry (sa ++ [t]))) (hQ : IsSMatrix Q (geometry (t :: sb)))
    (hS : IsSMatrix S (geometry (sa ++ t :: sb))) (hc : Consistent (sa ++ t :: sb))
    (hf : (sa ++ t :: sb).head? = some first) (hl : (sa ++ t :: sb).getLast? = some last) :
    amplitudesInterior P.toBlocks Q.toBlocks first.a last.b = .ok (t.a, t.b) := by
  have hu : IsUnit (1 - P.s12 * Q.s21).det := by
    have e1 : geometry (sa ++ [t]) = geometry sa ++ [(t.layer, t.thickness)] := geometry_append _ _
    have e2 : geometry (t :: sb) = (t.layer, t.thickness) :: geometry sb := rfl
    have e3 : geometry (sa ++ t :: sb) = geometry sa ++ (t.layer, t.thickness) :: geometry sb := geometry_append _ _
    rw [e1] at hP
    rw [e2] at hQ
    rw [e3] at hS
    exact interior_regular hP hQ hS
  obtain ⟨c1, c2⟩ := consistent_split.1 hc
  rw [head?_append_cons] at hf
  rw [getLast?_append_cons] at hl
  have r1 := hP.sound _ first t rfl c1 hf (by simp)
  have r2 := hQ.sound _ t last rfl c2 (by simp) hl
  unfold amplitudesInterior
  simp only [bind_eq_ok, solve_eq_ok, ok_inj, Prod.mk.injEq]
  refine ⟨t.a, ⟨hu, ?_⟩, rfl, r2.2.symm⟩
  have e1 : t.a = P.s11 * first.a + P.s12 * t.b := r1.1
  have e2 : t.b = Q.s21 * t.a + Q.s22 * last.b := r2.2
  have : P.s11 * first.a = t.a - P.s12 * t.b := by rw [eq_sub_iff_add_eq]; exact e1.symm
  rw [this]
  conv_rhs => rw [e2]
  mat_module

end Fmmax
