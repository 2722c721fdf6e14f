import Verif.Proofs.Interface
import Verif.Spec.SMatrix

/-! Appending, prepending, reversing and joining stacks. -/

set_option linter.unusedSectionVars false

namespace Fmmax

open Matrix Spec

variable {ι : Type} [Fintype ι] [DecidableEq ι] {β : Type}

theorem LayerState.ext' {s t : LayerState ι β} (h1 : s.layer = t.layer) (h2 : s.thickness = t.thickness)
    (h3 : s.a = t.a) (h4 : s.b = t.b) : s = t := by
  cases s; cases t; simp_all

theorem omegaScriptK_wavelength {l : LayerSolveResult ι} {Ω : ModeMatrix ι}
    (h : l.omegaScriptKMatrix = .ok Ω) : ∃ w, angularFrequency l.wavelength = .ok w := by
  unfold LayerSolveResult.omegaScriptKMatrix omegaScriptKMatrixPatterned at h
  simp only [bind_eq_ok] at h
  obtain ⟨-, -, -, -, w, hw, -⟩ := h
  exact ⟨w, hw⟩

theorem phase_eq (l : LayerSolveResult ι) (d : ℝ) :
    diagonal (phase l.eigenvalues d) = propagator l d := rfl

/-- Shape of the result of `_extend_s_matrix`. -/
theorem extendSMatrix_eq_ok {S S' : Blocks ι} {l l' : LayerSolveResult ι} {d d' : ℝ}
    (h : extendSMatrix S l d l' d' = .ok S') :
    ∃ i11 i12, interfaceMatrices l l' = .ok (i11, i12) ∧
      IsUnit (i11 - propagator l d * S.s12 * i12).det ∧
      (i11 - propagator l d * S.s12 * i12) * S'.s11 = propagator l d * S.s11 ∧
      (i11 - propagator l d * S.s12 * i12) * S'.s12 =
        (propagator l d * S.s12 * i11 - i12) * propagator l' d' ∧
      S'.s21 = S.s22 * i12 * S'.s11 + S.s21 ∧
      S'.s22 = S.s22 * i12 * S'.s12 + S.s22 * i11 * propagator l' d' := by
  unfold extendSMatrix at h
  simp only [bind_eq_ok, solve_eq_ok, ok_inj, rowScale_eq, colScale_eq, phase_eq] at h
  obtain ⟨⟨i11, i12⟩, hi, s11, ⟨hu, h11⟩, s12, ⟨-, h12⟩, rfl⟩ := h
  exact ⟨i11, i12, hi, hu, h11, h12, rfl, rfl⟩

theorem mul_left_injective_of_isUnit {A : ModeMatrix ι} (hu : IsUnit A.det) {X Y : Matrix (ι ⊕ ι) β ℂ}
    (h : A * X = A * Y) : X = Y := by
  have := congrArg (fun Z : Matrix (ι ⊕ ι) β ℂ => A⁻¹ * Z) h
  simpa [nonsing_inv_mul_cancel_left _ _ hu] using this

theorem geometry_append (s t : List (LayerState ι β)) :
    geometry (s ++ t) = geometry s ++ geometry t := by simp [geometry]

theorem consistent_snoc {s : List (LayerState ι β)} {x t : LayerState ι β}
    (hx : s.getLast? = some x) : Consistent (s ++ [t]) ↔ Consistent s ∧ Interface x t := by
  unfold Consistent
  rw [List.isChain_append]
  simp [hx]

theorem geometry_snoc_inv {st : List (LayerState ι β)} {layers : List (LayerSolveResult ι × ℝ)}
    {p : LayerSolveResult ι × ℝ} (h : geometry st = layers ++ [p]) :
    ∃ s t, st = s ++ [t] ∧ geometry s = layers ∧ t.layer = p.1 ∧ t.thickness = p.2 := by
  unfold geometry at h
  rw [List.map_eq_append_iff] at h
  obtain ⟨s, t, rfl, h1, h2⟩ := h
  rw [List.map_eq_singleton_iff] at h2
  obtain ⟨t, rfl, rfl⟩ := h2
  exact ⟨s, t, rfl, h1, rfl, rfl⟩

theorem geometry_getLast {st : List (LayerState ι β)} {layers : List (LayerSolveResult ι × ℝ)}
    {l : LayerSolveResult ι} {d : ℝ} (h : geometry st = layers) (hl : layers.getLast? = some (l, d)) :
    ∃ x, st.getLast? = some x ∧ x.layer = l ∧ x.thickness = d := by
  subst h
  unfold geometry at hl
  rw [List.getLast?_map, Option.map_eq_some_iff] at hl
  obtain ⟨x, hx, he⟩ := hl
  simp only [Prod.mk.injEq] at he
  exact ⟨x, hx, he.1, he.2⟩

theorem geometry_head {st : List (LayerState ι β)} {layers : List (LayerSolveResult ι × ℝ)}
    {l : LayerSolveResult ι} {d : ℝ} (h : geometry st = layers) (hl : layers.head? = some (l, d)) :
    ∃ x, st.head? = some x ∧ x.layer = l ∧ x.thickness = d := by
  subst h
  unfold geometry at hl
  rw [List.head?_map, Option.map_eq_some_iff] at hl
  obtain ⟨x, hx, he⟩ := hl
  simp only [Prod.mk.injEq] at he
  exact ⟨x, hx, he.1, he.2⟩

theorem head?_append_of_some {α : Type} {s : List α} (t : List α) {x : α} (h : s.head? = some x) :
    (s ++ t).head? = some x := by
  cases s with
  | nil => simp at h
  | cons y s => simpa using h

theorem interface_wavelength {s t : LayerState ι β} (h : Interface s t)
    (hl : s.layer.wavelength = t.layer.wavelength) :
    ∃ w, angularFrequency s.layer.wavelength = .ok w ∧ angularFrequency t.layer.wavelength = .ok w ∧
      (∀ i, s.layer.eigenvalues i ≠ 0) := by
  obtain ⟨e, h, hf, -⟩ := h
  obtain ⟨Ω, w, -, hw, hq, -⟩ := fieldsAt_iff.1 hf
  exact ⟨w, hw, hl ▸ hw, hq⟩

/-- A single layer has the identity scattering matrix. -/
theorem isSMatrix_identity (l : LayerSolveResult ι) (d : ℝ) :
    IsSMatrix (identitySMatrix l d) [(l, d)] where
  start := rfl
  finish := rfl
  sound := by
    intro β st first last hg _ hf hl
    unfold geometry at hg
    rw [List.map_eq_singleton_iff] at hg
    obtain ⟨t, rfl, -⟩ := hg
    simp only [List.head?_cons, Option.some.injEq, List.getLast?_singleton] at hf hl
    subst hf; subst hl
    simp [Relates, identitySMatrix]
  complete := by
    intro β a0 bN
    exact ⟨[⟨l, d, a0, bN⟩], ⟨l, d, a0, bN⟩, ⟨l, d, a0, bN⟩, rfl, by simp [Consistent], rfl, rfl, rfl, rfl⟩
  unique := by
    intro β st st' first last first' last' hg hg' _ _ hf hl hf' hl' ha hb
    unfold geometry at hg hg'
    rw [List.map_eq_singleton_iff] at hg hg'
    obtain ⟨t, rfl, ht⟩ := hg
    obtain ⟨t', rfl, ht'⟩ := hg'
    simp only [List.head?_cons, Option.some.injEq, List.getLast?_singleton] at hf hl hf' hl'
    subst hf; subst hl; subst hf'; subst hl'
    simp only [Prod.mk.injEq] at ht ht'
    rw [LayerState.ext' (ht.1.trans ht'.1.symm) (ht.2.trans ht'.2.symm) ha hb]

/-- Correctness of `append_layer`. -/
theorem isSMatrix_append {S S' : ScatteringMatrix ι} {layers : List (LayerSolveResult ι × ℝ)}
    {l' : LayerSolveResult ι} {d' lam : ℝ} (hS : IsSMatrix S layers)
    (hr : Regular lam (layers ++ [(l', d')])) (h : appendLayer S l' d' = .ok S') :
    IsSMatrix S' (layers ++ [(l', d')]) := by
  unfold appendLayer at h
  simp only [bind_eq_ok, ok_inj] at h
  obtain ⟨b, hb, rfl⟩ := h
  obtain ⟨i11, i12, hi, hu, h11, h12, h21, h22⟩ := extendSMatrix_eq_ok hb
  have hlast : (S.endLayer, S.endThickness) ∈ layers := List.mem_of_getLast? hS.finish
  have hregE := hr (S.endLayer, S.endThickness) (by simp [hlast])
  have hregN := hr (l', d') (by simp)
  simp only at hregE hregN
  have hlam : S.endLayer.wavelength = l'.wavelength := hregE.1.trans hregN.1.symm
  obtain ⟨w, hw⟩ : ∃ w, angularFrequency S.endLayer.wavelength = .ok w := by
    obtain ⟨Ω, Ω', T1, T2, hΩ, -⟩ := interfaceMatrices_eq_ok hi
    exact omegaScriptK_wavelength hΩ
  have hw' : angularFrequency l'.wavelength = .ok w := hlam ▸ hw
  -- reduction of one step: the interface together with the relation for the prefix
  have step : ∀ {β : Type} (first x t : LayerState ι β), x.layer = S.endLayer → x.thickness = S.endThickness →
      t.layer = l' → t.thickness = d' → Relates S.toBlocks first x → Interface x t →
      Relates b first t ∧ x.b = i12 * t.a + i11 * (propagator t.layer t.thickness * t.b) := by
    intro β first x t hxl hxd htl htd hrel hint
    rw [interface_iff (by rw [hxl, htl]; exact hi) (by rw [hxl]; exact hw) (by rw [htl]; exact hw')
      (by rw [hxl]; exact hregE.2)] at hint
    obtain ⟨hA, hB⟩ := hint
    obtain ⟨ha, hbb⟩ := hrel
    rw [hxl, hxd, htl, htd] at hA
    rw [htl, htd] at hB ⊢
    have hta : t.a = b.s11 * first.a + b.s12 * t.b := by
      apply mul_left_injective_of_isUnit hu
      rw [Matrix.mul_add, ← Matrix.mul_assoc, ← Matrix.mul_assoc, h11, h12]
      have e1 : propagator S.endLayer S.endThickness * (S.s11 * first.a + S.s12 * x.b) =
          i11 * t.a + i12 * (propagator l' d' * t.b) := by rw [← ha]; exact hA
      rw [hB] at e1
      rw [Matrix.sub_mul]
      have e2 : i11 * t.a = propagator S.endLayer S.endThickness *
          (S.s11 * first.a + S.s12 * (i12 * t.a + i11 * (propagator l' d' * t.b))) -
            i12 * (propagator l' d' * t.b) := by rw [e1]; abel
      rw [e2]
      mat_module
    refine ⟨⟨hta, ?_⟩, hB⟩
    rw [hbb, hB, h21, h22]
    have : S.s22 * (i12 * t.a) = S.s22 * (i12 * (b.s11 * first.a + b.s12 * t.b)) := by rw [← hta]
    rw [Matrix.mul_add, this]
    mat_module
  refine ⟨?_, ?_, ?_, ?_, ?_⟩
  · exact head?_append_of_some _ hS.start
  · simp
  · intro β st first last hg hc hf hl
    obtain ⟨s, t, rfl, hg', ht1, ht2⟩ := geometry_snoc_inv hg
    obtain ⟨x, hx, hx1, hx2⟩ := geometry_getLast hg' hS.finish
    obtain ⟨y, hy, -, -⟩ := geometry_head hg' hS.start
    rw [consistent_snoc hx] at hc
    rw [head?_append_of_some _ hy] at hf
    simp only [List.getLast?_append, List.getLast?_singleton, Option.some_or, Option.some.injEq] at hf hl
    subst hf; subst hl
    exact (step y x t hx1 hx2 ht1 ht2 (hS.sound s y x hg' hc.1 hy hx) hc.2).1
  · intro β a0 bN
    set aN : Matrix (ι ⊕ ι) β ℂ := b.s11 * a0 + b.s12 * bN with haN
    set bx : Matrix (ι ⊕ ι) β ℂ := i12 * aN + i11 * (propagator l' d' * bN) with hbx
    obtain ⟨s, first, x, hg, hc, hf, hx, hfa, hxb⟩ := hS.complete a0 bx
    obtain ⟨x', hx', hxl, hxd⟩ := geometry_getLast hg hS.finish
    rw [hx] at hx'; simp only [Option.some.injEq] at hx'; subst hx'
    have hrel := hS.sound s first x hg hc hf hx
    refine ⟨s ++ [⟨l', d', aN, bN⟩], first, ⟨l', d', aN, bN⟩, ?_, ?_, head?_append_of_some _ hf, by simp, hfa, rfl⟩
    · rw [geometry_append, hg]; rfl
    · rw [consistent_snoc hx]
      refine ⟨hc, ?_⟩
      rw [interface_iff (s := x) (t := ⟨l', d', aN, bN⟩) (by rw [hxl]; exact hi) (by rw [hxl]; exact hw) hw'
        (by rw [hxl]; exact hregE.2)]
      refine ⟨?_, hxb⟩
      simp only
      rw [hxl, hxd, hrel.1, hfa, hxb]
      have key : (i11 - propagator S.endLayer S.endThickness * S.s12 * i12) * aN =
          propagator S.endLayer S.endThickness * S.s11 * a0 +
          (propagator S.endLayer S.endThickness * S.s12 * i11 - i12) * propagator l' d' * bN := by
        rw [haN, Matrix.mul_add, ← Matrix.mul_assoc, ← Matrix.mul_assoc, h11, h12]
      have key2 : i11 * aN = propagator S.endLayer S.endThickness * S.s12 * i12 * aN +
          (propagator S.endLayer S.endThickness * S.s11 * a0 +
          (propagator S.endLayer S.endThickness * S.s12 * i11 - i12) * propagator l' d' * bN) := by
        rw [← key]; mat_module
      rw [key2, hbx]
      mat_module
  · intro β st st' first last first' last' hg hg' hc hc' hf hl hf' hl' ha hb'
    obtain ⟨s, t, rfl, hgs, ht1, ht2⟩ := geometry_snoc_inv hg
    obtain ⟨s', t', rfl, hgs', ht1', ht2'⟩ := geometry_snoc_inv hg'
    obtain ⟨x, hx, hx1, hx2⟩ := geometry_getLast hgs hS.finish
    obtain ⟨y, hy, -, -⟩ := geometry_head hgs hS.start
    obtain ⟨x', hx', hx1', hx2'⟩ := geometry_getLast hgs' hS.finish
    obtain ⟨y', hy', -, -⟩ := geometry_head hgs' hS.start
    rw [consistent_snoc hx] at hc
    rw [consistent_snoc hx'] at hc'
    rw [head?_append_of_some _ hy] at hf
    rw [head?_append_of_some _ hy'] at hf'
    simp only [List.getLast?_append, List.getLast?_singleton, Option.some_or, Option.some.injEq] at hf hl hf' hl'
    subst hf; subst hl; subst hf'; subst hl'
    obtain ⟨r1, r2⟩ := step y x t hx1 hx2 ht1 ht2 (hS.sound s y x hgs hc.1 hy hx) hc.2
    obtain ⟨r1', r2'⟩ := step y' x' t' hx1' hx2' ht1' ht2' (hS.sound s' y' x' hgs' hc'.1 hy' hx') hc'.2
    have hta : t.a = t'.a := by rw [r1.1, r1'.1, ha, hb']
    have htt : t = t' := LayerState.ext' (ht1.trans ht1'.symm) (ht2.trans ht2'.symm) hta hb'
    have hxb : x.b = x'.b := by rw [r2, r2', htt]
    rw [hS.unique s s' y x y' x' hgs hgs' hc.1 hc'.1 hy hx hy' hx' ha hxb, htt]

/-- A stack has at most one scattering matrix. -/
theorem Spec.IsSMatrix.eq {S S' : ScatteringMatrix ι} {layers : List (LayerSolveResult ι × ℝ)}
    (h : IsSMatrix S layers) (h' : IsSMatrix S' layers) : S = S' := by
  have hs := h.start.symm.trans h'.start
  have hf := h.finish.symm.trans h'.finish
  simp only [Option.some.injEq, Prod.mk.injEq] at hs hf
  have hblocks : S.toBlocks = S'.toBlocks := by
    obtain ⟨st, first, last, hg, hc, hfi, hl, ha, hb⟩ := h.complete (β := ι ⊕ ι) 1 0
    have r := h.sound st first last hg hc hfi hl
    have r' := h'.sound st first last hg hc hfi hl
    obtain ⟨st2, first2, last2, hg2, hc2, hfi2, hl2, ha2, hb2⟩ := h.complete (β := ι ⊕ ι) 0 1
    have q := h.sound st2 first2 last2 hg2 hc2 hfi2 hl2
    have q' := h'.sound st2 first2 last2 hg2 hc2 hfi2 hl2
    simp only [Relates, ha, hb, ha2, hb2, Matrix.mul_one, Matrix.mul_zero, add_zero, zero_add] at r r' q q'
    apply Blocks.ext
    · exact r.1.symm.trans r'.1
    · exact q.1.symm.trans q'.1
    · exact r.2.symm.trans r'.2
    · exact q.2.symm.trans q'.2
  cases S; cases S'
  simp_all

/-- The same excitation with forward and backward waves exchanged. -/
def swapState (s : LayerState ι β) : LayerState ι β :=
  { layer := s.layer, thickness := s.thickness, a := s.b, b := s.a }

@[simp] theorem swapState_swapState (s : LayerState ι β) : swapState (swapState s) = s := rfl

theorem fieldsAt_swap {s : LayerState ι β} {z : ℝ} {e h : Matrix (ι ⊕ ι) β ℂ} (hf : FieldsAt s z e h) :
    FieldsAt (swapState s) (s.thickness - z) (-e) h := by
  obtain ⟨h1, h3, h4, h5⟩ := hf
  refine ⟨h1, h3, ?_, ?_⟩
  · rw [h4]
    simp only [swapState, sub_sub_cancel]
    mat_module
  · rw [h5]
    simp only [swapState, sub_sub_cancel]
    mat_module

theorem interface_swap {s t : LayerState ι β} (h : Interface s t) :
    Interface (swapState t) (swapState s) := by
  obtain ⟨e, hh, h1, h2⟩ := h
  refine ⟨-e, hh, ?_, ?_⟩
  · have := fieldsAt_swap h2
    rwa [sub_zero] at this
  · have := fieldsAt_swap h1
    rwa [sub_self] at this

theorem consistent_reverse_swap {st : List (LayerState ι β)} (h : Consistent st) :
    Consistent (st.map swapState).reverse := by
  unfold Consistent at *
  rw [List.isChain_reverse, List.isChain_map]
  exact h.imp fun a b hab => interface_swap hab

theorem geometry_reverse_swap (st : List (LayerState ι β)) :
    geometry (st.map swapState).reverse = (geometry st).reverse := by
  unfold geometry
  rw [List.map_reverse, List.map_map]
  rfl

theorem relates_reverse {S : Blocks ι} {first last : LayerState ι β} :
    Relates S first last ↔ Relates S.reverse (swapState last) (swapState first) := by
  unfold Relates Blocks.reverse swapState
  simp only
  rw [and_comm, add_comm (S.s21 * first.a), add_comm (S.s11 * first.a)]

theorem reverse_swap_reverse_swap (st : List (LayerState ι β)) :
    ((st.map swapState).reverse.map swapState).reverse = st := by
  rw [List.map_reverse, List.reverse_reverse, List.map_map]
  simp [Function.comp_def]

/-- Reversing a stack reverses its scattering matrix. -/
theorem isSMatrix_reverse {S : ScatteringMatrix ι} {layers : List (LayerSolveResult ι × ℝ)}
    (h : IsSMatrix S layers) : IsSMatrix S.reverse layers.reverse where
  start := by rw [List.head?_reverse]; exact h.finish
  finish := by rw [List.getLast?_reverse]; exact h.start
  sound := by
    intro β st first last hg hc hf hl
    have hg' : geometry (st.map swapState).reverse = layers := by
      rw [geometry_reverse_swap, hg, List.reverse_reverse]
    have := h.sound _ (swapState last) (swapState first) hg' (consistent_reverse_swap hc)
      (by rw [List.head?_reverse, List.getLast?_map, hl]; rfl)
      (by rw [List.getLast?_reverse, List.head?_map, hf]; rfl)
    rw [relates_reverse] at this
    exact this
  complete := by
    intro β a0 bN
    obtain ⟨st, first, last, hg, hc, hf, hl, ha, hb⟩ := h.complete bN a0
    refine ⟨(st.map swapState).reverse, swapState last, swapState first, ?_, consistent_reverse_swap hc, ?_, ?_, hb, ha⟩
    · rw [geometry_reverse_swap, hg]
    · rw [List.head?_reverse, List.getLast?_map, hl]; rfl
    · rw [List.getLast?_reverse, List.head?_map, hf]; rfl
  unique := by
    intro β st st' first last first' last' hg hg' hc hc' hf hl hf' hl' ha hb
    have := h.unique (st.map swapState).reverse (st'.map swapState).reverse
      (swapState last) (swapState first) (swapState last') (swapState first')
      (by rw [geometry_reverse_swap, hg, List.reverse_reverse])
      (by rw [geometry_reverse_swap, hg', List.reverse_reverse])
      (consistent_reverse_swap hc) (consistent_reverse_swap hc')
      (by rw [List.head?_reverse, List.getLast?_map, hl]; rfl)
      (by rw [List.getLast?_reverse, List.head?_map, hf]; rfl)
      (by rw [List.head?_reverse, List.getLast?_map, hl']; rfl)
      (by rw [List.getLast?_reverse, List.head?_map, hf']; rfl) hb ha
    rw [← reverse_swap_reverse_swap st, this, reverse_swap_reverse_swap]

theorem regular_reverse {lam : ℝ} {layers : List (LayerSolveResult ι × ℝ)} (h : Regular lam layers) :
    Regular lam layers.reverse := fun p hp => h p (List.mem_reverse.1 hp)

theorem prependLayer_eq (S : ScatteringMatrix ι) (l : LayerSolveResult ι) (d : ℝ) :
    prependLayer S l d = (appendLayer S.reverse l d >>= fun s => .ok s.reverse) := by
  unfold prependLayer appendLayer
  simp only [ScatteringMatrix.reverse]
  cases extendSMatrix (ι := ι) { s11 := S.s22, s12 := S.s21, s21 := S.s12, s22 := S.s11 } S.startLayer
    S.startThickness l d <;> rfl

/-- Correctness of `prepend_layer`. -/
theorem isSMatrix_prepend {S S' : ScatteringMatrix ι} {layers : List (LayerSolveResult ι × ℝ)}
    {l' : LayerSolveResult ι} {d' lam : ℝ} (hS : IsSMatrix S layers)
    (hr : Regular lam ((l', d') :: layers)) (h : prependLayer S l' d' = .ok S') :
    IsSMatrix S' ((l', d') :: layers) := by
  rw [prependLayer_eq, bind_eq_ok] at h
  obtain ⟨T, hT, h⟩ := h
  rw [ok_inj] at h
  subst h
  have hr' : Regular lam (layers.reverse ++ [(l', d')]) := by
    have := regular_reverse hr
    simpa using this
  have := isSMatrix_reverse (isSMatrix_append (isSMatrix_reverse hS) hr' hT)
  simpa using this

end Fmmax
