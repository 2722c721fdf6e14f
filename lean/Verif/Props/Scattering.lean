import Verif.Proofs.ModeChange
import Verif.Spec.SMatrix
import Verif.Examples.Stack

/-! Property theorems C29 to C38: scattering matrices of layer stacks. -/

set_option linter.unusedSectionVars false

namespace Fmmax

open Matrix Spec

variable {ι : Type} [Fintype ι] [DecidableEq ι] {β : Type}

/-! ### C29: soundness -/

/-- **C29** For every stack solved at one wavelength: whenever amplitudes in all layers make the tangential fields
continuous across every interface, the outgoing amplitudes are the returned S-matrix applied to the incoming ones. -/
theorem C29_smatrix_sound {lam : ℝ} {layers : List (LayerSolveResult ι)} {ds : List ℝ} {S : ScatteringMatrix ι}
    (hlam : ∀ l ∈ layers, l.wavelength = lam) (h : stackSMatrix layers ds = .ok S)
    (st : List (LayerState ι β)) (first last : LayerState ι β)
    (hg : st.map (fun s => (s.layer, s.thickness)) = layers.zip ds) (hc : Consistent st)
    (hf : st.head? = some first) (hl : st.getLast? = some last) :
    last.a = S.s11 * first.a + S.s12 * last.b ∧ first.b = S.s21 * first.a + S.s22 * last.b := by
  rcases st with _ | ⟨s, _ | ⟨t, st⟩⟩
  · simp at hf
  · -- a single layer: the identity matrix
    simp only [List.map_cons, List.map_nil] at hg
    obtain ⟨ss, hss, hlast⟩ := stackSMatrix_eq_ok h
    obtain ⟨hlen, p, rest, hz⟩ := stackSMatrices_length hss
    rw [stackSMatrices_eq layers ds hlen p rest hz, bind_eq_ok] at hss
    obtain ⟨tail, ht, hss⟩ := hss
    rw [← hg] at hz
    simp only [List.cons.injEq, List.nil_eq] at hz
    obtain ⟨rfl, rfl⟩ := hz
    simp only [appendLoop, ok_inj] at ht
    subst ht
    simp only [ok_inj] at hss
    subst hss
    simp only [List.getLast?_singleton, Option.some.injEq] at hlast
    subst hlast
    exact (isSMatrix_identity s.layer s.thickness).sound [s] first last rfl hc hf hl
  · -- at least two layers: the fields are finite, so all eigenvalues are nonzero
    have hreg : Regular lam (layers.zip ds) := by
      intro p hp
      refine ⟨hlam _ (List.of_mem_zip hp).1, ?_⟩
      rw [← hg, List.mem_map] at hp
      obtain ⟨x, hx, rfl⟩ := hp
      simp only
      clear hg hf hl h
      have key : ∀ (st : List (LayerState ι β)) (s t : LayerState ι β), Consistent (s :: t :: st) →
          ∀ x ∈ s :: t :: st, ∀ i, x.layer.eigenvalues i ≠ 0 := by
        intro st
        induction st with
        | nil =>
          intro s t hc x hx
          unfold Consistent at hc
          rw [List.isChain_cons_cons] at hc
          obtain ⟨⟨e, h, h1, h2⟩, -⟩ := hc
          simp only [List.mem_cons, List.not_mem_nil, or_false] at hx
          rcases hx with rfl | rfl
          · exact h1.2.1
          · exact h2.2.1
        | cons u st ih =>
          intro s t hc x hx
          unfold Consistent at hc
          rw [List.isChain_cons_cons] at hc
          obtain ⟨⟨e, h, h1, h2⟩, hc⟩ := hc
          rw [List.mem_cons] at hx
          rcases hx with rfl | hx
          · exact h1.2.1
          · exact ih t u hc x hx
      exact key st s t hc x hx
    exact (stackSMatrix_spec hreg h).sound _ first last hg hc hf hl

/-- Two layers of index 1 and 2: the theorem applies, with nonzero reflection. -/
example : ∃ (st : List (LayerState (Fin 1) Unit)) (first last : LayerState (Fin 1) Unit),
    stackSMatrix [Examples.exLayer 1, Examples.exLayer 2] [Real.pi, Real.pi] = .ok Examples.exS2 ∧
    (∀ l ∈ [Examples.exLayer 1, Examples.exLayer 2], l.wavelength = 2 * Real.pi) ∧
    st.map (fun s => (s.layer, s.thickness)) =
      [Examples.exLayer 1, Examples.exLayer 2].zip [Real.pi, Real.pi] ∧
    Consistent st ∧ st.head? = some first ∧ st.getLast? = some last ∧ first.b ≠ 0 := by
  have hr := Examples.exRegular [1, 2] (by simp) [Real.pi, Real.pi]
  obtain ⟨st, first, last, h1, h2, h3, h4, h5, h6⟩ :=
    (stackSMatrix_spec hr Examples.exStack2).complete (β := Unit) (Matrix.of fun _ _ => 1) 0
  refine ⟨st, first, last, Examples.exStack2, by simp [Examples.exLayer], h1, h2, h3, h4, ?_⟩
  have := C29_smatrix_sound (lam := 2 * Real.pi) (by simp [Examples.exLayer]) Examples.exStack2 st first last h1 h2 h3 h4
  rw [this.2, h5, h6]
  intro h0
  have := congrFun (congrFun h0 (Sum.inl 0)) ()
  simp [Examples.exS2] at this

/-! ### C30: completeness and uniqueness -/

/-- **C30** For every stack with finite modes and all incoming amplitudes there is exactly one assignment of
amplitudes to the layers with continuous tangential fields, and its outgoing parts are those of the S-matrix. -/
theorem C30_smatrix_complete_unique {lam : ℝ} {layers : List (LayerSolveResult ι)} {ds : List ℝ}
    {S : ScatteringMatrix ι} (hr : ∀ l ∈ layers, l.wavelength = lam ∧ ∀ i, l.eigenvalues i ≠ 0)
    (h : stackSMatrix layers ds = .ok S) (a0 bN : Matrix (ι ⊕ ι) β ℂ) :
    ∃! st : List (LayerState ι β), st.map (fun s => (s.layer, s.thickness)) = layers.zip ds ∧ Consistent st ∧
      ∃ first last, st.head? = some first ∧ st.getLast? = some last ∧ first.a = a0 ∧ last.b = bN ∧
        last.a = S.s11 * a0 + S.s12 * bN ∧ first.b = S.s21 * a0 + S.s22 * bN := by
  have hreg : Regular lam (layers.zip ds) := fun p hp => hr _ (List.of_mem_zip hp).1
  have hS := stackSMatrix_spec hreg h
  obtain ⟨st, first, last, h1, h2, h3, h4, h5, h6⟩ := hS.complete a0 bN
  refine ⟨st, ⟨h1, h2, first, last, h3, h4, h5, h6, ?_⟩, ?_⟩
  · have := hS.sound st first last h1 h2 h3 h4
    rw [← h5, ← h6]
    exact this
  · rintro st' ⟨g1, g2, first', last', g3, g4, g5, g6, -⟩
    exact hS.unique st' st first' last' first last g1 h1 g2 h2 g3 g4 h3 h4 (g5.trans h5.symm) (g6.trans h6.symm)

example : (∀ l ∈ [Examples.exLayer 1, Examples.exLayer 2, Examples.exLayer 1],
      l.wavelength = 2 * Real.pi ∧ ∀ i, l.eigenvalues i ≠ 0) ∧
    ∃ S, stackSMatrix [Examples.exLayer 1, Examples.exLayer 2, Examples.exLayer 1] [Real.pi, Real.pi, Real.pi]
      = .ok S :=
  ⟨by simp [Examples.exLayer], _, Examples.exStack3⟩

/-! ### C31: append and prepend -/

/-- **C31 (append)** `append_layer(stack_s_matrix(layers), l)` is `stack_s_matrix(layers + [l])`, including when it
is not finite. -/
theorem C31_append_layer {layers : List (LayerSolveResult ι)} {ds : List ℝ} {S : ScatteringMatrix ι}
    (h : stackSMatrix layers ds = .ok S) (l : LayerSolveResult ι) (d : ℝ) :
    appendLayer S l d = stackSMatrix (layers ++ [l]) (ds ++ [d]) := by
  obtain ⟨ss, hss, -⟩ := stackSMatrix_eq_ok h
  obtain ⟨hlen, p, rest, hz⟩ := stackSMatrices_length hss
  rw [stackSMatrix_append layers [l] ds [d] (by rintro rfl; simp at hz) hlen rfl, h]
  exact (scanLoop_singleton S l d).symm

/-- **C31 (prepend)** Whenever both are finite, `prepend_layer(stack_s_matrix(layers), l)` is
`stack_s_matrix([l] + layers)`. -/
theorem C31_prepend_layer {lam : ℝ} {layers : List (LayerSolveResult ι)} {ds : List ℝ} {S S1 S2 : ScatteringMatrix ι}
    {l : LayerSolveResult ι} {d : ℝ}
    (hr : ∀ x ∈ l :: layers, x.wavelength = lam ∧ ∀ i, x.eigenvalues i ≠ 0)
    (h : stackSMatrix layers ds = .ok S) (h1 : prependLayer S l d = .ok S1)
    (h2 : stackSMatrix (l :: layers) (d :: ds) = .ok S2) : S1 = S2 := by
  have hreg : Regular lam ((l, d) :: layers.zip ds) := by
    intro p hp
    rw [List.mem_cons] at hp
    rcases hp with rfl | hp
    · exact hr l (by simp)
    · exact hr _ (List.mem_cons_of_mem _ (List.of_mem_zip hp).1)
  have hS := stackSMatrix_spec (fun p hp => hreg p (List.mem_cons_of_mem _ hp)) h
  exact (isSMatrix_prepend hS hreg h1).eq (stackSMatrix_spec (layers := l :: layers) (ds := d :: ds) hreg h2)

/-- All the ways in which the public API can build the S-matrix of a stack. -/
inductive Built : ScatteringMatrix ι → List (LayerSolveResult ι × ℝ) → Prop
  | stack {layers ds S} : stackSMatrix layers ds = .ok S → Built S (layers.zip ds)
  | scan {layers ds S} : stackSMatrixScan layers ds = .ok S → Built S (layers.zip ds)
  | append {S S' layers l d} : Built S layers → appendLayer S l d = .ok S' → Built S' (layers ++ [(l, d)])
  | prepend {S S' layers l d} : Built S layers → prependLayer S l d = .ok S' → Built S' ((l, d) :: layers)
  | star {A B S la lb} : Built A la → Built B lb → redhefferStarProduct A B = .ok S → Built S (la ++ lb)

theorem Built.isSMatrix {lam : ℝ} {S : ScatteringMatrix ι} {layers : List (LayerSolveResult ι × ℝ)}
    (h : Built S layers) (hr : Regular lam layers) : IsSMatrix S layers := by
  induction h with
  | stack h => exact stackSMatrix_spec hr h
  | scan h => rw [← stackSMatrix_eq_scan] at h; exact stackSMatrix_spec hr h
  | append _ h ih => exact isSMatrix_append (ih (regular_append_left hr)) hr h
  | prepend _ h ih => exact isSMatrix_prepend (ih fun p hp => hr p (List.mem_cons_of_mem _ hp)) hr h
  | star _ _ h iha ihb =>
    exact isSMatrix_redheffer (iha (regular_append_left hr)) (ihb fun p hp => hr p (List.mem_append_right _ hp)) hr h

/-- **C31 (any order)** However a stack is assembled from appends, prepends, star products, loops and scans, the
finite result is the same scattering matrix. -/
theorem C31_any_build_order {lam : ℝ} {S S' : ScatteringMatrix ι} {layers : List (LayerSolveResult ι × ℝ)}
    (hr : ∀ p ∈ layers, p.1.wavelength = lam ∧ ∀ i, p.1.eigenvalues i ≠ 0)
    (h : Built S layers) (h' : Built S' layers) : S = S' :=
  (h.isSMatrix hr).eq (h'.isSMatrix hr)

/-- Prepending glass's neighbour: `prepend_layer` succeeds on a concrete stack. -/
example : ∃ S S1 S2, stackSMatrix [Examples.exLayer 2] [Real.pi] = .ok S ∧
    prependLayer S (Examples.exLayer 1) Real.pi = .ok S1 ∧
    stackSMatrix [Examples.exLayer 1, Examples.exLayer 2] [Real.pi, Real.pi] = .ok S2 := by
  refine ⟨identitySMatrix (Examples.exLayer 2) Real.pi, ?_⟩
  have h1 : stackSMatrix [Examples.exLayer 2] [Real.pi] = .ok (identitySMatrix (Examples.exLayer 2) Real.pi) := by
    rw [stackSMatrix_cons _ _ _ _ rfl]; rfl
  have h2 := Examples.exLayer_append (S := identitySMatrix (Examples.exLayer 2) Real.pi) (p := 2) (q := 1) (s11 := 1)
    (s12 := 0) (s21 := 0) (s22 := 1) (t11 := 2 / 3) (t12 := -1 / 3) (t21 := -1 / 3) (t22 := -4 / 3) (x := 1) (y := -1)
    two_ne_zero one_ne_zero rfl rfl
    (by simp [identitySMatrix]) (by simp [identitySMatrix]) (by simp [identitySMatrix]) (by simp [identitySMatrix])
    Examples.exp_pi_two Examples.exp_pi_one (by norm_num) (by norm_num) (by norm_num) (by norm_num) (by norm_num)
  have h3 : ∃ S1, prependLayer (identitySMatrix (Examples.exLayer 2) Real.pi) (Examples.exLayer 1) Real.pi = .ok S1 := by
    rw [prependLayer_eq]
    exact ⟨_, bind_eq_ok.2 ⟨_, h2, rfl⟩⟩
  obtain ⟨S1, h3⟩ := h3
  exact ⟨S1, _, h1, h3, Examples.exStack2⟩

/-! ### C32: scan and loop -/

/-- **C32** `stack_s_matrix_scan` and `stack_s_matrix` agree for all inputs; both reject mismatched lengths. -/
theorem C32_scan_eq_loop (layers : List (LayerSolveResult ι)) (ds : List ℝ) :
    stackSMatrixScan layers ds = stackSMatrix layers ds ∧
      (layers.length ≠ ds.length → stackSMatrix layers ds = .error .valueError ∧
        stackSMatrixScan layers ds = .error .valueError) ∧
      (∀ l d, stackSMatrixScan [l] [d] = .ok (identitySMatrix (ι := ι) l d)) := by
  refine ⟨(stackSMatrix_eq_scan layers ds).symm, ?_, ?_⟩
  · intro h
    have : stackSMatrixScan layers ds = .error .valueError := by
      unfold stackSMatrixScan; rw [if_pos h]
    exact ⟨(stackSMatrix_eq_scan layers ds).trans this, this⟩
  · intro l d; rfl

/-! ### C33: interior matrices -/

/-- **C33** `stack_s_matrices_interior` returns one pair per layer; the i-th pair consists of the scattering matrix
of layers `0..i` and that of layers `i..N`, i.e. the unique matrices describing the consistent amplitudes of those
substacks; they equal what `stack_s_matrix` returns for these substacks. -/
theorem C33_interior_substacks {lam : ℝ} {layers : List (LayerSolveResult ι)} {ds : List ℝ}
    {ps : List (ScatteringMatrix ι × ScatteringMatrix ι)}
    (hr : ∀ l ∈ layers, l.wavelength = lam ∧ ∀ i, l.eigenvalues i ≠ 0)
    (h : stackSMatricesInterior layers ds = .ok ps) :
    ps.length = layers.length ∧ ∀ i (hi : i < ps.length),
      IsSMatrix ps[i].1 ((layers.zip ds).take (i + 1)) ∧ IsSMatrix ps[i].2 ((layers.zip ds).drop i) ∧
      (∀ S, stackSMatrix (layers.take (i + 1)) (ds.take (i + 1)) = .ok S → ps[i].1 = S) ∧
      (∀ S, stackSMatrix (layers.drop i) (ds.drop i) = .ok S → ps[i].2 = S) := by
  have hreg : Regular lam (layers.zip ds) := fun p hp => hr _ (List.of_mem_zip hp).1
  obtain ⟨h1, h2⟩ := interior_spec hreg h
  have hlen : layers.length = ds.length := by
    unfold stackSMatricesInterior at h
    rw [bind_eq_ok] at h
    obtain ⟨b, hb, -⟩ := h
    exact (stackSMatrices_length hb).1
  refine ⟨by simpa [hlen] using h1, ?_⟩
  intro i hi
  obtain ⟨a, b⟩ := h2 i hi
  refine ⟨a, b, ?_, ?_⟩
  · intro S hS
    have hz : (layers.take (i + 1)).zip (ds.take (i + 1)) = (layers.zip ds).take (i + 1) := by
      simp only [List.zip, List.take_zipWith]
    have := stackSMatrix_spec (lam := lam) (fun p hp => hreg p (by
      rw [hz] at hp; exact List.mem_of_mem_take hp)) hS
    rw [hz] at this
    exact a.eq this
  · intro S hS
    have hz : (layers.drop i).zip (ds.drop i) = (layers.zip ds).drop i := by
      simp only [List.zip, List.drop_zipWith]
    have := stackSMatrix_spec (lam := lam) (fun p hp => hreg p (by
      rw [hz] at hp; exact List.mem_of_mem_drop hp)) hS
    rw [hz] at this
    exact b.eq this

example : ∃ ps, stackSMatricesInterior [Examples.exLayer 1, Examples.exLayer 2, Examples.exLayer 1]
    [Real.pi, Real.pi, Real.pi] = .ok ps := by
  obtain ⟨ss, hss, -⟩ := stackSMatrix_eq_ok Examples.exStack3
  refine ⟨ss.zip (ss.reverse.map ScatteringMatrix.reverse), ?_⟩
  unfold stackSMatricesInterior
  exact bind_eq_ok.2 ⟨ss, hss, bind_eq_ok.2 ⟨ss, hss, rfl⟩⟩

/-! ### C34: star product -/

/-- **C34** The star product of the S-matrices of stacks `A` and `B` is the S-matrix of `A + B`. -/
theorem C34_star_product {lam : ℝ} {la lb : List (LayerSolveResult ι)} {da db : List ℝ}
    {A B S S' : ScatteringMatrix ι}
    (hr : ∀ l ∈ la ++ lb, l.wavelength = lam ∧ ∀ i, l.eigenvalues i ≠ 0)
    (hA : stackSMatrix la da = .ok A) (hB : stackSMatrix lb db = .ok B)
    (hS : redhefferStarProduct A B = .ok S) (hS' : stackSMatrix (la ++ lb) (da ++ db) = .ok S') : S = S' := by
  have hlen : la.length = da.length := by
    obtain ⟨ss, hss, -⟩ := stackSMatrix_eq_ok hA; exact (stackSMatrices_length hss).1
  have hz : (la ++ lb).zip (da ++ db) = la.zip da ++ lb.zip db := List.zip_append hlen
  refine C31_any_build_order (lam := lam) ?_ (.star (.stack hA) (.stack hB) hS) (hz ▸ .stack hS')
  intro p hp
  rw [← hz] at hp
  exact hr _ (List.of_mem_zip hp).1

/-- **C34 (associativity)** Whenever the products are finite, the star product is associative. -/
theorem C34_star_assoc {lam : ℝ} {la lb lc : List (LayerSolveResult ι × ℝ)}
    {A B C AB BC S S' : ScatteringMatrix ι}
    (hr : ∀ p ∈ la ++ lb ++ lc, p.1.wavelength = lam ∧ ∀ i, p.1.eigenvalues i ≠ 0)
    (hA : Built A la) (hB : Built B lb) (hC : Built C lc)
    (hAB : redhefferStarProduct A B = .ok AB) (hBC : redhefferStarProduct B C = .ok BC)
    (hS : redhefferStarProduct AB C = .ok S) (hS' : redhefferStarProduct A BC = .ok S') : S = S' :=
  C31_any_build_order hr (.star (.star hA hB hAB) hC hS)
    (by rw [List.append_assoc]; exact .star hA (.star hB hC hBC) hS')

/-! ### C35: thickness updates -/

/-- The full C35 is false for a single layer: the S-matrix of a single layer is the identity for every thickness,
but `set_end_layer_thickness` multiplies by phases. -/
theorem C35_false_for_single_layer :
    ∃ (l : LayerSolveResult (Fin 1)) (d d' : ℝ) (S S' : ScatteringMatrix (Fin 1)),
      stackSMatrix [l] [d] = .ok S ∧ stackSMatrix [l] [d'] = .ok S' ∧
      setEndLayerThickness S d' ≠ S' ∧ setStartLayerThickness S d' ≠ S' := by
  refine ⟨Examples.exLayer 1, 0, Real.pi, identitySMatrix (Examples.exLayer 1) 0,
    identitySMatrix (Examples.exLayer 1) Real.pi, ?_, ?_, ?_, ?_⟩
  · rw [stackSMatrix_cons _ _ _ _ rfl]; rfl
  · rw [stackSMatrix_cons _ _ _ _ rfl]; rfl
  · intro h
    have := congrFun (congrFun (congrArg (fun s => s.s22) h) (Sum.inl 0)) (Sum.inl 0)
    have e := Examples.exp_pi_one
    simp only [mul_one] at e
    simp [setEndLayerThickness, identitySMatrix, colScale, phase, Examples.exLayer, e] at this
    norm_num at this
  · intro h
    have := congrFun (congrFun (congrArg (fun s => s.s11) h) (Sum.inl 0)) (Sum.inl 0)
    have e := Examples.exp_pi_one
    simp only [mul_one] at e
    simp [setStartLayerThickness, identitySMatrix, colScale, phase, Examples.exLayer, e] at this
    norm_num at this

/-- **C35 (end), partial** For every stack of at least two layers, `set_end_layer_thickness` returns the S-matrix
`stack_s_matrix` returns with the last thickness replaced (missing: single-layer stacks, where it is false). -/
theorem C35_set_end_thickness_partial {layers : List (LayerSolveResult ι)} {ds : List ℝ} {S : ScatteringMatrix ι}
    {d : ℝ} (h2 : 2 ≤ layers.length) (h : stackSMatrix layers (ds ++ [d]) = .ok S) (d' : ℝ) :
    stackSMatrix layers (ds ++ [d']) = .ok (setEndLayerThickness S d') := by
  obtain ⟨ss, hss, -⟩ := stackSMatrix_eq_ok h
  obtain ⟨hlen, -⟩ := stackSMatrices_length hss
  obtain ⟨ls, l, rfl⟩ : ∃ ls l, layers = ls ++ [l] :=
    ⟨layers.dropLast, layers.getLast (by rintro rfl; simp at h2), (List.dropLast_append_getLast _).symm⟩
  simp only [List.length_append, List.length_singleton, add_left_inj] at hlen h2
  have hne : ls ≠ [] := by rintro rfl; simp at h2
  rw [stackSMatrix_append ls [l] ds [d] hne hlen rfl, bind_eq_ok] at h
  obtain ⟨T, hT, h⟩ := h
  rw [stackSMatrix_append ls [l] ds [d'] hne hlen rfl, bind_eq_ok]
  refine ⟨T, hT, ?_⟩
  simp only [List.zip_cons_cons, List.zip_nil_left, scanLoop_singleton] at h ⊢
  exact appendLayer_setEnd h

/-- **C35 (start), partial** For every stack of at least two layers, `set_start_layer_thickness` returns the S-matrix
`stack_s_matrix` returns with the first thickness replaced. -/
theorem C35_set_start_thickness_partial {layers : List (LayerSolveResult ι)} {ds : List ℝ} {S : ScatteringMatrix ι}
    {d : ℝ} (h2 : 2 ≤ layers.length) (h : stackSMatrix layers (d :: ds) = .ok S) (d' : ℝ) :
    stackSMatrix layers (d' :: ds) = .ok (setStartLayerThickness S d') := by
  obtain ⟨ss, hss, -⟩ := stackSMatrix_eq_ok h
  obtain ⟨hlen, -⟩ := stackSMatrices_length hss
  rcases layers with _ | ⟨l, _ | ⟨l', ls⟩⟩
  · simp at h2
  · simp at h2
  rcases ds with _ | ⟨e, ds⟩
  · simp at hlen
  simp only [List.length_cons, add_left_inj] at hlen
  rw [stackSMatrix_cons _ _ _ _ (by simpa using hlen)] at h ⊢
  simp only [List.zip_cons_cons, scanLoop, bind_eq_ok] at h ⊢
  obtain ⟨T, hT, h⟩ := h
  exact ⟨_, append_identity_setStart hT, scanLoop_setStart _ _ _ _ h⟩

example : 2 ≤ [Examples.exLayer 1, Examples.exLayer 2].length ∧
    stackSMatrix [Examples.exLayer 1, Examples.exLayer 2] ([Real.pi] ++ [Real.pi]) = .ok Examples.exS2 :=
  ⟨le_rfl, Examples.exStack2⟩

/-! ### C36: trivial stacks -/

theorem scanLoop_replicate {l : LayerSolveResult ι} (hw : WellPosed l)
    (hu : IsUnit (magneticToElectric l * l.eigenvectors).det) (hq : ∀ i, l.eigenvalues i ≠ 0) (ds : List ℝ) :
    ∀ (S : ScatteringMatrix ι), S.endLayer = l → S.s12 = 0 → S.s21 = 0 →
      ∃ S', scanLoop S (ds.map fun d => (l, d)) = .ok S' ∧ S'.s12 = 0 ∧ S'.s21 = 0 ∧
        S'.s11 = propagator l ((S.endThickness :: ds).dropLast.sum) * S.s11 ∧
        S'.s22 = S.s22 * propagator l ds.sum ∧ S'.startLayer = S.startLayer ∧
        S'.startThickness = S.startThickness ∧ S'.endLayer = l ∧
        S'.endThickness = (S.endThickness :: ds).getLast (by simp) := by
  induction ds with
  | nil =>
    intro S hl h12 h21
    exact ⟨S, rfl, h12, h21, by simp, by simp, rfl, rfl, hl, rfl⟩
  | cons d ds ih =>
    intro S hl h12 h21
    subst hl
    have h := appendLayer_same (d := d) (omegaScriptK_ok_iff.2 ⟨hw, rfl⟩) hu hq
    obtain ⟨S', h1, h2, h3, h4, h5, h6, h7, h8, h9⟩ := ih
      { s11 := propagator S.endLayer S.endThickness * S.s11,
        s12 := propagator S.endLayer S.endThickness * S.s12 * propagator S.endLayer d,
        s21 := S.s21, s22 := S.s22 * propagator S.endLayer d,
        startLayer := S.startLayer, startThickness := S.startThickness,
        endLayer := S.endLayer, endThickness := d } rfl (by simp [h12]) h21
    refine ⟨S', ?_, h2, h3, ?_, ?_, h6, h7, h8, ?_⟩
    · simp only [List.map_cons, scanLoop, bind_eq_ok]
      exact ⟨_, h, h1⟩
    · rw [h4]
      simp only
      rw [← Matrix.mul_assoc, propagator_mul]
      congr 2
      simp only [List.dropLast_cons_cons, List.sum_cons]
      rw [add_comm]
    · rw [h5]
      simp only
      rw [Matrix.mul_assoc, propagator_mul, List.sum_cons]
    · rw [h9]
      simp

/-- **C36 (single layer)** The S-matrix of a single layer is the identity. -/
theorem C36_single_layer (l : LayerSolveResult ι) (d : ℝ) :
    ∃ S, stackSMatrix [l] [d] = .ok S ∧ S.s11 = 1 ∧ S.s12 = 0 ∧ S.s21 = 0 ∧ S.s22 = 1 := by
  refine ⟨identitySMatrix l d, ?_, ?_, rfl, rfl, ?_⟩
  · rw [stackSMatrix_cons _ _ _ _ rfl]; rfl
  · simp [identitySMatrix]
  · simp [identitySMatrix]

/-- **C36 (identical layers)** A stack of any number of identical layers has a finite S-matrix without reflection; the
forward wave acquires the phase of all layers but the last (amplitudes are referred to the start of the last layer) and
the backward wave that of all layers but the first. -/
theorem C36_identical_layers {l : LayerSolveResult ι} (hw : WellPosed l)
    (hu : IsUnit (magneticToElectric l * l.eigenvectors).det) (hq : ∀ i, l.eigenvalues i ≠ 0)
    (d : ℝ) (ds : List ℝ) :
    ∃ S, stackSMatrix (List.replicate (ds.length + 1) l) (d :: ds) = .ok S ∧ S.s12 = 0 ∧ S.s21 = 0 ∧
      S.s11 = diagonal (fun i => Complex.exp (Complex.I * l.eigenvalues i * ((d :: ds).dropLast.sum : ℝ))) ∧
      S.s22 = diagonal (fun i => Complex.exp (Complex.I * l.eigenvalues i * (ds.sum : ℝ))) := by
  obtain ⟨S', h1, h2, h3, h4, h5, -⟩ := scanLoop_replicate hw hu hq ds (identitySMatrix l d) rfl rfl rfl
  refine ⟨S', ?_, h2, h3, ?_, ?_⟩
  · rw [List.replicate_succ, stackSMatrix_cons _ _ _ _ (by simp)]
    have : (List.replicate ds.length l).zip ds = ds.map fun d => (l, d) := by
      apply List.ext_getElem
      · simp
      · intro i h1 h2; simp
    rw [this]; exact h1
  · rw [h4]; simp [identitySMatrix, propagator]
  · rw [h5]; simp [identitySMatrix, propagator]

example : WellPosed (Examples.exLayer 2) ∧
    IsUnit (magneticToElectric (Examples.exLayer 2) * (Examples.exLayer 2).eigenvectors).det ∧
    ∀ i, (Examples.exLayer 2).eigenvalues i ≠ 0 := by
  refine ⟨Examples.exLayer_wellPosed two_ne_zero, ?_, fun _ => two_ne_zero⟩
  rw [Examples.exLayer_magneticToElectric]
  simp [Examples.exLayer]

/-! ### C37: splitting a layer -/

/-- **C37** Splitting any interior layer in two leaves the returned S-matrix unchanged (and finite). -/
theorem C37_split_layer {pre post : List (LayerSolveResult ι)} {dpre dpost : List ℝ} {l : LayerSolveResult ι}
    {d1 d2 : ℝ} {S : ScatteringMatrix ι} (hpre : pre ≠ []) (hpost : post ≠ []) (hlen : pre.length = dpre.length)
    (h : stackSMatrix (pre ++ l :: post) (dpre ++ (d1 + d2) :: dpost) = .ok S) :
    stackSMatrix (pre ++ l :: l :: post) (dpre ++ d1 :: d2 :: dpost) = .ok S := by
  obtain ⟨ss, hss, -⟩ := stackSMatrix_eq_ok h
  obtain ⟨hlen', -⟩ := stackSMatrices_length hss
  simp only [List.length_append, List.length_cons, hlen, add_right_inj, add_left_inj] at hlen'
  rw [stackSMatrix_append pre _ dpre _ hpre hlen (by simpa using hlen'), bind_eq_ok] at h
  obtain ⟨T, hT, h⟩ := h
  rw [stackSMatrix_append pre _ dpre _ hpre hlen (by simpa using hlen'), bind_eq_ok]
  refine ⟨T, hT, ?_⟩
  obtain ⟨l', post, rfl⟩ := List.exists_cons_of_ne_nil hpost
  rcases dpost with _ | ⟨d', dpost⟩
  · simp at hlen'
  simp only [List.zip_cons_cons, scanLoop, bind_eq_ok] at h ⊢
  obtain ⟨M, hM, N, hN, h⟩ := h
  -- the modes of `l` are finite because both its interfaces were computed
  obtain ⟨e1, e2, e3, e4⟩ := appendLayer_start hM
  have hM' := hM
  rw [appendLayer_ok_iff, extendSMatrix_ok_iff] at hM'
  obtain ⟨⟨i11, i12, hi, -⟩, -⟩ := hM'
  rw [interfaceMatrices_ok_iff] at hi
  obtain ⟨_, _, _, _, _, _, hq, -⟩ := hi
  have hN' := hN
  rw [appendLayer_ok_iff, extendSMatrix_ok_iff] at hN'
  obtain ⟨⟨j11, j12, hj, -⟩, -⟩ := hN'
  rw [interfaceMatrices_ok_iff] at hj
  obtain ⟨Ω, _, _, _, hΩ, _, _, hu, -⟩ := hj
  rw [e3] at hΩ hu
  obtain ⟨S1, S2, h1, h2, h3⟩ := split_layer hΩ hu hq hM
  exact ⟨S1, h1, S2, h2, N, by rw [h3]; exact hN, h⟩

/-- The middle layer of the slab example is split at one third. -/
example : stackSMatrix ([Examples.exLayer 1] ++ Examples.exLayer 2 :: [Examples.exLayer 1])
    ([Real.pi] ++ (Real.pi / 3 + 2 * Real.pi / 3) :: [Real.pi]) = .ok Examples.exS3 := by
  have : Real.pi / 3 + 2 * Real.pi / 3 = Real.pi := by ring
  rw [this]; exact Examples.exStack3

/-! ### C38: choice of eigenmodes -/

/-- **C38 (general)** If the modes of every layer are replaced by other modes of the same layer, the S-matrix of the
stack remains finite and is transformed by the mode changes of the two outer layers only. -/
theorem C38_mode_change {m : LayerSolveResult ι × LayerSolveResult ι × ModeMatrix ι × ℝ}
    {ms : List (LayerSolveResult ι × LayerSolveResult ι × ModeMatrix ι × ℝ)} {S : ScatteringMatrix ι}
    (hm : ∀ x ∈ m :: ms, ModeChange x.1 x.2.1 x.2.2.1)
    (h : stackSMatrix ((m :: ms).map fun x => x.1) ((m :: ms).map fun x => x.2.2.2) = .ok S) :
    ∃ S', stackSMatrix ((m :: ms).map fun x => x.2.1) ((m :: ms).map fun x => x.2.2.2) = .ok S' ∧
      let T₀ := m.2.2.1
      let Tn := ((m :: ms).getLast (by simp)).2.2.1
      S'.s11 = Tn⁻¹ * S.s11 * T₀ ∧ S'.s12 = Tn⁻¹ * S.s12 * Tn ∧
      S'.s21 = T₀⁻¹ * S.s21 * T₀ ∧ S'.s22 = T₀⁻¹ * S.s22 * Tn := by
  obtain ⟨l, l', T, d⟩ := m
  simp only [List.map_cons] at h ⊢
  have hz : ∀ f : LayerSolveResult ι × LayerSolveResult ι × ModeMatrix ι × ℝ → LayerSolveResult ι,
      (ms.map f).zip (ms.map fun x => x.2.2.2) = ms.map fun x => (f x, x.2.2.2) := by
    intro f
    rw [List.zip_map', ]
  rw [stackSMatrix_cons _ _ _ _ (by simp), hz] at h
  have h0 := hm _ (List.mem_cons_self)
  obtain ⟨S', h1, h2⟩ := scanLoop_modeChange ms _ _ S T T (fun x hx => hm x (List.mem_cons_of_mem _ hx))
    (identity_modeChange h0 d) h
  refine ⟨S', ?_, ?_⟩
  · rw [stackSMatrix_cons _ _ _ _ (by simp), hz]; exact h1
  · have hlast : (ms.getLast?.map fun m => m.2.2.1).getD T = (((l, l', T, d) :: ms).getLast (by simp)).2.2.1 := by
      cases ms with
      | nil => simp
      | cons x xs => simp [List.getLast?_eq_some_getLast]
    rw [hlast] at h2
    exact ⟨h2.s11, h2.s12, h2.s21, h2.s22⟩

/-- **C38 (interior)** Reordering by any permutation and rescaling by any nonzero factors the modes of all interior
layers leaves the S-matrix unchanged. -/
theorem C38_interior_modes {l₀ ln : LayerSolveResult ι} {d₀ dn : ℝ}
    {ms : List (LayerSolveResult ι × Equiv.Perm (ι ⊕ ι) × (ι ⊕ ι → ℂ) × ℝ)} {S : ScatteringMatrix ι}
    (hc : ∀ x ∈ ms, ∀ j, x.2.2.1 j ≠ 0)
    (h : stackSMatrix (l₀ :: ms.map (fun x => x.1) ++ [ln]) (d₀ :: ms.map (fun x => x.2.2.2) ++ [dn]) = .ok S) :
    ∃ S', stackSMatrix (l₀ :: ms.map (fun x => reorderModes x.1 x.2.1 x.2.2.1) ++ [ln])
        (d₀ :: ms.map (fun x => x.2.2.2) ++ [dn]) = .ok S' ∧ S'.toBlocks = S.toBlocks := by
  have idc : ∀ l : LayerSolveResult ι, ModeChange l l 1 := fun l =>
    ⟨rfl, rfl, rfl, rfl, rfl, rfl, by simp, fun i j hij => by
      by_cases e : i = j
      · rw [e]
      · simp [e] at hij, by simp⟩
  have := C38_mode_change (m := (l₀, l₀, 1, d₀)) (ms := ms.map (fun x => (x.1, reorderModes x.1 x.2.1 x.2.2.1,
    (Matrix.of fun i j => if i = x.2.1 j then x.2.2.1 j else 0 : ModeMatrix ι), x.2.2.2)) ++ [(ln, ln, 1, dn)])
    (S := S) ?_ (by simpa [Function.comp_def] using h)
  · obtain ⟨S', h1, h2⟩ := this
    refine ⟨S', by simpa [Function.comp_def] using h1, ?_⟩
    simp only [← List.cons_append, List.getLast_append_singleton, inv_one, Matrix.one_mul, Matrix.mul_one] at h2
    exact Blocks.ext h2.1 h2.2.1 h2.2.2.1 h2.2.2.2
  · intro x hx
    simp only [List.mem_cons, List.mem_append, List.mem_map, List.not_mem_nil, or_false] at hx
    rcases hx with rfl | ⟨y, hy, rfl⟩ | rfl
    · exact idc _
    · exact modeChange_reorder _ _ _ (hc y hy)
    · exact idc _

/-- In the slab example the two polarisations of the glass layer can be swapped and rescaled. -/
example :
    let ms : List (LayerSolveResult (Fin 1) × Equiv.Perm (Fin 1 ⊕ Fin 1) × (Fin 1 ⊕ Fin 1 → ℂ) × ℝ) :=
      [(Examples.exLayer 2, Equiv.swap (Sum.inl 0) (Sum.inr 0), (fun _ => 3), Real.pi)]
    (∀ x ∈ ms, ∀ j, x.2.2.1 j ≠ 0) ∧
    stackSMatrix (Examples.exLayer 1 :: ms.map (fun x => x.1) ++ [Examples.exLayer 1])
      (Real.pi :: ms.map (fun x => x.2.2.2) ++ [Real.pi]) = .ok Examples.exS3 :=
  ⟨by simp, Examples.exStack3⟩

end Fmmax
