import Verif.Proofs.StackLoop

/-! Star product, thickness changes, identical layers, splitting, mode gauge. -/

set_option linter.unusedSectionVars false

namespace Fmmax

open Matrix Spec

variable {ι : Type} [Fintype ι] [DecidableEq ι] {β : Type}

/-! ### scan form -/

theorem scanLoop_append (x y : List (LayerSolveResult ι × ℝ)) : ∀ S : ScatteringMatrix ι,
    scanLoop S (x ++ y) = (scanLoop S x >>= fun s => scanLoop s y) := by
  induction x with
  | nil => intro S; rfl
  | cons p x ih =>
    intro S
    obtain ⟨l, d⟩ := p
    simp only [List.cons_append, scanLoop]
    cases appendLayer S l d with
    | error e => rfl
    | ok s => simp only [bind, Except.bind] at ih ⊢; exact ih s

theorem stackSMatrix_eq_scan (layers : List (LayerSolveResult ι)) (ds : List ℝ) :
    stackSMatrix layers ds = stackSMatrixScan layers ds := by
  by_cases hlen : layers.length = ds.length
  · cases hz : layers.zip ds with
    | nil =>
      unfold stackSMatrix stackSMatrices stackSMatrixScan
      rw [if_neg (by simpa using hlen), if_neg (by simpa using hlen), hz]
      rfl
    | cons p rest =>
      unfold stackSMatrix stackSMatrixScan
      rw [stackSMatrices_eq layers ds hlen p rest hz, if_neg (by simpa using hlen), hz]
      simp only
      rw [scanLoop_eq]
      cases appendLoop (identitySMatrix p.1 p.2) rest with
      | error e => rfl
      | ok t => simp [bind, Except.bind, List.getLast?_eq_getLast_of_ne_nil]
  · unfold stackSMatrix stackSMatrices stackSMatrixScan
    rw [if_pos (by simpa using hlen), if_pos (by simpa using hlen)]
    rfl

theorem stackSMatrix_cons (l : LayerSolveResult ι) (ls : List (LayerSolveResult ι)) (d : ℝ) (ds : List ℝ)
    (h : ls.length = ds.length) :
    stackSMatrix (l :: ls) (d :: ds) = scanLoop (identitySMatrix l d) (ls.zip ds) := by
  rw [stackSMatrix_eq_scan]
  unfold stackSMatrixScan
  rw [if_neg (by simpa using h)]
  rfl

theorem stackSMatrix_append (ls ls' : List (LayerSolveResult ι)) (ds ds' : List ℝ)
    (hne : ls ≠ []) (h : ls.length = ds.length) (h' : ls'.length = ds'.length) :
    stackSMatrix (ls ++ ls') (ds ++ ds') =
      (stackSMatrix ls ds >>= fun s => scanLoop s (ls'.zip ds')) := by
  cases ls with
  | nil => exact absurd rfl hne
  | cons l ls =>
    cases ds with
    | nil => simp at h
    | cons d ds =>
      have h2 : ls.length = ds.length := by simpa using h
      rw [List.cons_append, List.cons_append, stackSMatrix_cons _ _ _ _ (by simp [h2, h']),
        stackSMatrix_cons _ _ _ _ h2, List.zip_append h2, scanLoop_append]

theorem scanLoop_singleton (S : ScatteringMatrix ι) (l : LayerSolveResult ι) (d : ℝ) :
    scanLoop S [(l, d)] = appendLayer S l d := by
  simp only [scanLoop]
  cases appendLayer S l d <;> rfl

theorem appendLayer_start {S S' : ScatteringMatrix ι} {l : LayerSolveResult ι} {d : ℝ}
    (h : appendLayer S l d = .ok S') :
    S'.startLayer = S.startLayer ∧ S'.startThickness = S.startThickness ∧ S'.endLayer = l ∧ S'.endThickness = d := by
  unfold appendLayer at h
  simp only [bind_eq_ok, ok_inj] at h
  obtain ⟨b, -, rfl⟩ := h
  exact ⟨rfl, rfl, rfl, rfl⟩

/-! ### full characterisation of the step -/

theorem interfaceMatrices_ok_iff {l l' : LayerSolveResult ι} {p : ModeMatrix ι × ModeMatrix ι} :
    interfaceMatrices l l' = .ok p ↔
    ∃ Ω Ω' T1 T2 : ModeMatrix ι, l.omegaScriptKMatrix = .ok Ω ∧ l'.omegaScriptKMatrix = .ok Ω' ∧
      (∀ i, l'.eigenvalues i ≠ 0) ∧ IsUnit (Ω * l.eigenvectors).det ∧
      Ω * l.eigenvectors * T1 = Ω' * l'.eigenvectors * diagonal (fun i => (l'.eigenvalues i)⁻¹) ∧
      Ω * l.eigenvectors * T2 = Ω * l'.eigenvectors ∧
      p.1 = (1 / 2 : ℂ) • (diagonal l.eigenvalues * T1 + T2) ∧
      p.2 = (1 / 2 : ℂ) • (-(diagonal l.eigenvalues * T1) + T2) := by
  constructor
  · exact interfaceMatrices_eq_ok
  · rintro ⟨Ω, Ω', T1, T2, hΩ, hΩ', hr, hu, h1, h2, h3, h4⟩
    unfold interfaceMatrices
    simp only [bind_eq_ok, solve_eq_ok, recip_eq_ok, ok_inj]
    refine ⟨Ω, hΩ, Ω', hΩ', _, ⟨hr, rfl⟩, T1, ⟨hu, ?_⟩, T2, ⟨hu, h2⟩, ?_⟩
    · rw [h1, colScale_eq]
    · rw [Prod.ext_iff]; simp [rowScale_eq, h3, h4]

theorem extendSMatrix_ok_iff {S S' : Blocks ι} {l l' : LayerSolveResult ι} {d d' : ℝ} :
    extendSMatrix S l d l' d' = .ok S' ↔
    ∃ i11 i12, interfaceMatrices l l' = .ok (i11, i12) ∧
      IsUnit (i11 - propagator l d * S.s12 * i12).det ∧
      (i11 - propagator l d * S.s12 * i12) * S'.s11 = propagator l d * S.s11 ∧
      (i11 - propagator l d * S.s12 * i12) * S'.s12 =
        (propagator l d * S.s12 * i11 - i12) * propagator l' d' ∧
      S'.s21 = S.s22 * i12 * S'.s11 + S.s21 ∧
      S'.s22 = S.s22 * i12 * S'.s12 + S.s22 * i11 * propagator l' d' := by
  constructor
  · exact extendSMatrix_eq_ok
  · rintro ⟨i11, i12, hi, hu, h11, h12, h21, h22⟩
    unfold extendSMatrix
    simp only [bind_eq_ok, solve_eq_ok, ok_inj, rowScale_eq, colScale_eq, phase_eq]
    refine ⟨(i11, i12), hi, S'.s11, ⟨hu, h11⟩, S'.s12, ⟨hu, h12⟩, ?_⟩
    apply Blocks.ext <;> simp [h21, h22]

theorem appendLayer_ok_iff {S S' : ScatteringMatrix ι} {l : LayerSolveResult ι} {d : ℝ} :
    appendLayer S l d = .ok S' ↔
      extendSMatrix S.toBlocks S.endLayer S.endThickness l d = .ok S'.toBlocks ∧
      S'.startLayer = S.startLayer ∧ S'.startThickness = S.startThickness ∧
      S'.endLayer = l ∧ S'.endThickness = d := by
  unfold appendLayer
  simp only [bind_eq_ok, ok_inj]
  constructor
  · rintro ⟨b, hb, rfl⟩; exact ⟨hb, rfl, rfl, rfl, rfl⟩
  · rintro ⟨hb, h1, h2, h3, h4⟩
    refine ⟨S'.toBlocks, hb, ?_⟩
    cases S'; simp_all

/-! ### propagators -/

theorem propagator_mul (l : LayerSolveResult ι) (x y : ℝ) :
    propagator l x * propagator l y = propagator l (x + y) := by
  unfold propagator
  rw [diagonal_mul_diagonal]
  congr 1
  ext i
  rw [← Complex.exp_add]
  congr 1
  push_cast
  ring

/-! ### star product -/

theorem isSMatrix_redheffer {A B S : ScatteringMatrix ι} {la lb : List (LayerSolveResult ι × ℝ)} {lam : ℝ}
    (hA : IsSMatrix A la) (hB : IsSMatrix B lb) (hr : Regular lam (la ++ lb))
    (h : redhefferStarProduct A B = .ok S) : IsSMatrix S (la ++ lb) := by
  unfold redhefferStarProduct at h
  simp only [bind_eq_ok, solve_eq_ok, ok_inj, diag_one] at h
  obtain ⟨E, hE, x11, ⟨hu, h11⟩, x12, ⟨-, h12⟩, x21, ⟨hv, h21⟩, x22, ⟨-, h22⟩, rfl⟩ := h
  obtain ⟨rest, rfl⟩ : ∃ rest, lb = (B.startLayer, B.startThickness) :: rest := by
    cases lb with
    | nil => have := hB.start; simp at this
    | cons p rest => have := hB.start; simp only [List.head?_cons, Option.some.injEq] at this; exact ⟨rest, by rw [this]⟩
  have hEs : IsSMatrix E (la ++ [(B.startLayer, B.startThickness)]) :=
    isSMatrix_append hA (fun p hp => hr p (by
      simp only [List.mem_append, List.mem_singleton] at hp
      simp only [List.mem_append, List.mem_cons]; tauto)) hE
  have hx21 : x21 = B.s21 * x11 := by
    apply mul_left_injective_of_isUnit hv
    rw [h21, ← h11]; mat_module
  have hx22 : x22 = B.s22 + B.s21 * x12 := by
    apply mul_left_injective_of_isUnit hv
    have : (1 - B.s21 * E.s12) * (B.s22 + B.s21 * x12) =
        B.s22 - B.s21 * (E.s12 * B.s22) + B.s21 * ((1 - E.s12 * B.s21) * x12) := by mat_module
    rw [this, h22, h12]; abel
  have hx11 : x11 = E.s11 + E.s12 * x21 := by
    rw [hx21, ← h11]; mat_module
  have hx12 : x12 = E.s12 * x22 := by
    have : E.s12 * x22 = E.s12 * B.s22 + E.s12 * B.s21 * x12 := by rw [hx22]; mat_module
    rw [this, ← h12]; mat_module
  -- splitting a consistent state list at the shared layer
  have split : ∀ {β : Type} (st : List (LayerState ι β)),
      geometry st = la ++ (B.startLayer, B.startThickness) :: rest → Consistent st →
      ∃ (sa : List (LayerState ι β)) (t : LayerState ι β) (sb : List (LayerState ι β)),
        st = sa ++ t :: sb ∧ geometry (sa ++ [t]) = la ++ [(B.startLayer, B.startThickness)] ∧
        geometry (t :: sb) = (B.startLayer, B.startThickness) :: rest ∧ Consistent (sa ++ [t]) ∧
        Consistent (t :: sb) := by
    intro β st hg hc
    unfold geometry at hg
    rw [List.map_eq_append_iff] at hg
    obtain ⟨sa, u, rfl, h1, h2⟩ := hg
    rw [List.map_eq_cons_iff] at h2
    obtain ⟨t, sb, rfl, h3, h4⟩ := h2
    refine ⟨sa, t, sb, rfl, ?_, ?_, ?_⟩
    · simp [geometry, h1, h3]
    · simp [geometry, h3, h4]
    · unfold Consistent at hc
      rw [List.isChain_split] at hc
      exact hc
  have mid : ∀ {β : Type} (first t last : LayerState ι β), Relates E.toBlocks first t → Relates B.toBlocks t last →
      t.a = x11 * first.a + x12 * last.b ∧ t.b = x21 * first.a + x22 * last.b := by
    rintro β first t last ⟨r1, r2⟩ ⟨r3, r4⟩
    constructor
    · apply mul_left_injective_of_isUnit hu
      rw [Matrix.mul_add, ← Matrix.mul_assoc, ← Matrix.mul_assoc, h11, h12]
      have : t.a - E.s12 * t.b = E.s11 * first.a := by rw [r1]; abel
      rw [← this]
      have : t.b = B.s21 * t.a + B.s22 * last.b := r4
      rw [this]
      mat_module
    · apply mul_left_injective_of_isUnit hv
      rw [Matrix.mul_add, ← Matrix.mul_assoc, ← Matrix.mul_assoc, h21, h22]
      have : t.b - B.s21 * t.a = B.s22 * last.b := by rw [r4]; abel
      rw [← this]
      have : t.a = E.s11 * first.a + E.s12 * t.b := r1
      rw [this]
      mat_module
  have headOf : ∀ {β : Type} (sa : List (LayerState ι β)) (t : LayerState ι β) (sb : List (LayerState ι β)),
      (sa ++ t :: sb).head? = (sa ++ [t]).head? := by
    intro β sa t sb; cases sa <;> rfl
  have lastOf : ∀ {β : Type} (sa : List (LayerState ι β)) (t : LayerState ι β) (sb : List (LayerState ι β)),
      (sa ++ t :: sb).getLast? = (t :: sb).getLast? := by
    intro β sa t sb
    rw [List.getLast?_append]
    cases h : (t :: sb).getLast? with
    | none => simp at h
    | some v => rfl
  refine ⟨?_, ?_, ?_, ?_, ?_⟩
  · exact head?_append_of_some _ hA.start
  · rw [List.getLast?_append, hB.finish]; rfl
  · intro β st first last hg hc hf hl
    obtain ⟨sa, t, sb, rfl, g1, g2, c1, c2⟩ := split st hg hc
    rw [headOf] at hf
    rw [lastOf] at hl
    have r1 := hEs.sound (sa ++ [t]) first t g1 c1 hf (by simp)
    have r2 := hB.sound (t :: sb) t last g2 c2 (by simp) hl
    obtain ⟨m1, m2⟩ := mid first t last r1 r2
    constructor
    · rw [r2.1, m1]; mat_module
    · rw [r1.2, m2]; mat_module
  · intro β a0 bN
    set ta : Matrix (ι ⊕ ι) β ℂ := x11 * a0 + x12 * bN with hta
    set tb : Matrix (ι ⊕ ι) β ℂ := x21 * a0 + x22 * bN with htb
    obtain ⟨s1, f1, l1, g1, c1, e1, e2, e3, e4⟩ := hEs.complete a0 tb
    obtain ⟨s2, f2, l2, g2, c2, k1, k2, k3, k4⟩ := hB.complete ta bN
    have r1 := hEs.sound s1 f1 l1 g1 c1 e1 e2
    have r2 := hB.sound s2 f2 l2 g2 c2 k1 k2
    obtain ⟨sa, t, rfl, ga, gl, gt⟩ := geometry_snoc_inv g1
    simp only [List.getLast?_append, List.getLast?_singleton, Option.some_or, Option.some.injEq] at e2
    subst e2
    obtain ⟨u, sb, rfl⟩ : ∃ u sb, s2 = u :: sb := by
      cases s2 with
      | nil => simp at k1
      | cons u sb => exact ⟨u, sb, rfl⟩
    simp only [List.head?_cons, Option.some.injEq] at k1
    subst k1
    have hgu : (u.layer, u.thickness) = (B.startLayer, B.startThickness) := by
      have := g2; simp only [geometry, List.map_cons, List.cons.injEq] at this; exact this.1
    simp only [Prod.mk.injEq] at hgu
    have hutb : u.b = tb := by
      rw [r2.2, k3, k4, hta, htb, hx21, hx22]
      mat_module
    have hlta : t.a = ta := by
      rw [r1.1, e3, e4, hta, htb]
      conv_rhs => rw [hx11, hx12]
      mat_module
    have htu : t = u := LayerState.ext' (gl.trans hgu.1.symm) (gt.trans hgu.2.symm)
      (hlta.trans k3.symm) (e4.trans hutb.symm)
    subst htu
    refine ⟨sa ++ t :: sb, f1, l2, ?_, ?_, ?_, ?_, e3, k4⟩
    · rw [geometry_append, ga, g2]
    · unfold Consistent
      rw [List.isChain_split]
      exact ⟨c1, c2⟩
    · rw [headOf]; exact e1
    · rw [lastOf]; exact k2
  · intro β st st' first last first' last' hg hg' hc hc' hf hl hf' hl' ha hb
    obtain ⟨sa, t, sb, rfl, g1, g2, c1, c2⟩ := split st hg hc
    obtain ⟨sa', t', sb', rfl, g1', g2', c1', c2'⟩ := split st' hg' hc'
    rw [headOf] at hf hf'
    rw [lastOf] at hl hl'
    have r1 := hEs.sound (sa ++ [t]) first t g1 c1 hf (by simp)
    have r2 := hB.sound (t :: sb) t last g2 c2 (by simp) hl
    have r1' := hEs.sound (sa' ++ [t']) first' t' g1' c1' hf' (by simp)
    have r2' := hB.sound (t' :: sb') t' last' g2' c2' (by simp) hl'
    obtain ⟨m1, m2⟩ := mid first t last r1 r2
    obtain ⟨m1', m2'⟩ := mid first' t' last' r1' r2'
    have hta : t.a = t'.a := by rw [m1, m1', ha, hb]
    have htb : t.b = t'.b := by rw [m2, m2', ha, hb]
    have u1 := hEs.unique _ _ first t first' t' g1 g1' c1 c1' hf (by simp) hf' (by simp) ha htb
    have u2 := hB.unique _ _ t last t' last' g2 g2' c2 c2' (by simp) hl (by simp) hl' hta hb
    have u3 := List.append_inj_left' u1 rfl
    rw [u3, u2]

/-! ### changing thicknesses -/

theorem appendLayer_setEnd {S S' : ScatteringMatrix ι} {l : LayerSolveResult ι} {d d' : ℝ}
    (h : appendLayer S l d = .ok S') : appendLayer S l d' = .ok (setEndLayerThickness S' d') := by
  rw [appendLayer_ok_iff] at h ⊢
  obtain ⟨hb, h1, h2, h3, h4⟩ := h
  refine ⟨?_, h1, h2, h3, rfl⟩
  rw [extendSMatrix_ok_iff] at hb ⊢
  obtain ⟨i11, i12, hi, hu, h11, h12, h21, h22⟩ := hb
  have hP : diagonal (phase S'.endLayer.eigenvalues (d' - S'.endThickness)) = propagator l (d' - d) := by
    rw [h3, h4]; rfl
  have hPP : propagator l d * propagator l (d' - d) = propagator l d' := by
    rw [propagator_mul]; congr 1; ring
  refine ⟨i11, i12, hi, hu, h11, ?_, h21, ?_⟩
  · simp only [setEndLayerThickness, colScale_eq, hP]
    rw [← Matrix.mul_assoc, h12, Matrix.mul_assoc, hPP]
  · simp only [setEndLayerThickness, colScale_eq, hP]
    rw [h22, ← hPP]
    mat_module

theorem appendLayer_setStart {S S' : ScatteringMatrix ι} {l : LayerSolveResult ι} {d x : ℝ}
    (h : appendLayer S l d = .ok S') :
    appendLayer (setStartLayerThickness S x) l d = .ok (setStartLayerThickness S' x) := by
  rw [appendLayer_ok_iff] at h ⊢
  obtain ⟨hb, h1, h2, h3, h4⟩ := h
  refine ⟨?_, h1, rfl, h3, h4⟩
  rw [extendSMatrix_ok_iff] at hb ⊢
  obtain ⟨i11, i12, hi, hu, h11, h12, h21, h22⟩ := hb
  refine ⟨i11, i12, hi, hu, ?_, h12, ?_, h22⟩
  · simp only [setStartLayerThickness, colScale_eq, h1, h2]
    rw [← Matrix.mul_assoc, h11, ← Matrix.mul_assoc]
  · simp only [setStartLayerThickness, colScale_eq, h1, h2]
    rw [h21]
    mat_module

theorem scanLoop_setStart (rest : List (LayerSolveResult ι × ℝ)) : ∀ (S S' : ScatteringMatrix ι) (x : ℝ),
    scanLoop S rest = .ok S' →
      scanLoop (setStartLayerThickness S x) rest = .ok (setStartLayerThickness S' x) := by
  induction rest with
  | nil => intro S S' x h; simp only [scanLoop, ok_inj] at h ⊢; rw [h]
  | cons p rest ih =>
    intro S S' x h
    obtain ⟨l, d⟩ := p
    simp only [scanLoop, bind_eq_ok] at h ⊢
    obtain ⟨T, hT, h⟩ := h
    exact ⟨_, appendLayer_setStart hT, ih T S' x h⟩

theorem append_identity_setStart {l l' : LayerSolveResult ι} {d d' x : ℝ} {S : ScatteringMatrix ι}
    (h : appendLayer (identitySMatrix l d) l' d' = .ok S) :
    appendLayer (identitySMatrix l x) l' d' = .ok (setStartLayerThickness S x) := by
  rw [appendLayer_ok_iff] at h ⊢
  obtain ⟨hb, h1, h2, h3, h4⟩ := h
  refine ⟨?_, h1, rfl, h3, h4⟩
  rw [extendSMatrix_ok_iff] at hb ⊢
  obtain ⟨i11, i12, hi, hu, h11, h12, h21, h22⟩ := hb
  simp only [identitySMatrix, Matrix.mul_zero, Matrix.zero_mul, sub_zero, diag_one, Matrix.mul_one,
    Matrix.one_mul, add_zero, zero_sub] at hu h11 h12 h21 h22 h1 h2 hi
  have hP : diagonal (phase S.startLayer.eigenvalues (x - S.startThickness)) = propagator l (x - d) := by
    rw [h1, h2]; rfl
  refine ⟨i11, i12, hi, ?_, ?_, ?_, ?_, ?_⟩ <;>
    simp only [identitySMatrix, Matrix.mul_zero, Matrix.zero_mul, sub_zero, diag_one, Matrix.mul_one,
      Matrix.one_mul, add_zero, zero_sub, setStartLayerThickness, colScale_eq, hP]
  · exact hu
  · rw [← Matrix.mul_assoc, h11, propagator_mul]; congr 1; ring
  · exact h12
  · rw [h21, Matrix.mul_assoc]
  · exact h22

/-! ### identical neighbouring layers -/

theorem interfaceMatrices_self {l : LayerSolveResult ι} {Ω : ModeMatrix ι} (hΩ : l.omegaScriptKMatrix = .ok Ω)
    (hu : IsUnit (Ω * l.eigenvectors).det) (hq : ∀ i, l.eigenvalues i ≠ 0) :
    interfaceMatrices l l = .ok (1, 0) := by
  rw [interfaceMatrices_ok_iff]
  refine ⟨Ω, Ω, diagonal fun i => (l.eigenvalues i)⁻¹, 1, hΩ, hΩ, hq, hu, rfl, by simp, ?_, ?_⟩
  · have : diagonal l.eigenvalues * diagonal (fun i => (l.eigenvalues i)⁻¹) = (1 : ModeMatrix ι) := by
      rw [diagonal_mul_diagonal, ← diagonal_one]; congr 1; ext i; exact mul_inv_cancel₀ (hq i)
    rw [this]
    simp only
    module
  · have : diagonal l.eigenvalues * diagonal (fun i => (l.eigenvalues i)⁻¹) = (1 : ModeMatrix ι) := by
      rw [diagonal_mul_diagonal, ← diagonal_one]; congr 1; ext i; exact mul_inv_cancel₀ (hq i)
    rw [this]
    simp

/-- Appending a layer of the same material as the last one only adds phases. -/
theorem appendLayer_same {S : ScatteringMatrix ι} {Ω : ModeMatrix ι} {d : ℝ}
    (hΩ : S.endLayer.omegaScriptKMatrix = .ok Ω)
    (hu : IsUnit (Ω * S.endLayer.eigenvectors).det) (hq : ∀ i, S.endLayer.eigenvalues i ≠ 0) :
    appendLayer S S.endLayer d = .ok
      { s11 := propagator S.endLayer S.endThickness * S.s11,
        s12 := propagator S.endLayer S.endThickness * S.s12 * propagator S.endLayer d,
        s21 := S.s21, s22 := S.s22 * propagator S.endLayer d,
        startLayer := S.startLayer, startThickness := S.startThickness,
        endLayer := S.endLayer, endThickness := d } := by
  rw [appendLayer_ok_iff]
  refine ⟨?_, rfl, rfl, rfl, rfl⟩
  rw [extendSMatrix_ok_iff]
  refine ⟨1, 0, interfaceMatrices_self hΩ hu hq, ?_, ?_, ?_, ?_, ?_⟩ <;> simp

/-- Splitting a layer that is followed by another layer does not change the resulting matrix. -/
theorem split_layer {S M : ScatteringMatrix ι} {l : LayerSolveResult ι} {Ω : ModeMatrix ι} {d1 d2 : ℝ}
    (hΩ : l.omegaScriptKMatrix = .ok Ω) (hu : IsUnit (Ω * l.eigenvectors).det) (hq : ∀ i, l.eigenvalues i ≠ 0)
    (h : appendLayer S l (d1 + d2) = .ok M) :
    ∃ S1 S2, appendLayer S l d1 = .ok S1 ∧ appendLayer S1 l d2 = .ok S2 ∧
      ∀ l' d', appendLayer S2 l' d' = appendLayer M l' d' := by
  have h1 := appendLayer_setEnd (d' := d1) h
  obtain ⟨e1, e2, e3, e4⟩ := appendLayer_start h
  set S1 := setEndLayerThickness M d1 with hS1
  have f3 : S1.endLayer = l := e3
  have f4 : S1.endThickness = d1 := rfl
  have h2 := appendLayer_same (S := S1) (d := d2) (by rw [f3]; exact hΩ) (by rw [f3]; exact hu) (by rw [f3]; exact hq)
  rw [f3] at h2
  refine ⟨S1, _, h1, h2, ?_⟩
  intro l' d'
  have hP : diagonal (phase M.endLayer.eigenvalues (d1 - M.endThickness)) = propagator l (d1 - (d1 + d2)) := by
    rw [e3, e4]; rfl
  have hext : extendSMatrix (ι := ι)
      { s11 := propagator l S1.endThickness * S1.s11, s12 := propagator l S1.endThickness * S1.s12 * propagator l d2,
        s21 := S1.s21, s22 := S1.s22 * propagator l d2 } l d2 l' d' =
      extendSMatrix M.toBlocks l (d1 + d2) l' d' := by
    have k1 : propagator l d2 * (propagator l d1 * S1.s11) = propagator l (d1 + d2) * M.s11 := by
      rw [← Matrix.mul_assoc, propagator_mul, add_comm]; rfl
    have k2 : propagator l d2 * (propagator l d1 * S1.s12 * propagator l d2) =
        propagator l (d1 + d2) * M.s12 := by
      have : S1.s12 = M.s12 * propagator l (d1 - (d1 + d2)) := by
        simp only [hS1, setEndLayerThickness, colScale_eq, hP]
      rw [this]
      have e : propagator l d2 * (propagator l d1 * (M.s12 * propagator l (d1 - (d1 + d2))) * propagator l d2) =
        (propagator l d2 * propagator l d1) * M.s12 * (propagator l (d1 - (d1 + d2)) * propagator l d2) := by
          mat_module
      rw [e, propagator_mul, propagator_mul]
      have e2 : d1 - (d1 + d2) + d2 = 0 := by ring
      rw [e2, propagator_zero, Matrix.mul_one, add_comm]
    have k3 : S1.s22 * propagator l d2 = M.s22 := by
      have : S1.s22 = M.s22 * propagator l (d1 - (d1 + d2)) := by
        simp only [hS1, setEndLayerThickness, colScale_eq, hP]
      rw [this, Matrix.mul_assoc, propagator_mul]
      have e2 : d1 - (d1 + d2) + d2 = 0 := by ring
      rw [e2, propagator_zero, Matrix.mul_one]
    have k4 : S1.s21 = M.s21 := rfl
    unfold extendSMatrix
    simp only [rowScale_eq, colScale_eq, phase_eq, f4, k1, k2, k3, k4]
  unfold appendLayer
  simp only [e3, e4, hext]
  rfl

end Fmmax
