import Verif.Proofs.SMatrix

/-! The loops over layers: `_stack_s_matrices`, interior matrices, scan. -/

set_option linter.unusedSectionVars false

namespace Fmmax

open Matrix Spec

variable {ι : Type} [Fintype ι] [DecidableEq ι] {β : Type}

/-- `_pair_s_matrix` is `append_layer` on the identity. -/
theorem pairSMatrix_eq_append (l : LayerSolveResult ι) (d : ℝ) (l' : LayerSolveResult ι) (d' : ℝ) :
    pairSMatrix l d l' d' = appendLayer (identitySMatrix l d) l' d' := by
  unfold pairSMatrix appendLayer extendSMatrix identitySMatrix
  cases hi : interfaceMatrices l l' with
  | error e => rfl
  | ok p =>
    obtain ⟨i11, i12⟩ := p
    simp only [bind, Except.bind, diag_one, rowScale_eq, colScale_eq, Matrix.mul_zero, Matrix.zero_mul, sub_zero,
      zero_sub, Matrix.mul_one, Matrix.one_mul, add_zero, Matrix.neg_mul]
    rw [diag_eq (phase l.eigenvalues d)]
    cases solve i11 (diagonal (phase l.eigenvalues d)) with
    | error e => rfl
    | ok s11 =>
      simp only
      cases solve i11 (-(i12 * diagonal (phase l'.eigenvalues d'))) with
      | error e => rfl
      | ok s12 => rfl

/-- `_stack_s_matrices` is uniformly the append loop started at the identity. -/
theorem stackSMatrices_eq (layers : List (LayerSolveResult ι)) (ds : List ℝ) (hlen : layers.length = ds.length)
    (p : LayerSolveResult ι × ℝ) (rest : List (LayerSolveResult ι × ℝ)) (hz : layers.zip ds = p :: rest) :
    stackSMatrices layers ds =
      (appendLoop (identitySMatrix p.1 p.2) rest >>= fun tail => .ok (identitySMatrix p.1 p.2 :: tail)) := by
  unfold stackSMatrices
  rw [if_neg (by simpa using hlen), hz]
  cases rest with
  | nil => rfl
  | cons p' rest =>
    simp only [appendLoop, ← pairSMatrix_eq_append]
    cases pairSMatrix p.1 p.2 p'.1 p'.2 with
    | error e => rfl
    | ok s =>
      simp only [bind, Except.bind]
      cases appendLoop s rest <;> rfl

theorem stackSMatrices_length {layers : List (LayerSolveResult ι)} {ds : List ℝ}
    {ss : List (ScatteringMatrix ι)} (h : stackSMatrices layers ds = .ok ss) :
    layers.length = ds.length ∧ ∃ p rest, layers.zip ds = p :: rest := by
  unfold stackSMatrices at h
  split_ifs at h with hl
  push Not at hl
  refine ⟨hl, ?_⟩
  cases hz : layers.zip ds with
  | nil => rw [hz] at h; simp at h
  | cons p rest => exact ⟨p, rest, rfl⟩

theorem regular_append_left {lam : ℝ} {x y : List (LayerSolveResult ι × ℝ)} (h : Regular lam (x ++ y)) :
    Regular lam x := fun p hp => h p (by simp [hp])

theorem appendLoop_spec {lam : ℝ} (rest : List (LayerSolveResult ι × ℝ)) :
    ∀ (S : ScatteringMatrix ι) (pre : List (LayerSolveResult ι × ℝ)) (tail : List (ScatteringMatrix ι)),
      IsSMatrix S pre → Regular lam (pre ++ rest) → appendLoop S rest = .ok tail →
      tail.length = rest.length ∧
        ∀ i (hi : i < tail.length), IsSMatrix tail[i] (pre ++ rest.take (i + 1)) := by
  induction rest with
  | nil =>
    intro S pre tail hS hr h
    simp only [appendLoop, ok_inj] at h
    subst h
    simp
  | cons p rest ih =>
    intro S pre tail hS hr h
    obtain ⟨l, d⟩ := p
    simp only [appendLoop, bind_eq_ok, ok_inj] at h
    obtain ⟨S', hS', tl, htl, rfl⟩ := h
    have hr1 : Regular lam (pre ++ [(l, d)] ++ rest) := by simpa using hr
    have h1 := isSMatrix_append hS (regular_append_left hr1) hS'
    obtain ⟨hlen, hall⟩ := ih S' (pre ++ [(l, d)]) tl h1 hr1 htl
    refine ⟨by simp [hlen], ?_⟩
    intro i hi
    cases i with
    | zero => simpa using h1
    | succ i =>
      have := hall i (by simpa using hi)
      simpa using this

/-- Every matrix returned by `_stack_s_matrices` is the scattering matrix of the corresponding prefix. -/
theorem stackSMatrices_spec {lam : ℝ} {layers : List (LayerSolveResult ι)} {ds : List ℝ}
    {ss : List (ScatteringMatrix ι)} (hr : Regular lam (layers.zip ds))
    (h : stackSMatrices layers ds = .ok ss) :
    ss.length = (layers.zip ds).length ∧
      ∀ i (hi : i < ss.length), IsSMatrix ss[i] ((layers.zip ds).take (i + 1)) := by
  obtain ⟨hlen, p, rest, hz⟩ := stackSMatrices_length h
  rw [stackSMatrices_eq layers ds hlen p rest hz, bind_eq_ok] at h
  obtain ⟨tail, ht, h⟩ := h
  rw [ok_inj] at h
  subst h
  rw [hz] at hr ⊢
  obtain ⟨h1, h2⟩ := appendLoop_spec rest _ [p] tail (isSMatrix_identity p.1 p.2) (by simpa using hr) ht
  refine ⟨by simp [h1], ?_⟩
  intro i hi
  cases i with
  | zero => simpa using isSMatrix_identity p.1 p.2
  | succ i =>
    have := h2 i (by simpa using hi)
    simpa using this

theorem stackSMatrix_eq_ok {layers : List (LayerSolveResult ι)} {ds : List ℝ} {S : ScatteringMatrix ι}
    (h : stackSMatrix layers ds = .ok S) :
    ∃ ss, stackSMatrices layers ds = .ok ss ∧ ss.getLast? = some S := by
  unfold stackSMatrix at h
  rw [bind_eq_ok] at h
  obtain ⟨ss, hss, h⟩ := h
  refine ⟨ss, hss, ?_⟩
  cases hl : ss.getLast? with
  | none => rw [hl] at h; simp at h
  | some s => rw [hl] at h; simp only [ok_inj] at h; rw [h]

theorem stackSMatrix_spec {lam : ℝ} {layers : List (LayerSolveResult ι)} {ds : List ℝ}
    {S : ScatteringMatrix ι} (hr : Regular lam (layers.zip ds)) (h : stackSMatrix layers ds = .ok S) :
    IsSMatrix S (layers.zip ds) := by
  obtain ⟨ss, hss, hl⟩ := stackSMatrix_eq_ok h
  obtain ⟨h1, h2⟩ := stackSMatrices_spec hr hss
  have hne : ss ≠ [] := by rintro rfl; simp at hl
  have hpos : 0 < ss.length := List.length_pos_iff.2 hne
  have := h2 (ss.length - 1) (by omega)
  rw [List.getLast?_eq_getElem?, List.getElem?_eq_getElem (by omega)] at hl
  simp only [Option.some.injEq] at hl
  rw [hl] at this
  rwa [show ss.length - 1 + 1 = (layers.zip ds).length by omega, List.take_length] at this

theorem scanLoop_eq (rest : List (LayerSolveResult ι × ℝ)) : ∀ S : ScatteringMatrix ι,
    scanLoop S rest = (appendLoop S rest >>= fun tail => .ok ((S :: tail).getLast (by simp))) := by
  induction rest with
  | nil => intro S; rfl
  | cons p rest ih =>
    intro S
    obtain ⟨l, d⟩ := p
    simp only [scanLoop, appendLoop]
    cases appendLayer S l d with
    | error e => rfl
    | ok s =>
      simp only [bind, Except.bind] at ih ⊢
      rw [ih s]
      cases appendLoop s rest with
      | error e => rfl
      | ok t => simp

theorem zip_reverse {α γ : Type} {l : List α} {m : List γ} (h : l.length = m.length) :
    l.reverse.zip m.reverse = (l.zip m).reverse := by
  exact (List.reverse_zipWith h).symm

theorem interior_spec {lam : ℝ} {layers : List (LayerSolveResult ι)} {ds : List ℝ}
    {ps : List (ScatteringMatrix ι × ScatteringMatrix ι)} (hr : Regular lam (layers.zip ds))
    (h : stackSMatricesInterior layers ds = .ok ps) :
    ps.length = (layers.zip ds).length ∧
      ∀ i (hi : i < ps.length), IsSMatrix ps[i].1 ((layers.zip ds).take (i + 1)) ∧
        IsSMatrix ps[i].2 ((layers.zip ds).drop i) := by
  unfold stackSMatricesInterior at h
  simp only [bind_eq_ok, ok_inj] at h
  obtain ⟨before, hb, rev, hrev, rfl⟩ := h
  obtain ⟨hlen, -⟩ := stackSMatrices_length hb
  obtain ⟨b1, b2⟩ := stackSMatrices_spec hr hb
  have hr' : Regular lam (layers.reverse.zip ds.reverse) := by
    rw [zip_reverse hlen]; exact regular_reverse hr
  obtain ⟨r1, r2⟩ := stackSMatrices_spec hr' hrev
  rw [zip_reverse hlen] at r1 r2
  rw [List.length_reverse] at r1
  refine ⟨by simp [b1, r1], ?_⟩
  intro i hi
  have hi' : i < (layers.zip ds).length := by
    simp only [List.length_zip, List.length_map, List.length_reverse, b1, r1] at hi ⊢; omega
  constructor
  · have := b2 i (by omega)
    simpa using this
  · have := r2 (rev.length - 1 - i) (by omega)
    have h3 := isSMatrix_reverse this
    rw [List.take_reverse, List.reverse_reverse] at h3
    have e : (layers.zip ds).length - (rev.length - 1 - i + 1) = i := by omega
    rw [e] at h3
    simpa [List.getElem_zip] using h3

end Fmmax
