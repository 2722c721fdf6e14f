import Verif.Proofs.StackOps
import Verif.Proofs.ModeChange
import Verif.Spec.Symmetry

/-! Scattering matrices in other coordinates. -/

set_option linter.unusedSectionVars false

namespace Fmmax

open Matrix Spec

variable {ι : Type} [Fintype ι] [DecidableEq ι] {R : ModeMatrix ι} {s : ℝ}

theorem Spec.LayerMap.diag_comm {l l' : LayerSolveResult ι} {T : ModeMatrix ι} (h : LayerMap R s l l' T) (f : ℂ → ℂ) :
    diagonal (fun i => f (s * l.eigenvalues i)) * T = T * diagonal (fun i => f (l'.eigenvalues i)) := by
  ext i j
  rw [diagonal_mul, mul_diagonal]
  by_cases hT : T i j = 0
  · simp [hT]
  · rw [h.eigenvalues i j hT, mul_comm]

theorem Spec.LayerMap.propagator_comm {l l' : LayerSolveResult ι} {T : ModeMatrix ι} (h : LayerMap R s l l' T) {z z' : ℝ}
    (hz : z = s * z') : propagator l z * T = T * propagator l' z' := by
  have := h.diag_comm (fun q => Complex.exp (Complex.I * q * z'))
  rw [show propagator l' z' = diagonal fun i => Complex.exp (Complex.I * l'.eigenvalues i * z') from rfl, ← this]
  unfold propagator
  congr 2
  funext i
  rw [hz]
  push_cast
  ring_nf

theorem Spec.LayerMap.eigenvalues_ne {l l' : LayerSolveResult ι} {T : ModeMatrix ι} (h : LayerMap R s l l' T) (hs : s ≠ 0)
    (hq : ∀ i, l.eigenvalues i ≠ 0) : ∀ j, l'.eigenvalues j ≠ 0 := by
  intro j h0
  have : ∀ i, T i j = 0 := by
    intro i
    by_contra hT
    have := h.eigenvalues i j hT
    rw [h0] at this
    exact mul_ne_zero (by exact_mod_cast hs) (hq i) this.symm
  have hdet : T.det = 0 := det_eq_zero_of_column_eq_zero j this
  have := h.isUnit
  rw [hdet] at this
  exact not_isUnit_zero this

theorem interfaceMatrices_layerMap {l l' n n' : LayerSolveResult ι} {T U i11 i12 : ModeMatrix ι} (hR : IsUnit R.det) (hs : s ≠ 0)
    (hl : LayerMap R s l l' T) (hn : LayerMap R s n n' U) (h : interfaceMatrices l n = .ok (i11, i12)) :
    interfaceMatrices l' n' = .ok (T⁻¹ * i11 * U, T⁻¹ * i12 * U) := by
  rw [interfaceMatrices_ok_iff] at h ⊢
  obtain ⟨Ω, Ω', T1, T2, hΩ, hΩ', hr, hu, h1, h2, h3, h4⟩ := h
  rw [omegaScriptK_ok_iff] at hΩ hΩ'
  obtain ⟨w, rfl⟩ := hΩ
  obtain ⟨w', rfl⟩ := hΩ'
  have hsc : (s : ℂ) ≠ 0 := by exact_mod_cast hs
  have hTT : T * T⁻¹ = 1 := mul_nonsing_inv _ hl.isUnit
  have hTT' : T⁻¹ * T = 1 := nonsing_inv_mul _ hl.isUnit
  have hqinv : diagonal (fun i => (n.eigenvalues i)⁻¹) * U = (s : ℂ) • (U * diagonal (fun i => (n'.eigenvalues i)⁻¹)) := by
    rw [← hn.diag_comm (fun q => q⁻¹), ← Matrix.smul_mul]
    congr 1
    rw [← diagonal_smul]
    congr 1
    funext i
    simp [mul_inv, mul_comm, hsc]
  have hq : diagonal l'.eigenvalues * T⁻¹ = (s : ℂ) • (T⁻¹ * diagonal l.eigenvalues) := by
    have e : (s : ℂ) • (diagonal l.eigenvalues * T) = T * diagonal l'.eigenvalues := by
      rw [← hl.diag_comm (fun q => q), ← Matrix.smul_mul, ← diagonal_smul]
      rfl
    calc diagonal l'.eigenvalues * T⁻¹ = T⁻¹ * (T * diagonal l'.eigenvalues) * T⁻¹ := by
          rw [← Matrix.mul_assoc, hTT', Matrix.one_mul]
      _ = T⁻¹ * ((s : ℂ) • (diagonal l.eigenvalues * T)) * T⁻¹ := by rw [e]
      _ = (s : ℂ) • (T⁻¹ * diagonal l.eigenvalues * (T * T⁻¹)) := by mat_module
      _ = _ := by rw [hTT, Matrix.mul_one]
  have hA : magneticToElectric l' * l'.eigenvectors = (s : ℂ) ^ 2 • (R * (magneticToElectric l * l.eigenvectors) * T) := by
    rw [hl.eigenvectors]
    calc magneticToElectric l' * (R * l.eigenvectors * T) = (magneticToElectric l' * R) * l.eigenvectors * T := by mat_module
      _ = _ := by rw [hl.electric]; mat_module
  have hB : magneticToElectric n' * n'.eigenvectors = (s : ℂ) ^ 2 • (R * (magneticToElectric n * n.eigenvectors) * U) := by
    rw [hn.eigenvectors]
    calc magneticToElectric n' * (R * n.eigenvectors * U) = (magneticToElectric n' * R) * n.eigenvectors * U := by mat_module
      _ = _ := by rw [hn.electric]; mat_module
  have hC : magneticToElectric l' * n'.eigenvectors = (s : ℂ) ^ 2 • (R * (magneticToElectric l * n.eigenvectors) * U) := by
    rw [hn.eigenvectors]
    calc magneticToElectric l' * (R * n.eigenvectors * U) = (magneticToElectric l' * R) * n.eigenvectors * U := by mat_module
      _ = _ := by rw [hl.electric]; mat_module
  have hdiag : diagonal l'.eigenvalues * ((s : ℂ)⁻¹ • (T⁻¹ * T1 * U)) = T⁻¹ * (diagonal l.eigenvalues * T1) * U := by
    rw [Matrix.mul_smul, ← Matrix.mul_assoc, ← Matrix.mul_assoc, hq]
    simp only [Matrix.smul_mul, smul_smul, inv_mul_cancel₀ hsc, one_smul]
    mat_module
  refine ⟨_, _, (s : ℂ)⁻¹ • (T⁻¹ * T1 * U), T⁻¹ * T2 * U, omegaScriptK_ok_iff.2 ⟨hl.wellPosed w, rfl⟩,
    omegaScriptK_ok_iff.2 ⟨hn.wellPosed w', rfl⟩, hn.eigenvalues_ne hs hr, ?_, ?_, ?_, ?_, ?_⟩
  · rw [hA, det_smul, det_mul, det_mul]
    exact (IsUnit.pow _ (isUnit_iff_ne_zero.2 (pow_ne_zero 2 hsc))).mul ((hR.mul hu).mul hl.isUnit)
  · rw [hA, hB]
    calc (s : ℂ) ^ 2 • (R * (magneticToElectric l * l.eigenvectors) * T) * ((s : ℂ)⁻¹ • (T⁻¹ * T1 * U))
        = ((s : ℂ)⁻¹ * (s : ℂ) ^ 2) • (R * (magneticToElectric l * l.eigenvectors) * (T * T⁻¹) * T1 * U) := by mat_module
      _ = ((s : ℂ)⁻¹ * (s : ℂ) ^ 2) • (R * (magneticToElectric l * l.eigenvectors * T1) * U) := by rw [hTT]; mat_module
      _ = ((s : ℂ)⁻¹ * (s : ℂ) ^ 2) • (R * (magneticToElectric n * n.eigenvectors) * (diagonal (fun i => (n.eigenvalues i)⁻¹) * U)) := by
          rw [h1]; mat_module
      _ = ((s : ℂ)⁻¹ * (s : ℂ) ^ 2 * s) • (R * (magneticToElectric n * n.eigenvectors) * (U * diagonal (fun i => (n'.eigenvalues i)⁻¹))) := by
          rw [hqinv]; mat_module
      _ = (s : ℂ) ^ 2 • (R * (magneticToElectric n * n.eigenvectors) * U) * diagonal (fun i => (n'.eigenvalues i)⁻¹) := by
          rw [show (s : ℂ)⁻¹ * (s : ℂ) ^ 2 * s = (s : ℂ) ^ 2 by field_simp]; mat_module
  · rw [hA, hC]
    calc (s : ℂ) ^ 2 • (R * (magneticToElectric l * l.eigenvectors) * T) * (T⁻¹ * T2 * U)
        = (s : ℂ) ^ 2 • (R * (magneticToElectric l * l.eigenvectors) * (T * T⁻¹) * T2 * U) := by mat_module
      _ = (s : ℂ) ^ 2 • (R * (magneticToElectric l * l.eigenvectors * T2) * U) := by rw [hTT]; mat_module
      _ = _ := by rw [h2]
  · simp only at h3 ⊢
    rw [h3, hdiag]; mat_module
  · simp only at h4 ⊢
    rw [h4, hdiag]; mat_module

/-- `S'` is `S` in other coordinates, with modes of the start layer (`T₀`) and end layer (`Tn`). -/
structure SLayerMap (R : ModeMatrix ι) (s : ℝ) (S S' : ScatteringMatrix ι) (T₀ Tn : ModeMatrix ι) : Prop where
  start : LayerMap R s S.startLayer S'.startLayer T₀
  finish : LayerMap R s S.endLayer S'.endLayer Tn
  startThickness : S.startThickness = s * S'.startThickness
  endThickness : S.endThickness = s * S'.endThickness
  s11 : S'.s11 = Tn⁻¹ * S.s11 * T₀
  s12 : S'.s12 = Tn⁻¹ * S.s12 * Tn
  s21 : S'.s21 = T₀⁻¹ * S.s21 * T₀
  s22 : S'.s22 = T₀⁻¹ * S.s22 * Tn

theorem propagator_layerMap {l l' : LayerSolveResult ι} {T : ModeMatrix ι} (h : LayerMap R s l l' T) {z z' : ℝ} (hz : z = s * z') :
    propagator l' z' * T⁻¹ = T⁻¹ * propagator l z := by
  have hTT : T * T⁻¹ = 1 := mul_nonsing_inv _ h.isUnit
  have hTT' : T⁻¹ * T = 1 := nonsing_inv_mul _ h.isUnit
  calc propagator l' z' * T⁻¹ = T⁻¹ * (T * propagator l' z') * T⁻¹ := by
        rw [← Matrix.mul_assoc, hTT', Matrix.one_mul]
    _ = T⁻¹ * (propagator l z * T) * T⁻¹ := by rw [h.propagator_comm hz]
    _ = T⁻¹ * propagator l z * (T * T⁻¹) := by mat_module
    _ = _ := by rw [hTT, Matrix.mul_one]

theorem appendLayer_layerMap {S S' S1 : ScatteringMatrix ι} {T₀ Tn U : ModeMatrix ι} (hR : IsUnit R.det) (hs : s ≠ 0)
    {n n' : LayerSolveResult ι} {d d' : ℝ} (hd : d = s * d') (h : SLayerMap R s S S' T₀ Tn) (hn : LayerMap R s n n' U)
    (hS : appendLayer S n d = .ok S1) :
    ∃ S1', appendLayer S' n' d' = .ok S1' ∧ SLayerMap R s S1 S1' T₀ U := by
  rw [appendLayer_ok_iff] at hS
  obtain ⟨hb, e1, e2, e3, e4⟩ := hS
  rw [extendSMatrix_ok_iff] at hb
  obtain ⟨i11, i12, hi, hu, h11, h12, h21, h22⟩ := hb
  have hi' := interfaceMatrices_layerMap hR hs h.finish hn hi
  have hTT : Tn * Tn⁻¹ = 1 := mul_nonsing_inv _ h.finish.isUnit
  have hUU : U * U⁻¹ = 1 := mul_nonsing_inv _ hn.isUnit
  have hconj := propagator_layerMap h.finish h.endThickness
  have hnc := hn.propagator_comm hd
  set P := propagator S.endLayer S.endThickness
  set P' := propagator S'.endLayer S'.endThickness
  have key : Tn⁻¹ * i11 * U - P' * S'.s12 * (Tn⁻¹ * i12 * U) = Tn⁻¹ * (i11 - P * S.s12 * i12) * U := by
    rw [h.s12]
    calc Tn⁻¹ * i11 * U - P' * (Tn⁻¹ * S.s12 * Tn) * (Tn⁻¹ * i12 * U)
        = Tn⁻¹ * i11 * U - (P' * Tn⁻¹) * S.s12 * (Tn * Tn⁻¹) * i12 * U := by mat_module
      _ = _ := by rw [hconj, hTT]; mat_module
  refine ⟨{ s11 := U⁻¹ * S1.s11 * T₀, s12 := U⁻¹ * S1.s12 * U, s21 := T₀⁻¹ * S1.s21 * T₀,
            s22 := T₀⁻¹ * S1.s22 * U, startLayer := S'.startLayer, startThickness := S'.startThickness,
            endLayer := n', endThickness := d' }, ?_, ?_⟩
  · rw [appendLayer_ok_iff]
    refine ⟨?_, rfl, rfl, rfl, rfl⟩
    rw [extendSMatrix_ok_iff]
    refine ⟨_, _, hi', ?_, ?_, ?_, ?_, ?_⟩ <;> (try rw [key]) <;> (try simp only)
    · rw [det_mul, det_mul]
      refine (IsUnit.mul ?_ hu).mul hn.isUnit
      rw [det_nonsing_inv]
      exact h.finish.isUnit.ringInverse
    · calc Tn⁻¹ * (i11 - P * S.s12 * i12) * U * (U⁻¹ * S1.s11 * T₀)
          = Tn⁻¹ * (i11 - P * S.s12 * i12) * (U * U⁻¹) * S1.s11 * T₀ := by mat_module
        _ = Tn⁻¹ * ((i11 - P * S.s12 * i12) * S1.s11) * T₀ := by rw [hUU]; mat_module
        _ = (Tn⁻¹ * P) * S.s11 * T₀ := by rw [h11]; mat_module
        _ = _ := by rw [← hconj, h.s11]; mat_module
    · calc Tn⁻¹ * (i11 - P * S.s12 * i12) * U * (U⁻¹ * S1.s12 * U)
          = Tn⁻¹ * (i11 - P * S.s12 * i12) * (U * U⁻¹) * S1.s12 * U := by mat_module
        _ = Tn⁻¹ * ((i11 - P * S.s12 * i12) * S1.s12) * U := by rw [hUU]; mat_module
        _ = Tn⁻¹ * (P * S.s12 * i11 - i12) * (propagator n d * U) := by rw [h12]; mat_module
        _ = ((Tn⁻¹ * P) * S.s12 * (Tn * Tn⁻¹) * i11 * U - Tn⁻¹ * i12 * U) * propagator n' d' := by
            rw [hnc, hTT]; mat_module
        _ = _ := by rw [← hconj, h.s12]; mat_module
    · rw [h21, h.s22, h.s21]
      calc T₀⁻¹ * (S.s22 * i12 * S1.s11 + S.s21) * T₀
          = T₀⁻¹ * S.s22 * (1 : ModeMatrix ι) * i12 * (1 : ModeMatrix ι) * S1.s11 * T₀ + T₀⁻¹ * S.s21 * T₀ := by
            mat_module
        _ = T₀⁻¹ * S.s22 * (Tn * Tn⁻¹) * i12 * (U * U⁻¹) * S1.s11 * T₀ + T₀⁻¹ * S.s21 * T₀ := by rw [hTT, hUU]
        _ = _ := by mat_module
    · rw [h22, h.s22]
      calc T₀⁻¹ * (S.s22 * i12 * S1.s12 + S.s22 * i11 * propagator n d) * U
          = T₀⁻¹ * S.s22 * (1 : ModeMatrix ι) * i12 * (1 : ModeMatrix ι) * S1.s12 * U +
            T₀⁻¹ * S.s22 * (1 : ModeMatrix ι) * i11 * (propagator n d * U) := by mat_module
        _ = T₀⁻¹ * S.s22 * (Tn * Tn⁻¹) * i12 * (U * U⁻¹) * S1.s12 * U +
            T₀⁻¹ * S.s22 * (Tn * Tn⁻¹) * i11 * (U * propagator n' d') := by rw [hTT, hUU, hnc]
        _ = _ := by mat_module
  · exact ⟨by rw [e1]; exact h.start, by rw [e3]; exact hn, by rw [e2]; exact h.startThickness, by rw [e4]; exact hd, rfl, rfl, rfl, rfl⟩

theorem identity_layerMap {l l' : LayerSolveResult ι} {T : ModeMatrix ι} (h : LayerMap R s l l' T) {d d' : ℝ} (hd : d = s * d') :
    SLayerMap R s (identitySMatrix l d) (identitySMatrix l' d') T T := by
  have hTT' : T⁻¹ * T = 1 := nonsing_inv_mul _ h.isUnit
  refine ⟨h, h, hd, hd, ?_, ?_, ?_, ?_⟩ <;> simp [identitySMatrix, hTT']

/-- The layers and thicknesses of two stacks correspond. -/
def StackMap (R : ModeMatrix ι) (s : ℝ) (p p' : LayerSolveResult ι × ℝ) : Prop :=
  (∃ T, LayerMap R s p.1 p'.1 T) ∧ p.2 = s * p'.2

theorem scanLoop_layerMap (hR : IsUnit R.det) (hs : s ≠ 0) {ms ms' : List (LayerSolveResult ι × ℝ)} (hm : List.Forall₂ (StackMap R s) ms ms') :
    ∀ (S S' S1 : ScatteringMatrix ι) (T₀ Tn : ModeMatrix ι), SLayerMap R s S S' T₀ Tn →
      scanLoop S ms = .ok S1 → ∃ S1' Tm, scanLoop S' ms' = .ok S1' ∧ SLayerMap R s S1 S1' T₀ Tm := by
  induction hm with
  | nil =>
    intro S S' S1 T₀ Tn h hS
    simp only [scanLoop, ok_inj] at hS ⊢
    subst hS
    exact ⟨S', Tn, rfl, h⟩
  | @cons p p' ms ms' hp _ ih =>
    intro S S' S1 T₀ Tn h hS
    obtain ⟨l, d⟩ := p
    obtain ⟨l', d'⟩ := p'
    obtain ⟨⟨T, hT⟩, hd⟩ := hp
    simp only [scanLoop, bind_eq_ok] at hS ⊢
    obtain ⟨S2, hS2, hS⟩ := hS
    obtain ⟨S2', hS2', h2⟩ := appendLayer_layerMap hR hs hd h hT hS2
    obtain ⟨S1', Tm, hS1', h1⟩ := ih S2 S2' S1 T₀ T h2 hS
    exact ⟨S1', Tm, ⟨S2', hS2', hS1'⟩, h1⟩

/-- All layers but the last of a stack with a scattering matrix have independent modes. -/
theorem scanLoop_independent : ∀ (ms : List (LayerSolveResult ι × ℝ)) (S S1 : ScatteringMatrix ι), scanLoop S ms = .ok S1 → ms ≠ [] →
    IsUnit S.endLayer.eigenvectors.det ∧ ∀ p ∈ ms.dropLast, IsUnit p.1.eigenvectors.det
  | [], _, _, _, h => absurd rfl h
  | (l, d) :: ms, S, S1, hS, _ => by
    simp only [scanLoop, bind_eq_ok] at hS
    obtain ⟨S2, hS2, hS⟩ := hS
    have h1 : IsUnit S.endLayer.eigenvectors.det := by
      rw [appendLayer_ok_iff] at hS2
      obtain ⟨hb, -⟩ := hS2
      rw [extendSMatrix_ok_iff] at hb
      obtain ⟨i11, i12, hi, -⟩ := hb
      rw [interfaceMatrices_ok_iff] at hi
      obtain ⟨Ω, Ω', T1, T2, hΩ, hΩ', hr, hu, -⟩ := hi
      rw [det_mul] at hu
      exact isUnit_of_mul_isUnit_right hu
    refine ⟨h1, ?_⟩
    cases ms with
    | nil => simp
    | cons p ms =>
      obtain ⟨h2, h3⟩ := scanLoop_independent (p :: ms) S2 S1 hS (by simp)
      obtain ⟨-, -, e, -⟩ := appendLayer_start hS2
      rw [e] at h2
      intro x hx
      rw [List.dropLast_cons_of_ne_nil (by simp), List.mem_cons] at hx
      rcases hx with rfl | hx
      · exact h2
      · exact h3 x hx

/-- The first and last layers of a stack. -/
theorem scanLoop_ends : ∀ (ms : List (LayerSolveResult ι × ℝ)) (S S1 : ScatteringMatrix ι), scanLoop S ms = .ok S1 →
    S1.startLayer = S.startLayer ∧ S1.endLayer = (ms.map Prod.fst).getLast?.getD S.endLayer
  | [], S, S1, h => by
    simp only [scanLoop, ok_inj] at h
    subst h
    exact ⟨rfl, rfl⟩
  | (l, d) :: ms, S, S1, hS => by
    simp only [scanLoop, bind_eq_ok] at hS
    obtain ⟨S2, hS2, hS⟩ := hS
    obtain ⟨k1, k2⟩ := scanLoop_ends ms S2 S1 hS
    obtain ⟨e1, -, e3, -⟩ := appendLayer_start hS2
    refine ⟨k1.trans e1, ?_⟩
    rw [k2, e3]
    cases ms with
    | nil => rfl
    | cons p ms => simp [List.getLast?_cons]

end Fmmax
