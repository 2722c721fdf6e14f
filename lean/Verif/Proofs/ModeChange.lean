import Verif.Proofs.StackOps
import Verif.Spec.ModeChange

/-! Scattering matrices transform covariantly under a change of eigenmodes. -/

set_option linter.unusedSectionVars false

namespace Fmmax

open Matrix Spec

variable {ι : Type} [Fintype ι] [DecidableEq ι]

theorem Spec.ModeChange.omega {l l' : LayerSolveResult ι} {T : ModeMatrix ι} (h : ModeChange l l' T) :
    l'.omegaScriptKMatrix = l.omegaScriptKMatrix := by
  unfold LayerSolveResult.omegaScriptKMatrix
  rw [h.wavelength, h.inPlane, h.lattice, h.expansion, h.zPermittivity, h.transversePermeability]

theorem Spec.ModeChange.diag_comm {l l' : LayerSolveResult ι} {T : ModeMatrix ι} (h : ModeChange l l' T)
    (f : ℂ → ℂ) :
    diagonal (fun i => f (l.eigenvalues i)) * T = T * diagonal (fun i => f (l'.eigenvalues i)) := by
  ext i j
  rw [diagonal_mul, mul_diagonal]
  by_cases hT : T i j = 0
  · simp [hT]
  · rw [h.eigenvalues i j hT, mul_comm]

theorem Spec.ModeChange.propagator_comm {l l' : LayerSolveResult ι} {T : ModeMatrix ι} (h : ModeChange l l' T)
    (z : ℝ) : propagator l z * T = T * propagator l' z :=
  h.diag_comm (fun q => Complex.exp (Complex.I * q * z))

theorem Spec.ModeChange.eigenvalues_ne {l l' : LayerSolveResult ι} {T : ModeMatrix ι} (h : ModeChange l l' T)
    (hq : ∀ i, l.eigenvalues i ≠ 0) : ∀ j, l'.eigenvalues j ≠ 0 := by
  intro j
  by_contra h0
  -- column j of T must vanish
  have : ∀ i, T i j = 0 := by
    intro i
    by_contra hT
    exact hq i ((h.eigenvalues i j hT).trans h0)
  have hdet : T.det = 0 := det_eq_zero_of_column_eq_zero j this
  have := h.isUnit
  rw [hdet] at this
  exact not_isUnit_zero this

theorem interfaceMatrices_modeChange {l l' n n' : LayerSolveResult ι} {T U i11 i12 : ModeMatrix ι}
    (hl : ModeChange l l' T) (hn : ModeChange n n' U) (h : interfaceMatrices l n = .ok (i11, i12)) :
    interfaceMatrices l' n' = .ok (T⁻¹ * i11 * U, T⁻¹ * i12 * U) := by
  rw [interfaceMatrices_ok_iff] at h ⊢
  obtain ⟨Ω, Ω', T1, T2, hΩ, hΩ', hr, hu, h1, h2, h3, h4⟩ := h
  have hTT : T * T⁻¹ = 1 := mul_nonsing_inv _ hl.isUnit
  have hTT' : T⁻¹ * T = 1 := nonsing_inv_mul _ hl.isUnit
  have hqinv : diagonal (fun i => (n.eigenvalues i)⁻¹) * U = U * diagonal (fun i => (n'.eigenvalues i)⁻¹) :=
    hn.diag_comm (fun q => q⁻¹)
  have hq : diagonal l'.eigenvalues * T⁻¹ = T⁻¹ * diagonal l.eigenvalues := by
    have e : diagonal l.eigenvalues * T = T * diagonal l'.eigenvalues := hl.diag_comm (fun q => q)
    calc diagonal l'.eigenvalues * T⁻¹ = T⁻¹ * (T * diagonal l'.eigenvalues) * T⁻¹ := by
          rw [← Matrix.mul_assoc, hTT', Matrix.one_mul]
      _ = T⁻¹ * (diagonal l.eigenvalues * T) * T⁻¹ := by rw [e]
      _ = T⁻¹ * diagonal l.eigenvalues * (T * T⁻¹) := by mat_module
      _ = _ := by rw [hTT, Matrix.mul_one]
  refine ⟨Ω, Ω', T⁻¹ * T1 * U, T⁻¹ * T2 * U, hl.omega.trans hΩ, hn.omega.trans hΩ', hn.eigenvalues_ne hr, ?_, ?_, ?_, ?_, ?_⟩
  · rw [hl.eigenvectors, ← Matrix.mul_assoc, det_mul]
    exact hu.mul hl.isUnit
  · rw [hl.eigenvectors, hn.eigenvectors]
    calc Ω * (l.eigenvectors * T) * (T⁻¹ * T1 * U) = Ω * l.eigenvectors * (T * T⁻¹) * T1 * U := by mat_module
      _ = Ω * l.eigenvectors * T1 * U := by rw [hTT, Matrix.mul_one]
      _ = Ω' * n.eigenvectors * (diagonal (fun i => (n.eigenvalues i)⁻¹) * U) := by rw [h1]; mat_module
      _ = _ := by rw [hqinv]; mat_module
  · rw [hl.eigenvectors, hn.eigenvectors]
    calc Ω * (l.eigenvectors * T) * (T⁻¹ * T2 * U) = Ω * l.eigenvectors * (T * T⁻¹) * T2 * U := by mat_module
      _ = Ω * l.eigenvectors * T2 * U := by rw [hTT, Matrix.mul_one]
      _ = _ := by rw [h2]; mat_module
  · simp only at h3 ⊢
    have : diagonal l'.eigenvalues * (T⁻¹ * T1 * U) = T⁻¹ * (diagonal l.eigenvalues * T1) * U := by
      rw [← Matrix.mul_assoc, ← Matrix.mul_assoc, hq]; mat_module
    rw [h3, this]; mat_module
  · simp only at h4 ⊢
    have : diagonal l'.eigenvalues * (T⁻¹ * T1 * U) = T⁻¹ * (diagonal l.eigenvalues * T1) * U := by
      rw [← Matrix.mul_assoc, ← Matrix.mul_assoc, hq]; mat_module
    rw [h4, this]; mat_module

/-- `S'` is `S` expressed in changed modes of the start layer (`T₀`) and end layer (`Tn`). -/
structure SModeChange (S S' : ScatteringMatrix ι) (T₀ Tn : ModeMatrix ι) : Prop where
  start : ModeChange S.startLayer S'.startLayer T₀
  finish : ModeChange S.endLayer S'.endLayer Tn
  startThickness : S'.startThickness = S.startThickness
  endThickness : S'.endThickness = S.endThickness
  s11 : S'.s11 = Tn⁻¹ * S.s11 * T₀
  s12 : S'.s12 = Tn⁻¹ * S.s12 * Tn
  s21 : S'.s21 = T₀⁻¹ * S.s21 * T₀
  s22 : S'.s22 = T₀⁻¹ * S.s22 * Tn

theorem propagator_conj {l l' : LayerSolveResult ι} {T : ModeMatrix ι} (h : ModeChange l l' T) (z : ℝ) :
    propagator l' z * T⁻¹ = T⁻¹ * propagator l z := by
  have hTT : T * T⁻¹ = 1 := mul_nonsing_inv _ h.isUnit
  have hTT' : T⁻¹ * T = 1 := nonsing_inv_mul _ h.isUnit
  calc propagator l' z * T⁻¹ = T⁻¹ * (T * propagator l' z) * T⁻¹ := by
        rw [← Matrix.mul_assoc, hTT', Matrix.one_mul]
    _ = T⁻¹ * (propagator l z * T) * T⁻¹ := by rw [h.propagator_comm]
    _ = T⁻¹ * propagator l z * (T * T⁻¹) := by mat_module
    _ = _ := by rw [hTT, Matrix.mul_one]

theorem appendLayer_modeChange {S S' S1 : ScatteringMatrix ι} {T₀ Tn U : ModeMatrix ι}
    {n n' : LayerSolveResult ι} {d : ℝ} (h : SModeChange S S' T₀ Tn) (hn : ModeChange n n' U)
    (hS : appendLayer S n d = .ok S1) :
    ∃ S1', appendLayer S' n' d = .ok S1' ∧ SModeChange S1 S1' T₀ U := by
  rw [appendLayer_ok_iff] at hS
  obtain ⟨hb, e1, e2, e3, e4⟩ := hS
  rw [extendSMatrix_ok_iff] at hb
  obtain ⟨i11, i12, hi, hu, h11, h12, h21, h22⟩ := hb
  have hi' := interfaceMatrices_modeChange h.finish hn hi
  have hTT : Tn * Tn⁻¹ = 1 := mul_nonsing_inv _ h.finish.isUnit
  have hUU : U * U⁻¹ = 1 := mul_nonsing_inv _ hn.isUnit
  have hconj := propagator_conj h.finish S.endThickness
  have hnc := hn.propagator_comm d
  set P := propagator S.endLayer S.endThickness
  set P' := propagator S'.endLayer S.endThickness
  have key : Tn⁻¹ * i11 * U - P' * S'.s12 * (Tn⁻¹ * i12 * U) = Tn⁻¹ * (i11 - P * S.s12 * i12) * U := by
    rw [h.s12]
    calc Tn⁻¹ * i11 * U - P' * (Tn⁻¹ * S.s12 * Tn) * (Tn⁻¹ * i12 * U)
        = Tn⁻¹ * i11 * U - (P' * Tn⁻¹) * S.s12 * (Tn * Tn⁻¹) * i12 * U := by mat_module
      _ = _ := by rw [hconj, hTT]; mat_module
  refine ⟨{ s11 := U⁻¹ * S1.s11 * T₀, s12 := U⁻¹ * S1.s12 * U, s21 := T₀⁻¹ * S1.s21 * T₀,
            s22 := T₀⁻¹ * S1.s22 * U, startLayer := S'.startLayer, startThickness := S'.startThickness,
            endLayer := n', endThickness := d }, ?_, ?_⟩
  · rw [appendLayer_ok_iff]
    refine ⟨?_, rfl, rfl, rfl, rfl⟩
    rw [extendSMatrix_ok_iff]
    refine ⟨_, _, hi', ?_, ?_, ?_, ?_, ?_⟩ <;> (try rw [h.endThickness]) <;> (try rw [key]) <;> (try simp only)
    · rw [det_mul, det_mul]
      refine (IsUnit.mul ?_ hu).mul hn.isUnit
      rw [det_nonsing_inv]
      exact h.finish.isUnit.ringInverse
    · calc Tn⁻¹ * (i11 - P * S.s12 * i12) * U * (U⁻¹ * S1.s11 * T₀)
          = Tn⁻¹ * (i11 - P * S.s12 * i12) * (U * U⁻¹) * S1.s11 * T₀ := by mat_module
        _ = Tn⁻¹ * ((i11 - P * S.s12 * i12) * S1.s11) * T₀ := by rw [hUU]; mat_module
        _ = (Tn⁻¹ * P) * S.s11 * T₀ := by rw [h11]; mat_module
        _ = _ := by rw [← hconj, h.s11]; mat_module
    · calc Tn⁻¹ * (i11 - P * S.s12 * i12) * U * (U⁻¹ * S1.s12 * U)
          = Tn⁻¹ * (i11 - P * S.s12 * i12) * (U * U⁻¹) * S1.s12 * U := by mat_module
        _ = Tn⁻¹ * ((i11 - P * S.s12 * i12) * S1.s12) * U := by rw [hUU]; mat_module
        _ = Tn⁻¹ * (P * S.s12 * i11 - i12) * (propagator n d * U) := by rw [h12]; mat_module
        _ = ((Tn⁻¹ * P) * S.s12 * (Tn * Tn⁻¹) * i11 * U - Tn⁻¹ * i12 * U) * propagator n' d := by
            rw [hnc, hTT]; mat_module
        _ = _ := by rw [← hconj, h.s12]; mat_module
    · rw [h21, h.s22, h.s21]
      calc T₀⁻¹ * (S.s22 * i12 * S1.s11 + S.s21) * T₀
          = T₀⁻¹ * S.s22 * (1 : ModeMatrix ι) * i12 * (1 : ModeMatrix ι) * S1.s11 * T₀ + T₀⁻¹ * S.s21 * T₀ := by
            mat_module
        _ = T₀⁻¹ * S.s22 * (Tn * Tn⁻¹) * i12 * (U * U⁻¹) * S1.s11 * T₀ + T₀⁻¹ * S.s21 * T₀ := by rw [hTT, hUU]
        _ = _ := by mat_module
    · rw [h22, h.s22]
      calc T₀⁻¹ * (S.s22 * i12 * S1.s12 + S.s22 * i11 * propagator n d) * U
          = T₀⁻¹ * S.s22 * (1 : ModeMatrix ι) * i12 * (1 : ModeMatrix ι) * S1.s12 * U +
            T₀⁻¹ * S.s22 * (1 : ModeMatrix ι) * i11 * (propagator n d * U) := by mat_module
        _ = T₀⁻¹ * S.s22 * (Tn * Tn⁻¹) * i12 * (U * U⁻¹) * S1.s12 * U +
            T₀⁻¹ * S.s22 * (Tn * Tn⁻¹) * i11 * (U * propagator n' d) := by rw [hTT, hUU, hnc]
        _ = _ := by mat_module
  · exact ⟨by rw [e1]; exact h.start, by rw [e3]; exact hn, by rw [e2]; exact h.startThickness, by rw [e4], rfl, rfl, rfl, rfl⟩

theorem identity_modeChange {l l' : LayerSolveResult ι} {T : ModeMatrix ι} (h : ModeChange l l' T) (d : ℝ) :
    SModeChange (identitySMatrix l d) (identitySMatrix l' d) T T := by
  have hTT' : T⁻¹ * T = 1 := nonsing_inv_mul _ h.isUnit
  refine ⟨h, h, rfl, rfl, ?_, ?_, ?_, ?_⟩ <;> simp [identitySMatrix, hTT']

theorem scanLoop_modeChange (ms : List (LayerSolveResult ι × LayerSolveResult ι × ModeMatrix ι × ℝ)) :
    ∀ (S S' S1 : ScatteringMatrix ι) (T₀ Tn : ModeMatrix ι),
      (∀ m ∈ ms, ModeChange m.1 m.2.1 m.2.2.1) → SModeChange S S' T₀ Tn →
      scanLoop S (ms.map fun m => (m.1, m.2.2.2)) = .ok S1 →
      ∃ S1', scanLoop S' (ms.map fun m => (m.2.1, m.2.2.2)) = .ok S1' ∧
        SModeChange S1 S1' T₀ ((ms.getLast?.map fun m => m.2.2.1).getD Tn) := by
  induction ms with
  | nil =>
    intro S S' S1 T₀ Tn _ h hS
    simp only [List.map_nil, scanLoop, ok_inj] at hS ⊢
    subst hS
    exact ⟨S', rfl, by simpa using h⟩
  | cons m ms ih =>
    intro S S' S1 T₀ Tn hm h hS
    obtain ⟨l, l', T, d⟩ := m
    simp only [List.map_cons, scanLoop, bind_eq_ok] at hS ⊢
    obtain ⟨S2, hS2, hS⟩ := hS
    obtain ⟨S2', hS2', h2⟩ := appendLayer_modeChange h (hm _ (List.mem_cons_self)) hS2
    obtain ⟨S1', hS1', h1⟩ := ih S2 S2' S1 T₀ T (fun m hm' => hm m (List.mem_cons_of_mem _ hm')) h2 hS
    refine ⟨S1', ⟨S2', hS2', hS1'⟩, ?_⟩
    rw [List.getLast?_cons]
    cases hg : ms.getLast? with
    | none => simpa [hg] using h1
    | some v => simpa [hg] using h1

theorem modeChange_reorder (l : LayerSolveResult ι) (σ : Equiv.Perm (ι ⊕ ι)) (c : ι ⊕ ι → ℂ)
    (hc : ∀ j, c j ≠ 0) :
    ModeChange l (reorderModes l σ c) (Matrix.of fun i j => if i = σ j then c j else 0) where
  wavelength := rfl
  inPlane := rfl
  lattice := rfl
  expansion := rfl
  zPermittivity := rfl
  transversePermeability := rfl
  eigenvectors := by
    ext i j
    simp [reorderModes, Matrix.mul_apply, mul_comm]
  eigenvalues := by
    intro i j h
    simp only [Matrix.of_apply, ne_eq, ite_eq_right_iff, Classical.not_imp] at h
    simp [reorderModes, h.1]
  isUnit := by
    have : (Matrix.of fun i j => if i = σ j then c j else 0) =
        (Matrix.of fun i j => if i = σ j then (1 : ℂ) else 0) * diagonal c := by
      ext i j
      simp [mul_diagonal]
    rw [this, det_mul, det_diagonal]
    refine IsUnit.mul ?_ (isUnit_iff_ne_zero.2 (Finset.prod_ne_zero_iff.2 fun i _ => hc i))
    have hp : (Matrix.of fun i j => if i = σ j then (1 : ℂ) else 0) * (Matrix.of fun i j => if j = σ i then (1 : ℂ) else 0) = 1 := by
      ext i j
      simp only [Matrix.mul_apply, Matrix.of_apply, ite_mul, one_mul, zero_mul, Matrix.one_apply]
      rw [Finset.sum_eq_single (σ.symm i)]
      · simp [eq_comm]
      · intro b _ hb
        rw [if_neg]
        rintro rfl
        simp at hb
      · simp
    exact isUnit_det_of_right_inverse hp

end Fmmax
