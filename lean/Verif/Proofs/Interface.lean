import Verif.Model.Scattering
import Verif.Spec.Stack
import Verif.Proofs.Layer
import Mathlib.Tactic.LinearCombination

/-! The interface matrices encode continuity of the tangential fields. -/

set_option linter.unusedSectionVars false

namespace Fmmax

open Matrix Spec

variable {ι : Type} [Fintype ι] [DecidableEq ι] {β : Type}

theorem interfaceMatrices_eq_ok {l l' : LayerSolveResult ι} {p : ModeMatrix ι × ModeMatrix ι}
    (h : interfaceMatrices l l' = .ok p) :
    ∃ Ω Ω' T1 T2 : ModeMatrix ι, l.omegaScriptKMatrix = .ok Ω ∧ l'.omegaScriptKMatrix = .ok Ω' ∧
      (∀ i, l'.eigenvalues i ≠ 0) ∧ IsUnit (Ω * l.eigenvectors).det ∧
      Ω * l.eigenvectors * T1 = Ω' * l'.eigenvectors * diagonal (fun i => (l'.eigenvalues i)⁻¹) ∧
      Ω * l.eigenvectors * T2 = Ω * l'.eigenvectors ∧
      p.1 = (1 / 2 : ℂ) • (diagonal l.eigenvalues * T1 + T2) ∧
      p.2 = (1 / 2 : ℂ) • (-(diagonal l.eigenvalues * T1) + T2) := by
  unfold interfaceMatrices at h
  simp only [bind_eq_ok, solve_eq_ok, recip_eq_ok, ok_inj] at h
  obtain ⟨Ω, hΩ, Ω', hΩ', r, ⟨hr, rfl⟩, T1, ⟨hu, hT1⟩, T2, ⟨-, hT2⟩, rfl⟩ := h
  refine ⟨Ω, Ω', T1, T2, hΩ, hΩ', hr, hu, ?_, hT2, ?_, ?_⟩
  · rw [hT1, colScale_eq]
  · simp [rowScale_eq]
  · simp [rowScale_eq]

theorem diagonal_omega_inv (w : ℂ) (q : ι ⊕ ι → ℂ) :
    diagonal (fun i => (w * q i)⁻¹) = w⁻¹ • diagonal (fun i => (q i)⁻¹) := by
  ext i j
  by_cases h : i = j
  · subst h; simp [mul_comm]
  · simp [h]

@[simp] theorem propagator_zero (l : LayerSolveResult ι) : propagator l 0 = 1 := by
  simp [propagator]

/-- Continuity of the tangential fields, in terms of the interface matrices. -/
theorem interface_iff {s t : LayerState ι β} {i11 i12 : ModeMatrix ι} {w : ℝ}
    (hi : interfaceMatrices s.layer t.layer = .ok (i11, i12))
    (hw : angularFrequency s.layer.wavelength = .ok w)
    (hw' : angularFrequency t.layer.wavelength = .ok w)
    (hq : ∀ i, s.layer.eigenvalues i ≠ 0) :
    Interface s t ↔
      propagator s.layer s.thickness * s.a = i11 * t.a + i12 * (propagator t.layer t.thickness * t.b) ∧
      s.b = i12 * t.a + i11 * (propagator t.layer t.thickness * t.b) := by
  obtain ⟨Ω, Ω', T1, T2, hΩ, hΩ', hq', hu, hT1, hT2, h1, h2⟩ := interfaceMatrices_eq_ok hi
  simp only at h1 h2
  subst h1 h2
  have hw0 : (w : ℂ) ≠ 0 := by exact_mod_cast angularFrequency_ne_zero hw
  set φ := s.layer.eigenvectors
  set φ' := t.layer.eigenvectors
  set q := s.layer.eigenvalues
  set q' := t.layer.eigenvalues
  set x := propagator s.layer s.thickness * s.a
  set y := propagator t.layer t.thickness * t.b
  have hDq : diagonal q * diagonal (fun i => (q i)⁻¹) = (1 : ModeMatrix ι) := by
    rw [diagonal_mul_diagonal, ← diagonal_one]; congr 1; ext i; exact mul_inv_cancel₀ (hq i)
  have hDq' : diagonal (fun i => (q i)⁻¹) * diagonal q = (1 : ModeMatrix ι) := by
    rw [diagonal_mul_diagonal, ← diagonal_one]; congr 1; ext i; exact inv_mul_cancel₀ (hq i)
  have hinj : Function.Injective (fun X : Matrix (ι ⊕ ι) β ℂ => Ω * φ * X) := fun X Y hXY => by
    have := congrArg (fun Z : Matrix (ι ⊕ ι) β ℂ => (Ω * φ)⁻¹ * Z) hXY
    simpa [nonsing_inv_mul_cancel_left _ _ hu] using this
  have hΩu : IsUnit Ω.det := by
    rw [det_mul] at hu; exact isUnit_of_mul_isUnit_left hu
  -- electric condition
  have hE : (Ω * φ * diagonal (fun i => ((w : ℂ) * q i)⁻¹) * (x - s.b) =
      Ω' * φ' * diagonal (fun i => ((w : ℂ) * q' i)⁻¹) * (t.a - y)) ↔
      x - s.b = diagonal q * T1 * (t.a - y) := by
    rw [diagonal_omega_inv, diagonal_omega_inv]
    simp only [Matrix.mul_smul, Matrix.smul_mul]
    rw [← hT1]
    have hwi : (w : ℂ)⁻¹ ≠ 0 := inv_ne_zero hw0
    rw [smul_right_injective _ hwi |>.eq_iff]
    constructor
    · intro h
      have h' : (fun i => (q i)⁻¹) = (fun i => (q i)⁻¹) := rfl
      have := hinj (a₁ := diagonal (fun i => (q i)⁻¹) * (x - s.b)) (a₂ := T1 * (t.a - y))
        (by simpa only [Matrix.mul_assoc] using h)
      rw [Matrix.mul_assoc, ← this, ← Matrix.mul_assoc, hDq, Matrix.one_mul]
    · intro h
      rw [h, Matrix.mul_assoc (Ω * φ), ← Matrix.mul_assoc (diagonal _) (diagonal q * T1),
        ← Matrix.mul_assoc (diagonal _) (diagonal q), hDq', Matrix.one_mul, Matrix.mul_assoc (Ω * φ)]
  have hH : (φ * (x + s.b) = φ' * (t.a + y)) ↔ x + s.b = T2 * (t.a + y) := by
    constructor
    · intro h
      apply hinj
      simp only
      rw [← Matrix.mul_assoc (Ω * φ) T2, hT2, Matrix.mul_assoc Ω φ', ← h, Matrix.mul_assoc]
    · intro h
      have h3 : Ω * (φ * (x + s.b)) = Ω * (φ' * (t.a + y)) := by
        rw [h, ← Matrix.mul_assoc, ← Matrix.mul_assoc (Ω * φ), hT2, Matrix.mul_assoc]
      have := congrArg (fun Z : Matrix (ι ⊕ ι) β ℂ => Ω⁻¹ * Z) h3
      simpa [nonsing_inv_mul_cancel_left _ _ hΩu] using this
  have key : Interface s t ↔ (x - s.b = diagonal q * T1 * (t.a - y)) ∧
      (x + s.b = T2 * (t.a + y)) := by
    rw [← hE, ← hH]
    constructor
    · rintro ⟨e, h, he, hf⟩
      obtain ⟨Ωs, ws, e1, e2, -, e4, e5⟩ := fieldsAt_iff.1 he
      obtain ⟨Ωt, wt, f1, f2, -, f4, f5⟩ := fieldsAt_iff.1 hf
      rw [hΩ, ok_inj] at e1; rw [hw, ok_inj] at e2
      rw [hΩ', ok_inj] at f1; rw [hw', ok_inj] at f2
      subst e1 e2 f1 f2
      simp only [sub_self, propagator_zero, Matrix.one_mul, sub_zero] at e4 e5 f4 f5
      exact ⟨e4.symm.trans f4, e5.symm.trans f5⟩
    · rintro ⟨he, hh⟩
      refine ⟨_, _, fieldsAt_iff.2 ⟨Ω, w, hΩ, hw, hq, rfl, rfl⟩, fieldsAt_iff.2 ⟨Ω', w, hΩ', hw', hq', ?_, ?_⟩⟩
      · simpa only [sub_self, propagator_zero, Matrix.one_mul, sub_zero] using he
      · simpa only [sub_self, propagator_zero, Matrix.one_mul, sub_zero] using hh
  rw [key]
  constructor
  · rintro ⟨hA, hB⟩
    have ex : x = (1 / 2 : ℂ) • ((x + s.b) + (x - s.b)) := by
      ext i j; simp; ring
    have eb : s.b = (1 / 2 : ℂ) • ((x + s.b) - (x - s.b)) := by
      ext i j; simp; ring
    constructor
    · rw [ex, hA, hB]; mat_module
    · rw [eb, hA, hB]; mat_module
  · rintro ⟨hx, hb⟩
    rw [hx, hb]
    constructor
    · mat_module
    · mat_module

end Fmmax
