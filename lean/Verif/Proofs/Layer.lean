import Verif.Spec.Stack
import Verif.Proofs.Basic

/-! The layer matrices of the model agree with the specification. -/

set_option linter.unusedSectionVars false

namespace Fmmax

open Matrix Spec

variable {ι : Type} [Fintype ι] [DecidableEq ι] {β : Type}

theorem reciprocal_eq_ok {l r : LatticeVectors} :
    reciprocal l = .ok r ↔ crossProduct l.u l.v ≠ 0 ∧
      r = { u := (l.v.2 / crossProduct l.u l.v, -l.v.1 / crossProduct l.u l.v),
            v := (-l.u.2 / crossProduct l.u l.v, l.u.1 / crossProduct l.u l.v) } := by
  unfold reciprocal
  simp only
  split_ifs with h
  · simp [h]
  · rw [ok_inj]
    exact ⟨fun e => ⟨h, e.symm⟩, fun e => e.2.symm⟩

theorem transverseWavevectors_layer {l : LayerSolveResult ι} {k : ι → ℝ × ℝ} :
    transverseWavevectors l.inPlaneWavevector l.primitiveLatticeVectors l.expansion = .ok k ↔
      cellArea l ≠ 0 ∧ k = orderWavevector l := by
  unfold transverseWavevectors
  simp only [bind_eq_ok, reciprocal_eq_ok, ok_inj]
  have hc : crossProduct l.primitiveLatticeVectors.u l.primitiveLatticeVectors.v = cellArea l := rfl
  rw [hc]
  constructor
  · rintro ⟨r, ⟨h, rfl⟩, rfl⟩
    refine ⟨h, ?_⟩
    funext i
    simp only [orderWavevector, Prod.mk.injEq]
    constructor <;> ring
  · rintro ⟨h, rfl⟩
    refine ⟨_, ⟨h, rfl⟩, ?_⟩
    funext i
    simp only [orderWavevector, Prod.mk.injEq]
    constructor <;> ring

theorem scriptKMatrixPatterned_eq_ok {z : Matrix ι ι ℂ} {k : ι → ℝ × ℝ} {X : Matrix (ι ⊕ ι) (ι ⊕ ι) ℂ} :
    scriptKMatrixPatterned z k = .ok X ↔ IsUnit z.det ∧ X = Matrix.fromBlocks
      (diagonal (kyOf k) * z⁻¹ * diagonal (kyOf k)) (-(diagonal (kyOf k) * z⁻¹ * diagonal (kxOf k)))
      (-(diagonal (kxOf k) * z⁻¹ * diagonal (kyOf k))) (diagonal (kxOf k) * z⁻¹ * diagonal (kxOf k)) := by
  have hn : ∀ v : ι → ℂ, diagonal (fun i => -v i) = -diagonal v := fun v => by
    rw [← diagonal_neg]
  unfold scriptKMatrixPatterned
  by_cases hu : IsUnit z.det
  · simp only [solve_of_isUnit _ hu, bind_eq_ok, ok_inj, exists_eq_left', rowScale_eq, diag_eq, hn, hu, true_and, Matrix.neg_mul,
      Matrix.mul_assoc]
    exact eq_comm
  · simp only [bind_eq_ok, solve_eq_ok, hu, false_and, exists_false]

theorem omegaScriptK_ok_iff {l : LayerSolveResult ι} {Ω : Matrix (ι ⊕ ι) (ι ⊕ ι) ℂ} :
    l.omegaScriptKMatrix = .ok Ω ↔ WellPosed l ∧ Ω = magneticToElectric l := by
  unfold LayerSolveResult.omegaScriptKMatrix omegaScriptKMatrixPatterned
  simp only [bind_eq_ok, transverseWavevectors_layer, scriptKMatrixPatterned_eq_ok, angularFrequency_eq_ok, ok_inj]
  constructor
  · rintro ⟨k, ⟨h1, rfl⟩, X, ⟨h2, rfl⟩, w, ⟨h3, rfl⟩, rfl⟩
    exact ⟨⟨h3, h1, h2⟩, rfl⟩
  · rintro ⟨⟨h3, h1, h2⟩, rfl⟩
    exact ⟨_, ⟨h1, rfl⟩, _, ⟨h2, rfl⟩, _, ⟨h3, rfl⟩, rfl⟩

theorem angularFrequency_layer {l : LayerSolveResult ι} {w : ℝ} :
    angularFrequency l.wavelength = .ok w ↔ l.wavelength ≠ 0 ∧ w = omega l := angularFrequency_eq_ok

/-- `FieldsAt` in terms of the model's matrices. -/
theorem fieldsAt_iff {s : LayerState ι β} {z : ℝ} {e h : Matrix (ι ⊕ ι) β ℂ} :
    FieldsAt s z e h ↔ ∃ (Ω : Matrix (ι ⊕ ι) (ι ⊕ ι) ℂ) (w : ℝ),
    s.layer.omegaScriptKMatrix = .ok Ω ∧ angularFrequency s.layer.wavelength = .ok w ∧
    (∀ i, s.layer.eigenvalues i ≠ 0) ∧
    e = Ω * s.layer.eigenvectors * Matrix.diagonal (fun i => ((w : ℂ) * s.layer.eigenvalues i)⁻¹) *
      (propagator s.layer z * s.a - propagator s.layer (s.thickness - z) * s.b) ∧
    h = s.layer.eigenvectors *
      (propagator s.layer z * s.a + propagator s.layer (s.thickness - z) * s.b) := by
  simp only [omegaScriptK_ok_iff, angularFrequency_layer]
  constructor
  · rintro ⟨hw, hq, he, hh⟩
    exact ⟨_, _, ⟨hw, rfl⟩, ⟨hw.1, rfl⟩, hq, he, hh⟩
  · rintro ⟨_, _, ⟨hw, rfl⟩, ⟨-, rfl⟩, hq, he, hh⟩
    exact ⟨hw, hq, he, hh⟩

end Fmmax
