import Verif.Model.Sources
import Verif.Proofs.Plane
import Verif.Spec.Lattice
import Mathlib.Algebra.BigOperators.Field

/-! Lemmas on sources.py. -/

set_option linter.unusedSectionVars false

namespace Fmmax

open Spec Matrix

variable {ι : Type} [Fintype ι] [DecidableEq ι] {β κ : Type}

theorem processField_eq_ok {l : LayerSolveResult ι} {shape cells : ℕ × ℕ} {field : ℕ → ℕ → β → ℂ}
    (h : Resolves shape.1 shape.2 l.expansion) :
    processField l shape cells field = .ok (Matrix.of fun i b => ∑ c : Fin cells.1 × Fin cells.2,
      fourierCoefficient (Matrix.of fun (r : Fin shape.1) (s : Fin shape.2) =>
        field (c.1 * shape.1 + r) (c.2 * shape.2 + s) b /
          Complex.exp (Complex.I * (dot l.inPlaneWavevector (latticePoint l.primitiveLatticeVectors
            (c.1 + (r : ℕ) / (shape.1 : ℝ)) (c.2 + (s : ℕ) / (shape.2 : ℝ))) : ℝ))) (l.expansion i)) := by
  unfold processField
  obtain ⟨h1, h2⟩ := h.shape_ne
  have h1' : (shape.1 : ℝ) ≠ 0 := by exact_mod_cast h1
  have h2' : (shape.2 : ℝ) ≠ 0 := by exact_mod_cast h2
  simp only [(validateShape_ok_iff l.expansion).2 h, fft_eq _ h]
  refine bind_eq_ok.2 ⟨(), rfl, bind_eq_ok.2 ⟨_, allOk_eq_ok.2 fun p => rfl, ?_⟩⟩
  congr 1
  ext i b
  simp only [Matrix.of_apply, unitCellCoordinates_eq, flatIndex]
  refine Finset.sum_congr rfl fun c _ => ?_
  congr 1
  ext r s
  simp only [Matrix.of_apply]
  congr 2
  have e1 : ((c.1 * shape.1 + r : ℕ) : ℝ) / shape.1 = c.1 + (r : ℕ) / (shape.1 : ℝ) := by
    push_cast; field_simp
  have e2 : ((c.2 * shape.2 + s : ℕ) : ℝ) / shape.2 = c.2 + (s : ℕ) / (shape.2 : ℝ) := by
    push_cast; field_simp
  rw [e1, e2]
  simp only [dot]
  push_cast
  rfl

theorem processField_resolves {l : LayerSolveResult ι} {shape cells : ℕ × ℕ} {field : ℕ → ℕ → β → ℂ} {X}
    (h : processField l shape cells field = .ok X) : Resolves shape.1 shape.2 l.expansion := by
  unfold processField at h
  obtain ⟨u, hu, -⟩ := bind_eq_ok.1 h
  exact (validateShape_ok_iff _).1 hu

theorem fourierCoefficient_sum {nx ny : ℕ} {C : Type} [Fintype C] (X : C → Matrix (Fin nx) (Fin ny) ℂ) (g : ℤ × ℤ) :
    ∑ c, fourierCoefficient (X c) g = fourierCoefficient (∑ c, X c) g := by
  unfold fourierCoefficient
  rw [← Finset.sum_div]
  congr 1
  rw [Finset.sum_comm]
  refine Finset.sum_congr rfl fun r _ => ?_
  rw [Finset.sum_comm]
  refine Finset.sum_congr rfl fun s _ => ?_
  rw [Matrix.sum_apply, Finset.sum_mul]

theorem exp_lattice_planeWave {nx ny : ℕ} (g : ℤ × ℤ) (c d r s : ℕ) :
    Complex.exp (2 * Real.pi * Complex.I * (g.1 * ((c + r / (nx : ℝ) : ℝ) : ℂ) + g.2 * ((d + s / (ny : ℝ) : ℝ) : ℂ))) =
      planeWave nx ny g r s := by
  unfold planeWave
  rw [Complex.exp_eq_exp_iff_exists_int]
  refine ⟨g.1 * c + g.2 * d, ?_⟩
  push_cast
  ring

/-- Orthogonality of the Bloch components over the cells: the field of the component `p₀` is recovered from the average of
the fields of all components. -/
theorem processField_bloch {P : Type} [Fintype P] [DecidableEq P] {L : P → LayerSolveResult ι} {lat : LatticeVectors}
    {G : ι → ℤ × ℤ} {shape cells : ℕ × ℕ} (hlat : ∀ p, (L p).primitiveLatticeVectors = lat)
    (hexp : ∀ p, (L p).expansion = G) (hG : Function.Injective G) (hres : Resolves shape.1 shape.2 G)
    (hu : lat.u.1 * lat.v.2 - lat.u.2 * lat.v.1 ≠ 0) (hc1 : cells.1 ≠ 0) (hc2 : cells.2 ≠ 0)
    (orth : ∀ p p' : P, ∑ c : Fin cells.1 × Fin cells.2, Complex.exp (Complex.I *
      (dot ((L p).inPlaneWavevector - (L p').inPlaneWavevector) (latticePoint lat (c.1 : ℕ) (c.2 : ℕ)) : ℝ)) =
        if p = p' then (cells.1 * cells.2 : ℂ) else 0)
    (C : P → Matrix ι β ℂ) (field : ℕ → ℕ → β → ℂ)
    (hf : ∀ i j b, i < cells.1 * shape.1 → j < cells.2 * shape.2 →
      field i j b = (1 / (cells.1 * cells.2 : ℂ)) * ∑ p, planeWaveSum (L p) (fun m => C p m b)
        (latticePoint lat (i / (shape.1 : ℝ)) (j / (shape.2 : ℝ)))) (p₀ : P) :
    processField (L p₀) shape cells field = .ok (C p₀) := by
  obtain ⟨h1, h2⟩ := hres.shape_ne
  have h1' : (shape.1 : ℝ) ≠ 0 := by exact_mod_cast h1
  have h2' : (shape.2 : ℝ) ≠ 0 := by exact_mod_cast h2
  rw [processField_eq_ok (by rw [hexp]; exact hres)]
  congr 1
  ext i b
  simp only [Matrix.of_apply, hexp, hlat]
  rw [fourierCoefficient_sum]
  have key : ∑ c : Fin cells.1 × Fin cells.2, (Matrix.of fun (r : Fin shape.1) (s : Fin shape.2) =>
      field (c.1 * shape.1 + r) (c.2 * shape.2 + s) b /
          Complex.exp (Complex.I * (dot (L p₀).inPlaneWavevector (latticePoint lat
            (c.1 + (r : ℕ) / (shape.1 : ℝ)) (c.2 + (s : ℕ) / (shape.2 : ℝ))) : ℝ)) : Matrix _ _ ℂ) =
      fourierSeries G (fun m => C p₀ m b) shape.1 shape.2 := by
    ext r s
    rw [Matrix.sum_apply]
    simp only [Matrix.of_apply]
    have step : ∀ c : Fin cells.1 × Fin cells.2, field (c.1 * shape.1 + r) (c.2 * shape.2 + s) b /
          Complex.exp (Complex.I * (dot (L p₀).inPlaneWavevector (latticePoint lat
            (c.1 + (r : ℕ) / (shape.1 : ℝ)) (c.2 + (s : ℕ) / (shape.2 : ℝ))) : ℝ)) =
        (1 / (cells.1 * cells.2 : ℂ)) * ∑ p, (fourierSeries G (fun m => C p m b) shape.1 shape.2 r s *
          Complex.exp (Complex.I * (dot ((L p).inPlaneWavevector - (L p₀).inPlaneWavevector)
            (latticePoint lat ((r : ℕ) / (shape.1 : ℝ)) ((s : ℕ) / (shape.2 : ℝ))) : ℝ))) *
          Complex.exp (Complex.I * (dot ((L p).inPlaneWavevector - (L p₀).inPlaneWavevector)
            (latticePoint lat (c.1 : ℕ) (c.2 : ℕ)) : ℝ)) := by
      intro c
      rw [hf (c.1 * shape.1 + r) (c.2 * shape.2 + s) b (flatIndex c.1 r).2 (flatIndex c.2 s).2]
      rw [mul_div_assoc, Finset.sum_div]
      congr 1
      refine Finset.sum_congr rfl fun p _ => ?_
      have e1 : ((c.1 * shape.1 + r : ℕ) : ℝ) / shape.1 = c.1 + (r : ℕ) / (shape.1 : ℝ) := by
        push_cast; field_simp
      have e2 : ((c.2 * shape.2 + s : ℕ) : ℝ) / shape.2 = c.2 + (s : ℕ) / (shape.2 : ℝ) := by
        push_cast; field_simp
      rw [e1, e2]
      have hpw := planeWaveSum_latticePoint (l := L p) (by unfold cellArea; rw [hlat]; exact hu) (fun m => C p m b)
        (c.1 + (r : ℕ) / (shape.1 : ℝ)) (c.2 + (s : ℕ) / (shape.2 : ℝ))
      rw [hlat] at hpw
      rw [hpw, hexp]
      have hfs : ∑ m, C p m b * Complex.exp (2 * Real.pi * Complex.I *
          ((G m).1 * (((c.1 : ℕ) + (r : ℕ) / (shape.1 : ℝ) : ℝ) : ℂ) +
            (G m).2 * (((c.2 : ℕ) + (s : ℕ) / (shape.2 : ℝ) : ℝ) : ℂ))) =
          fourierSeries G (fun m => C p m b) shape.1 shape.2 r s := by
        unfold fourierSeries
        rw [Matrix.of_apply]
        exact Finset.sum_congr rfl fun m _ => by rw [exp_lattice_planeWave]
      rw [hfs, mul_div_assoc, mul_assoc, ← Complex.exp_sub, ← Complex.exp_add]
      congr 2
      simp only [dot, latticePoint, Prod.smul_fst, Prod.smul_snd, Prod.fst_add, Prod.snd_add, smul_eq_mul, Prod.fst_sub,
        Prod.snd_sub]
      push_cast
      ring
    rw [Finset.sum_congr rfl fun c _ => step c, ← Finset.mul_sum, Finset.sum_comm]
    simp only [← Finset.mul_sum, orth]
    rw [Finset.sum_eq_single p₀ (fun p _ hp => by rw [if_neg hp, mul_zero]) (fun h => absurd (Finset.mem_univ _) h), if_pos rfl]
    have hc1' : (cells.1 : ℂ) ≠ 0 := by exact_mod_cast hc1
    have hc2' : (cells.2 : ℂ) ≠ 0 := by exact_mod_cast hc2
    have hz : ∀ w : ℝ × ℝ, dot 0 w = 0 := fun w => by simp [dot]
    rw [sub_self, hz]
    simp only [Complex.ofReal_zero, mul_zero, Complex.exp_zero, mul_one]
    field_simp
  rw [key, fourierCoefficient_series hres hG]

theorem fieldConversionMatrix_eq_ok {l : LayerSolveResult ι} {A} :
    fieldConversionMatrix l = .ok A ↔ WellPosed l ∧ (∀ i, l.eigenvalues i ≠ 0) ∧
      A = Matrix.fromBlocks (electricModes l) (-electricModes l) l.eigenvectors l.eigenvectors := by
  unfold fieldConversionMatrix
  simp only [bind_eq_ok, poyntingFluxAMatrix_eq_ok, ok_inj]
  constructor
  · rintro ⟨_, ⟨h1, h2, rfl⟩, rfl⟩
    exact ⟨h1, h2, rfl⟩
  · rintro ⟨h1, h2, rfl⟩
    exact ⟨_, ⟨h1, h2, rfl⟩, rfl⟩

end Fmmax
