import Verif.Proofs.StackOps
import Mathlib.Tactic.NormNum
import Mathlib.Tactic.FieldSimp

/-! A concrete family of layers (one Fourier order, normal incidence, ω = 1, refractive index `q`), used to show that
hypotheses of the property theorems are satisfiable. -/

set_option linter.unusedSectionVars false

namespace Fmmax.Examples

open Matrix Spec

/-- A uniform layer with refractive index `q` at normal incidence, wavelength `2 π`, unit square cell. -/
noncomputable def exLayer (q : ℂ) : LayerSolveResult (Fin 1) where
  wavelength := 2 * Real.pi
  inPlaneWavevector := (0, 0)
  primitiveLatticeVectors := { u := (1, 0), v := (0, 1) }
  expansion := fun _ => (0, 0)
  eigenvalues := fun _ => q
  eigenvectors := 1
  zPermittivityMatrix := diagonal fun _ => q ^ 2
  inverseZPermittivityMatrix := diagonal fun _ => (q ^ 2)⁻¹
  zPermeabilityMatrix := 1
  inverseZPermeabilityMatrix := 1
  transversePermeabilityMatrix := 1

theorem exLayer_omega (q : ℂ) : omega (exLayer q) = 1 := by
  simp only [omega, exLayer]
  exact div_self (by have := Real.pi_ne_zero; positivity)

theorem exLayer_wellPosed {q : ℂ} (hq : q ≠ 0) : WellPosed (exLayer q) := by
  refine ⟨?_, ?_, ?_⟩
  · simp [exLayer, Real.pi_ne_zero]
  · simp [exLayer, cellArea]
  · simp [exLayer, hq]

theorem exLayer_orderWavevector (q : ℂ) (i : Fin 1) : orderWavevector (exLayer q) i = (0, 0) := by
  simp [exLayer, orderWavevector]

theorem exLayer_magneticToElectric (q : ℂ) : magneticToElectric (exLayer q) = 1 := by
  simp only [magneticToElectric, exLayer_orderWavevector, exLayer_omega]
  simp [exLayer]

theorem exLayer_omegaScriptK {q : ℂ} (hq : q ≠ 0) : (exLayer q).omegaScriptKMatrix = .ok 1 := by
  rw [omegaScriptK_ok_iff]
  exact ⟨exLayer_wellPosed hq, (exLayer_magneticToElectric q).symm⟩

theorem exLayer_propagator (q : ℂ) (d : ℝ) :
    propagator (exLayer q) d = Complex.exp (Complex.I * q * d) • (1 : ModeMatrix (Fin 1)) := by
  simp only [propagator, exLayer]
  ext i j
  by_cases h : i = j <;> simp [h, Matrix.one_apply]

theorem exLayer_interface {p q : ℂ} (hp : p ≠ 0) (hq : q ≠ 0) :
    interfaceMatrices (exLayer p) (exLayer q) =
      .ok (((1 / 2 : ℂ) * (p / q + 1)) • (1 : ModeMatrix (Fin 1)), ((1 / 2 : ℂ) * (1 - p / q)) • 1) := by
  rw [interfaceMatrices_ok_iff]
  have h1 : ∀ c : ℂ, diagonal (fun _ : Fin 1 ⊕ Fin 1 => c) = c • (1 : ModeMatrix (Fin 1)) := by
    intro c; ext i j; by_cases h : i = j <;> simp [h]
  refine ⟨1, 1, diagonal (fun _ => q⁻¹), 1, exLayer_omegaScriptK hp, exLayer_omegaScriptK hq, fun _ => hq, ?_, ?_, ?_,
    ?_, ?_⟩
  · simp [exLayer]
  · simp [exLayer]
  · simp [exLayer]
  · simp only [exLayer, h1]
    rw [Matrix.smul_mul, Matrix.one_mul, smul_smul]
    rw [mul_smul, add_smul, one_smul, div_eq_mul_inv p q]
  · simp only [exLayer, h1]
    rw [Matrix.smul_mul, Matrix.one_mul, smul_smul]
    rw [mul_smul, sub_smul, one_smul, div_eq_mul_inv p q, sub_eq_neg_add]

/-- Appending to a matrix with scalar blocks. -/
theorem exLayer_append {S : ScatteringMatrix (Fin 1)} {p q s11 s12 s21 s22 t11 t12 t21 t22 x y : ℂ} {d d' : ℝ}
    (hp : p ≠ 0) (hq : q ≠ 0) (hl : S.endLayer = exLayer p) (hd : S.endThickness = d)
    (h11 : S.s11 = s11 • 1) (h12 : S.s12 = s12 • 1) (h21 : S.s21 = s21 • 1) (h22 : S.s22 = s22 • 1)
    (hx : Complex.exp (Complex.I * p * d) = x) (hy : Complex.exp (Complex.I * q * d') = y)
    (hne : (1 / 2 : ℂ) * (p / q + 1) - x * s12 * ((1 / 2 : ℂ) * (1 - p / q)) ≠ 0)
    (e11 : ((1 / 2 : ℂ) * (p / q + 1) - x * s12 * ((1 / 2 : ℂ) * (1 - p / q))) * t11 = x * s11)
    (e12 : ((1 / 2 : ℂ) * (p / q + 1) - x * s12 * ((1 / 2 : ℂ) * (1 - p / q))) * t12 =
      (x * s12 * ((1 / 2 : ℂ) * (p / q + 1)) - (1 / 2 : ℂ) * (1 - p / q)) * y)
    (e21 : t21 = s22 * ((1 / 2 : ℂ) * (1 - p / q)) * t11 + s21)
    (e22 : t22 = s22 * ((1 / 2 : ℂ) * (1 - p / q)) * t12 + s22 * ((1 / 2 : ℂ) * (p / q + 1)) * y) :
    appendLayer S (exLayer q) d' = .ok
      { s11 := t11 • 1, s12 := t12 • 1, s21 := t21 • 1, s22 := t22 • 1, startLayer := S.startLayer,
        startThickness := S.startThickness, endLayer := exLayer q, endThickness := d' } := by
  rw [appendLayer_ok_iff]
  refine ⟨?_, rfl, rfl, rfl, rfl⟩
  rw [extendSMatrix_ok_iff, hl]
  refine ⟨_, _, exLayer_interface hp hq, ?_, ?_, ?_, ?_, ?_⟩ <;>
    simp only [hd, exLayer_propagator, hx, hy, h11, h12, h21, h22, Matrix.smul_mul, Matrix.mul_smul, Matrix.one_mul,
      smul_smul, ← sub_smul, ← add_smul]
  · rw [det_smul, det_one, mul_one]
    refine (IsUnit.mk0 _ ?_).pow _
    convert hne using 1; ring
  · congr 1; linear_combination e11
  · congr 1; linear_combination e12
  · congr 1; linear_combination e21
  · congr 1; linear_combination e22

theorem exp_pi (n : ℕ) : Complex.exp (Complex.I * (n : ℂ) * (Real.pi : ℝ)) = (-1) ^ n := by
  have : Complex.I * (n : ℂ) * (Real.pi : ℝ) = (n : ℂ) * (Real.pi * Complex.I) := by ring
  rw [this, Complex.exp_nat_mul, Complex.exp_pi_mul_I]

theorem exp_pi_one : Complex.exp (Complex.I * 1 * (Real.pi : ℝ)) = -1 := by
  simpa using exp_pi 1

theorem exp_pi_two : Complex.exp (Complex.I * 2 * (Real.pi : ℝ)) = 1 := by
  simpa using exp_pi 2

/-- Air / glass: the scattering matrix of the two-layer stack with thicknesses `π`. -/
noncomputable def exS2 : ScatteringMatrix (Fin 1) :=
  { s11 := (-4 / 3 : ℂ) • 1, s12 := (-1 / 3 : ℂ) • 1, s21 := (-1 / 3 : ℂ) • 1, s22 := (2 / 3 : ℂ) • 1,
    startLayer := exLayer 1, startThickness := Real.pi, endLayer := exLayer 2, endThickness := Real.pi }

theorem exStack2 : stackSMatrix [exLayer 1, exLayer 2] [Real.pi, Real.pi] = .ok exS2 := by
  rw [stackSMatrix_cons _ _ _ _ rfl]
  simp only [List.zip_cons_cons, List.zip_nil_left, scanLoop_singleton]
  rw [exLayer_append (S := identitySMatrix (exLayer 1) Real.pi) (p := 1) (q := 2) (s11 := 1) (s12 := 0) (s21 := 0)
    (s22 := 1) (t11 := -4 / 3) (t12 := -1 / 3) (t21 := -1 / 3) (t22 := 2 / 3) (x := -1) (y := 1) one_ne_zero two_ne_zero rfl rfl
    (by simp [identitySMatrix]) (by simp [identitySMatrix]) (by simp [identitySMatrix]) (by simp [identitySMatrix])
    exp_pi_one exp_pi_two (by norm_num) (by norm_num) (by norm_num) (by norm_num) (by norm_num)]
  rfl

/-- A slab of glass in air, each layer of thickness `π` (a half-wave plate: no reflection). -/
noncomputable def exS3 : ScatteringMatrix (Fin 1) :=
  { s11 := (-1 : ℂ) • 1, s12 := (0 : ℂ) • 1, s21 := (0 : ℂ) • 1, s22 := (-1 : ℂ) • 1,
    startLayer := exLayer 1, startThickness := Real.pi, endLayer := exLayer 1, endThickness := Real.pi }

theorem exStack3 : stackSMatrix [exLayer 1, exLayer 2, exLayer 1] [Real.pi, Real.pi, Real.pi] = .ok exS3 := by
  have h := stackSMatrix_append [exLayer 1, exLayer 2] [exLayer 1] [Real.pi, Real.pi] [Real.pi] (by simp) rfl rfl
  have e : (Except.ok exS2 : Res (ScatteringMatrix (Fin 1))) >>= (fun s => scanLoop s [(exLayer 1, Real.pi)]) =
    scanLoop exS2 [(exLayer 1, Real.pi)] := rfl
  simp only [List.cons_append, List.nil_append, List.zip_cons_cons, List.zip_nil_left] at h
  rw [h, exStack2, e, scanLoop_singleton]
  rw [exLayer_append (S := exS2) (p := 2) (q := 1) (s11 := -4 / 3) (s12 := -1 / 3) (s21 := -1 / 3)
    (s22 := 2 / 3) (t11 := -1) (t12 := 0) (t21 := 0) (t22 := -1) (x := 1) (y := -1) two_ne_zero one_ne_zero rfl rfl
    rfl rfl rfl rfl
    exp_pi_two exp_pi_one (by norm_num) (by norm_num) (by norm_num) (by norm_num) (by norm_num)]
  rfl

theorem exRegular (qs : List ℂ) (hq : ∀ q ∈ qs, q ≠ 0) (ds : List ℝ) :
    Regular (2 * Real.pi) ((qs.map exLayer).zip ds) := by
  intro p hp
  have := (List.of_mem_zip hp).1
  rw [List.mem_map] at this
  obtain ⟨q, hq', e⟩ := this
  rw [← e]
  exact ⟨rfl, fun _ => hq q hq'⟩

end Fmmax.Examples
