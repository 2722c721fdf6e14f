import Verif.Proofs.Smooth
import Mathlib.Analysis.Calculus.InverseFunctionTheorem.ContDiff
import Mathlib.Analysis.Normed.Algebra.MatrixExponential
import Mathlib.Analysis.Normed.Algebra.Spectrum
import Mathlib.LinearAlgebra.Eigenspace.Matrix

/-!
Square roots and exponentials of matrices depend smoothly on parameters.  The root is singled out by its spectrum lying in an open
half-plane; no assumption is made about how its eigenvectors depend on the parameters.
-/

namespace Fmmax

open Matrix Spec Topology

variable {E : Type} [NormedAddCommGroup E] [NormedSpace ℝ E] {k : WithTop ℕ∞} {x : E}
variable {n : Type} [Fintype n] [DecidableEq n]

section Norm

attribute [local instance] Matrix.linftyOpNormedRing Matrix.linftyOpNormedAlgebra

theorem contDiffAt_matrix_iff {A : E → Matrix n n ℂ} : SmoothMat k x A ↔ ContDiffAt ℝ k A x := by
  constructor
  · intro hA
    have e : A = fun y => ∑ i, ∑ j, A y i j • Matrix.single i j (1 : ℂ) := by
      funext y
      conv_lhs => rw [matrix_eq_sum_single (A y)]
      simp
    rw [e]
    exact ContDiffAt.sum fun i _ => ContDiffAt.sum fun j _ => (hA i j).smul contDiffAt_const
  · intro hA i j
    exact (LinearMap.toContinuousLinearMap (Matrix.entryLinearMap ℝ ℂ i j)).contDiff.contDiffAt.comp x hA

/-- The spectrum of matrices near a given one lies in a given neighbourhood of the spectrum of that one. -/
theorem Spec.SmoothMat.eventually_spectrum {A : E → Matrix n n ℂ} (hA : SmoothMat k x A) {U : Set ℂ} (hU : IsOpen U)
    (h : spectrum ℂ (A x) ⊆ U) : ∀ᶠ y in 𝓝 x, spectrum ℂ (A y) ⊆ U := by
  have hc : ContinuousAt A x := (contDiffAt_matrix_iff.1 hA).continuousAt
  have := upperHemicontinuous_spectrum ℂ (Matrix n n ℂ) (A x) U (hU.mem_nhdsSet.2 h)
  filter_upwards [hc.eventually this] with y hy
  exact subset_of_mem_nhdsSet hy

/-- Matrices similar to a diagonal one. -/
theorem spectrum_conj_diagonal {φ : Matrix n n ℂ} (hφ : IsUnit φ.det) (q : n → ℂ) :
    spectrum ℂ (φ * diagonal q * φ⁻¹) = Set.range q := by
  obtain ⟨u, rfl⟩ := (Matrix.isUnit_iff_isUnit_det _).2 hφ
  rw [← Matrix.coe_units_inv, spectrum.units_conjugate, spectrum_diagonal]

/-- The Sylvester equation `X Z + Z Y = 0` with diagonalisable `X` has no solution but zero if no eigenvalue of `-X` is one of `Y`. -/
theorem sylvester_eq_zero {φ Y Z : Matrix n n ℂ} {q : n → ℂ} (hφ : IsUnit φ.det) (hY : ∀ i, -q i ∉ spectrum ℂ Y)
    (h : φ * diagonal q * φ⁻¹ * Z + Z * Y = 0) : Z = 0 := by
  have h1 : diagonal q * (φ⁻¹ * Z) + φ⁻¹ * Z * Y = 0 := by
    have := congrArg (φ⁻¹ * ·) h
    simp only [Matrix.mul_add, Matrix.mul_zero, ← Matrix.mul_assoc, nonsing_inv_mul _ hφ, Matrix.one_mul] at this
    rw [← Matrix.mul_assoc]
    exact this
  suffices hW : φ⁻¹ * Z = 0 by
    have := congrArg (φ * ·) hW
    simpa only [← Matrix.mul_assoc, mul_nonsing_inv _ hφ, Matrix.one_mul, Matrix.mul_zero] using this
  generalize φ⁻¹ * Z = W at h1
  ext i j
  have hi := hY i
  rw [spectrum.notMem_iff, Matrix.isUnit_iff_isUnit_det] at hi
  have hrow : W i ᵥ* (algebraMap ℂ (Matrix n n ℂ) (-q i) - Y) = 0 := by
    funext l
    have := congrFun (congrFun h1 i) l
    rw [Matrix.add_apply, diagonal_mul, Matrix.zero_apply] at this
    rw [Matrix.vecMul_sub, Pi.sub_apply, algebraMap_eq_diagonal, vecMul_diagonal, Pi.zero_apply]
    change W i l * -q i - (W * Y) i l = 0
    linear_combination -this
  have := congrArg (· ᵥ* (algebraMap ℂ (Matrix n n ℂ) (-q i) - Y)⁻¹) hrow
  simp only [vecMul_vecMul, mul_nonsing_inv _ hi, vecMul_one, zero_vecMul] at this
  exact congrFun this j

/-- Smooth square roots near a diagonalisable one with no two opposite eigenvalues. -/
theorem Spec.SmoothMat.exists_sqrt {M : E → Matrix n n ℂ} (hM : SmoothMat k x M) {φ : Matrix n n ℂ} {q : n → ℂ} (hφ : IsUnit φ.det)
    (hq : ∀ i j, q i + q j ≠ 0) (hx : φ * diagonal q * φ⁻¹ * (φ * diagonal q * φ⁻¹) = M x) :
    ∃ X : E → Matrix n n ℂ, SmoothMat k x X ∧ X x = φ * diagonal q * φ⁻¹ ∧ ∀ᶠ y in 𝓝 x, X y * X y = M y := by
  set X₀ := φ * diagonal q * φ⁻¹ with hX₀
  let L : Matrix n n ℂ →ₗ[ℝ] Matrix n n ℂ := LinearMap.mulLeft ℝ X₀ + LinearMap.mulRight ℝ X₀
  have hL : Function.Injective L := by
    refine (injective_iff_map_eq_zero L).2 fun Z hZ => ?_
    refine sylvester_eq_zero (q := q) hφ (Y := X₀) ?_ hZ
    intro i
    rw [hX₀, spectrum_conj_diagonal hφ]
    rintro ⟨j, hj⟩
    exact hq i j (by rw [hj]; ring)
  let e : Matrix n n ℂ ≃L[ℝ] Matrix n n ℂ := (LinearEquiv.ofInjectiveEndo L hL).toContinuousLinearEquiv
  have hf : ContDiffAt ℝ ⊤ (fun X : Matrix n n ℂ => X * X) X₀ := contDiffAt_id.mul contDiffAt_id
  have hf' : HasFDerivAt (fun X : Matrix n n ℂ => X * X) (e : Matrix n n ℂ →L[ℝ] Matrix n n ℂ) X₀ := by
    have := (hasFDerivAt_id (𝕜 := ℝ) X₀).mul' (hasFDerivAt_id (𝕜 := ℝ) X₀)
    refine this.congr_fderiv ?_
    ext1 Z
    rfl
  have hsm := hf.to_localInverse hf' (by simp)
  have hat := hf.localInverse_apply_image hf' (by simp)
  have hri := (hf.hasStrictFDerivAt' hf' (by simp)).eventually_right_inverse
  have hMc := contDiffAt_matrix_iff.1 hM
  refine ⟨fun y => hf.localInverse hf' (by simp) (M y), contDiffAt_matrix_iff.2 ?_, ?_, ?_⟩
  · refine ContDiffAt.comp x ?_ hMc
    rw [← hx]
    exact hsm.of_le le_top
  · beta_reduce
    rw [← hx]
    exact hat
  · have : ContinuousAt M x := hMc.continuousAt
    have hri' : ∀ᶠ A in 𝓝 (M x), hf.localInverse hf' (by simp) A * hf.localInverse hf' (by simp) A = A := by
      rw [← hx]
      exact hri
    exact this.eventually hri'

/-- The exponential of a smooth matrix. -/
theorem Spec.SmoothMat.exp {X : E → Matrix n n ℂ} (hX : SmoothMat k x X) : SmoothMat k x fun y => NormedSpace.exp (X y) := by
  rw [contDiffAt_matrix_iff] at hX ⊢
  exact ((NormedSpace.exp_analytic (𝕂 := ℝ) (X x)).contDiffAt).comp x hX

theorem exp_conj_diagonal {φ : Matrix n n ℂ} (hφ : IsUnit φ.det) (q : n → ℂ) (c : ℂ) :
    NormedSpace.exp (c • (φ * diagonal q * φ⁻¹)) = φ * diagonal (fun i => Complex.exp (c * q i)) * φ⁻¹ := by
  have e : c • (φ * diagonal q * φ⁻¹) = φ * diagonal (fun i => c * q i) * φ⁻¹ := by
    rw [← Matrix.smul_mul, ← Matrix.mul_smul, ← diagonal_smul]
    rfl
  rw [e, exp_conj _ _ ((Matrix.isUnit_iff_isUnit_det _).2 hφ), exp_diagonal]
  have h : NormedSpace.exp (fun i => c * q i) = fun i => Complex.exp (c * q i) := by
    funext i
    rw [Pi.coe_exp, Complex.exp_eq_exp_ℂ]
  rw [h]

end Norm

/-- The square root with spectrum in an open half-plane depends smoothly on its square, whatever its eigenvectors do. -/
theorem Spec.SmoothMat.sqrt {M : E → Matrix n n ℂ} (hM : SmoothMat k x M) {φ : E → Matrix n n ℂ} {q : E → n → ℂ} {c : ℂ}
    (hφ : IsUnit (φ x).det) (hq : ∀ᶠ y in 𝓝 x, ∀ i, 0 < (c * q y i).re)
    (hMq : ∀ᶠ y in 𝓝 x, M y * φ y = φ y * diagonal fun i => q y i ^ 2) :
    ∃ X : E → Matrix n n ℂ, SmoothMat k x X ∧
      ∀ᶠ y in 𝓝 x, IsUnit (φ y).det → X y = φ y * diagonal (q y) * (φ y)⁻¹ := by
  have hsq : ∀ y, IsUnit (φ y).det → M y * φ y = (φ y * diagonal fun i => q y i ^ 2) →
      φ y * diagonal (q y) * (φ y)⁻¹ * (φ y * diagonal (q y) * (φ y)⁻¹) = M y := by
    intro y hy h
    calc _ = φ y * diagonal (q y) * ((φ y)⁻¹ * φ y) * diagonal (q y) * (φ y)⁻¹ := by simp only [Matrix.mul_assoc]
      _ = φ y * (diagonal (q y) * diagonal (q y)) * (φ y)⁻¹ := by
        rw [nonsing_inv_mul _ hy, Matrix.mul_one, Matrix.mul_assoc (φ y)]
      _ = φ y * diagonal (fun i => q y i ^ 2) * (φ y)⁻¹ := by
        rw [diagonal_mul_diagonal]
        simp only [pow_two]
      _ = M y * (φ y * (φ y)⁻¹) := by rw [← h, Matrix.mul_assoc]
      _ = M y := by rw [mul_nonsing_inv _ hy, Matrix.mul_one]
  have hq0 := hq.self_of_nhds
  obtain ⟨X, hX, hXx, hXX⟩ := hM.exists_sqrt (q := q x) hφ (fun i j h => by
    have := add_pos (hq0 i) (hq0 j)
    rw [← Complex.add_re, ← mul_add, h] at this
    simp at this) (hsq x hφ hMq.self_of_nhds)
  refine ⟨X, hX, ?_⟩
  have hU : IsOpen {z : ℂ | 0 < (c * z).re} :=
    isOpen_lt continuous_const (Complex.continuous_re.comp (continuous_const.mul continuous_id))
  have hs := hX.eventually_spectrum hU (by
    rw [hXx, spectrum_conj_diagonal hφ]
    rintro _ ⟨i, rfl⟩
    exact hq0 i)
  filter_upwards [hq, hMq, hXX, hs] with y h1 h2 h3 h4 hy
  have := sylvester_eq_zero (Z := φ y * diagonal (q y) * (φ y)⁻¹ - X y) (Y := X y) (q := q y) hy (fun i hi => by
    have a := h4 hi
    have b := h1 i
    simp only [Set.mem_setOf_eq, mul_neg, Complex.neg_re] at a
    linarith) (by
    rw [Matrix.mul_sub, Matrix.sub_mul, h3, hsq y hy h2]
    abel)
  exact (sub_eq_zero.1 this).symm

end Fmmax
