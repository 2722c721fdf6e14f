import Verif.Proofs.LayerMap
import Verif.Props.Fields

/-! Layers in other coordinates: from the media to the modes. -/

set_option linter.unusedSectionVars false

namespace Fmmax

open Matrix Spec

variable {ι : Type} [Fintype ι] [DecidableEq ι] {s : ℝ}

theorem isForwardRoot_scale {w q : ℂ} (h : IsForwardRoot w q) (hs : 0 < s) : IsForwardRoot (s ^ 2 * w) (s * q) := by
  obtain ⟨h1, h2, h3⟩ := h
  refine ⟨by rw [mul_pow, h1], ?_, ?_⟩
  · simp only [Complex.mul_im, Complex.ofReal_re, Complex.ofReal_im, zero_mul, add_zero]; positivity
  · simp only [Complex.mul_im, Complex.mul_re, Complex.ofReal_re, Complex.ofReal_im, zero_mul, add_zero, sub_zero]
    intro h
    have := h3 (by rcases mul_eq_zero.1 h with h | h <;> [exact absurd h hs.ne'; exact h])
    positivity

/-- The operator of the mode equation. -/
noncomputable def modeOperator (l : LayerSolveResult ι) (E : ModeMatrix ι) : ModeMatrix ι :=
  E * magneticToElectric l - divergenceMatrix l * l.transversePermeabilityMatrix

theorem layerMap_of_solved {R E E' : ModeMatrix ι} {l l' : LayerSolveResult ι} (hs : 0 < s) (hR : IsUnit R.det) (hl : SolvedFor l E)
    (hl' : SolvedFor l' E') (hf : ∀ i, IsForwardRoot (l.eigenvalues i ^ 2) (l.eigenvalues i))
    (hf' : ∀ i, IsForwardRoot (l'.eigenvalues i ^ 2) (l'.eigenvalues i)) (hφ : IsUnit l.eigenvectors.det)
    (hφ' : IsUnit l'.eigenvectors.det) (hE : magneticToElectric l' * R = (s : ℂ) ^ 2 • (R * magneticToElectric l))
    (hop : modeOperator l' E' * R = (s : ℂ) ^ 2 • (R * modeOperator l E)) :
    LayerMap R s l l' (l.eigenvectors⁻¹ * R⁻¹ * l'.eigenvectors) := by
  have hRR : R * R⁻¹ = 1 := mul_nonsing_inv _ hR
  have hRR' : R⁻¹ * R = 1 := nonsing_inv_mul _ hR
  have hPP : l.eigenvectors * l.eigenvectors⁻¹ = 1 := mul_nonsing_inv _ hφ
  have hPP' : l.eigenvectors⁻¹ * l.eigenvectors = 1 := nonsing_inv_mul _ hφ
  refine ⟨fun _ => hl'.wellPosed, hE, ?_, ?_, ?_⟩
  · calc l'.eigenvectors = R * (l.eigenvectors * l.eigenvectors⁻¹) * R⁻¹ * l'.eigenvectors := by
          rw [hPP, Matrix.mul_one, hRR, Matrix.one_mul]
      _ = _ := by mat_module
  · have h1 : modeOperator l E * l.eigenvectors = l.eigenvectors * diagonal fun i => l.eigenvalues i ^ 2 := hl.modes
    have h2 : modeOperator l' E' * l'.eigenvectors = l'.eigenvectors * diagonal fun i => l'.eigenvalues i ^ 2 := hl'.modes
    have h3 : R⁻¹ * modeOperator l' E' = (s : ℂ) ^ 2 • (modeOperator l E * R⁻¹) := by
      calc R⁻¹ * modeOperator l' E' = R⁻¹ * (modeOperator l' E' * R) * R⁻¹ := by
            rw [Matrix.mul_assoc, Matrix.mul_assoc, hRR, Matrix.mul_one]
        _ = (s : ℂ) ^ 2 • ((R⁻¹ * R) * modeOperator l E * R⁻¹) := by rw [hop]; mat_module
        _ = _ := by rw [hRR', Matrix.one_mul]
    have h4 : l.eigenvectors⁻¹ * modeOperator l E = (diagonal fun i => l.eigenvalues i ^ 2) * l.eigenvectors⁻¹ := by
      calc l.eigenvectors⁻¹ * modeOperator l E = l.eigenvectors⁻¹ * (modeOperator l E * l.eigenvectors) * l.eigenvectors⁻¹ := by
            rw [Matrix.mul_assoc, Matrix.mul_assoc, hPP, Matrix.mul_one]
        _ = (l.eigenvectors⁻¹ * l.eigenvectors) * (diagonal fun i => l.eigenvalues i ^ 2) * l.eigenvectors⁻¹ := by rw [h1]; mat_module
        _ = _ := by rw [hPP', Matrix.one_mul]
    have key : l.eigenvectors⁻¹ * R⁻¹ * l'.eigenvectors * (diagonal fun i => l'.eigenvalues i ^ 2) =
        (s : ℂ) ^ 2 • ((diagonal fun i => l.eigenvalues i ^ 2) * (l.eigenvectors⁻¹ * R⁻¹ * l'.eigenvectors)) := by
      calc l.eigenvectors⁻¹ * R⁻¹ * l'.eigenvectors * (diagonal fun i => l'.eigenvalues i ^ 2)
          = l.eigenvectors⁻¹ * R⁻¹ * (l'.eigenvectors * (diagonal fun i => l'.eigenvalues i ^ 2)) := by mat_module
        _ = l.eigenvectors⁻¹ * (R⁻¹ * modeOperator l' E') * l'.eigenvectors := by rw [← h2]; mat_module
        _ = (s : ℂ) ^ 2 • ((l.eigenvectors⁻¹ * modeOperator l E) * R⁻¹ * l'.eigenvectors) := by rw [h3]; mat_module
        _ = _ := by rw [h4]; mat_module
    intro i j hT
    have hij := congrFun (congrFun key i) j
    rw [mul_diagonal, Matrix.smul_apply, diagonal_mul, smul_eq_mul] at hij
    have e : l'.eigenvalues j ^ 2 = (s : ℂ) ^ 2 * l.eigenvalues i ^ 2 := by
      apply mul_left_cancel₀ hT
      rw [hij]; ring
    have f1 := isForwardRoot_scale (hf i) hs
    have f2 := hf' j
    rw [e] at f2
    exact isForwardRoot_unique f2 f1
  · rw [det_mul, det_mul, det_nonsing_inv, det_nonsing_inv]
    exact (hφ.ringInverse.mul hR.ringInverse).mul hφ'

/-! ### The transformation of Fourier coefficients -/

/-- The matrix which transforms the Fourier coefficients of a vector field: components by `O`, orders by `Q`. -/
def vectorTransform (O : Matrix (Fin 2) (Fin 2) ℝ) (Q : Matrix ι ι ℂ) : ModeMatrix ι :=
  fromBlocks ((O 0 0 : ℂ) • Q) ((O 0 1 : ℂ) • Q) ((O 1 0 : ℂ) • Q) ((O 1 1 : ℂ) • Q)

theorem orthogonal_entries {O : Matrix (Fin 2) (Fin 2) ℝ} (hO : Oᵀ * O = 1) :
    O 0 0 * O 0 0 + O 1 0 * O 1 0 = 1 ∧ O 0 0 * O 0 1 + O 1 0 * O 1 1 = 0 ∧ O 0 1 * O 0 1 + O 1 1 * O 1 1 = 1 ∧
      O 1 1 = O.det * O 0 0 ∧ O 1 0 = -(O.det * O 0 1) ∧ O 0 1 = -(O.det * O 1 0) ∧ O 0 0 = O.det * O 1 1 ∧ O.det ^ 2 = 1 := by
  have h00 := congrFun (congrFun hO 0) 0
  have h01 := congrFun (congrFun hO 0) 1
  have h11 := congrFun (congrFun hO 1) 1
  simp only [Matrix.mul_apply, Fin.sum_univ_two, Matrix.transpose_apply, Matrix.one_apply_eq, ne_eq, zero_ne_one, not_false_eq_true,
    Matrix.one_apply_ne] at h00 h01 h11
  rw [det_fin_two]
  refine ⟨h00, h01, h11, ?_, ?_, ?_, ?_, ?_⟩
  · linear_combination O 1 0 * h01 - O 1 1 * h00
  · linear_combination O 1 1 * h01 - O 1 0 * h11
  · linear_combination O 0 0 * h01 - O 0 1 * h00
  · linear_combination O 0 1 * h01 - O 0 0 * h11
  · linear_combination (O 0 0 * O 0 0 + O 1 0 * O 1 0) * h11 + h00 - (O 0 0 * O 0 1 + O 1 0 * O 1 1) * h01

theorem vectorTransform_mul (O P : Matrix (Fin 2) (Fin 2) ℝ) (Q U : Matrix ι ι ℂ) :
    vectorTransform O Q * vectorTransform P U = vectorTransform (O * P) (Q * U) := by
  simp only [vectorTransform, fromBlocks_multiply, smul_mul_smul_comm, ← add_smul, Matrix.mul_apply, Fin.sum_univ_two, Complex.ofReal_add,
    Complex.ofReal_mul]

theorem vectorTransform_one : vectorTransform (1 : Matrix (Fin 2) (Fin 2) ℝ) (1 : Matrix ι ι ℂ) = 1 := by
  simp [vectorTransform, fromBlocks_one]

theorem vectorTransform_inv {O : Matrix (Fin 2) (Fin 2) ℝ} (hO : Oᵀ * O = 1) {Q : Matrix ι ι ℂ} (hQ : IsUnit Q.det) :
    IsUnit (vectorTransform O Q).det ∧ (vectorTransform O Q)⁻¹ = vectorTransform Oᵀ Q⁻¹ := by
  have h : vectorTransform Oᵀ Q⁻¹ * vectorTransform O Q = 1 := by
    rw [vectorTransform_mul, hO, nonsing_inv_mul _ hQ, vectorTransform_one]
  exact ⟨isUnit_det_of_left_inverse h, inv_eq_left_inv h⟩

/-- The wavevectors, the frequency and the media of `l'` are those of `l` transformed by `s`, `O` and `Q`. -/
structure MediumMap (s : ℝ) (O : Matrix (Fin 2) (Fin 2) ℝ) (Q : Matrix ι ι ℂ) (l l' : LayerSolveResult ι) (E E' : ModeMatrix ι) : Prop where
  wavelength : l.wavelength = s * l'.wavelength
  kx : diagonal (fun i => ((orderWavevector l' i).1 : ℂ)) * Q = (s : ℂ) • (Q * ((O 0 0 : ℂ) • diagonal (fun i => ((orderWavevector l i).1 : ℂ)) +
    (O 0 1 : ℂ) • diagonal (fun i => ((orderWavevector l i).2 : ℂ))))
  ky : diagonal (fun i => ((orderWavevector l' i).2 : ℂ)) * Q = (s : ℂ) • (Q * ((O 1 0 : ℂ) • diagonal (fun i => ((orderWavevector l i).1 : ℂ)) +
    (O 1 1 : ℂ) • diagonal (fun i => ((orderWavevector l i).2 : ℂ))))
  zPermittivity : l'.zPermittivityMatrix * Q = Q * l.zPermittivityMatrix
  zPermeability : l'.zPermeabilityMatrix * Q = Q * l.zPermeabilityMatrix
  transversePermeability : l'.transversePermeabilityMatrix * vectorTransform O Q = vectorTransform O Q * l.transversePermeabilityMatrix
  transversePermittivity : E' * vectorTransform O Q = vectorTransform O Q * E

theorem inv_intertwine {Q A B : Matrix ι ι ℂ} (hA : IsUnit A.det) (hB : IsUnit B.det) (h : B * Q = Q * A) : B⁻¹ * Q = Q * A⁻¹ := by
  calc B⁻¹ * Q = B⁻¹ * (Q * A) * A⁻¹ := by rw [Matrix.mul_assoc, Matrix.mul_assoc, mul_nonsing_inv _ hA, Matrix.mul_one]
    _ = (B⁻¹ * B) * Q * A⁻¹ := by rw [← h]; mat_module
    _ = _ := by rw [nonsing_inv_mul _ hB, Matrix.one_mul]

/-- Outer products of wavevectors. -/
theorem script_transform {s a b c d δ : ℂ} {X Y X' Y' Z Z' Q : Matrix ι ι ℂ} (hX : X' * Q = s • (Q * (a • X + b • Y)))
    (hY : Y' * Q = s • (Q * (c • X + d • Y))) (hZ : Z' * Q = Q * Z) (hδ : δ = a * d - b * c) (h1 : d = δ * a) (h2 : c = -(δ * b)) (h3 : b = -(δ * c))
    (h4 : a = δ * d) :
    fromBlocks (Y' * Z' * Y') (-(Y' * Z' * X')) (-(X' * Z' * Y')) (X' * Z' * X') * fromBlocks (a • Q) (b • Q) (c • Q) (d • Q) =
      s ^ 2 • (fromBlocks (a • Q) (b • Q) (c • Q) (d • Q) * fromBlocks (Y * Z * Y) (-(Y * Z * X)) (-(X * Z * Y)) (X * Z * X)) := by
  have t : ∀ {U' U V' V : Matrix ι ι ℂ}, U' * Q = s • (Q * U) → V' * Q = s • (Q * V) → U' * Z' * V' * Q = s ^ 2 • (Q * U * Z * V) := by
    intro U' U V' V hU hV
    calc U' * Z' * V' * Q = U' * Z' * (V' * Q) := by mat_module
      _ = s • (U' * (Z' * Q) * V) := by rw [hV]; mat_module
      _ = s • ((U' * Q) * Z * V) := by rw [hZ]; mat_module
      _ = _ := by rw [hU]; mat_module
  rw [fromBlocks_multiply, fromBlocks_multiply, fromBlocks_smul]
  simp only [Matrix.mul_smul, Matrix.neg_mul, t hX hX, t hX hY, t hY hX, t hY hY]
  have h3' : δ * c = -b := by rw [h3]; ring
  have h1' : δ * a = d := h1.symm
  have h2' : δ * b = -c := by rw [h2]; ring
  have h4' : δ * d = a := h4.symm
  have eY : a • (c • X + d • Y) - c • (a • X + b • Y) = δ • Y := by rw [hδ]; module
  have eX : b • (c • X + d • Y) - d • (a • X + b • Y) = -(δ • X) := by rw [hδ]; module
  have fY : δ • (c • X + d • Y) = a • Y - b • X := by rw [smul_add, smul_smul, smul_smul, h3', h4']; module
  have fX : δ • (a • X + b • Y) = d • X - c • Y := by rw [smul_add, smul_smul, smul_smul, h1', h2']; module
  congr 1
  · calc _ = s ^ 2 • (Q * (c • X + d • Y) * Z * (a • (c • X + d • Y) - c • (a • X + b • Y))) := by mat_module
      _ = s ^ 2 • (Q * (δ • (c • X + d • Y)) * Z * Y) := by rw [eY]; mat_module
      _ = _ := by rw [fY]; mat_module
  · calc _ = s ^ 2 • (Q * (c • X + d • Y) * Z * (b • (c • X + d • Y) - d • (a • X + b • Y))) := by mat_module
      _ = -(s ^ 2 • (Q * (δ • (c • X + d • Y)) * Z * X)) := by rw [eX]; mat_module
      _ = _ := by rw [fY]; mat_module
  · calc _ = -(s ^ 2 • (Q * (a • X + b • Y) * Z * (a • (c • X + d • Y) - c • (a • X + b • Y)))) := by mat_module
      _ = -(s ^ 2 • (Q * (δ • (a • X + b • Y)) * Z * Y)) := by rw [eY]; mat_module
      _ = _ := by rw [fX]; mat_module
  · calc _ = -(s ^ 2 • (Q * (a • X + b • Y) * Z * (b • (c • X + d • Y) - d • (a • X + b • Y)))) := by mat_module
      _ = s ^ 2 • (Q * (δ • (a • X + b • Y)) * Z * X) := by rw [eX]; mat_module
      _ = _ := by rw [fX]; mat_module

theorem divergence_transform {s a b c d : ℂ} {X Y X' Y' Z Z' Q : Matrix ι ι ℂ} (hX : X' * Q = s • (Q * (a • X + b • Y)))
    (hY : Y' * Q = s • (Q * (c • X + d • Y))) (hZ : Z' * Q = Q * Z) (h1 : a * a + c * c = 1) (h2 : a * b + c * d = 0) (h3 : b * b + d * d = 1) :
    fromBlocks (X' * Z' * X') (X' * Z' * Y') (Y' * Z' * X') (Y' * Z' * Y') * fromBlocks (a • Q) (b • Q) (c • Q) (d • Q) =
      s ^ 2 • (fromBlocks (a • Q) (b • Q) (c • Q) (d • Q) * fromBlocks (X * Z * X) (X * Z * Y) (Y * Z * X) (Y * Z * Y)) := by
  have t : ∀ {U' U V' V : Matrix ι ι ℂ}, U' * Q = s • (Q * U) → V' * Q = s • (Q * V) → U' * Z' * V' * Q = s ^ 2 • (Q * U * Z * V) := by
    intro U' U V' V hU hV
    calc U' * Z' * V' * Q = U' * Z' * (V' * Q) := by mat_module
      _ = s • (U' * (Z' * Q) * V) := by rw [hV]; mat_module
      _ = s • ((U' * Q) * Z * V) := by rw [hZ]; mat_module
      _ = _ := by rw [hU]; mat_module
  have eX : a • (a • X + b • Y) + c • (c • X + d • Y) = X := by
    calc _ = (a * a + c * c) • X + (a * b + c * d) • Y := by module
      _ = X := by rw [h1, h2, one_smul, zero_smul, add_zero]
  have eY : b • (a • X + b • Y) + d • (c • X + d • Y) = Y := by
    calc _ = (a * b + c * d) • X + (b * b + d * d) • Y := by module
      _ = Y := by rw [h2, h3, one_smul, zero_smul, zero_add]
  rw [fromBlocks_multiply, fromBlocks_multiply, fromBlocks_smul]
  simp only [Matrix.mul_smul, t hX hX, t hX hY, t hY hX, t hY hY]
  congr 1
  · calc _ = s ^ 2 • (Q * (a • X + b • Y) * Z * (a • (a • X + b • Y) + c • (c • X + d • Y))) := by mat_module
      _ = _ := by rw [eX]; mat_module
  · calc _ = s ^ 2 • (Q * (a • X + b • Y) * Z * (b • (a • X + b • Y) + d • (c • X + d • Y))) := by mat_module
      _ = _ := by rw [eY]; mat_module
  · calc _ = s ^ 2 • (Q * (c • X + d • Y) * Z * (a • (a • X + b • Y) + c • (c • X + d • Y))) := by mat_module
      _ = _ := by rw [eX]; mat_module
  · calc _ = s ^ 2 • (Q * (c • X + d • Y) * Z * (b • (a • X + b • Y) + d • (c • X + d • Y))) := by mat_module
      _ = _ := by rw [eY]; mat_module

variable {O : Matrix (Fin 2) (Fin 2) ℝ} {Q : Matrix ι ι ℂ} {l l' : LayerSolveResult ι} {E E' : ModeMatrix ι}

theorem MediumMap.electric (h : MediumMap s O Q l l' E E') (hs : s ≠ 0) (hO : Oᵀ * O = 1) (hl : IsUnit l.zPermittivityMatrix.det)
    (hl' : IsUnit l'.zPermittivityMatrix.det) :
    magneticToElectric l' * vectorTransform O Q = (s : ℂ) ^ 2 • (vectorTransform O Q * magneticToElectric l) := by
  obtain ⟨-, -, -, o1, o2, o3, o4, -⟩ := orthogonal_entries hO
  have hsc : (s : ℂ) ≠ 0 := by exact_mod_cast hs
  have hw : (omega l' : ℂ) ^ 2 = (s : ℂ) ^ 2 * (omega l : ℂ) ^ 2 := by
    have : omega l' = s * omega l := by
      unfold omega
      rw [h.wavelength]
      rcases eq_or_ne l'.wavelength 0 with h0 | h0
      · simp [h0]
      · field_simp
    rw [this]; push_cast; ring
  have key := script_transform h.kx h.ky (inv_intertwine hl hl' h.zPermittivity) (δ := (O.det : ℂ)) (by rw [det_fin_two]; push_cast; ring)
    (by exact_mod_cast o1) (by exact_mod_cast o2) (by exact_mod_cast o3) (by exact_mod_cast o4)
  unfold magneticToElectric
  simp only [Matrix.sub_mul, Matrix.mul_sub, smul_sub, Matrix.smul_mul, Matrix.mul_smul, h.transversePermeability, smul_smul, hw]
  rw [show vectorTransform O Q = fromBlocks ((O 0 0 : ℂ) • Q) ((O 0 1 : ℂ) • Q) ((O 1 0 : ℂ) • Q) ((O 1 1 : ℂ) • Q) from rfl, key]

theorem MediumMap.divergence (h : MediumMap s O Q l l' E E') (hO : Oᵀ * O = 1) (hl : IsUnit l.zPermeabilityMatrix.det)
    (hl' : IsUnit l'.zPermeabilityMatrix.det) :
    divergenceMatrix l' * vectorTransform O Q = (s : ℂ) ^ 2 • (vectorTransform O Q * divergenceMatrix l) := by
  obtain ⟨o1, o2, o3, -⟩ := orthogonal_entries hO
  exact divergence_transform h.kx h.ky (inv_intertwine hl hl' h.zPermeability) (by exact_mod_cast o1) (by exact_mod_cast o2) (by exact_mod_cast o3)

theorem MediumMap.modeOperator (h : MediumMap s O Q l l' E E') (hs : s ≠ 0) (hO : Oᵀ * O = 1) (hl : IsUnit l.zPermittivityMatrix.det)
    (hl' : IsUnit l'.zPermittivityMatrix.det) (hm : IsUnit l.zPermeabilityMatrix.det) (hm' : IsUnit l'.zPermeabilityMatrix.det) :
    modeOperator l' E' * vectorTransform O Q = (s : ℂ) ^ 2 • (vectorTransform O Q * modeOperator l E) := by
  unfold Fmmax.modeOperator
  rw [Matrix.sub_mul, Matrix.mul_assoc, h.electric hs hO hl hl', Matrix.mul_assoc, h.transversePermeability, Matrix.mul_smul,
    ← Matrix.mul_assoc, h.transversePermittivity, ← Matrix.mul_assoc, h.divergence hO hm hm']
  mat_module

theorem det_intertwine {n : Type} [Fintype n] [DecidableEq n] {Q A B : Matrix n n ℂ} (hQ : IsUnit Q.det) (h : B * Q = Q * A) : B.det = A.det := by
  have := congrArg det h
  rw [det_mul, det_mul, mul_comm] at this
  exact mul_left_cancel₀ hQ.ne_zero this

/-- Solved layers with corresponding media correspond. -/
theorem MediumMap.layerMap (h : MediumMap s O Q l l' E E') (hs : 0 < s) (hO : Oᵀ * O = 1) (hQ : IsUnit Q.det) (hl : SolvedFor l E)
    (hl' : SolvedFor l' E') (hf : ∀ i, IsForwardRoot (l.eigenvalues i ^ 2) (l.eigenvalues i))
    (hf' : ∀ i, IsForwardRoot (l'.eigenvalues i ^ 2) (l'.eigenvalues i)) (hφ : IsUnit l.eigenvectors.det)
    (hφ' : IsUnit l'.eigenvectors.det) :
    LayerMap (vectorTransform O Q) s l l' (l.eigenvectors⁻¹ * (vectorTransform O Q)⁻¹ * l'.eigenvectors) :=
  layerMap_of_solved hs (vectorTransform_inv hO hQ).1 hl hl' hf hf' hφ hφ'
    (h.electric hs.ne' hO hl.wellPosed.2.2 hl'.wellPosed.2.2)
    (h.modeOperator hs.ne' hO hl.wellPosed.2.2 hl'.wellPosed.2.2 hl.zPermeability hl'.zPermeability)

end Fmmax
