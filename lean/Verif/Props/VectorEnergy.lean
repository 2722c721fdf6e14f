import Verif.Props.Energy
import Verif.Props.Reciprocity
import Verif.Props.TangentField

/-! Property theorems C42 and C43 for layers solved in a vector formulation: with a constant tangent field they are lossless or
passive like layers solved in the FFT formulation; with a tangent field that varies, a layer of real permittivity need not
conserve energy.  And a finding for C24, on zeros of the tangent field. -/

set_option linter.unusedSectionVars false

namespace Fmmax

open Spec Matrix

variable {nx ny : ℕ} {ι : Type} [Fintype ι] [DecidableEq ι] {β : Type}
variable {eig : Matrix (ι ⊕ ι) (ι ⊕ ι) ℂ → (ι ⊕ ι → ℂ) × Matrix (ι ⊕ ι) (ι ⊕ ι) ℂ}

/-! ### Constant tangent fields -/

/-- The matrices of a layer in a vector formulation with a constant tangent field. -/
theorem constantTangent_matrices {l : LatticeVectors} {ε : Grid nx ny} {G : ι → ℤ × ℤ} (hG : Function.Injective G)
    {fn : Grid nx ny → (ι → ℤ × ℤ) → LatticeVectors → Res (Grid nx ny × Grid nx ny)} {tx ty : ℂ}
    (ht : fn ε G l = .ok (Matrix.of fun _ _ => tx, Matrix.of fun _ _ => ty)) {m : FourierMatrices ι}
    (h : fourierMatricesPatternedIsotropic l ε G (.vector fn) = .ok m) :
    IsUnit (convolution G (Matrix.of fun r s => 1 / ε r s)).det ∧ (∀ r s, ε r s ≠ 0) ∧ m.zPermittivity = convolution G ε ∧
      m.transversePermeability = 1 ∧ m.zPermeability = 1 ∧
      m.transversePermittivity = Matrix.fromBlocks (convolution G ε) 0 0 (convolution G ε) -
        Matrix.fromBlocks (convolution G ε - (convolution G (Matrix.of fun r s => 1 / ε r s))⁻¹) 0 0
          (convolution G ε - (convolution G (Matrix.of fun r s => 1 / ε r s))⁻¹) *
        Matrix.fromBlocks ((tangentTerms tx ty).yy • 1) ((tangentTerms tx ty).yx • 1) ((tangentTerms tx ty).xy • 1)
          ((tangentTerms tx ty).xx • 1) := by
  unfold fourierMatricesPatternedIsotropic transversePermittivityIsotropic transversePermittivityVector at h
  simp only [bind_eq_ok, fourierConvolutionMatrix_ok_iff, ok_inj, diag_const, one_smul, zero_smul, fromBlocks_one, inv_ok_iff, ht] at h
  obtain ⟨_, ⟨_, rfl, _, ⟨hR, rfl⟩, η, hη, _, ⟨-, rfl⟩, _, ⟨hu, rfl⟩, _, ⟨-, rfl⟩, _, ⟨-, rfl⟩, _, ⟨-, rfl⟩, _, ⟨-, rfl⟩, rfl⟩, η', hη', _, ⟨-, rfl⟩, _, ⟨-, rfl⟩, rfl⟩ := h
  obtain ⟨h0, rfl⟩ := recipGrid_ok_iff.1 hη
  refine ⟨hu, h0, rfl, rfl, rfl, ?_⟩
  simp only [of_apply, convolution_const_comm hR hG]

theorem tangentTerms_hermitian (tx ty : ℂ) : (!![(tangentTerms tx ty).yy, (tangentTerms tx ty).yx; (tangentTerms tx ty).xy, (tangentTerms tx ty).xx]).IsHermitian := by
  have hc : ∀ x : ℝ, star (x : ℂ) = x := fun x => Complex.conj_ofReal x
  ext i j
  fin_cases i <;> fin_cases j <;>
    simp [tangentTerms, Matrix.conjTranspose_apply, mul_comm]

theorem convolution_inverse_hermitian {x : Grid nx ny} (hx : ∀ r s, (x r s).im = 0) (G : ι → ℤ × ℤ) :
    ((convolution G (Matrix.of fun r s => 1 / x r s))⁻¹).IsHermitian := by
  refine IsHermitian.inv (convolution_hermitian (fun r s => ?_) G)
  simp [hx r s]

/-- **C42** Layers of real permittivity solved in a vector formulation with a constant tangent field are lossless. -/
theorem C42_vector_lossless (he : IsEig eig) {wavelength : ℝ} {inPlane : ℝ × ℝ} {l : LatticeVectors} {ε : Grid nx ny}
    {G : ι → ℤ × ℤ} (hG : Function.Injective G) {fn : Grid nx ny → (ι → ℤ × ℤ) → LatticeVectors → Res (Grid nx ny × Grid nx ny)}
    {tx ty : ℂ} (ht : fn ε G l = .ok (Matrix.of fun _ _ => tx, Matrix.of fun _ _ => ty)) {r : LayerSolveResult ι}
    (h : eigensolveIsotropicMedia eig wavelength inPlane l ε G (.vector fn) = .ok r) (hε : ∀ i j, (ε i j).im = 0) :
    LosslessLayer r := by
  unfold eigensolveIsotropicMedia at h
  split_ifs at h with hn
  · exact C42_uniform_lossless h (hε _ _)
  · unfold eigensolvePatternedIsotropic at h
    obtain ⟨m, hm, h⟩ := bind_eq_ok.1 h
    obtain ⟨-, -, e1, e2, e3, e4⟩ := constantTangent_matrices hG ht hm
    obtain ⟨hs, -, f2, f3, f4, -, -⟩ := numerical_solvedFor he h
    have hT : (convolution G ε).IsHermitian := convolution_hermitian hε G
    have hD := hT.sub (convolution_inverse_hermitian hε G)
    refine ⟨_, hs, ?_, ?_, ?_, ?_⟩
    · rw [e4]
      refine (isotropic_blocks_hermitian hT).sub ?_
      unfold Matrix.IsHermitian
      rw [conjTranspose_mul, isotropic_blocks_hermitian hD, blocks_scalar_hermitian (tangentTerms_hermitian tx ty)]
      simp [fromBlocks_multiply]
    · rw [f2, e2]; exact Matrix.isHermitian_one
    · rw [f3, e1]; exact hT
    · rw [f4, e3]; exact Matrix.isHermitian_one

/-- The anisotropic construction with a constant rotation, for Hermitian tensors. -/
theorem rotated_hermitian {tensor : Fin nx → Fin ny → Matrix (Fin 2) (Fin 2) ℂ} (hT : ∀ r s, (tensor r s).IsHermitian) {p q : ℂ}
    {t00 t01 t10 t11 : Grid nx ny} (h00 : t00 = Matrix.of fun _ _ => p) (h01 : t01 = Matrix.of fun _ _ => q)
    (h10 : t10 = Matrix.of fun _ _ => -star q) (h11 : t11 = Matrix.of fun _ _ => star p) {G : ι → ℤ × ℤ}
    (hG : Function.Injective G) {E : ModeMatrix ι} (h : rotatedFourierMatrix tensor t00 t01 t10 t11 G = .ok E) : E.IsHermitian := by
  subst h00 h01 h10 h11
  unfold rotatedFourierMatrix rotationMatrices at h
  simp only [bind_eq_ok, fourierConvolutionMatrix_ok_iff, inv_ok_iff, ok_inj, allOk_eq_ok, Prod.exists, Prod.mk.injEq, solve_eq_ok] at h
  obtain ⟨_, _, _, ⟨_, ⟨hR, rfl⟩, _, ⟨-, rfl⟩, _, ⟨-, rfl⟩, _, ⟨-, rfl⟩, _, ⟨-, rfl⟩, _, ⟨-, rfl⟩, _, ⟨-, rfl⟩, _, ⟨-, rfl⟩, rfl, rfl, rfl⟩,
    X, hX, _, ⟨-, rfl⟩, _, ⟨-, rfl⟩, _, ⟨-, rfl⟩, η, hη, _, ⟨-, rfl⟩, _, ⟨hu, rfl⟩, rfl⟩ := h
  obtain ⟨h0, rfl⟩ := recipGrid_ok_iff.1 hη
  simp only [of_apply] at hX ⊢
  have hn : p * star p - -star q * q = ((‖p‖ ^ 2 + ‖q‖ ^ 2 : ℝ) : ℂ) := by
    rw [Complex.star_def, Complex.mul_conj, Complex.normSq_eq_norm_sq, neg_mul, sub_neg_eq_add, mul_comm _ q, Complex.mul_conj,
      Complex.normSq_eq_norm_sq]
    push_cast
    rfl
  have hXh : ∀ r s, (X (r, s)).IsHermitian := by
    intro r s
    obtain ⟨hd, hX⟩ := hX (r, s)
    have hn0 : ((‖p‖ ^ 2 + ‖q‖ ^ 2 : ℝ) : ℂ) ≠ 0 := by
      rw [det_fin_two] at hd
      simp only [of_apply, cons_val_zero, cons_val_one, cons_val', cons_val_fin_one] at hd
      rw [← hn]
      refine fun h0 => hd.ne_zero ?_
      linear_combination h0
    have e1 : (!![p, q; -star q, star p] : Matrix (Fin 2) (Fin 2) ℂ)ᴴ * !![p, q; -star q, star p] = ((‖p‖ ^ 2 + ‖q‖ ^ 2 : ℝ) : ℂ) • 1 := by
      rw [← hn]
      ext i j
      fin_cases i <;> fin_cases j <;> simp [Matrix.mul_apply, Fin.sum_univ_two] <;> ring
    have e2 : ((‖p‖ ^ 2 + ‖q‖ ^ 2 : ℝ) : ℂ) • X (r, s) = (!![p, q; -star q, star p] : Matrix (Fin 2) (Fin 2) ℂ)ᴴ * tensor r s * !![p, q; -star q, star p] := by
      rw [Matrix.mul_assoc, ← hX, ← Matrix.mul_assoc, e1, Matrix.smul_mul, Matrix.one_mul]
    have e3 : (((‖p‖ ^ 2 + ‖q‖ ^ 2 : ℝ) : ℂ) • X (r, s))ᴴ = ((‖p‖ ^ 2 + ‖q‖ ^ 2 : ℝ) : ℂ) • X (r, s) := by
      rw [e2, conjTranspose_mul, conjTranspose_mul, conjTranspose_conjTranspose, hT r s, Matrix.mul_assoc]
    rw [conjTranspose_smul, Complex.star_def, Complex.conj_ofReal] at e3
    exact smul_right_injective _ hn0 e3
  have hM : (Matrix.fromBlocks (convolution G (Matrix.of fun r s => X (r, s) 0 0)) (convolution G (Matrix.of fun r s => X (r, s) 0 1))
      (convolution G (Matrix.of fun r s => X (r, s) 1 0)) (convolution G (Matrix.of fun r s => 1 / X (r, s) 1 1))⁻¹).IsHermitian := by
    have hb := convolution_blocks_hermitian (a := Matrix.of fun r s => X (r, s) 0 0) (b := Matrix.of fun r s => X (r, s) 0 1)
      (c := Matrix.of fun r s => X (r, s) 1 0) (d := Matrix.of fun r s => X (r, s) 1 1)
      (fun r s => by simp only [of_apply]; rw [← eta_fin_two]; exact hXh r s) G
    rw [isHermitian_fromBlocks_iff] at hb ⊢
    refine ⟨hb.1, hb.2.1, hb.2.2.1, convolution_inverse_hermitian (x := Matrix.of fun r s => X (r, s) 1 1) (fun r s => ?_) G⟩
    exact Complex.conj_eq_iff_im.1 ((hXh r s).apply 1 1)
  rw [hn, Complex.norm_real]
  generalize denomSafe _ = d
  have hf := convolution_const_comm hR hG
  simp only [hf]
  have e : (Matrix.fromBlocks ((star p / (d : ℂ)) • (1 : Matrix ι ι ℂ)) ((-q / (d : ℂ)) • 1) ((- -star q / (d : ℂ)) • 1) ((p / (d : ℂ)) • 1) : ModeMatrix ι) =
      ((d⁻¹ : ℝ) : ℂ) • (Matrix.fromBlocks (p • 1) (q • 1) (-star q • 1) (star p • 1) : ModeMatrix ι)ᴴ := by
    rw [fromBlocks_conjTranspose, fromBlocks_smul]
    simp only [conjTranspose_smul, conjTranspose_one, smul_smul, star_neg, star_star]
    push_cast
    simp only [div_eq_inv_mul, neg_neg]
  rw [e]
  unfold Matrix.IsHermitian
  rw [Matrix.mul_smul, conjTranspose_smul, conjTranspose_mul, conjTranspose_mul, conjTranspose_conjTranspose, Complex.star_def, Complex.conj_ofReal, ← Matrix.mul_assoc]
  congr 3

/-- **C42** Anisotropic magnetic layers with Hermitian tensors solved in a vector formulation with a constant tangent field are
lossless. -/
theorem C42_vector_anisotropic_lossless (he : IsEig eig) {wavelength : ℝ} {inPlane : ℝ × ℝ} {l : LatticeVectors}
    {ε μ : TensorComponents nx ny} {src : Option (Grid nx ny)} {G : ι → ℤ × ℤ} (hG : Function.Injective G)
    {fn : Grid nx ny → (ι → ℤ × ℤ) → LatticeVectors → Res (Grid nx ny × Grid nx ny)} {tx ty : ℂ}
    (ht : fn (src.getD (Matrix.of fun r s => (ε.xx r s + ε.yy r s) / 2)) G l = .ok (Matrix.of fun _ _ => tx, Matrix.of fun _ _ => ty))
    {r : LayerSolveResult ι} (h : eigensolveGeneralAnisotropicMedia eig wavelength inPlane l ε μ G (.vector fn) src = .ok r)
    (hε : HermitianTensor ε) (hμ : HermitianTensor μ) : LosslessLayer r := by
  by_cases hn : nx = 1 ∧ ny = 1
  · refine C42_anisotropic_lossless he (wavelength := wavelength) (inPlane := inPlane) (l := l) (G := G) (src := src) (ε := ε) (μ := μ) ?_ hε hμ
    unfold eigensolveGeneralAnisotropicMedia at h ⊢
    rw [dif_pos hn] at h ⊢
    exact h
  · unfold eigensolveGeneralAnisotropicMedia at h
    rw [dif_neg hn] at h
    unfold eigensolvePatternedAnisotropic at h
    obtain ⟨m, hm, h⟩ := bind_eq_ok.1 h
    obtain ⟨hs, -, f2, f3, f4, -, -⟩ := numerical_solvedFor he h
    unfold fourierMatricesPatternedAnisotropic transverseMatricesAnisotropic at hm
    simp only [bind_eq_ok, fourierConvolutionMatrix_ok_iff, ok_inj, ht, Prod.exists, Prod.mk.injEq] at hm
    obtain ⟨E, M, ⟨_, _, ⟨rfl, rfl⟩, E', hE, M', hM, rfl, rfl⟩, _, -, _, -, _, ⟨-, rfl⟩, _, -, _, -, _, ⟨-, rfl⟩, rfl⟩ := hm
    refine ⟨_, hs, ?_, ?_, ?_, ?_⟩
    · exact rotated_hermitian (p := ty) (q := star tx) (fun r s => swapped_hermitian (hε r s).1) rfl rfl (by ext; simp) rfl hG hE
    · rw [f2]
      exact rotated_hermitian (p := tx) (q := -star ty) (fun r s => (hμ r s).1) rfl rfl (by ext; simp) rfl hG hM
    · rw [f3]; exact convolution_hermitian (fun r s => (hε r s).2) G
    · rw [f4]; exact convolution_hermitian (fun r s => (hμ r s).2) G

/-- The inverse of a matrix that absorbs takes energy away, and conversely. -/
theorem lossForm_inv {n : Type} [Fintype n] [DecidableEq n] {A : Matrix n n ℂ} (hA : IsUnit A.det) (y : n → ℂ) :
    lossForm A⁻¹ y = -lossForm A (A⁻¹ *ᵥ y) := by
  unfold lossForm
  have e1 : A *ᵥ A⁻¹ *ᵥ y = y := by rw [mulVec_mulVec, mul_nonsing_inv _ hA, one_mulVec]
  rw [e1]
  have e2 : star y ⬝ᵥ A⁻¹ *ᵥ y = star (star (A⁻¹ *ᵥ y) ⬝ᵥ y) := by
    rw [star_dotProduct]
  rw [e2]
  simp

theorem vector_lossForm (A B : Matrix ι ι ℂ) (tx ty : ℂ) (d : ℝ) (u v : ι → ℂ) :
    lossForm (Matrix.fromBlocks A 0 0 A - Matrix.fromBlocks (A - B) 0 0 (A - B) *
      Matrix.fromBlocks (((‖tx‖ : ℂ) ^ 2 / d) • 1) ((star tx * ty / d) • 1) ((tx * star ty / d) • 1) (((‖ty‖ : ℂ) ^ 2 / d) • 1)) (Sum.elim u v) =
    (1 - (‖tx‖ ^ 2 + ‖ty‖ ^ 2) / d) * (lossForm A u + lossForm A v) + lossForm A (star ty • u - star tx • v) / d +
      lossForm B (tx • u + ty • v) / d := by
  have key : star (Sum.elim u v) ⬝ᵥ (Matrix.fromBlocks A 0 0 A - Matrix.fromBlocks (A - B) 0 0 (A - B) *
      Matrix.fromBlocks (((‖tx‖ : ℂ) ^ 2 / d) • 1) ((star tx * ty / d) • 1) ((tx * star ty / d) • 1) (((‖ty‖ : ℂ) ^ 2 / d) • 1)) *ᵥ (Sum.elim u v) =
      ((1 - (‖tx‖ ^ 2 + ‖ty‖ ^ 2) / d : ℝ) : ℂ) * (star u ⬝ᵥ A *ᵥ u + star v ⬝ᵥ A *ᵥ v) +
      ((d⁻¹ : ℝ) : ℂ) * (star (star ty • u - star tx • v) ⬝ᵥ A *ᵥ (star ty • u - star tx • v)) +
      ((d⁻¹ : ℝ) : ℂ) * (star (tx • u + ty • v) ⬝ᵥ B *ᵥ (tx • u + ty • v)) := by
    have s1 : ((‖tx‖ : ℂ) ^ 2) = tx * star tx := by rw [Complex.star_def, Complex.mul_conj, Complex.normSq_eq_norm_sq]; push_cast; ring
    have s2 : ((‖ty‖ : ℂ) ^ 2) = ty * star ty := by rw [Complex.star_def, Complex.mul_conj, Complex.normSq_eq_norm_sq]; push_cast; ring
    have hst : star (Sum.elim u v) = Sum.elim (star u) (star v) := by funext i; rcases i <;> rfl
    rw [fromBlocks_multiply, sub_eq_add_neg, fromBlocks_neg, fromBlocks_add, fromBlocks_mulVec, hst, sumElim_dotProduct_sumElim]
    push_cast
    rw [s1, s2]
    simp only [zero_mul, add_zero, zero_add, Matrix.zero_mul, Matrix.mul_smul, Matrix.mul_one, add_mulVec, neg_mulVec, smul_mulVec, sub_mulVec, mulVec_sub, mulVec_add, mulVec_smul,
      star_sub, star_add, star_smul, star_star, dotProduct_add, dotProduct_sub, dotProduct_neg, dotProduct_smul, add_dotProduct, sub_dotProduct, smul_dotProduct, smul_eq_mul, Function.comp_def, Sum.elim_inl, Sum.elim_inr, div_eq_mul_inv]
    ring
  unfold lossForm
  rw [key]
  simp only [Complex.add_im, Complex.im_ofReal_mul]
  ring

/-- **C43** Layers without gain solved in a vector formulation with a constant tangent field are passive. -/
theorem C43_vector_passive (he : IsEig eig) {wavelength : ℝ} (hl : 0 < wavelength) {inPlane : ℝ × ℝ} {l : LatticeVectors} {ε : Grid nx ny}
    {G : ι → ℤ × ℤ} (hG : Function.Injective G) {fn : Grid nx ny → (ι → ℤ × ℤ) → LatticeVectors → Res (Grid nx ny × Grid nx ny)}
    {tx ty : ℂ} (ht : fn ε G l = .ok (Matrix.of fun _ _ => tx, Matrix.of fun _ _ => ty)) {r : LayerSolveResult ι}
    (h : eigensolveIsotropicMedia eig wavelength inPlane l ε G (.vector fn) = .ok r) (hε : ∀ i j, 0 ≤ (ε i j).im) :
    PassiveLayer r := by
  unfold eigensolveIsotropicMedia at h
  split_ifs at h with hn
  · exact C43_uniform_passive hl h (hε _ _)
  · unfold eigensolvePatternedIsotropic at h
    obtain ⟨m, hm, h⟩ := bind_eq_ok.1 h
    obtain ⟨hu, h0, e1, e2, e3, e4⟩ := constantTangent_matrices hG ht hm
    obtain ⟨hs, f1, f2, f3, f4, -, -⟩ := numerical_solvedFor he h
    have hT : Passive (convolution G ε) := convolution_passive hε G
    have hB : Passive (convolution G (Matrix.of fun r s => 1 / ε r s))⁻¹ := by
      intro y
      rw [lossForm_inv hu]
      have hn : Passive (convolution G (-Matrix.of fun r s => 1 / ε r s)) := by
        refine convolution_passive (fun r s => ?_) G
        have : 0 ≤ (ε r s).im / Complex.normSq (ε r s) := div_nonneg (hε r s) (Complex.normSq_nonneg _)
        simpa [Complex.inv_im, neg_div] using this
      have e : convolution G (-Matrix.of fun r s => 1 / ε r s) = -convolution G (Matrix.of fun r s => 1 / ε r s) := by
        ext i j
        simp [convolution, fourierCoefficient, neg_div]
      have := hn ((convolution G (Matrix.of fun r s => 1 / ε r s))⁻¹ *ᵥ y)
      rw [e] at this
      simpa [lossForm, neg_mulVec] using this
    refine ⟨by rwa [f1], _, hs, ?_, ?_, ?_, ?_⟩
    · rw [e4]
      intro x
      obtain ⟨u, v, rfl⟩ : ∃ u v, x = Sum.elim u v := ⟨fun i => x (.inl i), fun i => x (.inr i), by funext i; rcases i <;> rfl⟩
      have hd : 0 < denomSafe (‖tx‖ ^ 2 + ‖ty‖ ^ 2) ∧ (‖tx‖ ^ 2 + ‖ty‖ ^ 2) / denomSafe (‖tx‖ ^ 2 + ‖ty‖ ^ 2) ≤ 1 := by
        have hn : 0 ≤ ‖tx‖ ^ 2 + ‖ty‖ ^ 2 := by positivity
        unfold denomSafe
        split_ifs with hc
        · rw [abs_of_nonneg hn] at hc
          exact ⟨one_pos, by rw [div_one]; linarith [show (1e-8 : ℝ) ≤ 1 by norm_num]⟩
        · rw [abs_of_nonneg hn] at hc
          push Not at hc
          have : 0 < ‖tx‖ ^ 2 + ‖ty‖ ^ 2 := lt_trans (by norm_num) hc
          exact ⟨this, (div_self this.ne').le⟩
      have e := vector_lossForm (convolution G ε) (convolution G (Matrix.of fun r s => 1 / ε r s))⁻¹ tx ty (denomSafe (‖tx‖ ^ 2 + ‖ty‖ ^ 2)) u v
      unfold tangentTerms
      rw [e]
      have a1 := add_nonneg (hT u) (hT v)
      have a2 := hT (star ty • u - star tx • v)
      have a3 := hB (tx • u + ty • v)
      have a4 : 0 ≤ 1 - (‖tx‖ ^ 2 + ‖ty‖ ^ 2) / denomSafe (‖tx‖ ^ 2 + ‖ty‖ ^ 2) := by linarith [hd.2]
      have := hd.1
      positivity
    · rw [f2, e2]; exact passive_of_hermitian Matrix.isHermitian_one
    · rw [f3, e1]; exact hT
    · rw [f4, e3]; exact passive_of_hermitian Matrix.isHermitian_one

/-! ### A single mode -/

/-- Amplitudes that excite a given eigenvector, whatever eigenvectors the eigensolver returned. -/
theorem eigenvector_amplitudes {l : LayerSolveResult ι} {A : ModeMatrix ι} (hφ : IsUnit l.eigenvectors.det)
    (hA : A * l.eigenvectors = l.eigenvectors * diagonal fun i => l.eigenvalues i ^ 2)
    (hf : ∀ i, IsForwardRoot (l.eigenvalues i ^ 2) (l.eigenvalues i)) {t : Matrix (ι ⊕ ι) β ℂ} {q : ℂ} (hq : IsForwardRoot (q ^ 2) q)
    (ht : A * t = q ^ 2 • t) : ∃ a : Matrix (ι ⊕ ι) β ℂ, l.eigenvectors * a = t ∧ ∀ i c, a i c ≠ 0 → l.eigenvalues i = q := by
  refine ⟨l.eigenvectors⁻¹ * t, by rw [← Matrix.mul_assoc, mul_nonsing_inv _ hφ, Matrix.one_mul], fun i c hi => ?_⟩
  have h1 : (diagonal fun i => l.eigenvalues i ^ 2) * (l.eigenvectors⁻¹ * t) = q ^ 2 • (l.eigenvectors⁻¹ * t) := by
    have e1 : (diagonal fun i => l.eigenvalues i ^ 2) = l.eigenvectors⁻¹ * A * l.eigenvectors := by
      rw [Matrix.mul_assoc, hA, ← Matrix.mul_assoc, nonsing_inv_mul _ hφ, Matrix.one_mul]
    have e2 : l.eigenvectors * (l.eigenvectors⁻¹ * t) = t := by rw [← Matrix.mul_assoc, mul_nonsing_inv _ hφ, Matrix.one_mul]
    rw [e1, Matrix.mul_assoc, e2, Matrix.mul_assoc, ht, Matrix.mul_smul]
  have h2 := congrFun (congrFun h1 i) c
  rw [diagonal_mul, Matrix.smul_apply, smul_eq_mul] at h2
  have h3 : l.eigenvalues i ^ 2 = q ^ 2 := mul_right_cancel₀ hi h2
  have h4 := hf i
  rw [h3] at h4
  exact isForwardRoot_unique h4 hq

/-- The flux of a mode of which the electric field is proportional to the magnetic field. -/
theorem eigenvector_flux {l : LayerSolveResult ι} (d : ℝ) {a : Matrix (ι ⊕ ι) β ℂ} {q : ℂ} (ha : ∀ i c, a i c ≠ 0 → l.eigenvalues i = q)
    (hX : magneticToElectric l * (l.eigenvectors * a) = l.eigenvectors * a) (hω : omega l = 1) (c : β) (z : ℝ) :
    stateFlux { layer := l, thickness := d, a := a, b := 0 } c z =
      q.re / Complex.normSq q * Real.exp (-2 * q.im * z) * ∑ i, ‖(l.eigenvectors * a) i c‖ ^ 2 := by
  have h1 : propagator l z * a = Complex.exp (Complex.I * q * z) • a := by
    ext i c
    unfold propagator
    rw [diagonal_mul, Matrix.smul_apply, smul_eq_mul]
    by_cases hi : a i c = 0
    · rw [hi, mul_zero, mul_zero]
    · rw [ha i c hi]
  have h2 : electricModes l * a = q⁻¹ • (l.eigenvectors * a) := by
    have e : (diagonal fun i => ((omega l : ℂ) * l.eigenvalues i)⁻¹) * a = q⁻¹ • a := by
      ext i c
      rw [diagonal_mul, Matrix.smul_apply, smul_eq_mul, hω]
      by_cases hi : a i c = 0
      · rw [hi, mul_zero, mul_zero]
      · rw [ha i c hi]; simp
    unfold electricModes
    rw [Matrix.mul_assoc, e, Matrix.mul_smul, Matrix.mul_assoc, hX]
  unfold stateFlux electricAt magneticAt
  simp only [Matrix.mul_zero, sub_zero, add_zero, h1, Matrix.mul_smul, h2]
  unfold netFlux
  rw [Finset.mul_sum]
  refine Finset.sum_congr rfl fun i _ => ?_
  simp only [Matrix.smul_apply, smul_eq_mul]
  generalize (l.eigenvectors * a) i c = x
  have e1 : star (Complex.exp (Complex.I * q * z) * (q⁻¹ * x)) * (Complex.exp (Complex.I * q * z) * x) =
      ((Complex.normSq (Complex.exp (Complex.I * q * z)) * Complex.normSq x : ℝ) : ℂ) * star q⁻¹ := by
    rw [Complex.ofReal_mul, Complex.normSq_eq_conj_mul_self, Complex.normSq_eq_conj_mul_self, star_mul', star_mul', Complex.star_def]
    ring
  have e2 : Complex.normSq (Complex.exp (Complex.I * q * z)) = Real.exp (-2 * q.im * z) := by
    rw [Complex.normSq_eq_norm_sq, Complex.norm_exp, ← Real.exp_nat_mul]
    congr 1
    simp
    ring
  rw [e1, Complex.re_ofReal_mul, e2, Complex.normSq_eq_norm_sq x]
  simp [Complex.inv_re]
  ring

/-! ### A layer that creates energy -/

/-- Orders `(0, 0)` and `(1, 0)`. -/
def twoOrders : Fin 2 → ℤ × ℤ := ![(0, 0), (1, 0)]

/-- A square unit cell of side `2 π`. -/
noncomputable def twoPiLattice : LatticeVectors := { u := (2 * Real.pi, 0), v := (0, 2 * Real.pi) }

/-- Permittivity 2 at the first of four grid points, 1 at the others. -/
noncomputable def stepPermittivity : Grid 4 1 := Matrix.of fun r _ => if r = 0 then 2 else 1

/-- A tangent field along the first axis at the second grid point and along the second axis elsewhere. -/
noncomputable def turningTangent : Grid 4 1 → (Fin 2 → ℤ × ℤ) → LatticeVectors → Res (Grid 4 1 × Grid 4 1) :=
  fun _ _ _ => .ok (Matrix.of fun r _ => if r = 1 then 1 else 0, Matrix.of fun r _ => if r = 1 then 0 else 1)

theorem convolution_twoOrders (x : Grid 4 1) : convolution twoOrders x =
    !![(x 0 0 + x 1 0 + x 2 0 + x 3 0) / 4, (x 0 0 + Complex.I * x 1 0 - x 2 0 - Complex.I * x 3 0) / 4;
       (x 0 0 - Complex.I * x 1 0 - x 2 0 + Complex.I * x 3 0) / 4, (x 0 0 + x 1 0 + x 2 0 + x 3 0) / 4] := by
  have p : ∀ r : ℕ, planeWave 4 1 (1, 0) r 0 = Complex.I ^ r := by
    intro r
    rw [← exp_quarter]
    unfold planeWave
    congr 1
    simp
  have m : ∀ r : ℕ, planeWave 4 1 (-1, 0) r 0 = star (Complex.I ^ r) := by
    intro r
    rw [← exp_quarter, Complex.star_def, ← Complex.exp_conj]
    unfold planeWave
    congr 1
    simp [Complex.conj_ofNat]
    ring
  have o : ∀ r : ℕ, planeWave 4 1 0 r 0 = 1 := by
    intro r
    unfold planeWave
    simp
  ext i j
  fin_cases i <;> fin_cases j <;>
    simp [convolution, twoOrders, fourierCoefficient, Fin.sum_univ_four, p, m, o, Complex.I_pow_three]
  all_goals ring

/-- The part of the permittivity matrix that acts on `Ey`. -/
noncomputable def turningY : Matrix (Fin 2) (Fin 2) ℂ :=
  !![5 / 4 - (1 - Complex.I) / 48, 1 / 4 - (1 + Complex.I) / 48; 1 / 4 - (1 - Complex.I) / 48, 5 / 4 - (1 + Complex.I) / 48]

/-- The part of the permittivity matrix that acts on `Ex`. -/
noncomputable def turningX : Matrix (Fin 2) (Fin 2) ℂ :=
  !![7 / 6 + (1 - Complex.I) / 48, 1 / 6 + (1 + Complex.I) / 48; 1 / 6 + (1 - Complex.I) / 48, 7 / 6 + (1 + Complex.I) / 48]

theorem step_convolution : convolution twoOrders stepPermittivity = !![5 / 4, 1 / 4; 1 / 4, 5 / 4] := by
  rw [convolution_twoOrders]
  ext i j
  fin_cases i <;> fin_cases j <;> simp [stepPermittivity] <;> norm_num <;> ring

theorem step_reciprocal : convolution twoOrders (Matrix.of fun r s => 1 / stepPermittivity r s) = !![7 / 8, -1 / 8; -1 / 8, 7 / 8] := by
  rw [convolution_twoOrders]
  ext i j
  fin_cases i <;> fin_cases j <;> simp [stepPermittivity] <;> norm_num <;> ring

theorem step_reciprocal_inv : (!![7 / 8, -1 / 8; -1 / 8, 7 / 8] : Matrix (Fin 2) (Fin 2) ℂ)⁻¹ = !![7 / 6, 1 / 6; 1 / 6, 7 / 6] := by
  refine inv_eq_right_inv ?_
  ext i j
  fin_cases i <;> fin_cases j <;> simp [Matrix.mul_apply, Fin.sum_univ_two] <;> norm_num

theorem step_inv : (!![5 / 4, 1 / 4; 1 / 4, 5 / 4] : Matrix (Fin 2) (Fin 2) ℂ)⁻¹ = !![5 / 6, -1 / 6; -1 / 6, 5 / 6] := by
  refine inv_eq_right_inv ?_
  ext i j
  fin_cases i <;> fin_cases j <;> simp [Matrix.mul_apply, Fin.sum_univ_two] <;> norm_num

theorem twoOrders_resolves : Resolves 4 1 twoOrders := by
  refine ⟨⟨0⟩, fun i => ?_⟩
  fin_cases i <;> simp [twoOrders]

theorem turning_matrices : ∃ m, fourierMatricesPatternedIsotropic twoPiLattice stepPermittivity twoOrders (.vector turningTangent) = .ok m ∧
    m.zPermittivity = !![5 / 4, 1 / 4; 1 / 4, 5 / 4] ∧ m.transversePermeability = 1 ∧ m.zPermeability = 1 ∧
    m.transversePermittivity = Matrix.fromBlocks turningY 0 0 turningX := by
  have hR := twoOrders_resolves
  have hrec : recipGrid stepPermittivity = .ok (Matrix.of fun r s => 1 / stepPermittivity r s) := by
    refine recipGrid_ok_iff.2 ⟨fun r s => ?_, rfl⟩
    simp only [stepPermittivity, of_apply]
    split_ifs <;> norm_num
  have hu : IsUnit (convolution twoOrders (Matrix.of fun r s => 1 / stepPermittivity r s)).det := by
    rw [step_reciprocal, det_fin_two, isUnit_iff_ne_zero]
    norm_num
  unfold fourierMatricesPatternedIsotropic transversePermittivityIsotropic transversePermittivityVector turningTangent
  simp only [bind_eq_ok, fourierConvolutionMatrix_ok_iff, ok_inj, diag_const, one_smul, zero_smul, fromBlocks_one, inv_ok_iff]
  refine ⟨_, ⟨_, ⟨_, rfl, _, ⟨hR, rfl⟩, _, hrec, _, ⟨hR, rfl⟩, _, ⟨hu, rfl⟩, _, ⟨hR, rfl⟩, _, ⟨hR, rfl⟩, _, ⟨hR, rfl⟩, _, ⟨hR, rfl⟩, rfl⟩,
    _, hrec, _, ⟨hR, rfl⟩, _, ⟨hR, rfl⟩, rfl⟩, step_convolution, rfl, rfl, ?_⟩
  have c1 : denomSafe 1 = 1 := by
    unfold denomSafe
    split_ifs <;> rfl
  have t1 : tangentTerms 1 0 = { yy := 1, yx := 0, xy := 0, xx := 0 } := by simp [tangentTerms, c1]
  have t2 : tangentTerms 0 1 = { yy := 0, yx := 0, xy := 0, xx := 1 } := by simp [tangentTerms, c1]
  change Matrix.fromBlocks (convolution twoOrders stepPermittivity) 0 0 (convolution twoOrders stepPermittivity) -
    Matrix.fromBlocks (convolution twoOrders stepPermittivity - (convolution twoOrders (Matrix.of fun r s => 1 / stepPermittivity r s))⁻¹) 0 0
      (convolution twoOrders stepPermittivity - (convolution twoOrders (Matrix.of fun r s => 1 / stepPermittivity r s))⁻¹) *
    Matrix.fromBlocks (convolution twoOrders (Matrix.of fun (r : Fin 4) (s : Fin 1) => (tangentTerms (if r = 1 then 1 else 0) (if r = 1 then 0 else 1)).yy))
      (convolution twoOrders (Matrix.of fun (r : Fin 4) (s : Fin 1) => (tangentTerms (if r = 1 then 1 else 0) (if r = 1 then 0 else 1)).yx))
      (convolution twoOrders (Matrix.of fun (r : Fin 4) (s : Fin 1) => (tangentTerms (if r = 1 then 1 else 0) (if r = 1 then 0 else 1)).xy))
      (convolution twoOrders (Matrix.of fun (r : Fin 4) (s : Fin 1) => (tangentTerms (if r = 1 then 1 else 0) (if r = 1 then 0 else 1)).xx)) = _
  have w : ∀ r : Fin 4, tangentTerms (if r = 1 then 1 else 0) (if r = 1 then 0 else 1) =
      { yy := if r = 1 then 1 else 0, yx := 0, xy := 0, xx := if r = 1 then 0 else 1 } := by
    intro r
    split_ifs
    · exact t1
    · exact t2
  rw [step_convolution, step_reciprocal, step_reciprocal_inv]
  simp only [w, convolution_twoOrders, of_apply]
  ext i j
  rcases i with i | i <;> rcases j with j | j <;> fin_cases i <;> fin_cases j <;>
    simp [turningX, turningY, fromBlocks_multiply, Matrix.mul_apply, Fin.sum_univ_two] <;> ring

/-- A 2 × 2 matrix with two different eigenvalues is diagonalisable. -/
theorem two_diagonalisable {M : Matrix (Fin 2) (Fin 2) ℂ} {δ : ℂ} (hb : M 0 1 ≠ 0) (hδ : δ ≠ 0)
    (h : δ ^ 2 = (M 0 0 - M 1 1) ^ 2 + 4 * M 0 1 * M 1 0) :
    ∃ (V : Matrix (Fin 2) (Fin 2) ℂ) (w : Fin 2 → ℂ), IsUnit V.det ∧ M * V = V * diagonal w := by
  refine ⟨!![M 0 1, M 0 1; (M 1 1 - M 0 0 + δ) / 2, (M 1 1 - M 0 0 - δ) / 2],
    ![(M 0 0 + M 1 1 + δ) / 2, (M 0 0 + M 1 1 - δ) / 2], ?_, ?_⟩
  · rw [isUnit_iff_ne_zero, det_fin_two]
    have : M 0 1 * -δ ≠ 0 := mul_ne_zero hb (neg_ne_zero.2 hδ)
    simp only [of_apply, cons_val_zero, cons_val_one, cons_val', cons_val_fin_one]
    intro h0
    apply this
    linear_combination h0
  · ext i j
    fin_cases i <;> fin_cases j <;> simp [Matrix.mul_apply, Fin.sum_univ_two, diagonal_apply]
    · ring
    · ring
    · linear_combination (-1 / 4 : ℂ) * h
    · linear_combination (-1 / 4 : ℂ) * h

/-- The eigenproblem of the layer for magnetic fields along the first axis. -/
noncomputable def turningTE : Matrix (Fin 2) (Fin 2) ℂ :=
  !![5 / 4 - (1 - Complex.I) / 48, 1 / 4 - (1 + Complex.I) / 48; 1 / 4 - (1 - Complex.I) / 48, 1 / 4 - (1 + Complex.I) / 48]

/-- The eigenproblem of the layer for magnetic fields along the second axis. -/
noncomputable def turningTM : Matrix (Fin 2) (Fin 2) ℂ :=
  !![7 / 6 + (1 - Complex.I) / 48, (1 / 6 + (1 + Complex.I) / 48) / 6; 1 / 6 + (1 - Complex.I) / 48, (7 / 6 + (1 + Complex.I) / 48) / 6]

theorem twoOrders_wavevector {m : FourierMatrices (Fin 2)} {q : Fin 2 ⊕ Fin 2 → ℂ} {v : ModeMatrix (Fin 2)} :
    orderWavevector (solvedLayer (2 * Real.pi) (0, 0) twoPiLattice m twoOrders q v) = ![(0, 0), (1, 0)] := by
  have := Real.pi_ne_zero
  funext i
  fin_cases i <;> simp [orderWavevector, solvedLayer, twoOrders, twoPiLattice, cellArea]

theorem turning_electric {m : FourierMatrices (Fin 2)} {q : Fin 2 ⊕ Fin 2 → ℂ} {v : ModeMatrix (Fin 2)}
    (h1 : m.zPermittivity = !![5 / 4, 1 / 4; 1 / 4, 5 / 4]) (h2 : m.transversePermeability = 1) :
    magneticToElectric (solvedLayer (2 * Real.pi) (0, 0) twoPiLattice m twoOrders q v) = Matrix.fromBlocks 1 0 0 !![1, 0; 0, 1 / 6] := by
  have hω : omega (solvedLayer (2 * Real.pi) (0, 0) twoPiLattice m twoOrders q v) = 1 :=
    div_self (by have := Real.pi_ne_zero; positivity)
  have hz : (solvedLayer (2 * Real.pi) (0, 0) twoPiLattice m twoOrders q v).zPermittivityMatrix⁻¹ = !![5 / 6, -1 / 6; -1 / 6, 5 / 6] := by
    rw [← step_inv, ← h1]; rfl
  have hM : (solvedLayer (2 * Real.pi) (0, 0) twoPiLattice m twoOrders q v).transversePermeabilityMatrix = 1 := h2
  unfold magneticToElectric
  simp only [twoOrders_wavevector, hω, hz, hM]
  ext i j
  rcases i with i | i <;> rcases j with j | j <;> fin_cases i <;> fin_cases j <;>
    simp [diagonal_mul, mul_diagonal, Matrix.one_apply] <;> norm_num

theorem turning_divergence {m : FourierMatrices (Fin 2)} {q : Fin 2 ⊕ Fin 2 → ℂ} {v : ModeMatrix (Fin 2)} (h3 : m.zPermeability = 1) :
    divergenceMatrix (solvedLayer (2 * Real.pi) (0, 0) twoPiLattice m twoOrders q v) = Matrix.fromBlocks !![0, 0; 0, 1] 0 0 0 := by
  have hz : (solvedLayer (2 * Real.pi) (0, 0) twoPiLattice m twoOrders q v).zPermeabilityMatrix⁻¹ = 1 := by
    rw [show (solvedLayer (2 * Real.pi) (0, 0) twoPiLattice m twoOrders q v).zPermeabilityMatrix = 1 from h3, inv_one]
  unfold divergenceMatrix
  simp only [twoOrders_wavevector, hz]
  ext i j
  rcases i with i | i <;> rcases j with j | j <;> fin_cases i <;> fin_cases j <;>
    simp [diagonal_mul, mul_diagonal, Matrix.one_apply]

theorem turning_eigenproblem : Matrix.fromBlocks turningY 0 0 turningX * Matrix.fromBlocks 1 0 0 !![1, 0; 0, 1 / 6] -
    Matrix.fromBlocks !![0, 0; 0, 1] 0 0 0 * 1 = Matrix.fromBlocks turningTE 0 0 turningTM := by
  rw [Matrix.mul_one, fromBlocks_multiply]
  ext i j
  rcases i with i | i <;> rcases j with j | j <;> fin_cases i <;> fin_cases j <;>
    simp [turningX, turningY, turningTE, turningTM, Matrix.mul_apply, Fin.sum_univ_two] <;> ring

/-- A propagation constant of the layer whose square has negative imaginary part. -/
theorem turning_eigenvalue : ∃ w : ℂ, w.im < 0 ∧ ∃ t : Matrix (Fin 2) (Fin 1) ℂ, t 0 0 ≠ 0 ∧ turningTE * t = w • t := by
  obtain ⟨δ, hδ⟩ : ∃ δ : ℂ, δ ^ 2 = (turningTE 0 0 - turningTE 1 1) ^ 2 + 4 * turningTE 0 1 * turningTE 1 0 :=
    ⟨_, csqrt_sq _⟩
  have key : ∀ w : ℂ, w ^ 2 = (turningTE 0 0 + turningTE 1 1) * w - (turningTE 0 0 * turningTE 1 1 - turningTE 0 1 * turningTE 1 0) →
      ∃ t : Matrix (Fin 2) (Fin 1) ℂ, t 0 0 ≠ 0 ∧ turningTE * t = w • t := by
    intro w hw
    refine ⟨!![turningTE 0 1; w - turningTE 0 0], ?_, ?_⟩
    · simp only [turningTE, of_apply, cons_val_zero, cons_val_one, cons_val', cons_val_fin_one]
      intro h0
      have := congrArg Complex.im h0
      simp at this
    · ext i j
      fin_cases i <;> fin_cases j <;> simp [Matrix.mul_apply, Fin.sum_univ_two]
      · ring
      · linear_combination -hw
  have hroot : ∀ s : ℂ, s ^ 2 = 1 → ((turningTE 0 0 + turningTE 1 1 + s * δ) / 2) ^ 2 = (turningTE 0 0 + turningTE 1 1) * ((turningTE 0 0 + turningTE 1 1 + s * δ) / 2) -
      (turningTE 0 0 * turningTE 1 1 - turningTE 0 1 * turningTE 1 0) := by
    intro s hs
    linear_combination (1 / 4 : ℂ) * hδ + δ ^ 2 / 4 * hs
  have htr : (turningTE 0 0 + turningTE 1 1).im = 0 := by
    simp [turningTE]
    norm_num
  have him : δ.im ≠ 0 := by
    intro h0
    have := congrArg Complex.im hδ
    simp [turningTE, pow_two, h0] at this
    norm_num at this
  rcases lt_or_gt_of_ne him with h | h
  · refine ⟨_, ?_, key _ (hroot 1 (by norm_num))⟩
    rw [one_mul, Complex.div_ofNat_im, Complex.add_im, htr]
    linarith
  · refine ⟨_, ?_, key _ (hroot (-1) (by norm_num))⟩
    rw [neg_one_mul, Complex.div_ofNat_im, Complex.add_im, htr, Complex.neg_im]
    linarith

theorem turning_diagonalisable : ∃ (V : ModeMatrix (Fin 2)) (w : Fin 2 ⊕ Fin 2 → ℂ), IsUnit V.det ∧
    Matrix.fromBlocks turningTE 0 0 turningTM * V = V * diagonal w := by
  have two : ∀ M : Matrix (Fin 2) (Fin 2) ℂ, M 0 1 ≠ 0 → (M 0 0 - M 1 1) ^ 2 + 4 * M 0 1 * M 1 0 ≠ 0 →
      ∃ (V : Matrix (Fin 2) (Fin 2) ℂ) (w : Fin 2 → ℂ), IsUnit V.det ∧ M * V = V * diagonal w := by
    intro M hb hd
    refine two_diagonalisable (δ := csqrt ((M 0 0 - M 1 1) ^ 2 + 4 * M 0 1 * M 1 0)) hb ?_ (csqrt_sq _)
    intro h0
    apply hd
    rw [← csqrt_sq ((M 0 0 - M 1 1) ^ 2 + 4 * M 0 1 * M 1 0), h0]
    ring
  obtain ⟨V, w, h1, h2⟩ := two turningTE
    (by intro h0; have := congrArg Complex.im h0; simp [turningTE] at this)
    (by intro h0; have := congrArg Complex.im h0; simp [turningTE, pow_two] at this; norm_num at this)
  obtain ⟨V', w', h1', h2'⟩ := two turningTM
    (by intro h0; have := congrArg Complex.im h0; simp [turningTM] at this)
    (by intro h0; have := congrArg Complex.re h0; simp [turningTM, pow_two] at this; norm_num at this)
  refine ⟨Matrix.fromBlocks V 0 0 V', Sum.elim w w', ?_, ?_⟩
  · rw [det_fromBlocks_zero₂₁]
    exact h1.mul h1'
  · rw [← fromBlocks_diagonal, fromBlocks_multiply, fromBlocks_multiply]
    simp [h2, h2']

theorem turning_det : (Matrix.fromBlocks turningTE 0 0 turningTM).det ≠ 0 := by
  rw [det_fromBlocks_zero₂₁]
  refine mul_ne_zero ?_ ?_
  · rw [det_fin_two]
    intro h0
    have := congrArg Complex.im h0
    simp [turningTE] at this
    norm_num at this
  · rw [det_fin_two]
    intro h0
    have := congrArg Complex.re h0
    simp [turningTM] at this
    norm_num at this

/-- **C42, C43** (finding) The hypothesis on the tangent field cannot be dropped: a layer of real, positive permittivity,
solved in a vector formulation with a real tangent field of unit length that varies over the cell, can create energy.  Whatever
eigendecomposition is used, there are amplitudes for which the reported flux along `+z` increases with depth. -/
theorem C42_finding_vector_formulation {eig : ModeMatrix (Fin 2) → (Fin 2 ⊕ Fin 2 → ℂ) × ModeMatrix (Fin 2)} (he : IsEig eig) (d : ℝ) :
    ∃ r, eigensolveIsotropicMedia eig (2 * Real.pi) (0, 0) twoPiLattice stepPermittivity twoOrders (.vector turningTangent) = .ok r ∧
      ∃ (a : Matrix (Fin 2 ⊕ Fin 2) (Fin 1) ℂ) (J : ℝ → Fin 1 → ℝ), (∀ z, reportedFlux r d a 0 z = .ok (J z)) ∧
        ∀ z z', z < z' → J z 0 < J z' 0 := by
  obtain ⟨m, hm, h1, h2, h3, h4⟩ := turning_matrices
  have hpi := Real.pi_ne_zero
  obtain ⟨k, hk⟩ : ∃ k, transverseWavevectors (0, 0) twoPiLattice twoOrders = .ok k := by
    refine ⟨_, (transverseWavevectors_layer (l := solvedLayer (2 * Real.pi) (0, 0) twoPiLattice m twoOrders 0 0)).2 ⟨?_, rfl⟩⟩
    simp [cellArea, solvedLayer, twoPiLattice, hpi]
  have hA : eigenproblemMatrix (2 * Real.pi) k m = .ok (Matrix.fromBlocks turningTE 0 0 turningTM) := by
    refine (eigenproblemMatrix_ok_iff 0 0 hk).2 ⟨by positivity, ?_, by rw [h3]; simp, ?_⟩
    · rw [h1, det_fin_two, isUnit_iff_ne_zero]; norm_num
    · rw [turning_electric h1 h2, turning_divergence h3, h2, h4, turning_eigenproblem]
  have hs : numericalEigensolve eig (2 * Real.pi) (0, 0) twoPiLattice m twoOrders = .ok _ :=
    numericalEigensolve_ok_iff.2 ⟨k, _, hk, hA, rfl⟩
  obtain ⟨g1, -, g3, g4⟩ := numericalEigensolve_modes he hs
  obtain ⟨V, w, hV, hw⟩ := turning_diagonalisable
  have hφ := he.invertible _ V w hV hw
  set q := fun i => selectEigenvaluesSign (csqrt ((eig (Matrix.fromBlocks turningTE 0 0 turningTM)).1 i)) with hq
  set v := (eig (Matrix.fromBlocks turningTE 0 0 turningTM)).2 with hv
  set r := solvedLayer (2 * Real.pi) (0, 0) twoPiLattice m twoOrders q v with hr
  have hmode : Matrix.fromBlocks turningTE 0 0 turningTM * r.eigenvectors = r.eigenvectors * diagonal fun i => r.eigenvalues i ^ 2 := by
    have := g3
    unfold ModeEquation at this
    rw [turning_electric h1 h2, turning_divergence h3, h4, show r.transversePermeabilityMatrix = 1 from h2, turning_eigenproblem] at this
    exact this
  have hq0 : ∀ i, r.eigenvalues i ≠ 0 := by
    intro i h0
    have hdet := congrArg det hmode
    rw [det_mul, det_mul, det_diagonal, Finset.prod_eq_zero (Finset.mem_univ i) (by rw [h0]; ring), mul_zero] at hdet
    rcases mul_eq_zero.1 hdet with h5 | h5
    · exact turning_det h5
    · exact hφ.ne_zero h5
  refine ⟨r, ?_, ?_⟩
  · unfold eigensolveIsotropicMedia
    rw [dif_neg (by norm_num)]
    unfold eigensolvePatternedIsotropic
    rw [hm]
    exact hs
  obtain ⟨c, hc, t, ht0, ht⟩ := turning_eigenvalue
  have hf := selectEigenvaluesSign_forward c
  set p := selectEigenvaluesSign (csqrt c) with hp
  have hAt : Matrix.fromBlocks turningTE 0 0 turningTM * Matrix.fromRows t 0 = p ^ 2 • (Matrix.fromRows t 0 : Matrix (Fin 2 ⊕ Fin 2) (Fin 1) ℂ) := by
    rw [hf.1, fromBlocks_mul_fromRows, ht]
    ext i j
    rcases i with i | i <;> simp
  obtain ⟨a, ha, ha'⟩ := eigenvector_amplitudes (l := r) hφ hmode g4 (q := p) (by rw [hf.1]; exact hf) hAt
  have hX : magneticToElectric r * (r.eigenvectors * a) = r.eigenvectors * a := by
    rw [ha, turning_electric h1 h2, fromBlocks_mul_fromRows]
    simp
  have hω : omega r = 1 := div_self (by positivity)
  refine ⟨a, _, fun z => reportedFlux_eq g1 hq0 d a 0 z, fun z z' hz => ?_⟩
  simp only [eigenvector_flux d ha' hX hω]
  -- the mode decays along `+z` and carries energy along `-z`
  have him : 2 * p.re * p.im < 0 := by
    have := congrArg Complex.im hf.1
    rw [pow_two, Complex.mul_im] at this
    linarith
  have him' : 0 < p.im := lt_of_le_of_ne hf.2.1 (by rintro h0; rw [← h0] at him; simp at him)
  have hre : p.re < 0 := by nlinarith
  have hS : 0 < ∑ i, ‖(r.eigenvectors * a) i 0‖ ^ 2 := by
    rw [ha]
    refine Finset.sum_pos' (fun i _ => by positivity) ⟨.inl 0, Finset.mem_univ _, ?_⟩
    have : 0 < ‖t 0 0‖ := norm_pos_iff.2 ht0
    exact pow_pos this 2
  have hN : 0 < Complex.normSq p := Complex.normSq_pos.2 (by rintro h0; rw [h0] at hre; simp at hre)
  have hE : Real.exp (-2 * p.im * z') < Real.exp (-2 * p.im * z) := Real.exp_lt_exp.2 (by nlinarith)
  have hC : p.re / Complex.normSq p < 0 := div_neg_of_neg_of_pos hre hN
  exact mul_lt_mul_of_pos_right (mul_lt_mul_of_neg_left hE hC) hS

/-! ### Examples -/

/-- The layer with the step in permittivity times `c`, in a vector formulation with a constant tangent field, is solved. -/
theorem constantTangent_solves {eig : ModeMatrix (Fin 2) → (Fin 2 ⊕ Fin 2 → ℂ) × ModeMatrix (Fin 2)} {c : ℂ} (hc : c ≠ 0) (tx ty : ℂ) :
    ∃ r, eigensolveIsotropicMedia eig (2 * Real.pi) (0, 0) twoPiLattice (c • stepPermittivity) twoOrders
      (.vector fun _ _ _ => .ok (Matrix.of fun _ _ => tx, Matrix.of fun _ _ => ty)) = .ok r := by
  have hR := twoOrders_resolves
  have hpi := Real.pi_ne_zero
  have hrec : recipGrid (c • stepPermittivity) = .ok (Matrix.of fun r s => 1 / (c • stepPermittivity) r s) := by
    refine recipGrid_ok_iff.2 ⟨fun r s => ?_, rfl⟩
    simp only [stepPermittivity, of_apply, Matrix.smul_apply, smul_eq_mul]
    split_ifs <;> simp [hc]
  have e1 : convolution twoOrders (c • stepPermittivity) = c • !![5 / 4, 1 / 4; 1 / 4, 5 / 4] := by
    rw [← step_convolution, convolution_twoOrders, convolution_twoOrders]
    ext i j
    fin_cases i <;> fin_cases j <;> simp <;> ring
  have e2 : convolution twoOrders (Matrix.of fun r s => 1 / (c • stepPermittivity) r s) = c⁻¹ • !![7 / 8, -1 / 8; -1 / 8, 7 / 8] := by
    rw [← step_reciprocal, convolution_twoOrders, convolution_twoOrders]
    ext i j
    fin_cases i <;> fin_cases j <;> simp <;> ring
  have hu : IsUnit (convolution twoOrders (Matrix.of fun r s => 1 / (c • stepPermittivity) r s)).det := by
    rw [e2, det_smul, det_fin_two, isUnit_iff_ne_zero]
    refine mul_ne_zero (pow_ne_zero _ (inv_ne_zero hc)) ?_
    norm_num
  obtain ⟨m, hm, h1, h3⟩ : ∃ m, fourierMatricesPatternedIsotropic twoPiLattice (c • stepPermittivity) twoOrders
      (.vector fun _ _ _ => .ok (Matrix.of fun _ _ => tx, Matrix.of fun _ _ => ty)) = .ok m ∧
      m.zPermittivity = convolution twoOrders (c • stepPermittivity) ∧ m.zPermeability = 1 := by
    unfold fourierMatricesPatternedIsotropic transversePermittivityIsotropic transversePermittivityVector
    simp only [bind_eq_ok, fourierConvolutionMatrix_ok_iff, ok_inj, diag_const, one_smul, zero_smul, fromBlocks_one, inv_ok_iff]
    exact ⟨_, ⟨_, ⟨_, rfl, _, ⟨hR, rfl⟩, _, hrec, _, ⟨hR, rfl⟩, _, ⟨hu, rfl⟩, _, ⟨hR, rfl⟩, _, ⟨hR, rfl⟩, _, ⟨hR, rfl⟩, _, ⟨hR, rfl⟩, rfl⟩,
      _, hrec, _, ⟨hR, rfl⟩, _, ⟨hR, rfl⟩, rfl⟩, rfl, rfl⟩
  obtain ⟨k, hk⟩ : ∃ k, transverseWavevectors (0, 0) twoPiLattice twoOrders = .ok k := by
    refine ⟨_, (transverseWavevectors_layer (l := solvedLayer (2 * Real.pi) (0, 0) twoPiLattice m twoOrders 0 0)).2 ⟨?_, rfl⟩⟩
    simp [cellArea, solvedLayer, twoPiLattice, hpi]
  have hA := (eigenproblemMatrix_ok_iff (m := m) (wavelength := 2 * Real.pi) 0 0 hk).2 ⟨by positivity, by
    rw [h1, e1, det_smul, det_fin_two, isUnit_iff_ne_zero]
    refine mul_ne_zero (pow_ne_zero _ hc) ?_
    norm_num, by rw [h3]; simp, rfl⟩
  unfold eigensolveIsotropicMedia
  rw [dif_neg (by norm_num)]
  unfold eigensolvePatternedIsotropic
  rw [hm]
  exact ⟨_, numericalEigensolve_ok_iff.2 ⟨k, _, hk, hA, rfl⟩⟩

theorem twoOrders_injective : Function.Injective twoOrders := by
  intro i j h
  fin_cases i <;> fin_cases j <;> simp [twoOrders] at h ⊢

example : ∃ (eig : ModeMatrix (Fin 2) → (Fin 2 ⊕ Fin 2 → ℂ) × ModeMatrix (Fin 2)) (r : LayerSolveResult (Fin 2)),
    eigensolveIsotropicMedia eig (2 * Real.pi) (0, 0) twoPiLattice ((3 : ℂ) • stepPermittivity) twoOrders
      (.vector fun _ _ _ => .ok (Matrix.of fun _ _ => 1 / 2, Matrix.of fun _ _ => Complex.I)) = .ok r ∧ LosslessLayer r := by
  obtain ⟨eig, he⟩ := exists_isEig (Fin 2 ⊕ Fin 2)
  obtain ⟨r, hr⟩ := constantTangent_solves (eig := eig) (c := 3) (by norm_num) (1 / 2) Complex.I
  refine ⟨eig, r, hr, C42_vector_lossless he twoOrders_injective rfl hr fun i j => ?_⟩
  simp only [stepPermittivity, Matrix.smul_apply, of_apply]
  split_ifs <;> simp

example : ∃ (eig : ModeMatrix (Fin 2) → (Fin 2 ⊕ Fin 2 → ℂ) × ModeMatrix (Fin 2)) (r : LayerSolveResult (Fin 2)),
    eigensolveIsotropicMedia eig (2 * Real.pi) (0, 0) twoPiLattice ((3 + Complex.I) • stepPermittivity) twoOrders
      (.vector fun _ _ _ => .ok (Matrix.of fun _ _ => 1 / 2, Matrix.of fun _ _ => Complex.I)) = .ok r ∧ PassiveLayer r := by
  obtain ⟨eig, he⟩ := exists_isEig (Fin 2 ⊕ Fin 2)
  obtain ⟨r, hr⟩ := constantTangent_solves (eig := eig) (c := 3 + Complex.I)
    (by intro h; have := congrArg Complex.im h; simp at this) (1 / 2) Complex.I
  refine ⟨eig, r, hr, C43_vector_passive he (by have := Real.pi_pos; positivity) twoOrders_injective rfl hr fun i j => ?_⟩
  simp only [stepPermittivity, Matrix.smul_apply, of_apply]
  split_ifs <;> simp

/-- The anisotropic construction succeeds for the step in permittivity times `c`. -/
theorem step_rotated {c : ℂ} (hc : c ≠ 0) {tensor : Fin 4 → Fin 1 → Matrix (Fin 2) (Fin 2) ℂ}
    (hT : ∀ r s, tensor r s = (c • stepPermittivity) r s • 1) {t00 t01 t10 t11 : Grid 4 1} (ht : ∀ r s, (!![t00 r s, t01 r s; t10 r s, t11 r s] : Matrix (Fin 2) (Fin 2) ℂ).det ≠ 0) :
    ∃ E : ModeMatrix (Fin 2), rotatedFourierMatrix tensor t00 t01 t10 t11 twoOrders = .ok E := by
  have hR := twoOrders_resolves
  have e2 : convolution twoOrders (Matrix.of fun r s => 1 / (c • stepPermittivity) r s) = c⁻¹ • !![7 / 8, -1 / 8; -1 / 8, 7 / 8] := by
    rw [← step_reciprocal, convolution_twoOrders, convolution_twoOrders]
    ext i j
    fin_cases i <;> fin_cases j <;> simp <;> ring
  unfold rotatedFourierMatrix rotationMatrices
  simp only [bind_eq_ok, fourierConvolutionMatrix_ok_iff, inv_ok_iff, ok_inj, allOk_eq_ok, Prod.exists, Prod.mk.injEq, solve_eq_ok]
  refine ⟨_, _, _, _, ⟨_, ⟨hR, rfl⟩, _, ⟨hR, rfl⟩, _, ⟨hR, rfl⟩, _, ⟨hR, rfl⟩, _, ⟨hR, rfl⟩, _, ⟨hR, rfl⟩, _, ⟨hR, rfl⟩, _, ⟨hR, rfl⟩, rfl, rfl, rfl⟩,
    fun x => (c • stepPermittivity) x.1 x.2 • 1, fun x => ⟨isUnit_iff_ne_zero.2 (ht _ _), ?_⟩, _, ⟨hR, rfl⟩, _, ⟨hR, rfl⟩, _, ⟨hR, rfl⟩, _,
    recipGrid_ok_iff.2 ⟨fun r s => ?_, rfl⟩, _, ⟨hR, rfl⟩, _, ⟨?_, rfl⟩, rfl⟩
  · simp [hT]
  · simp only [stepPermittivity, of_apply, Matrix.smul_apply, smul_eq_mul, Matrix.one_apply_eq, mul_one]
    split_ifs <;> simp [hc]
  · simp only [of_apply, Matrix.smul_apply, smul_eq_mul, Matrix.one_apply_eq, mul_one]
    simp only [Matrix.smul_apply, smul_eq_mul] at e2
    rw [e2, det_smul, det_fin_two, isUnit_iff_ne_zero]
    refine mul_ne_zero (pow_ne_zero _ (inv_ne_zero hc)) ?_
    norm_num

/-- A tensor with in-plane components of the step times `c`, and out-of-plane component of the step. -/
noncomputable def stepTensor (c : ℂ) : TensorComponents 4 1 :=
  { xx := c • stepPermittivity, xy := 0, yx := 0, yy := c • stepPermittivity, zz := stepPermittivity }

theorem stepTensor_hermitian (c : ℝ) : HermitianTensor (stepTensor c) := by
  intro r s
  have hs : (stepPermittivity r s).im = 0 := by
    simp only [stepPermittivity, of_apply]
    split_ifs <;> simp
  refine ⟨?_, hs⟩
  have : star ((c : ℂ) * stepPermittivity r s) = (c : ℂ) * stepPermittivity r s := by
    rw [Complex.star_def, Complex.conj_eq_iff_im]
    simp [hs]
  ext i j
  fin_cases i <;> fin_cases j <;> simp [stepTensor] <;> simpa using this

example : ∃ (eig : ModeMatrix (Fin 2) → (Fin 2 ⊕ Fin 2 → ℂ) × ModeMatrix (Fin 2)) (r : LayerSolveResult (Fin 2)),
    eigensolveGeneralAnisotropicMedia eig (2 * Real.pi) (0, 0) twoPiLattice (stepTensor (3 : ℝ)) (stepTensor (2 : ℝ)) twoOrders
      (.vector fun _ _ _ => .ok (Matrix.of fun _ _ => 1 / 2, Matrix.of fun _ _ => Complex.I)) none = .ok r ∧ LosslessLayer r := by
  obtain ⟨eig, he⟩ := exists_isEig (Fin 2 ⊕ Fin 2)
  have hR := twoOrders_resolves
  have hpi := Real.pi_ne_zero
  have hrec : recipGrid stepPermittivity = .ok (Matrix.of fun r s => 1 / stepPermittivity r s) := by
    refine recipGrid_ok_iff.2 ⟨fun r s => ?_, rfl⟩
    simp only [stepPermittivity, of_apply]
    split_ifs <;> norm_num
  have hdet : ∀ t : ℂ, t = Complex.I * star Complex.I + 1 / 4 → t ≠ 0 := by
    rintro t rfl
    simp
    norm_num
  obtain ⟨E, hE⟩ := step_rotated (c := (3 : ℝ)) (by norm_num)
    (tensor := fun r s => !![(stepTensor (3 : ℝ)).yy r s, -(stepTensor (3 : ℝ)).yx r s; -(stepTensor (3 : ℝ)).xy r s, (stepTensor (3 : ℝ)).xx r s])
    (fun r s => by ext i j; fin_cases i <;> fin_cases j <;> simp [stepTensor])
    (t00 := Matrix.of fun _ _ => Complex.I) (t01 := Matrix.of fun _ _ => star (1 / 2)) (t10 := -Matrix.of fun _ _ => 1 / 2)
    (t11 := Matrix.of fun _ _ => star Complex.I) (fun r s => by rw [det_fin_two]; apply hdet; simp; norm_num)
  obtain ⟨M, hM⟩ := step_rotated (c := (2 : ℝ)) (by norm_num)
    (tensor := fun r s => !![(stepTensor (2 : ℝ)).xx r s, (stepTensor (2 : ℝ)).xy r s; (stepTensor (2 : ℝ)).yx r s, (stepTensor (2 : ℝ)).yy r s])
    (fun r s => by ext i j; fin_cases i <;> fin_cases j <;> simp [stepTensor])
    (t00 := Matrix.of fun _ _ => 1 / 2) (t01 := Matrix.of fun _ _ => -star Complex.I) (t10 := Matrix.of fun _ _ => Complex.I)
    (t11 := Matrix.of fun _ _ => star (1 / 2)) (fun r s => by rw [det_fin_two]; apply hdet; simp; norm_num)
  obtain ⟨m, hm, h1, h3⟩ : ∃ m, fourierMatricesPatternedAnisotropic twoPiLattice (stepTensor (3 : ℝ)) (stepTensor (2 : ℝ)) twoOrders
      (.vector fun _ _ _ => .ok (Matrix.of fun _ _ => 1 / 2, Matrix.of fun _ _ => Complex.I))
      (Matrix.of fun r s => ((stepTensor (3 : ℝ)).xx r s + (stepTensor (3 : ℝ)).yy r s) / 2) = .ok m ∧
      m.zPermittivity = convolution twoOrders stepPermittivity ∧ m.zPermeability = convolution twoOrders stepPermittivity := by
    unfold fourierMatricesPatternedAnisotropic transverseMatricesAnisotropic
    simp only [bind_eq_ok, fourierConvolutionMatrix_ok_iff, ok_inj, Prod.exists, Prod.mk.injEq]
    exact ⟨_, ⟨E, M, ⟨_, _, ⟨rfl, rfl⟩, _, hE, _, hM, rfl, rfl⟩, _, hrec, _, ⟨hR, rfl⟩, _, ⟨hR, rfl⟩, _, hrec, _, ⟨hR, rfl⟩, _, ⟨hR, rfl⟩, rfl⟩,
      rfl, rfl⟩
  obtain ⟨k, hk⟩ : ∃ k, transverseWavevectors (0, 0) twoPiLattice twoOrders = .ok k := by
    refine ⟨_, (transverseWavevectors_layer (l := solvedLayer (2 * Real.pi) (0, 0) twoPiLattice m twoOrders 0 0)).2 ⟨?_, rfl⟩⟩
    simp [cellArea, solvedLayer, twoPiLattice, hpi]
  have hu : IsUnit (convolution twoOrders stepPermittivity).det := by
    rw [step_convolution, det_fin_two, isUnit_iff_ne_zero]
    norm_num
  have hA := (eigenproblemMatrix_ok_iff (m := m) (wavelength := 2 * Real.pi) 0 0 hk).2 ⟨by positivity, by rwa [h1], by rwa [h3], rfl⟩
  have hs := numericalEigensolve_ok_iff (eig := eig).2 ⟨k, _, hk, hA, rfl⟩
  obtain ⟨r, hr⟩ : ∃ r, eigensolveGeneralAnisotropicMedia eig (2 * Real.pi) (0, 0) twoPiLattice (stepTensor (3 : ℝ)) (stepTensor (2 : ℝ)) twoOrders
      (.vector fun _ _ _ => .ok (Matrix.of fun _ _ => 1 / 2, Matrix.of fun _ _ => Complex.I)) none = .ok r := by
    unfold eigensolveGeneralAnisotropicMedia
    rw [dif_neg (by norm_num)]
    unfold eigensolvePatternedAnisotropic
    simp only [Option.getD_none]
    rw [hm]
    exact ⟨_, hs⟩
  exact ⟨eig, r, hr, C42_vector_anisotropic_lossless he twoOrders_injective rfl hr (stepTensor_hermitian 3) (stepTensor_hermitian 2)⟩

/-! ### Zeros of the tangent field -/

theorem rotated_singular {tensor : Fin nx → Fin ny → Matrix (Fin 2) (Fin 2) ℂ} {t00 t01 t10 t11 : Grid nx ny} {G : ι → ℤ × ℤ} {r : Fin nx} {s : Fin ny}
    (h : t00 r s = 0) (h' : t01 r s = 0) (E : ModeMatrix ι) : rotatedFourierMatrix tensor t00 t01 t10 t11 G ≠ .ok E := by
  intro hE
  unfold rotatedFourierMatrix rotationMatrices at hE
  simp only [bind_eq_ok, ok_inj, allOk_eq_ok, Prod.exists, Prod.mk.injEq, solve_eq_ok] at hE
  obtain ⟨_, _, _, ⟨_, -, _, -, _, -, _, -, _, -, _, -, _, -, _, -, rfl, -, -⟩, X, hX, -⟩ := hE
  have := (hX (r, s)).1
  rw [det_fin_two] at this
  simp [h, h'] at this

/-- **C24** (finding) The guard against a vanishing tangent field in the anisotropic vector formulation is incomplete: where the
tangent field is zero at a single grid point (`denom_safe` foresees it), the solve with the rotation matrix is singular and the
layer cannot be solved, whatever the tensors. -/
theorem C24_finding_zero_tangent {wavelength : ℝ} {inPlane : ℝ × ℝ} {l : LatticeVectors} {ε μ : TensorComponents nx ny} {src : Option (Grid nx ny)}
    {G : ι → ℤ × ℤ} {fn : Grid nx ny → (ι → ℤ × ℤ) → LatticeVectors → Res (Grid nx ny × Grid nx ny)} {tx ty : Grid nx ny} (hn : ¬(nx = 1 ∧ ny = 1))
    (ht : fn (src.getD (Matrix.of fun r s => (ε.xx r s + ε.yy r s) / 2)) G l = .ok (tx, ty)) {i : Fin nx} {j : Fin ny} (hx : tx i j = 0)
    (hy : ty i j = 0) (r : LayerSolveResult ι) : eigensolveGeneralAnisotropicMedia eig wavelength inPlane l ε μ G (.vector fn) src ≠ .ok r := by
  intro h
  unfold eigensolveGeneralAnisotropicMedia at h
  rw [dif_neg hn] at h
  unfold eigensolvePatternedAnisotropic at h
  obtain ⟨m, hm, h⟩ := bind_eq_ok.1 h
  unfold fourierMatricesPatternedAnisotropic transverseMatricesAnisotropic at hm
  simp only [bind_eq_ok, ok_inj, ht, Prod.exists, Prod.mk.injEq] at hm
  obtain ⟨E, M, ⟨_, _, ⟨rfl, rfl⟩, E', hE, -⟩, -⟩ := hm
  exact rotated_singular hy (by simp [hx]) E' hE

example {eig : ModeMatrix (Fin 2) → (Fin 2 ⊕ Fin 2 → ℂ) × ModeMatrix (Fin 2)} (r : LayerSolveResult (Fin 2)) :
    eigensolveGeneralAnisotropicMedia eig (2 * Real.pi) (0, 0) twoPiLattice (stepTensor 3) (stepTensor 2) twoOrders
      (.vector fun _ _ _ => .ok (Matrix.of fun r _ => if r = 2 then 0 else 1, 0)) none ≠ .ok r :=
  C24_finding_zero_tangent (i := 2) (j := 0) (by norm_num) rfl (by simp) (by simp) r

end Fmmax
