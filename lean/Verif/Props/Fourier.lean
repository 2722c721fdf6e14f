import Verif.Proofs.Fft

/-! Property theorems C15 – C20: Fourier transforms and convolution matrices.

`planeWave`, `fourierCoefficient`, `fourierSeries` and `Resolves` are from `Verif/Spec/Fourier.lean`. -/

set_option linter.unusedSectionVars false

namespace Fmmax

open Spec Matrix

variable {nx ny : ℕ} {ι : Type} [Fintype ι]

/-- An expansion used in the examples. -/
def exampleExpansion : Fin 4 → ℤ × ℤ := ![(0, 0), (1, 0), (-1, 2), (1, -2)]

theorem exampleExpansion_resolved : Resolves 3 5 exampleExpansion := by
  refine ⟨⟨0⟩, fun i => ?_⟩
  fin_cases i <;> simp [exampleExpansion]

theorem exampleExpansion_injective : Function.Injective exampleExpansion := by
  unfold exampleExpansion; decide

/-! ### C15 -/

/-- **C15** `fft(ifft(y)) = y` on every grid that resolves an expansion with distinct orders. -/
theorem C15_round_trip (G : ι → ℤ × ℤ) (hG : Function.Injective G) (h : Resolves nx ny G) (y : ι → ℂ) :
    ∃ x, ifft y G nx ny = .ok x ∧ fft x G = .ok y := by
  refine ⟨_, ifft_eq y h hG, ?_⟩
  rw [fft_eq _ h]
  congr 1
  funext i
  exact fourierCoefficient_series h hG y i

example (y : Fin 4 → ℂ) : ∃ x, ifft y exampleExpansion 3 5 = .ok x ∧ fft x exampleExpansion = .ok y :=
  C15_round_trip _ exampleExpansion_injective exampleExpansion_resolved y

/-! ### C16 -/

/-- **C16** `ifft(y)` is the Fourier series with coefficients `y` sampled on the grid. -/
theorem C16_ifft_is_fourier_series (G : ι → ℤ × ℤ) (hG : Function.Injective G) (h : Resolves nx ny G) (y : ι → ℂ) :
    ifft y G nx ny = .ok (fourierSeries G y nx ny) := ifft_eq y h hG

/-- **C16** The scatter writes every coefficient into a cell of its own. -/
theorem C16_scatter_cells_distinct (G : ι → ℤ × ℤ) (hG : Function.Injective G) (h : Resolves nx ny G) :
    ∃ c : ι → Fin nx × Fin ny, (∀ i, pyIndex2 nx ny (G i) = .ok (c i)) ∧ Function.Injective c := by
  obtain ⟨c, -, hc⟩ := allOk_exists (f := fun k => pyIndex2 nx ny (G k)) h.index
  exact ⟨c, hc, h.cell_injective hG hc⟩

/-- **C16** `fft` computes Fourier coefficients at the orders of the expansion. -/
theorem C16_fft_is_fourier_coefficients (G : ι → ℤ × ℤ) (h : Resolves nx ny G) (x : Matrix (Fin nx) (Fin ny) ℂ) :
    fft x G = .ok fun i => fourierCoefficient x (G i) := fft_eq x h

example (y : Fin 4 → ℂ) : ifft y exampleExpansion 3 5 = .ok (fourierSeries exampleExpansion y 3 5) :=
  C16_ifft_is_fourier_series _ exampleExpansion_injective exampleExpansion_resolved y

/-! ### C17 -/

/-- **C17** Entry `(i, j)` of the convolution matrix is the Fourier coefficient at order `G i - G j`; no index is out of
bounds. -/
theorem C17_convolution_matrix_entries (G : ι → ℤ × ℤ) (h : Resolves nx ny G) (x : Matrix (Fin nx) (Fin ny) ℂ) :
    ∃ T, fourierConvolutionMatrix x G = .ok T ∧ ∀ i j, T i j = fourierCoefficient x (G i - G j) :=
  ⟨_, fourierConvolutionMatrix_eq x h, fun _ _ => rfl⟩

/-- **C17 (finding)** The coefficients are those of the sampled function: at the smallest accepted shape differences of
orders alias.  For orders `0, 1, -1` on three points the coupling between `1` and `-1` (order `2`) is the coefficient of
order `-1`. -/
theorem C17_differences_alias_at_minimum_shape (x : Matrix (Fin 3) (Fin 1) ℂ) :
    ∃ T, fourierConvolutionMatrix x ![(0, 0), (1, 0), (-1, 0)] = .ok T ∧ T 1 2 = T 0 1 := by
  have h : Resolves 3 1 ![((0 : ℤ), (0 : ℤ)), (1, 0), (-1, 0)] := by
    refine ⟨⟨0⟩, fun i => ?_⟩
    fin_cases i <;> simp
  refine ⟨_, fourierConvolutionMatrix_eq x h, ?_⟩
  simp only [Matrix.of_apply]
  have e1 : fourierCoefficient x ((2 : ℕ), (0 : ℕ)) = fourierCoefficient x (2, 0) :=
    cell_fourierCoefficient x (d := (2, 0)) (p := (2, 0)) (.inl (by rfl)) (.inl (by rfl))
  have e2 : fourierCoefficient x ((2 : ℕ), (0 : ℕ)) = fourierCoefficient x (-1, 0) :=
    cell_fourierCoefficient x (d := (-1, 0)) (p := (2, 0)) (.inr (by rfl)) (.inl (by rfl))
  have := e1.symm.trans e2
  simpa using this

example (x : Matrix (Fin 3) (Fin 5) ℂ) : ∃ T, fourierConvolutionMatrix x exampleExpansion = .ok T ∧
    ∀ i j, T i j = fourierCoefficient x (exampleExpansion i - exampleExpansion j) :=
  C17_convolution_matrix_entries _ exampleExpansion_resolved x

/-! ### C18 -/

/-- **C18** Convolution theorem: the convolution matrix of `x` applied to `y` is `fft(x * ifft(y))`. -/
theorem C18_convolution_theorem (G : ι → ℤ × ℤ) (hG : Function.Injective G) (h : Resolves nx ny G)
    (x : Matrix (Fin nx) (Fin ny) ℂ) (y : ι → ℂ) :
    ∃ T f, fourierConvolutionMatrix x G = .ok T ∧ ifft y G nx ny = .ok f ∧
      fft (Matrix.of fun r s => x r s * f r s) G = .ok (T *ᵥ y) := by
  refine ⟨_, _, fourierConvolutionMatrix_eq x h, ifft_eq y h hG, ?_⟩
  rw [fft_eq _ h]
  congr 1
  funext i
  rw [fourierCoefficient_mul_series]
  rfl

example (x : Matrix (Fin 3) (Fin 5) ℂ) (y : Fin 4 → ℂ) :
    ∃ T f, fourierConvolutionMatrix x exampleExpansion = .ok T ∧ ifft y exampleExpansion 3 5 = .ok f ∧
      fft (Matrix.of fun r s => x r s * f r s) exampleExpansion = .ok (T *ᵥ y) :=
  C18_convolution_theorem _ exampleExpansion_injective exampleExpansion_resolved x y

/-! ### C19 -/

/-- **C19** The three functions raise ValueError exactly when the grid has fewer than `2 max|m| + 1` or `2 max|n| + 1` points
(or the expansion is empty), and succeed otherwise. -/
theorem C19_shape_validation (G : ι → ℤ × ℤ) (x : Matrix (Fin nx) (Fin ny) ℂ) (y : ι → ℂ) :
    (fft x G = .error .valueError ↔ ¬ Resolves nx ny G) ∧ ((∃ c, fft x G = .ok c) ↔ Resolves nx ny G) ∧
    (ifft y G nx ny = .error .valueError ↔ ¬ Resolves nx ny G) ∧ ((∃ c, ifft y G nx ny = .ok c) ↔ Resolves nx ny G) ∧
    (fourierConvolutionMatrix x G = .error .valueError ↔ ¬ Resolves nx ny G) ∧
    ((∃ c, fourierConvolutionMatrix x G = .ok c) ↔ Resolves nx ny G) := by
  by_cases h : Resolves nx ny G
  · obtain ⟨c, hc, -⟩ := allOk_exists (f := fun k => pyIndex2 nx ny (G k)) h.index
    have hi : ∃ z, ifft y G nx ny = .ok z := by
      unfold ifft scatter2
      rw [(validateShape_ok_iff G).2 h, hc]
      exact ⟨_, rfl⟩
    obtain ⟨z, hz⟩ := hi
    rw [fft_eq x h, fourierConvolutionMatrix_eq x h, hz]
    simp [h]
  · have he := (validateShape_error_iff (nx := nx) (ny := ny) G .valueError).2 ⟨rfl, h⟩
    have e1 : fft x G = .error .valueError := by unfold fft; rw [he]; rfl
    have e2 : ifft y G nx ny = .error .valueError := by unfold ifft; rw [he]; rfl
    have e3 : fourierConvolutionMatrix x G = .error .valueError := by unfold fourierConvolutionMatrix; rw [he]; rfl
    rw [e1, e2, e3]
    simp [h]

/-- **C19** The bound is exactly `min_array_shape_for_expansion`. -/
theorem C19_min_shape (G : ι → ℤ × ℤ) (m : ℕ × ℕ) (hm : minArrayShapeForExpansion G = .ok m) :
    Resolves nx ny G ↔ m.1 ≤ nx ∧ m.2 ≤ ny := by
  rw [← validateShape_ok_iff]
  unfold validateShapeForExpansion
  rw [hm]
  simp only [bind, Except.bind]
  split_ifs with h
  · simp only [false_iff, reduceCtorEq]; omega
  · simp only [true_iff]; omega

/-- **C19** On accepted grids distinct orders are distinct functions on the grid: they never alias. -/
theorem C19_no_alias (G : ι → ℤ × ℤ) (h : Resolves nx ny G) (i j : ι)
    (ha : ∀ (r : Fin nx) (s : Fin ny), planeWave nx ny (G i) r s = planeWave nx ny (G j) r s) : G i = G j := by
  have hx : (nx : ℂ) ≠ 0 := by have := (h.2 i).1; have := abs_nonneg (G i).1; exact_mod_cast (by omega : nx ≠ 0)
  have hy : (ny : ℂ) ≠ 0 := by have := (h.2 i).2; have := abs_nonneg (G i).2; exact_mod_cast (by omega : ny ≠ 0)
  have key : ∑ r : Fin nx, ∑ s : Fin ny, planeWave nx ny (G i - G j) r s = nx * ny := by
    have hone : ∀ (r : Fin nx) (s : Fin ny), planeWave nx ny (G i - G j) r s = 1 := by
      intro r s
      rw [sub_eq_add_neg, planeWave_add, ha, ← planeWave_add, add_neg_cancel]
      simp [planeWave]
    simp [hone]
  rw [sum_planeWave] at key
  split_ifs at key with hd
  · exact h.no_alias i j hd.1 hd.2
  · exact absurd key.symm (mul_ne_zero hx hy)

/-- **C19** Below the bound the validation is needed: opposite extreme orders do alias on `2 M` points. -/
theorem C19_alias_below_bound (M : ℕ) (hM : 0 < M) (n r s : ℕ) :
    planeWave (2 * M) n (M, 0) r s = planeWave (2 * M) n (-M, 0) r s := by
  unfold planeWave
  rw [Complex.exp_eq_exp_iff_exists_int]
  refine ⟨r, ?_⟩
  have : (M : ℂ) ≠ 0 := by exact_mod_cast hM.ne'
  push_cast
  field_simp
  ring

example : fft (0 : Matrix (Fin 2) (Fin 5) ℂ) exampleExpansion = .error .valueError := by
  refine (C19_shape_validation exampleExpansion _ 0).1.2 ?_
  intro h
  have := (h.2 1).1
  simp [exampleExpansion] at this

/-! ### C20 -/

variable [DecidableEq ι]

/-- **C20** A constant array has a multiple of the identity as its convolution matrix. -/
theorem C20_constant (G : ι → ℤ × ℤ) (hG : Function.Injective G) (h : Resolves nx ny G) (c : ℂ) :
    fourierConvolutionMatrix (Matrix.of fun (_ : Fin nx) (_ : Fin ny) => c) G = .ok (c • (1 : Matrix ι ι ℂ)) := by
  rw [fourierConvolutionMatrix_eq _ h]
  congr 1
  ext i j
  have hx : (nx : ℂ) ≠ 0 := by have := (h.2 i).1; have := abs_nonneg (G i).1; exact_mod_cast (by omega : nx ≠ 0)
  have hy : (ny : ℂ) ≠ 0 := by have := (h.2 i).2; have := abs_nonneg (G i).2; exact_mod_cast (by omega : ny ≠ 0)
  unfold fourierCoefficient
  simp only [Matrix.of_apply, ← Finset.mul_sum, sum_planeWave, Prod.fst_neg, Prod.snd_neg, dvd_neg, Prod.fst_sub,
    Prod.snd_sub, Matrix.smul_apply, Matrix.one_apply]
  by_cases hij : i = j
  · subst hij; simp [hx, hy]
  · rw [if_neg hij, if_neg]
    · simp
    · rintro ⟨h1, h2⟩
      exact hij (hG (h.no_alias i j h1 h2))

/-- **C20** Conjugating the array conjugate-transposes the convolution matrix. -/
theorem C20_conj_transpose (G : ι → ℤ × ℤ) (h : Resolves nx ny G) (x : Matrix (Fin nx) (Fin ny) ℂ) :
    ∃ T, fourierConvolutionMatrix x G = .ok T ∧
      fourierConvolutionMatrix (Matrix.of fun r s => star (x r s)) G = .ok Tᴴ := by
  refine ⟨_, fourierConvolutionMatrix_eq x h, ?_⟩
  rw [fourierConvolutionMatrix_eq _ h]
  congr 1
  ext i j
  simp only [Matrix.of_apply, Matrix.conjTranspose_apply, fourierCoefficient]
  rw [star_div₀]
  simp only [star_sum, star_mul', ← planeWave_neg_conj, neg_sub, star_natCast]

/-- **C20** Sums and multiples of arrays give sums and multiples of matrices. -/
theorem C20_linear (G : ι → ℤ × ℤ) (h : Resolves nx ny G) (x y : Matrix (Fin nx) (Fin ny) ℂ) (a b : ℂ) :
    ∃ T U, fourierConvolutionMatrix x G = .ok T ∧ fourierConvolutionMatrix y G = .ok U ∧
      fourierConvolutionMatrix (a • x + b • y) G = .ok (a • T + b • U) := by
  refine ⟨_, _, fourierConvolutionMatrix_eq x h, fourierConvolutionMatrix_eq y h, ?_⟩
  rw [fourierConvolutionMatrix_eq _ h]
  congr 1
  ext i j
  simp only [Matrix.of_apply, Matrix.add_apply, Matrix.smul_apply, fourierCoefficient, smul_eq_mul, add_mul,
    Finset.sum_add_distrib, mul_assoc, ← Finset.mul_sum]
  ring

/-- **C20** An array with positive real part has a convolution matrix whose quadratic form has positive real part; in
particular the matrix is invertible and `solve` with it does not fail. -/
theorem C20_positive_real_part (G : ι → ℤ × ℤ) (hG : Function.Injective G) (h : Resolves nx ny G)
    (x : Matrix (Fin nx) (Fin ny) ℂ) (hx : ∀ r s, 0 < (x r s).re) :
    ∃ T, fourierConvolutionMatrix x G = .ok T ∧
      (∀ y : ι → ℂ, y ≠ 0 → 0 < (star y ⬝ᵥ T *ᵥ y).re) ∧
      (∀ (β : Type) (B : Matrix ι β ℂ), ∃ X, solve T B = .ok X ∧ T * X = B) := by
  refine ⟨_, fourierConvolutionMatrix_eq x h, convolution_form_re_pos x h hG hx, ?_⟩
  intro β B
  have hu := isUnit_det_of_re_form_pos _ (convolution_form_re_pos x h hG hx)
  refine ⟨(Matrix.of fun i j => fourierCoefficient x (G i - G j))⁻¹ * B, ?_, ?_⟩
  · unfold solve
    rw [if_pos hu]
  · rw [← Matrix.mul_assoc, Matrix.mul_nonsing_inv _ hu, Matrix.one_mul]

/-- **C20** More precisely, the quadratic form is the average over the cell of `x |f|²`. -/
theorem C20_quadratic_form (G : ι → ℤ × ℤ) (h : Resolves nx ny G) (x : Matrix (Fin nx) (Fin ny) ℂ) (y : ι → ℂ) :
    ∃ T, fourierConvolutionMatrix x G = .ok T ∧ star y ⬝ᵥ T *ᵥ y =
      (∑ r : Fin nx, ∑ s : Fin ny, x r s * (Complex.normSq (fourierSeries G y nx ny r s) : ℂ)) / (nx * ny) :=
  ⟨_, fourierConvolutionMatrix_eq x h, convolution_form x G y⟩

example : ∃ T, fourierConvolutionMatrix (Matrix.of fun (r : Fin 3) (_ : Fin 5) => (1 + (r : ℕ) + 2 * Complex.I : ℂ))
    exampleExpansion = .ok T ∧ ∀ (β : Type) (B : Matrix (Fin 4) β ℂ), ∃ X, solve T B = .ok X ∧ T * X = B := by
  obtain ⟨T, h1, -, h2⟩ := C20_positive_real_part _ exampleExpansion_injective exampleExpansion_resolved
    (Matrix.of fun (r : Fin 3) (_ : Fin 5) => (1 + (r : ℕ) + 2 * Complex.I : ℂ)) (by
      intro r s; simp; positivity)
  exact ⟨T, h1, h2⟩

end Fmmax
