import Verif.Proofs.CrossedLoss

/-! The tangent field of the pattern `cos x + cos y`, at any resolution and with any grid for its optimisation. -/

namespace Fmmax

open Matrix Spec

variable {nx ny a b : ℕ}

/-- The size of the gradient of `cos x`, computed with central differences of `n` samples. -/
noncomputable def gradientSize (n : ℕ) : ℝ := n * gridSin n 1

/-- The samples of the sine are zero or not small. -/
def Coarse (a : ℕ) : Prop := ∀ i : Fin a, gridSin a i = 0 ∨ 1 / 4 ≤ gridSin a i ^ 2

theorem crossed_magnitude_eq (p q : ℝ) : magnitude ![(p : ℂ), (q : ℂ)] = Real.sqrt (p ^ 2 + q ^ 2) := by
  unfold magnitude
  simp only [cons_val_zero, cons_val_one, Complex.norm_real, Real.norm_eq_abs, sq_abs]

/-- The optimised field of the crossed pattern. -/
theorem crossed_field (hx : 3 ≤ nx) (hy : 3 ≤ ny) (ha : 3 ≤ a) (hb : 3 ≤ b) (hca : Coarse a) (hcb : Coarse b) (hX : 1 ≤ gradientSize nx) (hY : 1 ≤ gradientSize ny)
    (hXY : gradientSize nx ≤ 4 * gradientSize ny) (hYX : gradientSize ny ≤ 4 * gradientSize nx) {g : VectorField a b}
    (hg : filteredGradient (crossedPattern nx ny) crossedOrders squareCell a b = .ok g) :
    ∃ M : ℝ, 0 < M ∧ (∀ (i : Fin a) (j : Fin b), Real.sqrt ((gradientSize nx * gridSin a i) ^ 2 + (gradientSize ny * gridSin b j) ^ 2) ≤ M) ∧
      (∃ (i : Fin a) (j : Fin b), Real.sqrt ((gradientSize nx * gridSin a i) ^ 2 + (gradientSize ny * gridSin b j) ^ 2) = M) ∧
      (∀ d, is1dField g = .ok d → ¬d.1) ∧
      ∀ (fw : ℝ) (n : ℕ) (z : Fin 5 × Fin 2 → ℂ), 0 < fw → optimizedFourierField g crossedOrders squareCell false fw 0 (n + 1) = .ok z →
        ∃ A B : ℝ, z = crossedCoefficients A B ∧
          A * ((∑ i : Fin a, ∑ j : Fin b, gridSin b j ^ 2 * crossedWeight a b (gradientSize nx / M) (gradientSize ny / M) i j) +
            a * b * (fw * (2 * Real.pi) ^ 2 / 2)) = -(gradientSize ny / M) * ∑ _i : Fin a, ∑ j : Fin b, gridSin b j ^ 2 ∧
          B * ((∑ i : Fin a, ∑ j : Fin b, gridSin a i ^ 2 * crossedWeight a b (gradientSize nx / M) (gradientSize ny / M) i j) +
            a * b * (fw * (2 * Real.pi) ^ 2 / 2)) = gradientSize nx / M * ∑ i : Fin a, ∑ _j : Fin b, gridSin a i ^ 2 := by
  set X := gradientSize nx with hXd
  set Y := gradientSize ny with hYd
  have hc : HasCrossed crossedOrders := ⟨1, 2, 3, 4, rfl, rfl, rfl, rfl⟩
  unfold filteredGradient at hg
  rw [hc.bandlimitedGradient crossedOrders_injective (crossedOrders_resolves hx hy) (crossedOrders_resolves ha hb)] at hg
  simp only [bind, Except.bind] at hg
  have h1a := gridSin_one_pos ha
  have h1b := gridSin_one_pos hb
  have hi1 : ((⟨1, by omega⟩ : Fin a) : ℕ) = 1 := rfl
  have hj1 : ((⟨1, by omega⟩ : Fin b) : ℕ) = 1 := rfl
  have s1a : 1 / 4 ≤ gridSin a 1 ^ 2 := (hca ⟨1, by omega⟩).resolve_left h1a.ne'
  have s1b : 1 / 4 ≤ gridSin b 1 ^ 2 := (hcb ⟨1, by omega⟩).resolve_left h1b.ne'
  have mag : ∀ (i : Fin a) (j : Fin b), magnitude ![((-(nx * gridSin nx 1) * gridSin a i : ℝ) : ℂ), ((-(ny * gridSin ny 1) * gridSin b j : ℝ) : ℂ)] =
      Real.sqrt ((X * gridSin a i) ^ 2 + (Y * gridSin b j) ^ 2) := by
    intro i j
    rw [crossed_magnitude_eq]
    congr 1
    rw [hXd, hYd]
    unfold gradientSize
    ring
  obtain ⟨M, hM, h⟩ := normalize_eq_ok hg
  obtain ⟨hle, i0, j0, hat⟩ := maxFieldMagnitude_eq_ok.1 hM
  simp only [mag] at hle hat
  have hM4 : 1 / 2 ≤ M := by
    refine le_trans ?_ (hle ⟨1, by omega⟩ ⟨1, by omega⟩)
    refine Real.le_sqrt_of_sq_le ?_
    simp only [mul_pow]
    nlinarith [mul_le_mul (one_le_pow₀ hX : (1 : ℝ) ≤ X ^ 2) s1a (by norm_num) (by positivity), sq_nonneg (Y * gridSin b 1)]
  have hM0 : 0 < M := by linarith
  rcases h with ⟨h, -⟩ | ⟨-, h⟩
  · exfalso; norm_num at h; linarith
  have hsin : ∀ n i, gridSin n i ^ 2 ≤ 1 := fun n i => Real.sin_sq_le_one _
  have hMle : M ^ 2 ≤ X ^ 2 + Y ^ 2 := by
    rw [← hat, Real.sq_sqrt (by positivity), mul_pow, mul_pow]
    nlinarith [hsin a i0, hsin b j0, sq_nonneg X, sq_nonneg Y]
  have hP : 0 < X / M := by positivity
  have hQ : 0 < Y / M := by positivity
  have hP2 : 1 / 17 ≤ (X / M) ^ 2 := by
    rw [div_pow, le_div_iff₀ (by positivity)]
    nlinarith
  have hQ2 : 1 / 17 ≤ (Y / M) ^ 2 := by
    rw [div_pow, le_div_iff₀ (by positivity)]
    nlinarith
  have hgv : ∀ i j, g i j = ![((-(X / M) * gridSin a i : ℝ) : ℂ), ((-(Y / M) * gridSin b j : ℝ) : ℂ)] := by
    intro i j
    have hMc : (M : ℂ) ≠ 0 := by exact_mod_cast hM0.ne'
    rw [h]
    funext c
    rw [hXd, hYd]
    unfold gradientSize
    fin_cases c
    · simp only [Fin.zero_eta, cons_val_zero]; push_cast; field_simp
    · simp only [Fin.mk_one, cons_val_one]; push_cast; field_simp
  have hg0 : ∀ n, gridSin n 0 = 0 := fun n => by simp [gridSin]
  refine ⟨M, hM0, hle, ⟨i0, j0, hat⟩, fun d hd => ?_, fun fw n z hfw hz => ?_⟩
  · refine not_is1d (by omega) (by omega) (i := ⟨1, by omega⟩) (j := ⟨0, by omega⟩) (i' := ⟨0, by omega⟩) (j' := ⟨1, by omega⟩) (u := -(X / M) * gridSin a 1)
      (v := -(Y / M) * gridSin b 1) ?_ ?_ ?_ ?_ hd
    · rw [hgv, hg0, mul_zero, Complex.ofReal_zero]
    · rw [hgv, hg0, mul_zero, Complex.ofReal_zero]
    · refine lt_of_pow_lt_pow_left₀ 2 (abs_nonneg _) ?_
      rw [sq_abs, mul_pow, neg_sq]
      nlinarith [mul_le_mul hP2 s1a (by norm_num) (by positivity)]
    · refine lt_of_pow_lt_pow_left₀ 2 (abs_nonneg _) ?_
      rw [sq_abs, mul_pow, neg_sq]
      nlinarith [mul_le_mul hQ2 s1b (by norm_num) (by positivity)]
  · refine crossed_optimized ha hb hP hQ hgv (fun i j => ?_) hfw hz
    unfold crossedWeight
    rcases hca i with e1 | e1
    · rcases hcb j with e2 | e2
      · left; rw [e1, e2]; simp
      · right
        refine Real.lt_sqrt_of_sq_lt ?_
        nlinarith [mul_le_mul hQ2 e2 (by norm_num) (by positivity), mul_nonneg (sq_nonneg (X / M)) (sq_nonneg (gridSin a i))]
    · right
      refine Real.lt_sqrt_of_sq_lt ?_
      nlinarith [mul_le_mul hP2 e1 (by norm_num) (by positivity), mul_nonneg (sq_nonneg (Y / M)) (sq_nonneg (gridSin b j))]

theorem sum_six (F : ℝ → ℝ) : ∑ i : Fin 6, F (gridSin 6 i ^ 2) = 2 * F 0 + 4 * F (3 / 4) := by
  simp only [gridSin_six_sq, Fin.sum_univ_six]
  change F 0 + F (3 / 4) + F (3 / 4) + F 0 + F (3 / 4) + F (3 / 4) = _
  ring

theorem sum_five (F : ℝ → ℝ) : ∑ i : Fin 5, F (gridSin 5 i ^ 2) = F 0 + 2 * F ((5 + Real.sqrt 5) / 8) + 2 * F ((5 - Real.sqrt 5) / 8) := by
  simp only [gridSin_five_sq, Fin.sum_univ_five]
  change F 0 + F ((5 + Real.sqrt 5) / 8) + F ((5 - Real.sqrt 5) / 8) + F ((5 - Real.sqrt 5) / 8) + F ((5 + Real.sqrt 5) / 8) = _
  ring

theorem coarse_six : Coarse 6 := by
  intro i
  have h := gridSin_six_sq i
  by_cases e : gridSin 6 i = 0
  · exact Or.inl e
  · right
    have : gridSin 6 i ^ 2 ≠ 0 := pow_ne_zero _ e
    rw [h] at this ⊢
    fin_cases i <;> first | (exfalso; exact this rfl) | (change (1 : ℝ) / 4 ≤ 3 / 4; norm_num)

theorem sqrt_five_bounds : 2.236 < Real.sqrt 5 ∧ Real.sqrt 5 < 2.237 :=
  ⟨Real.lt_sqrt_of_sq_lt (by norm_num), (Real.sqrt_lt' (by norm_num)).2 (by norm_num)⟩

theorem coarse_five : Coarse 5 := by
  intro i
  have h := gridSin_five_sq i
  obtain ⟨h1, h2⟩ := sqrt_five_bounds
  by_cases e : gridSin 5 i = 0
  · exact Or.inl e
  · right
    have : gridSin 5 i ^ 2 ≠ 0 := pow_ne_zero _ e
    rw [h] at this ⊢
    fin_cases i
    · exfalso; exact this rfl
    · change (1 : ℝ) / 4 ≤ (5 + Real.sqrt 5) / 8; linarith
    · change (1 : ℝ) / 4 ≤ (5 - Real.sqrt 5) / 8; linarith
    · change (1 : ℝ) / 4 ≤ (5 - Real.sqrt 5) / 8; linarith
    · change (1 : ℝ) / 4 ≤ (5 + Real.sqrt 5) / 8; linarith

theorem gradientSize_four : gradientSize 4 = 4 := by
  unfold gradientSize gridSin
  rw [show 2 * Real.pi * ((1 : ℕ) : ℝ) / ((4 : ℕ) : ℝ) = Real.pi / 2 by push_cast; ring, Real.sin_pi_div_two]
  norm_num

theorem gradientSize_twelve : gradientSize 12 = 6 := by
  unfold gradientSize gridSin
  rw [show 2 * Real.pi * ((1 : ℕ) : ℝ) / ((12 : ℕ) : ℝ) = Real.pi / 6 by push_cast; ring, Real.sin_pi_div_six]
  norm_num

theorem crossedOrders_shape (hx : 1 < nx) (hy : 1 < ny) : doubledMinShape crossedOrders nx ny = .ok (6, 6) := by
  unfold doubledMinShape minArrayShapeForExpansion
  rw [if_pos hx, if_pos hy]
  decide

/-- The tangent field of the crossed pattern. -/
theorem crossed_tangent (hx : 3 ≤ nx) (hy : 3 ≤ ny) (hX : 1 ≤ gradientSize nx) (hY : 1 ≤ gradientSize ny)
    (hXY : gradientSize nx ≤ 4 * gradientSize ny) (hYX : gradientSize ny ≤ 4 * gradientSize nx) {fw : ℝ} (hfw : 0 < fw) {n : ℕ} {t : VectorField nx ny}
    (ht : computeTangentFieldNoBatch (crossedPattern nx ny) crossedOrders squareCell false fw 0 (n + 1) = .ok t) :
    ∃ M A B : ℝ, M = Real.sqrt (3 / 4) * Real.sqrt (gradientSize nx ^ 2 + gradientSize ny ^ 2) ∧
      normalize (fun (i : Fin nx) (j : Fin ny) => ![((A * gridSin ny j : ℝ) : ℂ), ((B * gridSin nx i : ℝ) : ℂ)]) = .ok t ∧
      A * ((∑ i : Fin 6, ∑ j : Fin 6, gridSin 6 j ^ 2 * crossedWeight 6 6 (gradientSize nx / M) (gradientSize ny / M) i j) +
        36 * (fw / 5 * (2 * Real.pi) ^ 2 / 2)) = -(gradientSize ny / M) * 18 ∧
      B * ((∑ i : Fin 6, ∑ j : Fin 6, gridSin 6 i ^ 2 * crossedWeight 6 6 (gradientSize nx / M) (gradientSize ny / M) i j) +
        36 * (fw / 5 * (2 * Real.pi) ^ 2 / 2)) = gradientSize nx / M * 18 := by
  unfold computeTangentFieldNoBatch at ht
  rw [if_neg (by simp), crossedOrders_shape (by omega) (by omega)] at ht
  simp only [bind, Except.bind] at ht
  obtain ⟨g, hg, ht⟩ := bind_eq_ok.1 ht
  obtain ⟨f, hf, ht⟩ := bind_eq_ok.1 ht
  obtain ⟨M, hM, hle, ⟨i0, j0, hat⟩, h1, hopt⟩ := crossed_field hx hy (by norm_num) (by norm_num) coarse_six coarse_six hX hY hXY hYX hg
  unfold tangentFieldOfGradient at hf
  obtain ⟨d, hd, hf⟩ := bind_eq_ok.1 hf
  rw [if_neg (h1 d hd)] at hf
  obtain ⟨z, hz, hf⟩ := bind_eq_ok.1 hf
  rw [zero_div] at hz
  obtain ⟨A, B, rfl, hA, hB⟩ := hopt _ _ _ (by positivity) hz
  rw [ifftVector_eq _ crossedOrders_injective (crossedOrders_resolves hx hy), ok_inj] at hf
  subst hf
  refine ⟨M, A, B, ?_, ?_, ?_, ?_⟩
  · rw [← Real.sqrt_mul (by norm_num)]
    refine le_antisymm ?_ ?_
    · rw [← hat]
      refine Real.sqrt_le_sqrt ?_
      have hs : ∀ i : Fin 6, gridSin 6 i ^ 2 ≤ 3 / 4 := by
        intro i
        rw [gridSin_six_sq]
        fin_cases i <;> simp <;> norm_num
      rw [mul_pow, mul_pow]
      nlinarith [hs i0, hs j0, sq_nonneg (gradientSize nx), sq_nonneg (gradientSize ny)]
    · refine le_trans (le_of_eq ?_) (hle 1 1)
      congr 1
      rw [mul_pow, mul_pow, gridSin_six_sq]
      change _ = gradientSize nx ^ 2 * (3 / 4) + gradientSize ny ^ 2 * (3 / 4)
      ring
  · rw [← ht]
    congr 1
    funext i j
    rw [seriesMap_crossedCoefficients]
  · have e : (∑ _i : Fin 6, ∑ j : Fin 6, gridSin 6 j ^ 2) = 18 := by
      rw [sum_six fun y => y, Finset.sum_const, Finset.card_univ, Fintype.card_fin]
      norm_num
    rw [e] at hA
    simp only [Fintype.card_fin] at hA
    norm_num at hA ⊢
    exact hA
  · have e : (∑ i : Fin 6, ∑ _j : Fin 6, gridSin 6 i ^ 2) = 18 := by
      simp only [Finset.sum_const, Finset.card_univ, Fintype.card_fin]
      rw [sum_six fun y => 6 • y]
      norm_num
    rw [e] at hB
    simp only [Fintype.card_fin] at hB
    norm_num at hB ⊢
    exact hB

end Fmmax
