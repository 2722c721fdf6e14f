import Verif.Proofs.CrossedField
import Verif.Props.SupercellTangent

/-! Tangent vector fields of supercells with an even number of cells (C100), and at different resolutions (C101). -/

namespace Fmmax

open Matrix Spec

variable {ι κ : Type} [Fintype ι] [DecidableEq ι] [Fintype κ] [DecidableEq κ] {nx ny m n : ℕ}

/-! ### The crossed pattern -/

theorem normalize_factor {f g : VectorField nx ny} (h : normalize f = .ok g) : ∃ c : ℝ, 0 < c ∧ ∀ i j k, g i j k = f i j k / (c : ℂ) := by
  obtain ⟨m, hm, ⟨-, h⟩ | ⟨h1, h⟩⟩ := normalize_eq_ok h
  · exact ⟨1, one_pos, fun i j k => by rw [h]; simp⟩
  · exact ⟨m, lt_trans (by norm_num) h1, fun i j k => by rw [h]⟩

theorem crossed_factor {A B : ℝ} {t : VectorField nx ny}
    (h : normalize (fun (i : Fin nx) (j : Fin ny) => ![((A * gridSin ny j : ℝ) : ℂ), ((B * gridSin nx i : ℝ) : ℂ)]) = .ok t) :
    ∃ c : ℝ, 0 < c ∧ ∀ i j, magnitude (t i j) = Real.sqrt ((A * gridSin ny j) ^ 2 + (B * gridSin nx i) ^ 2) / c := by
  obtain ⟨c, hc, h⟩ := normalize_factor h
  refine ⟨c, hc, fun i j => ?_⟩
  have e : t i j = fun k => (![((A * gridSin ny j : ℝ) : ℂ), ((B * gridSin nx i : ℝ) : ℂ)] : Fin 2 → ℂ) k / (c : ℂ) := funext fun k => h i j k
  rw [e, magnitude_div c hc, crossed_magnitude_eq]

theorem sqrt_three_quarters : Real.sqrt (3 / 4) = Real.sqrt 3 / 2 := by
  rw [Real.sqrt_div (by norm_num), show (4 : ℝ) = 2 ^ 2 by norm_num, Real.sqrt_sq (by norm_num)]

theorem gridSin_zero (n : ℕ) : gridSin n 0 = 0 := by simp [gridSin]

theorem gridSin_four_one : gridSin 4 1 = 1 := by
  have := gradientSize_four
  unfold gradientSize at this
  push_cast at this
  linarith

theorem gridSin_twelve_three : gridSin 12 3 = 1 := by
  unfold gridSin
  rw [show 2 * Real.pi * ((3 : ℕ) : ℝ) / ((12 : ℕ) : ℝ) = Real.pi / 2 by push_cast; ring, Real.sin_pi_div_two]

theorem gridSin_twelve_two : gridSin 12 2 = Real.sqrt 3 / 2 := by
  unfold gridSin
  rw [show 2 * Real.pi * ((2 : ℕ) : ℝ) / ((12 : ℕ) : ℝ) = Real.pi / 3 by push_cast; ring, Real.sin_pi_div_three]

theorem gridSin_six_one : gridSin 6 1 = Real.sqrt 3 / 2 := by
  unfold gridSin
  rw [show 2 * Real.pi * ((1 : ℕ) : ℝ) / ((6 : ℕ) : ℝ) = Real.pi / 3 by push_cast; ring, Real.sin_pi_div_three]

theorem gradientSize_six : gradientSize 6 = 3 * Real.sqrt 3 := by
  unfold gradientSize
  rw [gridSin_six_one]
  push_cast
  ring

/-- The sums of the weights on the grid of six by six points. -/
theorem weight_six {P Q : ℝ} (hP : 0 ≤ P) (hQ : 0 ≤ Q) :
    (∑ i : Fin 6, ∑ j : Fin 6, gridSin 6 j ^ 2 * crossedWeight 6 6 P Q i j) = 6 * (Q * Real.sqrt (3 / 4)) + 12 * (Real.sqrt (P ^ 2 + Q ^ 2) * Real.sqrt (3 / 4)) ∧
    (∑ i : Fin 6, ∑ j : Fin 6, gridSin 6 i ^ 2 * crossedWeight 6 6 P Q i j) = 6 * (P * Real.sqrt (3 / 4)) + 12 * (Real.sqrt (P ^ 2 + Q ^ 2) * Real.sqrt (3 / 4)) := by
  have e1 : Real.sqrt (Q ^ 2 * (3 / 4)) = Q * Real.sqrt (3 / 4) := by rw [Real.sqrt_mul (sq_nonneg _), Real.sqrt_sq hQ]
  have e2 : Real.sqrt (P ^ 2 * (3 / 4)) = P * Real.sqrt (3 / 4) := by rw [Real.sqrt_mul (sq_nonneg _), Real.sqrt_sq hP]
  have e3 : Real.sqrt (P ^ 2 * (3 / 4) + Q ^ 2 * (3 / 4)) = Real.sqrt (P ^ 2 + Q ^ 2) * Real.sqrt (3 / 4) := by
    rw [← add_mul, Real.sqrt_mul (by positivity)]
  constructor
  · have h : ∀ i : Fin 6, ∑ j : Fin 6, gridSin 6 j ^ 2 * crossedWeight 6 6 P Q i j = 3 * Real.sqrt (P ^ 2 * gridSin 6 i ^ 2 + Q ^ 2 * (3 / 4)) := by
      intro i
      unfold crossedWeight
      rw [sum_six fun y => y * Real.sqrt (P ^ 2 * gridSin 6 i ^ 2 + Q ^ 2 * y)]
      ring
    simp only [h]
    rw [sum_six fun x => 3 * Real.sqrt (P ^ 2 * x + Q ^ 2 * (3 / 4)), mul_zero, zero_add, e1, e3]
    ring
  · have h : ∀ i : Fin 6, ∑ j : Fin 6, gridSin 6 i ^ 2 * crossedWeight 6 6 P Q i j =
        gridSin 6 i ^ 2 * (2 * Real.sqrt (P ^ 2 * gridSin 6 i ^ 2) + 4 * Real.sqrt (P ^ 2 * gridSin 6 i ^ 2 + Q ^ 2 * (3 / 4))) := by
      intro i
      unfold crossedWeight
      rw [← Finset.mul_sum, sum_six fun y => Real.sqrt (P ^ 2 * gridSin 6 i ^ 2 + Q ^ 2 * y), mul_zero, add_zero]
    simp only [h]
    rw [sum_six fun x => x * (2 * Real.sqrt (P ^ 2 * x) + 4 * Real.sqrt (P ^ 2 * x + Q ^ 2 * (3 / 4))), e2, e3]
    ring

theorem squareCell_independent : Independent squareCell.u squareCell.v := by unfold Independent; norm_num

theorem crossed_exists (hx : 3 ≤ nx) (hy : 3 ≤ ny) {fw : ℝ} (hfw : 0 < fw) :
    ∃ t, computeField .pol (crossedPattern nx ny) crossedOrders squareCell fw 0 = .ok t :=
  computeTangentField_exists_steps _ false 1 crossedOrders_injective (crossedOrders_resolves hx hy) squareCell_independent (Or.inl hfw)

/-- The tangent field of the crossed pattern is as large along either axis, if it is sampled alike along the axes. -/
theorem crossed_symmetric (hx : 3 ≤ nx) (hX : 1 ≤ gradientSize nx) {fw : ℝ} (hfw : 0 < fw) {t : VectorField nx nx}
    (ht : computeField .pol (crossedPattern nx nx) crossedOrders squareCell fw 0 = .ok t) :
    ∃ B : ℝ, 18 * Real.sqrt (2 / 3) ≤ B * (18 + 36 * (fw / 5 * (2 * Real.pi) ^ 2 / 2)) ∧
      normalize (fun (i : Fin nx) (j : Fin nx) => ![((-B * gridSin nx j : ℝ) : ℂ), ((B * gridSin nx i : ℝ) : ℂ)]) = .ok t := by
  obtain ⟨M, A, B, hM, hn, hA, hB⟩ := crossed_tangent hx hx hX hX (by linarith) (by linarith) hfw ht
  have hX0 : 0 < gradientSize nx := by linarith
  have hM0 : 0 < M := by rw [hM]; positivity
  have hP : 0 < gradientSize nx / M := by positivity
  have hP2 : gradientSize nx / M = Real.sqrt (2 / 3) := by
    rw [hM, ← Real.sqrt_mul (by norm_num), ← two_mul, ← mul_assoc, Real.sqrt_mul (by norm_num), Real.sqrt_sq hX0.le, mul_comm, ← div_div, div_self hX0.ne',
      ← Real.sqrt_one, ← Real.sqrt_div (by norm_num)]
    congr 1
    norm_num
  obtain ⟨e1, e2⟩ := weight_six hP.le hP.le
  rw [e1] at hA
  rw [e2] at hB
  have hs : Real.sqrt ((gradientSize nx / M) ^ 2 + (gradientSize nx / M) ^ 2) * Real.sqrt (3 / 4) = 1 := by
    rw [← Real.sqrt_mul (by positivity), hP2, Real.sq_sqrt (by norm_num)]
    norm_num
  rw [hs, hP2] at hA hB
  have h1 : Real.sqrt (2 / 3) * Real.sqrt (3 / 4) ≤ 1 := by
    rw [← Real.sqrt_mul (by norm_num)]
    exact Real.sqrt_le_one.2 (by norm_num)
  have h0 : 0 < Real.sqrt (2 / 3) * Real.sqrt (3 / 4) := by positivity
  have hκ : 0 < 36 * (fw / 5 * (2 * Real.pi) ^ 2 / 2) := by positivity
  have hB0 : 0 < B := by
    by_contra hc
    push Not at hc
    have : 0 < Real.sqrt (2 / 3) * 18 := by positivity
    nlinarith
  have hAB : A = -B := by
    have hd : 0 < 6 * (Real.sqrt (2 / 3) * Real.sqrt (3 / 4)) + 12 * 1 + 36 * (fw / 5 * (2 * Real.pi) ^ 2 / 2) := by positivity
    have : (A + B) * (6 * (Real.sqrt (2 / 3) * Real.sqrt (3 / 4)) + 12 * 1 + 36 * (fw / 5 * (2 * Real.pi) ^ 2 / 2)) = 0 := by
      rw [add_mul, hA, hB]; ring
    have := (mul_eq_zero.1 this).resolve_right hd.ne'
    linarith
  refine ⟨B, ?_, hAB ▸ hn⟩
  nlinarith

/-! ### C101 -/

/-- C101 finding: the tangent field depends on the resolution.  The pattern `cos x + cos y`, sampled at 4 by 4 points, has a tangent field which is as large
a quarter of a period from the origin along the first axis as it is along the second.  Sampled at 12 by 4 points, the field is larger there along the
first axis. -/
theorem C101_false_ratio (fw : ℝ) (hfw : 0 < fw) :
    ∃ t t', computeField .pol (crossedPattern 4 4) crossedOrders unitSquare fw 0 = .ok t ∧
      computeField .pol (crossedPattern 12 4) crossedOrders unitSquare fw 0 = .ok t' ∧
      magnitude (t 1 0) = magnitude (t 0 1) ∧ magnitude (t' 0 1) < magnitude (t' 3 0) := by
  obtain ⟨t, ht⟩ := crossed_exists (nx := 4) (ny := 4) (by norm_num) (by norm_num) hfw
  obtain ⟨t', ht'⟩ := crossed_exists (nx := 12) (ny := 4) (by norm_num) (by norm_num) hfw
  refine ⟨t, t', ht, ht', ?_, ?_⟩
  · obtain ⟨B, -, hn⟩ := crossed_symmetric (by norm_num) (by rw [gradientSize_four]; norm_num) hfw ht
    obtain ⟨c, hc, h⟩ := crossed_factor hn
    rw [h, h]
    congr 2
    rw [neg_mul, neg_mul, neg_sq, neg_sq, add_comm]
  · obtain ⟨M, A, B, hM, hn, hA, hB⟩ := crossed_tangent (nx := 12) (ny := 4) (by norm_num) (by norm_num) (by rw [gradientSize_twelve]; norm_num)
      (by rw [gradientSize_four]; norm_num) (by rw [gradientSize_four, gradientSize_twelve]; norm_num) (by rw [gradientSize_four, gradientSize_twelve]; norm_num) hfw ht'
    rw [gradientSize_four, gradientSize_twelve] at hM hA hB
    have hM0 : 0 < M := by rw [hM]; positivity
    obtain ⟨e1, e2⟩ := weight_six (P := 6 / M) (Q := 4 / M) (by positivity) (by positivity)
    rw [e1] at hA
    rw [e2] at hB
    set T := 12 * (Real.sqrt ((6 / M) ^ 2 + (4 / M) ^ 2) * Real.sqrt (3 / 4)) with hT
    set K := 36 * (fw / 5 * (2 * Real.pi) ^ 2 / 2) with hK
    set s := Real.sqrt (3 / 4) with hs
    have hT0 : 0 ≤ T := by positivity
    have hK0 : 0 < K := by positivity
    have hs0 : 0 < s := by positivity
    have hu : 0 < 1 / M := by positivity
    rw [show 4 / M = 4 * (1 / M) by ring] at hA
    rw [show 6 / M = 6 * (1 / M) by ring] at hB
    set u := 1 / M with hud
    have hA' : A = -(72 * u / (24 * u * s + T + K)) := by
      rw [eq_neg_iff_add_eq_zero, ← neg_eq_iff_add_eq_zero, eq_div_iff (by positivity)]
      linear_combination -hA
    have hB' : B = 108 * u / (36 * u * s + T + K) := by
      rw [eq_div_iff (by positivity)]
      linear_combination hB
    have hlt : 72 * u / (24 * u * s + T + K) < 108 * u / (36 * u * s + T + K) := by
      rw [div_lt_div_iff₀ (by positivity) (by positivity)]
      nlinarith [mul_pos hu hK0, mul_nonneg hu.le hT0]
    have hpos : 0 < 72 * u / (24 * u * s + T + K) := by positivity
    obtain ⟨c, hc, h⟩ := crossed_factor hn
    rw [h, h]
    refine div_lt_div_of_pos_right ?_ hc
    refine Real.sqrt_lt_sqrt (by positivity) ?_
    change (A * gridSin 4 1) ^ 2 + (B * gridSin 12 0) ^ 2 < (A * gridSin 4 0) ^ 2 + (B * gridSin 12 3) ^ 2
    rw [gridSin_four_one, gridSin_twelve_three, gridSin_zero, gridSin_zero, hA', hB']
    nlinarith

/-- C101 finding: even if the pattern is sampled alike along the axes, the size of the tangent field depends on the resolution, as it is scaled to be 1 at
the largest of its samples.  Here the samples of the field at one sixth of a period have the sizes `√(1/2)` and `√(3/8)`. -/
theorem C101_false_magnitude (fw : ℝ) (hfw : 0 < fw) (hfw1 : fw ≤ 1) :
    ∃ t t', computeField .pol (crossedPattern 6 6) crossedOrders unitSquare fw 0 = .ok t ∧
      computeField .pol (crossedPattern 12 12) crossedOrders unitSquare fw 0 = .ok t' ∧
      magnitude (t 1 0) = Real.sqrt (1 / 2) ∧ magnitude (t' 2 0) = Real.sqrt (3 / 8) := by
  obtain ⟨t, ht⟩ := crossed_exists (nx := 6) (ny := 6) (by norm_num) (by norm_num) hfw
  obtain ⟨t', ht'⟩ := crossed_exists (nx := 12) (ny := 12) (by norm_num) (by norm_num) hfw
  have h3 : Real.sqrt 3 ^ 2 = 3 := Real.sq_sqrt (by norm_num)
  have hs3 : 1 ≤ Real.sqrt 3 := Real.one_le_sqrt.2 (by norm_num)
  have large : ∀ B, 18 * Real.sqrt (2 / 3) ≤ B * (18 + 36 * (fw / 5 * (2 * Real.pi) ^ 2 / 2)) → 1 / 100 ≤ B := by
    intro B hB
    have h1 : 1 / 2 ≤ Real.sqrt (2 / 3) := Real.le_sqrt_of_sq_le (by norm_num)
    have hp := Real.pi_lt_four
    have hp0 := Real.pi_pos
    have h2 : (2 * Real.pi) ^ 2 ≤ 64 := by nlinarith
    have h4 : 0 < (2 * Real.pi) ^ 2 := by positivity
    have h5 : fw / 5 * (2 * Real.pi) ^ 2 / 2 ≤ 32 / 5 := by nlinarith
    have h6 : 0 < fw / 5 * (2 * Real.pi) ^ 2 / 2 := by positivity
    by_contra hc
    push Not at hc
    nlinarith
  refine ⟨t, t', ht, ht', ?_, ?_⟩
  · obtain ⟨B, hB, hn⟩ := crossed_symmetric (by norm_num) (by rw [gradientSize_six]; linarith) hfw ht
    have hB := large B hB
    have hmax : maxFieldMagnitude (fun (i : Fin 6) (j : Fin 6) => ![((-B * gridSin 6 j : ℝ) : ℂ), ((B * gridSin 6 i : ℝ) : ℂ)]) = .ok (B * Real.sqrt (3 / 2)) := by
      have e : B * Real.sqrt (3 / 2) = Real.sqrt (B ^ 2 * (3 / 2)) := by rw [Real.sqrt_mul (sq_nonneg _), Real.sqrt_sq (by linarith)]
      rw [maxFieldMagnitude_eq_ok, e]
      have hs : ∀ i : Fin 6, gridSin 6 i ^ 2 ≤ 3 / 4 := by
        intro i
        rw [gridSin_six_sq]
        fin_cases i <;> simp <;> norm_num
      refine ⟨fun i j => ?_, 1, 1, ?_⟩
      · rw [crossed_magnitude_eq]
        refine Real.sqrt_le_sqrt ?_
        rw [mul_pow, mul_pow, neg_sq]
        nlinarith [hs i, hs j, sq_nonneg B]
      · rw [crossed_magnitude_eq]
        change Real.sqrt ((-B * gridSin 6 1) ^ 2 + (B * gridSin 6 1) ^ 2) = _
        congr 1
        rw [gridSin_six_one, mul_pow, mul_pow, div_pow, h3]
        ring
    have h32 : 1 ≤ Real.sqrt (3 / 2) := Real.one_le_sqrt.2 (by norm_num)
    rw [normalize_large hmax (by nlinarith), ok_inj] at hn
    rw [← hn]
    have hpos : 0 < B * Real.sqrt (3 / 2) := by nlinarith
    change magnitude (fun k => (![((-B * gridSin 6 0 : ℝ) : ℂ), ((B * gridSin 6 1 : ℝ) : ℂ)] : Fin 2 → ℂ) k / ((B * Real.sqrt (3 / 2) : ℝ) : ℂ)) = _
    rw [magnitude_div _ hpos, crossed_magnitude_eq, gridSin_zero, gridSin_six_one, mul_zero, zero_pow two_ne_zero, zero_add, Real.sqrt_sq (by nlinarith),
      mul_div_mul_left _ _ (by linarith)]
    rw [show (1 / 2 : ℝ) = (3 / 4) / (3 / 2) by norm_num, Real.sqrt_div (show (0 : ℝ) ≤ 3 / 4 by norm_num)]
    congr 1
    exact sqrt_three_quarters.symm
  · obtain ⟨B, hB, hn⟩ := crossed_symmetric (by norm_num) (by rw [gradientSize_twelve]; norm_num) hfw ht'
    have hB := large B hB
    have hmax : maxFieldMagnitude (fun (i : Fin 12) (j : Fin 12) => ![((-B * gridSin 12 j : ℝ) : ℂ), ((B * gridSin 12 i : ℝ) : ℂ)]) = .ok (B * Real.sqrt 2) := by
      have e : B * Real.sqrt 2 = Real.sqrt (B ^ 2 * 2) := by rw [Real.sqrt_mul (sq_nonneg _), Real.sqrt_sq (by linarith)]
      rw [maxFieldMagnitude_eq_ok, e]
      have hs : ∀ i : Fin 12, gridSin 12 i ^ 2 ≤ 1 := fun i => Real.sin_sq_le_one _
      refine ⟨fun i j => ?_, 3, 3, ?_⟩
      · rw [crossed_magnitude_eq]
        refine Real.sqrt_le_sqrt ?_
        rw [mul_pow, mul_pow, neg_sq]
        nlinarith [hs i, hs j, sq_nonneg B]
      · rw [crossed_magnitude_eq]
        change Real.sqrt ((-B * gridSin 12 3) ^ 2 + (B * gridSin 12 3) ^ 2) = _
        congr 1
        rw [gridSin_twelve_three]
        ring
    have h32 : 1 ≤ Real.sqrt 2 := Real.one_le_sqrt.2 (by norm_num)
    rw [normalize_large hmax (by nlinarith), ok_inj] at hn
    rw [← hn]
    have hpos : 0 < B * Real.sqrt 2 := by nlinarith
    change magnitude (fun k => (![((-B * gridSin 12 0 : ℝ) : ℂ), ((B * gridSin 12 2 : ℝ) : ℂ)] : Fin 2 → ℂ) k / ((B * Real.sqrt 2 : ℝ) : ℂ)) = _
    rw [magnitude_div _ hpos, crossed_magnitude_eq, gridSin_zero, gridSin_twelve_two, mul_zero, zero_pow two_ne_zero, zero_add, Real.sqrt_sq (by nlinarith),
      mul_div_mul_left _ _ (by linarith)]
    rw [show (3 / 8 : ℝ) = (3 / 4) / 2 by norm_num, Real.sqrt_div (by norm_num)]
    congr 1
    exact sqrt_three_quarters.symm

/-- C101: the tangent field depends on the array only through its band-limited gradient.  If the gradients computed for two arrays, of possibly different
resolutions, have Fourier coefficients for the orders of the expansion which differ by a positive factor, then at the points which the two grids have in
common the tangent fields differ by a positive factor, the same for all points. -/
theorem C101_resolution {nx' ny' : ℕ} (method : VectorMethod) (hmethod : method = .pol ∨ method = .jonesDirect) (x : Matrix (Fin nx) (Fin ny) ℂ)
    (x' : Matrix (Fin nx') (Fin ny') ℂ) (G : ι → ℤ × ℤ) (l : LatticeVectors) (fw sw : ℝ) (hp : 0 < fw ∨ 0 < sw) (hG : Function.Injective G)
    (hr : Resolves nx ny G) (hr' : Resolves nx' ny' G) (hx : 1 < nx ↔ 1 < nx') (hy : 1 < ny ↔ 1 < ny') (M : ℕ × ℕ) (hM : doubledMinShape G nx ny = .ok M)
    (g : VectorField nx ny) (hg : computeGradient x l = .ok g) (g' : VectorField nx' ny') (hg' : computeGradient x' l = .ok g') (ρ : ℝ) (hρ : 0 < ρ)
    (hc : ∀ k c, fourierCoefficient (Matrix.of fun i j => g' i j c) (G k) = ρ * fourierCoefficient (Matrix.of fun i j => g i j c) (G k))
    (r : Fin M.1) (s : Fin M.2)
    (hrs : 1e-8 < magnitude fun c => fourierSeries G (fun k => fourierCoefficient (Matrix.of fun i j => g i j c) (G k)) M.1 M.2 r s)
    (hrs' : 1e-8 < magnitude fun c => fourierSeries G (fun k => fourierCoefficient (Matrix.of fun i j => g' i j c) (G k)) M.1 M.2 r s) :
    ∃ t t' q, computeField method x G l fw sw = .ok t ∧ computeField method x' G l fw sw = .ok t' ∧ 0 < q ∧
      ∀ (i : Fin nx) (j : Fin ny) (i' : Fin nx') (j' : Fin ny'), (i : ℕ) * nx' = i' * nx → (j : ℕ) * ny' = j' * ny → ∀ c, t' i' j' c = (q : ℝ) * t i j c := by
  classical
  have : NeZero nx := ⟨hr.pos.1.ne'⟩
  have : NeZero ny := ⟨hr.pos.2.ne'⟩
  have hl : Independent l.u l.v := (computeGradient_eq_ok.1 hg).1
  have hM' : doubledMinShape G nx' ny' = .ok M := by
    rw [← hM]
    unfold doubledMinShape
    simp only [hx, hy]
  have hMr := doubledMinShape_resolves hM
  have hfilter : filteredGradient x' G l M.1 M.2 = filteredGradient x G l M.1 M.2 := by
    unfold filteredGradient
    rw [bandlimitedGradient_eq hG hg hr hMr, bandlimitedGradient_eq hG hg' hr' hMr]
    simp only [bind, Except.bind]
    obtain ⟨m, hm⟩ := maxFieldMagnitude_exists hMr.pos.1 hMr.pos.2 fun r s c =>
      fourierSeries G (fun k => fourierCoefficient (Matrix.of fun i j => g i j c) (G k)) M.1 M.2 r s
    have e : (fun r s c => fourierSeries G (fun k => fourierCoefficient (Matrix.of fun i j => g' i j c) (G k)) M.1 M.2 r s : VectorField M.1 M.2) =
        fun r s c => (ρ : ℂ) * fourierSeries G (fun k => fourierCoefficient (Matrix.of fun i j => g i j c) (G k)) M.1 M.2 r s := by
      funext r s c
      unfold fourierSeries
      simp only [hc, of_apply, mul_assoc, Finset.mul_sum]
    have h1 : 1e-8 < m := lt_of_lt_of_le hrs ((maxFieldMagnitude_eq_ok.1 hm).1 r s)
    rw [e]
    refine normalize_smul hρ hm h1 ?_
    have h2 := congrFun (congrFun e r) s
    rw [h2, magnitude_mul, Complex.norm_real, Real.norm_eq_abs, abs_of_pos hρ] at hrs'
    exact lt_of_lt_of_le hrs' (mul_le_mul_of_nonneg_left ((maxFieldMagnitude_eq_ok.1 hm).1 r s) hρ.le)
  have hcard : Fintype.card ι ≠ 0 := by have := hr.1; exact Fintype.card_ne_zero
  have key : ∀ b, ∃ t t' q, computeTangentFieldNoBatch x G l b fw sw 1 = .ok t ∧ computeTangentFieldNoBatch x' G l b fw sw 1 = .ok t' ∧ 0 < q ∧
      ∀ (i : Fin nx) (j : Fin ny) (i' : Fin nx') (j' : Fin ny'), (i : ℕ) * nx' = i' * nx → (j : ℕ) * ny' = j' * ny → ∀ c, t' i' j' c = (q : ℝ) * t i j c := by
    intro b
    obtain ⟨t, ht⟩ := computeTangentField_exists_steps x b 1 hG hr hl hp
    obtain ⟨t', ht'⟩ := computeTangentField_exists_steps x' b 1 hG hr' hl hp
    have h := ht
    have h' := ht'
    unfold computeTangentFieldNoBatch at h h'
    rw [if_neg hcard, hM] at h
    rw [if_neg hcard, hM'] at h'
    simp only [bind, Except.bind] at h h'
    rw [hfilter] at h'
    obtain ⟨grad, hgrad, h⟩ := bind_eq_ok.1 h
    rw [hgrad] at h'
    obtain ⟨f, hf, h⟩ := bind_eq_ok.1 h
    obtain ⟨f', hf', h'⟩ := bind_eq_ok.1 h'
    have same : ∀ (i : Fin nx) (j : Fin ny) (i' : Fin nx') (j' : Fin ny'), (i : ℕ) * nx' = i' * nx → (j : ℕ) * ny' = j' * ny → ∀ c, f' i' j' c = f i j c := by
      intro i j i' j' hi hj c
      unfold tangentFieldOfGradient at hf hf'
      obtain ⟨d, hd, hf⟩ := bind_eq_ok.1 hf
      rw [hd] at hf'
      simp only [bind, Except.bind] at hf'
      by_cases hd1 : d.1
      · rw [if_pos hd1, ok_inj] at hf hf'
        rw [← hf, ← hf']
      · rw [if_neg hd1] at hf hf'
        obtain ⟨z, hz, hf⟩ := bind_eq_ok.1 hf
        rw [hz] at hf'
        simp only at hf'
        rw [ifftVector_eq _ hG hr, ok_inj] at hf
        rw [ifftVector_eq _ hG hr', ok_inj] at hf'
        rw [← hf, ← hf']
        change (∑ k, z (k, c) * planeWave nx' ny' (G k) i' j') = ∑ k, z (k, c) * planeWave nx ny (G k) i j
        refine Finset.sum_congr rfl fun k _ => ?_
        congr 1
        unfold planeWave
        congr 1
        have n1 : (nx : ℂ) ≠ 0 := by exact_mod_cast hr.pos.1.ne'
        have n2 : (ny : ℂ) ≠ 0 := by exact_mod_cast hr.pos.2.ne'
        have n3 : (nx' : ℂ) ≠ 0 := by exact_mod_cast hr'.pos.1.ne'
        have n4 : (ny' : ℂ) ≠ 0 := by exact_mod_cast hr'.pos.2.ne'
        have c1 : ((i : ℕ) : ℂ) / nx = (i' : ℕ) / nx' := by
          rw [div_eq_div_iff n1 n3]
          exact_mod_cast hi
        have c2 : ((j : ℕ) : ℂ) / ny = (j' : ℕ) / ny' := by
          rw [div_eq_div_iff n2 n4]
          exact_mod_cast hj
        simp only [mul_div_assoc, c1, c2]
    obtain ⟨c, hc, e⟩ := normalize_factor h
    obtain ⟨c', hc', e'⟩ := normalize_factor h'
    refine ⟨t, t', c / c', ht, ht', by positivity, fun i j i' j' hi hj k => ?_⟩
    have hcc : (c : ℂ) ≠ 0 := by exact_mod_cast hc.ne'
    rw [e, e', same i j i' j' hi hj k]
    push_cast
    field_simp
  rcases hmethod with rfl | rfl
  · exact key false
  · exact key true

/-- The hypotheses of `C101_resolution` hold for the pattern `cos x + cos y` sampled at 4 by 4 and at 12 by 12 points: both components of the computed
gradient are larger by the factor `3/2` for the latter. -/
example (fw : ℝ) (hfw : 0 < fw) : ∃ t t' q, computeField .pol (crossedPattern 4 4) crossedOrders unitSquare fw 0 = .ok t ∧
    computeField .pol (crossedPattern 12 12) crossedOrders unitSquare fw 0 = .ok t' ∧ 0 < q ∧
      ∀ (i j : Fin 4) (i' j' : Fin 12), (i : ℕ) * 12 = i' * 4 → (j : ℕ) * 12 = j' * 4 → ∀ c, t' i' j' c = (q : ℝ) * t i j c := by
  have hc : HasCrossed crossedOrders := ⟨1, 2, 3, 4, rfl, rfl, rfl, rfl⟩
  have r4 : Resolves 4 4 crossedOrders := crossedOrders_resolves (by norm_num) (by norm_num)
  have r12 : Resolves 12 12 crossedOrders := crossedOrders_resolves (by norm_num) (by norm_num)
  have e4 : ((4 : ℕ) : ℝ) * gridSin 4 1 = 4 := gradientSize_four
  have e12 : ((12 : ℕ) : ℝ) * gridSin 12 1 = 6 := gradientSize_twelve
  have g4 := crossedPattern_gradient (nx := 4) (ny := 4) (by norm_num) (by norm_num)
  have g12 := crossedPattern_gradient (nx := 12) (ny := 12) (by norm_num) (by norm_num)
  rw [e4] at g4
  rw [e12] at g12
  have coef : ∀ (n : ℕ) (p : ℝ), Resolves n n crossedOrders → ∀ k c, fourierCoefficient (Matrix.of fun (i j : Fin n) =>
      (![((-p * gridSin n i : ℝ) : ℂ), ((-p * gridSin n j : ℝ) : ℂ)] : Fin 2 → ℂ) c) (crossedOrders k) =
        -p * (![(Pi.single hc.right (1 / (2 * Complex.I)) - Pi.single hc.left (1 / (2 * Complex.I)) : Fin 5 → ℂ),
          (Pi.single hc.up (1 / (2 * Complex.I)) - Pi.single hc.down (1 / (2 * Complex.I)) : Fin 5 → ℂ)] : Fin 2 → Fin 5 → ℂ) c k := by
    intro n p hr k c
    have e : (Matrix.of fun (i j : Fin n) => (![((-p * gridSin n i : ℝ) : ℂ), ((-p * gridSin n j : ℝ) : ℂ)] : Fin 2 → ℂ) c) =
        fourierSeries crossedOrders (fun k => -p * (![(Pi.single hc.right (1 / (2 * Complex.I)) - Pi.single hc.left (1 / (2 * Complex.I)) : Fin 5 → ℂ),
          (Pi.single hc.up (1 / (2 * Complex.I)) - Pi.single hc.down (1 / (2 * Complex.I)) : Fin 5 → ℂ)] : Fin 2 → Fin 5 → ℂ) c k) n n := by
      ext i j
      unfold fourierSeries
      fin_cases c
      · simp only [of_apply, mul_assoc, ← Finset.mul_sum, Fin.zero_eta, cons_val_zero, hc.series]
        push_cast
        rfl
      · simp only [of_apply, mul_assoc, ← Finset.mul_sum, Fin.mk_one, cons_val_one, cons_val_zero]
        rw [hc.series']
        push_cast
        rfl
    rw [e, fourierCoefficient_series hr crossedOrders_injective]
  have mag : ∀ (n : ℕ) (p : ℝ), 1 ≤ p → Resolves n n crossedOrders → 1e-8 < magnitude fun c => fourierSeries crossedOrders (fun k => fourierCoefficient
      (Matrix.of fun (i j : Fin n) => (![((-p * gridSin n i : ℝ) : ℂ), ((-p * gridSin n j : ℝ) : ℂ)] : Fin 2 → ℂ) c) (crossedOrders k)) 6 6 1 0 := by
    intro n p hp hr
    rw [hc.bandlimited crossedOrders_injective hr, crossed_magnitude_eq]
    change 1e-8 < Real.sqrt ((-p * gridSin 6 1) ^ 2 + (-p * gridSin 6 0) ^ 2)
    rw [gridSin_zero, gridSin_six_one]
    refine Real.lt_sqrt_of_sq_lt ?_
    have : Real.sqrt 3 ^ 2 = 3 := Real.sq_sqrt (by norm_num)
    rw [mul_pow, div_pow, this]
    nlinarith
  refine C101_resolution .pol (Or.inl rfl) (crossedPattern 4 4) (crossedPattern 12 12) crossedOrders unitSquare fw 0 (Or.inl hfw) crossedOrders_injective r4 r12 (by norm_num)
    (by norm_num) (6, 6) (crossedOrders_shape (by norm_num) (by norm_num)) _ g4 _ g12 (3 / 2) (by norm_num) (fun k c => ?_) 1 0 (mag 4 4 (by norm_num) r4)
    (mag 12 6 (by norm_num) r12)
  rw [coef 4 4 r4, coef 12 6 r12]
  push_cast
  ring

/-! ### C100 for an even number of cells -/

/-- The sums of the weights on the grid of five by six points differ. -/
theorem weight_five {P : ℝ} (hP : 0 < P) :
    (∑ i : Fin 5, ∑ j : Fin 6, gridSin 5 i ^ 2 * crossedWeight 5 6 P P i j) < ∑ i : Fin 5, ∑ j : Fin 6, gridSin 6 j ^ 2 * crossedWeight 5 6 P P i j := by
  obtain ⟨h5, h5'⟩ := sqrt_five_bounds
  have hw : ∀ i j, crossedWeight 5 6 P P i j = P * Real.sqrt (gridSin 5 i ^ 2 + gridSin 6 j ^ 2) := by
    intro i j
    unfold crossedWeight
    rw [← mul_add, Real.sqrt_mul (sq_nonneg _), Real.sqrt_sq hP.le]
  have e1 : ∀ i : Fin 5, ∑ j : Fin 6, gridSin 5 i ^ 2 * crossedWeight 5 6 P P i j =
      gridSin 5 i ^ 2 * (P * (2 * Real.sqrt (gridSin 5 i ^ 2) + 4 * Real.sqrt (gridSin 5 i ^ 2 + 3 / 4))) := by
    intro i
    simp only [hw]
    rw [← Finset.mul_sum, ← Finset.mul_sum, sum_six fun y => Real.sqrt (gridSin 5 i ^ 2 + y), add_zero]
  have e2 : ∀ i : Fin 5, ∑ j : Fin 6, gridSin 6 j ^ 2 * crossedWeight 5 6 P P i j = P * (3 * Real.sqrt (gridSin 5 i ^ 2 + 3 / 4)) := by
    intro i
    simp only [hw]
    rw [sum_six fun y => y * (P * Real.sqrt (gridSin 5 i ^ 2 + y))]
    ring
  simp only [e1, e2]
  rw [sum_five fun x => x * (P * (2 * Real.sqrt x + 4 * Real.sqrt (x + 3 / 4))), sum_five fun x => P * (3 * Real.sqrt (x + 3 / 4)), zero_mul, zero_add, zero_add]
  set α := (5 + Real.sqrt 5) / 8 with hα
  set β := (5 - Real.sqrt 5) / 8 with hβ
  have a1 : α < 0.9047 := by rw [hα]; linarith
  have a0 : 0.904 < α := by rw [hα]; linarith
  have b1 : β < 0.3456 := by rw [hβ]; linarith
  have b0 : 0.345 < β := by rw [hβ]; linarith
  have s0 : 0.866 < Real.sqrt (3 / 4) := Real.lt_sqrt_of_sq_lt (by norm_num)
  have s1 : Real.sqrt α < 0.9512 := (Real.sqrt_lt' (by norm_num)).2 (by linarith)
  have s2 : Real.sqrt (α + 3 / 4) < 1.2864 := (Real.sqrt_lt' (by norm_num)).2 (by linarith)
  have s3 : Real.sqrt β < 0.5879 := (Real.sqrt_lt' (by norm_num)).2 (by linarith)
  have s4 : 1.0464 < Real.sqrt (β + 3 / 4) := Real.lt_sqrt_of_sq_lt (by linarith)
  have k1 : α * Real.sqrt α < 0.8606 := by nlinarith [Real.sqrt_nonneg α]
  have k3 : β * Real.sqrt β < 0.2032 := by nlinarith [Real.sqrt_nonneg β]
  have k2 : (α - 3 / 4) * Real.sqrt (α + 3 / 4) < 0.19902 := by nlinarith [Real.sqrt_nonneg (α + 3 / 4)]
  have k4 : (β - 3 / 4) * Real.sqrt (β + 3 / 4) < -0.423 := by nlinarith
  have total : 4 * (α * Real.sqrt α) + 8 * ((α - 3 / 4) * Real.sqrt (α + 3 / 4)) + 4 * (β * Real.sqrt β) + 8 * ((β - 3 / 4) * Real.sqrt (β + 3 / 4)) - 3 * Real.sqrt (3 / 4) < 0 := by
    norm_num at *
    linarith
  nlinarith [mul_neg_of_pos_of_neg hP total]

/-- C100 finding: the tangent field of a supercell with an even number of cells is not that of the single cell.  The grid on which the field is optimised has an even
number of points per cell for the single cell but an odd number of points per cell for the supercell.  For the pattern `cos x + cos y` in two cells, with
twice the orders of the single cell, the field is not as large along one axis as along the other, as it is for the single cell. -/
theorem C100_false_even (G' : κ → ℤ × ℤ) (hG' : Function.Injective G') (h : SupercellExpansion 2 1 crossedOrders G')
    (hbox : ∀ k, |(G' k).1| ≤ 2 ∧ |(G' k).2| ≤ 1) (fw : ℝ) (hfw : 0 < fw) :
    ∃ t t', computeField .pol (crossedPattern 4 4) crossedOrders unitSquare fw 0 = .ok t ∧
      computeField .pol (Grid.pull (tile 2 1) (crossedPattern 4 4)) G' ⟨((2 : ℕ) : ℝ) • unitSquare.u, ((1 : ℕ) : ℝ) • unitSquare.v⟩ fw 0 = .ok t' ∧
      magnitude (t 1 0) = magnitude (t 0 1) ∧ magnitude (t' 0 1) < magnitude (t' 1 0) ∧ t' ≠ tileField 2 1 t := by
  classical
  have hG := crossedOrders_injective
  have hr : Resolves 4 4 crossedOrders := crossedOrders_resolves (by norm_num) (by norm_num)
  obtain ⟨place, hp⟩ := h.places two_ne_zero one_ne_zero hG hG'
  obtain ⟨k0, hk0⟩ := h.placed 1
  obtain ⟨k1, hk1⟩ := h.placed 3
  have hk0 : G' k0 = (2, 0) := hk0
  have hk1 : G' k1 = (0, 1) := hk1
  have hne : Nonempty κ := ⟨k0⟩
  have hr' : ∀ {a b : ℕ}, 5 ≤ a → 3 ≤ b → Resolves a b G' := by
    intro a b ha hb
    refine ⟨hne, fun k => ?_⟩
    obtain ⟨h1, h2⟩ := hbox k
    omega
  have hMr : Resolves 5 6 crossedOrders := crossedOrders_resolves (by norm_num) (by norm_num)
  have hMr' : Resolves (2 * 5) (1 * 6) G' := hr' (by norm_num) (by norm_num)
  have hc' : Fintype.card κ ≠ 0 := Fintype.card_ne_zero
  have hshape : doubledMinShape G' (2 * 4) (1 * 4) = .ok (2 * 5, 1 * 6) := by
    have e1 : (Finset.univ.sup fun i => (G' i).1.natAbs) = 2 := by
      refine le_antisymm (Finset.sup_le fun k _ => ?_) ?_
      · have := (hbox k).1; rw [Int.abs_eq_natAbs] at this; exact_mod_cast this
      · have := Finset.le_sup (f := fun i => (G' i).1.natAbs) (Finset.mem_univ k0)
        simp only [hk0] at this
        simpa using this
    have e2 : (Finset.univ.sup fun i => (G' i).2.natAbs) = 1 := by
      refine le_antisymm (Finset.sup_le fun k _ => ?_) ?_
      · have := (hbox k).2; rw [Int.abs_eq_natAbs] at this; exact_mod_cast this
      · have := Finset.le_sup (f := fun i => (G' i).2.natAbs) (Finset.mem_univ k1)
        simp only [hk1] at this
        simpa using this
    unfold doubledMinShape minArrayShapeForExpansion
    rw [if_neg hc', e1, e2]
    rfl
  obtain ⟨t, ht⟩ := crossed_exists (nx := 4) (ny := 4) (by norm_num) (by norm_num) hfw
  have hil : Independent (supercellLattice 2 1 squareCell).u (supercellLattice 2 1 squareCell).v :=
    (supercellLattice_independent two_ne_zero one_ne_zero).2 squareCell_independent
  obtain ⟨t', ht'⟩ := computeTangentField_exists_steps (Grid.pull (tile 2 1) (crossedPattern 4 4)) (fw := fw) (sw := 0) false 1 hG' (hr' (a := 2 * 4) (b := 1 * 4) (by norm_num) (by norm_num)) hil (Or.inl hfw)
  have hsym : magnitude (t 1 0) = magnitude (t 0 1) := by
    obtain ⟨B, -, hn⟩ := crossed_symmetric (by norm_num) (by rw [gradientSize_four]; norm_num) hfw ht
    obtain ⟨c, hc, h⟩ := crossed_factor hn
    rw [h, h]
    congr 2
    rw [neg_mul, neg_mul, neg_sq, neg_sq, add_comm]
  have hasym : magnitude (t' 0 1) < magnitude (t' 1 0) := by
    have h' := ht'
    unfold computeTangentFieldNoBatch at h'
    rw [if_neg hc', hshape] at h'
    simp only [bind, Except.bind] at h'
    obtain ⟨g, hgv⟩ : ∃ g, filteredGradient (crossedPattern 4 4) crossedOrders squareCell 5 6 = .ok g := by
      unfold filteredGradient
      have hc : HasCrossed crossedOrders := ⟨1, 2, 3, 4, rfl, rfl, rfl, rfl⟩
      rw [hc.bandlimitedGradient crossedOrders_injective hr hMr]
      exact normalize_exists (by norm_num) (by norm_num) _
    have hgrad := crossedPattern_gradient (nx := 4) (ny := 4) (by norm_num) (by norm_num)
    have hmag : 1e-8 < magnitude fun c => fourierSeries crossedOrders (fun k => fourierCoefficient (Matrix.of fun (i j : Fin 4) =>
        (![((-((4 : ℕ) * gridSin 4 1) * gridSin 4 i : ℝ) : ℂ), ((-((4 : ℕ) * gridSin 4 1) * gridSin 4 j : ℝ) : ℂ)] : Fin 2 → ℂ) c) (crossedOrders k)) 5 6 0 1 := by
      have hc : HasCrossed crossedOrders := ⟨1, 2, 3, 4, rfl, rfl, rfl, rfl⟩
      rw [hc.bandlimited crossedOrders_injective hr, crossed_magnitude_eq]
      change 1e-8 < Real.sqrt ((-(((4 : ℕ) : ℝ) * gridSin 4 1) * gridSin 5 0) ^ 2 + (-(((4 : ℕ) : ℝ) * gridSin 4 1) * gridSin 6 1) ^ 2)
      rw [gridSin_zero, gridSin_six_one, gridSin_four_one]
      refine Real.lt_sqrt_of_sq_lt ?_
      have : Real.sqrt 3 ^ 2 = 3 := Real.sq_sqrt (by norm_num)
      push_cast
      nlinarith
    rw [filteredGradient_tile hp two_ne_zero one_ne_zero hG hG' hr (hr' (by norm_num) (by norm_num)) hMr hMr' hgrad 0 1 hmag hgv] at h'
    obtain ⟨M, hM, -, -, h1d, hopt⟩ := crossed_field (nx := 4) (ny := 4) (by norm_num) (by norm_num) (by norm_num) (by norm_num) coarse_five coarse_six
      (by rw [gradientSize_four]; norm_num) (by rw [gradientSize_four]; norm_num) (by rw [gradientSize_four]; norm_num) (by rw [gradientSize_four]; norm_num) hgv
    obtain ⟨f', hf', h'⟩ := bind_eq_ok.1 h'
    unfold tangentFieldOfGradient at hf'
    obtain ⟨d, hd, hlarge⟩ := is1dField_exists (nx := 5) (ny := 6) (by norm_num) (by norm_num) g
    obtain ⟨p, hp1, hp2⟩ := is1dField_tile (m := 2) (n := 1) two_ne_zero one_ne_zero (Or.inr (by norm_num)) (Or.inl rfl) hd
    rw [hp1] at hf'
    simp only [bind, Except.bind] at hf'
    rw [if_neg (fun hh => h1d d hd (hp2.1 hh))] at hf'
    obtain ⟨z', hz', hf'⟩ := bind_eq_ok.1 hf'
    have hw : ∀ w : ℝ, w / Fintype.card κ = w / 5 / ((2 : ℕ) * (1 : ℕ)) := by
      intro w
      rw [h.terms, Fintype.card_fin, div_div]
      push_cast
      ring
    rw [hw, hw] at hz'
    obtain ⟨z, hz⟩ : ∃ z, optimizedFourierField g crossedOrders squareCell false (fw / 5) (0 / 5) 1 = .ok z := by
      obtain ⟨i, j, hij⟩ := hlarge (h1d d hd)
      obtain ⟨q, hq⟩ := normalize_exists (nx := 5) (ny := 6) (by norm_num) (by norm_num) (fun i j => ![g i j 1, -g i j 0])
      obtain ⟨y, hy⟩ : ∃ y, fftVector q crossedOrders = .ok y := by
        unfold fftVector
        simp only [fft_eq _ hMr]
        exact ⟨_, rfl⟩
      obtain ⟨z, hz⟩ := newtonStep_exists (P := ⟨crossedOrders, squareCell, normalizeElementwise fun i j => ![g i j 1, -g i j 0], fieldMagnitude g, fw / 5, 0 / 5⟩)
        hG hMr (fieldMagnitude_nonneg g) (i := i) (j := j) (lt_trans (by norm_num) hij) squareCell_independent (Or.inl (by positivity)) y
      refine ⟨z, ?_⟩
      unfold optimizedFourierField targetAndInitialField
      simp only [Bool.false_eq_true, if_false, hq, bind, Except.bind, hy, newtonLoop, hz]
    have e := hp.optimized two_ne_zero one_ne_zero hG hG' hMr hMr' squareCell_independent hz hz'
    rw [zero_div] at hz
    obtain ⟨A, B, rfl, hA, hB⟩ := hopt _ _ _ (by positivity) hz
    rw [ifftVector_eq _ hG' (hr' (by norm_num) (by norm_num)), ok_inj, e, hp.series two_ne_zero one_ne_zero] at hf'
    rw [← hf'] at h'
    obtain ⟨c, hc, hfac⟩ := normalize_factor h'
    have s1 : (∑ _i : Fin 5, ∑ j : Fin 6, gridSin 6 j ^ 2) = 15 := by
      rw [sum_six fun y => y, Finset.sum_const, Finset.card_univ, Fintype.card_fin]
      norm_num
    have s2 : (∑ i : Fin 5, ∑ _j : Fin 6, gridSin 5 i ^ 2) = 15 := by
      simp only [Finset.sum_const, Finset.card_univ, Fintype.card_fin]
      rw [sum_five fun y => 6 • y]
      simp only [nsmul_eq_mul]
      push_cast
      ring
    rw [s1] at hA
    rw [s2] at hB
    have hu : 0 < gradientSize 4 / M := by rw [gradientSize_four]; positivity
    have hlt := weight_five hu
    have hS : 0 ≤ ∑ i : Fin 5, ∑ j : Fin 6, gridSin 5 i ^ 2 * crossedWeight 5 6 (gradientSize 4 / M) (gradientSize 4 / M) i j :=
      Finset.sum_nonneg fun i _ => Finset.sum_nonneg fun j _ => mul_nonneg (sq_nonneg _) (Real.sqrt_nonneg _)
    set S := ∑ i : Fin 5, ∑ j : Fin 6, gridSin 5 i ^ 2 * crossedWeight 5 6 (gradientSize 4 / M) (gradientSize 4 / M) i j
    set S' := ∑ i : Fin 5, ∑ j : Fin 6, gridSin 6 j ^ 2 * crossedWeight 5 6 (gradientSize 4 / M) (gradientSize 4 / M) i j
    set K := ((5 : ℕ) : ℝ) * ((6 : ℕ) : ℝ) * (fw / 5 * (2 * Real.pi) ^ 2 / 2)
    set u := gradientSize 4 / M
    have hK : 0 < K := by positivity
    have hA' : A = -(15 * u / (S' + K)) := by
      rw [eq_neg_iff_add_eq_zero, ← neg_eq_iff_add_eq_zero, eq_div_iff (by linarith)]
      linear_combination -hA
    have hB' : B = 15 * u / (S + K) := by
      rw [eq_div_iff (by linarith)]
      linear_combination hB
    have hAB : 15 * u / (S' + K) < 15 * u / (S + K) := div_lt_div_of_pos_left (by positivity) (by linarith) (by linarith)
    have hpos : 0 < 15 * u / (S' + K) := div_pos (by positivity) (by linarith)
    have val : ∀ (i : Fin (2 * 4)) (j : Fin (1 * 4)), t' i j = fun k =>
        (![((A * gridSin 4 ((tile 2 1 (i, j) : Fin 4 × Fin 4).2) : ℝ) : ℂ), ((B * gridSin 4 ((tile 2 1 (i, j) : Fin 4 × Fin 4).1) : ℝ) : ℂ)] : Fin 2 → ℂ) k / (c : ℂ) := by
      intro i j
      funext k
      rw [hfac]
      unfold tileField
      rw [seriesMap_crossedCoefficients]
    rw [val, val, magnitude_div _ hc, magnitude_div _ hc, crossed_magnitude_eq, crossed_magnitude_eq]
    refine div_lt_div_of_pos_right ?_ hc
    refine Real.sqrt_lt_sqrt (by positivity) ?_
    change (A * gridSin 4 1) ^ 2 + (B * gridSin 4 0) ^ 2 < (A * gridSin 4 0) ^ 2 + (B * gridSin 4 1) ^ 2
    rw [gridSin_four_one, gridSin_zero, hA', hB']
    nlinarith
  refine ⟨t, t', ht, ht', hsym, hasym, fun e => ?_⟩
  rw [e] at hasym
  change magnitude (t 0 1) < magnitude (t 1 0) at hasym
  rw [hsym] at hasym
  exact lt_irrefl _ hasym

/-- Ten orders for two cells. -/
def doubledCrossedOrders : Fin 10 → ℤ × ℤ := ![(0, 0), (2, 0), (-2, 0), (0, 1), (0, -1), (1, 0), (-1, 0), (1, 1), (-1, -1), (1, -1)]

/-- The hypotheses of `C100_false_even` can be met. -/
example : Function.Injective doubledCrossedOrders ∧ SupercellExpansion 2 1 crossedOrders doubledCrossedOrders ∧
    ∀ k, |(doubledCrossedOrders k).1| ≤ 2 ∧ |(doubledCrossedOrders k).2| ≤ 1 := by
  refine ⟨by decide, ⟨by decide, by decide, by decide⟩, by decide⟩

end Fmmax
