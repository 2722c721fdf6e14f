import Verif.Proofs.CrossedTangent

/-! The optimised tangent field of the pattern `cos x + cos y`. -/

namespace Fmmax

open Matrix Spec

variable {nx ny a b : ℕ}

/-- The unit square. -/
abbrev squareCell : LatticeVectors := ⟨(1, 0), (0, 1)⟩

/-- The coefficients of the field `(A sin y, B sin x)`. -/
noncomputable def crossedCoefficients (A B : ℝ) : Fin 5 × Fin 2 → ℂ := fun p =>
  ![![0, 0], ![0, B / (2 * Complex.I)], ![0, -(B / (2 * Complex.I))], ![A / (2 * Complex.I), 0], ![-(A / (2 * Complex.I)), 0]] p.1 p.2

theorem seriesMap_crossedOrders (y : Fin 5 × Fin 2 → ℂ) (i : Fin a) (j : Fin b) (c : Fin 2) :
    seriesMap crossedOrders a b y i j c = y (0, c) + (y (1, c) + y (2, c)) * gridCos a i + Complex.I * (y (1, c) - y (2, c)) * gridSin a i +
      (y (3, c) + y (4, c)) * gridCos b j + Complex.I * (y (3, c) - y (4, c)) * gridSin b j := by
  change (∑ k, y (k, c) * planeWave a b (crossedOrders k) i j) = _
  have h0 : planeWave a b (0, 0) i j = 1 := by unfold planeWave; simp
  rw [Fin.sum_univ_five]
  change y (0, c) * planeWave a b (0, 0) i j + y (1, c) * planeWave a b (1, 0) i j + y (2, c) * planeWave a b (-1, 0) i j +
    y (3, c) * planeWave a b (0, 1) i j + y (4, c) * planeWave a b (0, -1) i j = _
  rw [h0, planeWave_axis _ _ _ (Or.inl rfl), planeWave_axis _ _ _ (Or.inr rfl), planeWave_axis' _ _ _ (Or.inl rfl), planeWave_axis' _ _ _ (Or.inr rfl)]
  push_cast
  ring

theorem seriesMap_crossedCoefficients (A B : ℝ) (i : Fin a) (j : Fin b) :
    seriesMap crossedOrders a b (crossedCoefficients A B) i j = ![((A * gridSin b j : ℝ) : ℂ), ((B * gridSin a i : ℝ) : ℂ)] := by
  funext c
  rw [seriesMap_crossedOrders]
  have := Complex.I_ne_zero
  fin_cases c <;> simp [crossedCoefficients] <;> field_simp <;> norm_num

theorem crossedOrders_resolves (ha : 3 ≤ a) (hb : 3 ≤ b) : Resolves a b crossedOrders := by
  refine ⟨⟨0⟩, fun i => ?_⟩
  fin_cases i <;> simp [crossedOrders] <;> omega

theorem crossed_fourierLoss (y : Fin 5 × Fin 2 → ℂ) :
    fourierLoss y crossedOrders squareCell = .ok ((2 * Real.pi) ^ 2 * ∑ c, (‖y (1, c)‖ ^ 2 + ‖y (2, c)‖ ^ 2 + ‖y (3, c)‖ ^ 2 + ‖y (4, c)‖ ^ 2)) := by
  have hk : transverseWavevectors (0, 0) squareCell crossedOrders = .ok fun i => (2 * Real.pi * (crossedOrders i).1, 2 * Real.pi * (crossedOrders i).2) := by
    unfold transverseWavevectors reciprocal crossProduct squareCell
    simp [bind, Except.bind]
  unfold fourierLoss
  rw [hk]
  refine congrArg Except.ok ?_
  have hA : |(basisMatrix squareCell).det| = 1 := by rw [basisMatrix_det]; norm_num
  rw [hA, Real.sqrt_one, Finset.mul_sum, Finset.sum_comm]
  refine Finset.sum_congr rfl fun c _ => ?_
  simp only [mul_one, Real.sq_sqrt (add_nonneg (sq_nonneg _) (sq_nonneg _)), Fin.sum_univ_five]
  simp [crossedOrders]
  ring

theorem sum_odd [NeZero b] {F : Fin b → ℝ} (h : ∀ j, F (-j) = -F j) : ∑ j, F j = 0 := by
  have := Equiv.sum_comp (Equiv.neg (Fin b)) F
  simp only [Equiv.neg_apply, h, Finset.sum_neg_distrib] at this
  linarith

theorem gridCos_neg [NeZero a] (i : Fin a) : gridCos a (-i : Fin a) = gridCos a i := by
  have ha0 : (a : ℝ) ≠ 0 := by exact_mod_cast NeZero.ne a
  obtain ⟨q, hq⟩ := angle_mod (NeZero.ne a) (a - i)
  unfold gridCos
  rw [Fin.val_neg']
  have hle : (i : ℕ) ≤ a := i.isLt.le
  have : 2 * Real.pi * (((a - (i : ℕ)) % a : ℕ) : ℝ) / a = -(2 * Real.pi * i / a) + 2 * Real.pi - q * (2 * Real.pi) := by
    rw [Nat.cast_sub hle] at hq
    have e : 2 * Real.pi * ((a : ℝ) - i) / a = -(2 * Real.pi * i / a) + 2 * Real.pi := by
      field_simp
      ring
    linarith
  rw [this, Real.cos_sub_nat_mul_two_pi, Real.cos_add_two_pi, Real.cos_neg]

/-- The minimiser of the loss for a crossed pattern. -/
theorem crossed_newtonStep (ha : 3 ≤ a) (hb : 3 ≤ b) [NeZero a] [NeZero b] (t : VectorField a b) (w : Fin a → Fin b → ℝ) (hw : ∀ i j, 0 ≤ w i j)
    (hwi : ∀ i j, w (-i) j = w i j) (hwj : ∀ i j, w i (-j) = w i j) (t0 t1 : Fin a → Fin b → ℝ) (ht : ∀ i j, t i j = ![(t0 i j : ℂ), (t1 i j : ℂ)])
    (q p : ℝ) (h0 : ∀ i j, w i j * t0 i j = q * gridSin b j) (h1 : ∀ i j, w i j * t1 i j = p * gridSin a i) (fw : ℝ) (hfw : 0 < fw) (A B : ℝ)
    (hA : (∑ i : Fin a, ∑ j : Fin b, gridSin b j ^ 2 * (A * w i j - q)) + a * b * (fw * (2 * Real.pi) ^ 2 * A / 2) = 0)
    (hB : (∑ i : Fin a, ∑ j : Fin b, gridSin a i ^ 2 * (B * w i j - p)) + a * b * (fw * (2 * Real.pi) ^ 2 * B / 2) = 0)
    {y z : Fin 5 × Fin 2 → ℂ} (hz : newtonStep ⟨crossedOrders, squareCell, t, w, fw, 0⟩ y = .ok z) : z = crossedCoefficients A B := by
  have hr := crossedOrders_resolves ha hb
  have hab : (0 : ℝ) < a * b := by
    have : 0 < a := by omega
    have : 0 < b := by omega
    positivity
  have loss : ∀ y, fieldLoss ⟨crossedOrders, squareCell, t, w, fw, 0⟩ y = .ok ((∑ i, ∑ j, w i j * ∑ c, ‖seriesMap crossedOrders a b y i j c - t i j c‖ ^ 2) / (a * b) +
      fw * ((2 * Real.pi) ^ 2 * ∑ c, (‖y (1, c)‖ ^ 2 + ‖y (2, c)‖ ^ 2 + ‖y (3, c)‖ ^ 2 + ‖y (4, c)‖ ^ 2))) := by
    intro y
    unfold fieldLoss
    simp only [ifftVector_eq y crossedOrders_injective hr, bind, Except.bind, crossed_fourierLoss, addLossTerm, hfw, if_true, lt_irrefl, if_false]
    unfold alignmentLoss
    push_cast
    rfl
  obtain ⟨p1, p2, hp1, hp2, -, huniq⟩ := newtonStep_minimizer (P := ⟨crossedOrders, squareCell, t, w, fw, 0⟩) crossedOrders_injective hr hw hz (crossedCoefficients A B)
  refine (huniq ?_).symm
  rw [loss, ok_inj] at hp1 hp2
  rw [← hp1, ← hp2]
  -- the difference of the two losses
  set v : Fin 5 × Fin 2 → ℂ := fun k => z k - crossedCoefficients A B k with hv
  have hzv : z = crossedCoefficients A B + v := by funext k; simp [hv]
  have split : ∀ (x : ℝ) (u : ℂ), ‖(x : ℂ) + u‖ ^ 2 = x ^ 2 + 2 * x * u.re + ‖u‖ ^ 2 := by
    intro x u
    rw [← Complex.normSq_eq_norm_sq, ← Complex.normSq_eq_norm_sq, Complex.normSq_apply, Complex.normSq_apply]
    simp only [Complex.add_re, Complex.add_im, Complex.ofReal_re, Complex.ofReal_im]
    ring
  have hs : ∀ i j, seriesMap crossedOrders a b z i j = ![((A * gridSin b j : ℝ) : ℂ), ((B * gridSin a i : ℝ) : ℂ)] + seriesMap crossedOrders a b v i j := by
    intro i j
    rw [hzv, map_add, Pi.add_apply, Pi.add_apply, seriesMap_crossedCoefficients]
  have term : ∀ i j, w i j * ∑ c, ‖seriesMap crossedOrders a b z i j c - t i j c‖ ^ 2 =
      w i j * (∑ c, ‖seriesMap crossedOrders a b (crossedCoefficients A B) i j c - t i j c‖ ^ 2) +
      (2 * (gridSin b j * (A * w i j - q)) * (seriesMap crossedOrders a b v i j 0).re + 2 * (gridSin a i * (B * w i j - p)) * (seriesMap crossedOrders a b v i j 1).re) +
      w i j * ∑ c, ‖seriesMap crossedOrders a b v i j c‖ ^ 2 := by
    intro i j
    rw [hs, seriesMap_crossedCoefficients, ht]
    simp only [Fin.sum_univ_two, Pi.add_apply, cons_val_zero, cons_val_one]
    have e0 : ((A * gridSin b j : ℝ) : ℂ) + seriesMap crossedOrders a b v i j 0 - (t0 i j : ℂ) = ((A * gridSin b j - t0 i j : ℝ) : ℂ) + seriesMap crossedOrders a b v i j 0 := by
      push_cast; ring
    have e1 : ((B * gridSin a i : ℝ) : ℂ) + seriesMap crossedOrders a b v i j 1 - (t1 i j : ℂ) = ((B * gridSin a i - t1 i j : ℝ) : ℂ) + seriesMap crossedOrders a b v i j 1 := by
      push_cast; ring
    rw [e0, e1, split, split, ← Complex.ofReal_sub, ← Complex.ofReal_sub, Complex.norm_real, Complex.norm_real, Real.norm_eq_abs, Real.norm_eq_abs, sq_abs, sq_abs]
    have := h0 i j
    have := h1 i j
    linear_combination (-2 * (seriesMap crossedOrders a b v i j 0).re) * h0 i j + (-2 * (seriesMap crossedOrders a b v i j 1).re) * h1 i j
  have re : ∀ i j c, (seriesMap crossedOrders a b v i j c).re = (v (0, c)).re + (v (1, c) + v (2, c)).re * gridCos a i + (Complex.I * (v (1, c) - v (2, c))).re * gridSin a i +
      (v (3, c) + v (4, c)).re * gridCos b j + (Complex.I * (v (3, c) - v (4, c))).re * gridSin b j := by
    intro i j c
    rw [seriesMap_crossedOrders]
    simp [Complex.add_re, Complex.mul_re]
  have cross0 : ∑ i : Fin a, ∑ j : Fin b, 2 * (gridSin b j * (A * w i j - q)) * (seriesMap crossedOrders a b v i j 0).re =
      2 * (Complex.I * (v (3, 0) - v (4, 0))).re * ∑ i : Fin a, ∑ j : Fin b, gridSin b j ^ 2 * (A * w i j - q) := by
    rw [Finset.mul_sum]
    refine Finset.sum_congr rfl fun i _ => ?_
    rw [Finset.mul_sum, ← sub_eq_zero, ← Finset.sum_sub_distrib]
    refine sum_odd fun j => ?_
    rw [re, re, gridSin_neg, gridCos_neg, hwj]
    ring
  have cross1 : ∑ i : Fin a, ∑ j : Fin b, 2 * (gridSin a i * (B * w i j - p)) * (seriesMap crossedOrders a b v i j 1).re =
      2 * (Complex.I * (v (1, 1) - v (2, 1))).re * ∑ i : Fin a, ∑ j : Fin b, gridSin a i ^ 2 * (B * w i j - p) := by
    rw [Finset.sum_comm, Finset.sum_comm (f := fun (i : Fin a) (j : Fin b) => gridSin a i ^ 2 * (B * w i j - p)), Finset.mul_sum]
    refine Finset.sum_congr rfl fun j _ => ?_
    rw [Finset.mul_sum, ← sub_eq_zero, ← Finset.sum_sub_distrib]
    refine sum_odd fun i => ?_
    rw [re, re, gridSin_neg, gridCos_neg, hwi]
    ring
  have four : ∑ c, (‖z (1, c)‖ ^ 2 + ‖z (2, c)‖ ^ 2 + ‖z (3, c)‖ ^ 2 + ‖z (4, c)‖ ^ 2) =
      ∑ c, (‖crossedCoefficients A B (1, c)‖ ^ 2 + ‖crossedCoefficients A B (2, c)‖ ^ 2 + ‖crossedCoefficients A B (3, c)‖ ^ 2 + ‖crossedCoefficients A B (4, c)‖ ^ 2) +
      (A * (Complex.I * (v (3, 0) - v (4, 0))).re + B * (Complex.I * (v (1, 1) - v (2, 1))).re) +
      ∑ c, (‖v (1, c)‖ ^ 2 + ‖v (2, c)‖ ^ 2 + ‖v (3, c)‖ ^ 2 + ‖v (4, c)‖ ^ 2) := by
    have hI : ∀ x : ℝ, (x : ℂ) / (2 * Complex.I) = ((-x / 2 : ℝ) : ℂ) * Complex.I := by
      intro x
      have := Complex.I_ne_zero
      have h2 : Complex.I * Complex.I = -1 := Complex.I_mul_I
      push_cast
      field_simp
      linear_combination (x : ℂ) * h2
    rw [hzv]
    simp only [Fin.sum_univ_two, Pi.add_apply, ← Complex.normSq_eq_norm_sq, Complex.normSq_apply]
    simp [crossedCoefficients, hI]
    ring
  have hv0 : 0 ≤ ∑ i, ∑ j, w i j * ∑ c, ‖seriesMap crossedOrders a b v i j c‖ ^ 2 :=
    Finset.sum_nonneg fun i _ => Finset.sum_nonneg fun j _ => mul_nonneg (hw i j) (Finset.sum_nonneg fun c _ => by positivity)
  have hv1 : 0 ≤ ∑ c, (‖v (1, c)‖ ^ 2 + ‖v (2, c)‖ ^ 2 + ‖v (3, c)‖ ^ 2 + ‖v (4, c)‖ ^ 2) := Finset.sum_nonneg fun c _ => by positivity
  rw [four]
  have total : ∑ i, ∑ j, w i j * ∑ c, ‖seriesMap crossedOrders a b z i j c - t i j c‖ ^ 2 =
      ∑ i, ∑ j, w i j * (∑ c, ‖seriesMap crossedOrders a b (crossedCoefficients A B) i j c - t i j c‖ ^ 2) +
      (2 * (Complex.I * (v (3, 0) - v (4, 0))).re * (∑ i : Fin a, ∑ j : Fin b, gridSin b j ^ 2 * (A * w i j - q)) +
        2 * (Complex.I * (v (1, 1) - v (2, 1))).re * ∑ i : Fin a, ∑ j : Fin b, gridSin a i ^ 2 * (B * w i j - p)) +
      ∑ i, ∑ j, w i j * ∑ c, ‖seriesMap crossedOrders a b v i j c‖ ^ 2 := by
    rw [← cross0, ← cross1]
    simp only [term, Finset.sum_add_distrib]
  rw [total]
  set S0 := ∑ i : Fin a, ∑ j : Fin b, gridSin b j ^ 2 * (A * w i j - q)
  set S1 := ∑ i : Fin a, ∑ j : Fin b, gridSin a i ^ 2 * (B * w i j - p)
  set α := (Complex.I * (v (3, 0) - v (4, 0))).re
  set β := (Complex.I * (v (1, 1) - v (2, 1))).re
  have eA : S0 = -(a * b * (fw * (2 * Real.pi) ^ 2 * A / 2)) := by linarith
  have eB : S1 = -(a * b * (fw * (2 * Real.pi) ^ 2 * B / 2)) := by linarith
  rw [eA, eB, add_div, add_div]
  have e2 : (2 * α * -(a * b * (fw * (2 * Real.pi) ^ 2 * A / 2)) + 2 * β * -(a * b * (fw * (2 * Real.pi) ^ 2 * B / 2))) / (a * b) =
      -(fw * ((2 * Real.pi) ^ 2 * (A * α + B * β))) := by
    field_simp
    ring
  rw [e2]
  have e3 : 0 ≤ (∑ i, ∑ j, w i j * ∑ c, ‖seriesMap crossedOrders a b v i j c‖ ^ 2) / (a * b) := div_nonneg hv0 hab.le
  have e4 : 0 ≤ fw * ((2 * Real.pi) ^ 2 * ∑ c, (‖v (1, c)‖ ^ 2 + ‖v (2, c)‖ ^ 2 + ‖v (3, c)‖ ^ 2 + ‖v (4, c)‖ ^ 2)) := by positivity
  nlinarith

/-- The weight of the loss for the gradient `(-P sin x, -Q sin y)`. -/
noncomputable def crossedWeight (a b : ℕ) (P Q : ℝ) (i j : ℕ) : ℝ := Real.sqrt (P ^ 2 * gridSin a i ^ 2 + Q ^ 2 * gridSin b j ^ 2)

/-- The optimised coefficients for the gradient `(-P sin x, -Q sin y)`. -/
theorem crossed_optimized (ha : 3 ≤ a) (hb : 3 ≤ b) {P Q : ℝ} (hP : 0 < P) (hQ : 0 < Q) {grad : VectorField a b}
    (hg : ∀ i j, grad i j = ![((-P * gridSin a i : ℝ) : ℂ), ((-Q * gridSin b j : ℝ) : ℂ)])
    (hthr : ∀ (i : Fin a) (j : Fin b), crossedWeight a b P Q i j = 0 ∨ 1e-8 < crossedWeight a b P Q i j) {fw : ℝ} (hfw : 0 < fw) {n : ℕ} {z : Fin 5 × Fin 2 → ℂ}
    (hz : optimizedFourierField grad crossedOrders squareCell false fw 0 (n + 1) = .ok z) :
    ∃ A B : ℝ, z = crossedCoefficients A B ∧
      A * ((∑ i : Fin a, ∑ j : Fin b, gridSin b j ^ 2 * crossedWeight a b P Q i j) + a * b * (fw * (2 * Real.pi) ^ 2 / 2)) = -Q * ∑ _i : Fin a, ∑ j : Fin b, gridSin b j ^ 2 ∧
      B * ((∑ i : Fin a, ∑ j : Fin b, gridSin a i ^ 2 * crossedWeight a b P Q i j) + a * b * (fw * (2 * Real.pi) ^ 2 / 2)) = P * ∑ i : Fin a, ∑ _j : Fin b, gridSin a i ^ 2 := by
  classical
  have : NeZero a := ⟨by omega⟩
  have : NeZero b := ⟨by omega⟩
  have hmag : ∀ i j, magnitude (grad i j) = crossedWeight a b P Q i j := by
    intro i j
    rw [hg]
    unfold magnitude crossedWeight
    simp only [cons_val_zero, cons_val_one, Complex.norm_real, Real.norm_eq_abs, sq_abs, mul_pow, neg_sq]
  have hrot : ∀ i j, magnitude ![grad i j 1, -grad i j 0] = crossedWeight a b P Q i j := by
    intro i j
    rw [← hmag]
    unfold magnitude
    simp only [cons_val_zero, cons_val_one, norm_neg]
    rw [add_comm]
  have hw : fieldMagnitude grad = fun (i : Fin a) (j : Fin b) => crossedWeight a b P Q i j := by
    funext i j
    rw [fieldMagnitude_eq, hmag]
  unfold optimizedFourierField targetAndInitialField at hz
  simp only [Bool.false_eq_true, if_false] at hz
  obtain ⟨T, hT, hz⟩ := bind_eq_ok.1 hz
  obtain ⟨init, -, hT⟩ := bind_eq_ok.1 hT
  rw [ok_inj] at hT
  subst hT
  obtain ⟨y, -, hz⟩ := bind_eq_ok.1 hz
  simp only [hw] at hz
  have hw0 : ∀ i j, 0 ≤ crossedWeight a b P Q i j := fun i j => Real.sqrt_nonneg _
  set t : VectorField a b := normalizeElementwise fun i j => ![grad i j 1, -grad i j 0] with ht
  rw [newtonLoop_succ (P := ⟨crossedOrders, squareCell, t, fun i j => crossedWeight a b P Q i j, fw, 0⟩) crossedOrders_injective (crossedOrders_resolves ha hb)
    (fun i j => hw0 i j)] at hz
  have hab : (0 : ℝ) < a * b := by
    have : 0 < a := by omega
    have : 0 < b := by omega
    positivity
  have hden : ∀ S : ℝ, 0 ≤ S → 0 < S + a * b * (fw * (2 * Real.pi) ^ 2 / 2) := by
    intro S hS
    have : 0 < fw * (2 * Real.pi) ^ 2 / 2 := by positivity
    nlinarith [mul_pos hab this]
  have hS0 : 0 ≤ ∑ i : Fin a, ∑ j : Fin b, gridSin b j ^ 2 * crossedWeight a b P Q i j :=
    Finset.sum_nonneg fun i _ => Finset.sum_nonneg fun j _ => mul_nonneg (sq_nonneg _) (hw0 _ _)
  have hS1 : 0 ≤ ∑ i : Fin a, ∑ j : Fin b, gridSin a i ^ 2 * crossedWeight a b P Q i j :=
    Finset.sum_nonneg fun i _ => Finset.sum_nonneg fun j _ => mul_nonneg (sq_nonneg _) (hw0 _ _)
  have hd0 := hden _ hS0
  have hd1 := hden _ hS1
  obtain ⟨A, hA⟩ : ∃ A, A * ((∑ i : Fin a, ∑ j : Fin b, gridSin b j ^ 2 * crossedWeight a b P Q i j) + a * b * (fw * (2 * Real.pi) ^ 2 / 2)) =
      -Q * ∑ _i : Fin a, ∑ j : Fin b, gridSin b j ^ 2 := ⟨_, div_mul_cancel₀ _ hd0.ne'⟩
  obtain ⟨B, hB⟩ : ∃ B, B * ((∑ i : Fin a, ∑ j : Fin b, gridSin a i ^ 2 * crossedWeight a b P Q i j) + a * b * (fw * (2 * Real.pi) ^ 2 / 2)) =
      P * ∑ i : Fin a, ∑ _j : Fin b, gridSin a i ^ 2 := ⟨_, div_mul_cancel₀ _ hd1.ne'⟩
  refine ⟨A, B, ?_, hA, hB⟩
  let safe : Fin a → Fin b → ℝ := fun i j => if crossedWeight a b P Q i j = 0 then 1 else crossedWeight a b P Q i j
  have hsafe : ∀ i j, t i j = ![((-Q * gridSin b j / safe i j : ℝ) : ℂ), ((P * gridSin a i / safe i j : ℝ) : ℂ)] := by
    intro i j
    have e : (if IsClose (fieldMagnitude (fun i j => ![grad i j 1, -grad i j 0]) i j) 0 then (1 : ℝ) else fieldMagnitude (fun i j => ![grad i j 1, -grad i j 0]) i j) = safe i j := by
      rw [fieldMagnitude_eq, hrot]
      simp only [isClose_zero_iff (hw0 _ _), safe]
      rcases hthr i j with h | h
      · rw [h]; norm_num
      · rw [if_neg (not_le.2 h), if_neg (lt_trans (by norm_num) h).ne']
    funext c
    rw [ht]
    unfold normalizeElementwise
    have e' : ∀ d : Decidable (IsClose (fieldMagnitude (fun i j => ![grad i j 1, -grad i j 0]) i j) 0),
        (@ite _ _ d (1 : ℝ) (fieldMagnitude (fun i j => ![grad i j 1, -grad i j 0]) i j)) = safe i j := by
      intro d
      rw [← e]
      congr
    simp only [e']
    rw [hg]
    fin_cases c
    · simp
    · simp
  have hws : ∀ (i : Fin a) (j : Fin b), crossedWeight a b P Q i j = 0 → gridSin a i = 0 ∧ gridSin b j = 0 := by
    intro i j h
    unfold crossedWeight at h
    rw [Real.sqrt_eq_zero (by positivity)] at h
    have h1 : 0 ≤ P ^ 2 * gridSin a i ^ 2 := by positivity
    have h2 : 0 ≤ Q ^ 2 * gridSin b j ^ 2 := by positivity
    constructor
    · have : P ^ 2 * gridSin a i ^ 2 = 0 := by linarith
      simpa [hP.ne'] using this
    · have : Q ^ 2 * gridSin b j ^ 2 = 0 := by linarith
      simpa [hQ.ne'] using this
  refine crossed_newtonStep ha hb t (fun i j => crossedWeight a b P Q i j) (fun i j => hw0 i j) (fun i j => ?_) (fun i j => ?_) (fun i j => -Q * gridSin b j / safe i j)
    (fun i j => P * gridSin a i / safe i j) hsafe (-Q) P (fun i j => ?_) (fun i j => ?_) fw hfw A B ?_ ?_ hz
  · unfold crossedWeight
    simp only [gridSin_neg, neg_sq]
  · unfold crossedWeight
    simp only [gridSin_neg, neg_sq]
  · by_cases h : crossedWeight a b P Q i j = 0
    · simp only [h, zero_mul, (hws i j h).2, mul_zero]
    · simp only [safe, if_neg h]
      field_simp
  · by_cases h : crossedWeight a b P Q i j = 0
    · simp only [h, zero_mul, (hws i j h).1, mul_zero]
    · simp only [safe, if_neg h]
      field_simp
  · have e : ∑ i : Fin a, ∑ j : Fin b, gridSin b j ^ 2 * (A * crossedWeight a b P Q i j - -Q) =
        A * (∑ i : Fin a, ∑ j : Fin b, gridSin b j ^ 2 * crossedWeight a b P Q i j) + Q * ∑ _i : Fin a, ∑ j : Fin b, gridSin b j ^ 2 := by
      simp only [Finset.mul_sum, ← Finset.sum_add_distrib]
      refine Finset.sum_congr rfl fun i _ => Finset.sum_congr rfl fun j _ => ?_
      ring
    rw [e]
    linear_combination hA
  · have e : ∑ i : Fin a, ∑ j : Fin b, gridSin a i ^ 2 * (B * crossedWeight a b P Q i j - P) =
        B * (∑ i : Fin a, ∑ j : Fin b, gridSin a i ^ 2 * crossedWeight a b P Q i j) - P * ∑ i : Fin a, ∑ _j : Fin b, gridSin a i ^ 2 := by
      simp only [Finset.mul_sum, ← Finset.sum_sub_distrib]
      refine Finset.sum_congr rfl fun i _ => Finset.sum_congr rfl fun j _ => ?_
      ring
    rw [e]
    linear_combination hB

/-! ### Samples -/

theorem gridSin_six (i : Fin 6) : gridSin 6 i = ![0, Real.sqrt 3 / 2, Real.sqrt 3 / 2, 0, -(Real.sqrt 3 / 2), -(Real.sqrt 3 / 2)] i := by
  unfold gridSin
  have e : Real.sin (Real.pi / 3) = Real.sqrt 3 / 2 := Real.sin_pi_div_three
  fin_cases i
  · simp
  · change Real.sin (2 * Real.pi * ((1 : ℕ) : ℝ) / ((6 : ℕ) : ℝ)) = Real.sqrt 3 / 2
    rw [← e]; congr 1; push_cast; ring
  · change Real.sin (2 * Real.pi * ((2 : ℕ) : ℝ) / ((6 : ℕ) : ℝ)) = Real.sqrt 3 / 2
    rw [← e, ← Real.sin_pi_sub]; congr 1; push_cast; ring
  · change Real.sin (2 * Real.pi * ((3 : ℕ) : ℝ) / ((6 : ℕ) : ℝ)) = 0
    rw [← Real.sin_pi]; congr 1; push_cast; ring
  · change Real.sin (2 * Real.pi * ((4 : ℕ) : ℝ) / ((6 : ℕ) : ℝ)) = -(Real.sqrt 3 / 2)
    rw [← e, ← Real.sin_add_pi]; congr 1; push_cast; ring
  · change Real.sin (2 * Real.pi * ((5 : ℕ) : ℝ) / ((6 : ℕ) : ℝ)) = -(Real.sqrt 3 / 2)
    rw [← e, ← Real.sin_neg, ← Real.sin_add_two_pi (-(Real.pi / 3))]; congr 1; push_cast; ring

theorem gridSin_six_sq (i : Fin 6) : gridSin 6 i ^ 2 = ![0, 3 / 4, 3 / 4, 0, 3 / 4, 3 / 4] i := by
  rw [gridSin_six]
  have h : Real.sqrt 3 ^ 2 = 3 := Real.sq_sqrt (by norm_num)
  fin_cases i <;> simp [div_pow, h] <;> norm_num

theorem gridSin_five_sq (i : Fin 5) :
    gridSin 5 i ^ 2 = ![0, (5 + Real.sqrt 5) / 8, (5 - Real.sqrt 5) / 8, (5 - Real.sqrt 5) / 8, (5 + Real.sqrt 5) / 8] i := by
  have hc : Real.cos (Real.pi / 5) = (1 + Real.sqrt 5) / 4 := Real.cos_pi_div_five
  have h5 : Real.sqrt 5 ^ 2 = 5 := Real.sq_sqrt (by norm_num)
  have s1 : Real.sin (Real.pi / 5) ^ 2 = (5 - Real.sqrt 5) / 8 := by
    rw [Real.sin_sq, hc]; ring_nf; rw [h5]; ring
  have s2 : Real.sin (2 * Real.pi / 5) ^ 2 = (5 + Real.sqrt 5) / 8 := by
    rw [show 2 * Real.pi / 5 = 2 * (Real.pi / 5) by ring, Real.sin_two_mul, mul_pow, mul_pow, s1, hc]
    ring_nf
    rw [show Real.sqrt 5 ^ 3 = Real.sqrt 5 ^ 2 * Real.sqrt 5 by ring, h5]
    ring
  unfold gridSin
  fin_cases i
  · simp
  · change Real.sin (2 * Real.pi * ((1 : ℕ) : ℝ) / ((5 : ℕ) : ℝ)) ^ 2 = (5 + Real.sqrt 5) / 8
    rw [← s2]; congr 2; push_cast; ring
  · change Real.sin (2 * Real.pi * ((2 : ℕ) : ℝ) / ((5 : ℕ) : ℝ)) ^ 2 = (5 - Real.sqrt 5) / 8
    rw [← s1, ← Real.sin_pi_sub (Real.pi / 5)]; congr 2; push_cast; ring
  · change Real.sin (2 * Real.pi * ((3 : ℕ) : ℝ) / ((5 : ℕ) : ℝ)) ^ 2 = (5 - Real.sqrt 5) / 8
    rw [← s1, ← neg_sq (Real.sin (Real.pi / 5)), ← Real.sin_add_pi]; congr 2; push_cast; ring
  · change Real.sin (2 * Real.pi * ((4 : ℕ) : ℝ) / ((5 : ℕ) : ℝ)) ^ 2 = (5 + Real.sqrt 5) / 8
    rw [← s2, ← neg_sq (Real.sin (2 * Real.pi / 5)), ← Real.sin_neg, ← Real.sin_add_two_pi (-(2 * Real.pi / 5))]; congr 2; push_cast; ring

theorem gridSin_one_pos {n : ℕ} (hn : 3 ≤ n) : 0 < gridSin n 1 := by
  unfold gridSin
  have h3 : (3 : ℝ) ≤ n := by exact_mod_cast hn
  have hp := Real.pi_pos
  refine Real.sin_pos_of_pos_of_lt_pi (by positivity) ?_
  rw [div_lt_iff₀ (by linarith)]
  push_cast
  nlinarith

end Fmmax
