import Verif.Proofs.TangentSymmetry
import Verif.Props.Symmetry
import Verif.Props.TangentField
import Verif.Props.SupercellTangent
import Verif.Model.VectorFormulation

/-! Property theorems C104: tangent fields in other coordinates.

`turnLattice`, `turnField`, `bandLimited`, `TwoDirections`, `Unambiguous` and `CommonShift` are from `Verif/Spec/TangentSymmetry.lean`. -/

namespace Fmmax

open Matrix Spec

variable {ι : Type} [Fintype ι] [DecidableEq ι] {nx ny : ℕ} {G : ι → ℤ × ℤ} {l : LatticeVectors} {M : ℕ × ℕ} {a b : ℤ} {O : Matrix (Fin 2) (Fin 2) ℝ}
  {x : Grid nx ny} {g : VectorField nx ny} {fw sw : ℝ}

theorem turnField_eq_move [NeZero nx] [NeZero ny] (p : ℂ) (O : Matrix (Fin 2) (Fin 2) ℝ) (a b : ℤ) (t : VectorField nx ny) :
    turnField p O (roll a b) t = moveField (p • toC O) (rollIndex a 0) (rollIndex b 0) t := by
  funext i j k
  simp only [turnField, moveField, roll, rollIndex_add a i, rollIndex_add b j, smul_mulVec, Pi.smul_apply, smul_eq_mul]
  simp only [mulVec, dotProduct, Fin.sum_univ_two, toC_apply]

theorem pull_roll [NeZero nx] [NeZero ny] (a b : ℤ) (x : Grid nx ny) :
    x.pull (roll a b) = Matrix.of fun i j => x (i + rollIndex a 0) (j + rollIndex b 0) := by
  ext i j
  simp only [Grid.pull, roll, of_apply, rollIndex_add a i, rollIndex_add b j]

theorem commonShift_planeWave [NeZero nx] [NeZero ny] [NeZero M.1] [NeZero M.2] (h : CommonShift nx ny M.1 M.2 a b) :
    ∃ (c : Fin M.1) (d : Fin M.2), ∀ g, planeWave M.1 M.2 g c d = planeWave nx ny g (rollIndex a (0 : Fin nx)) (rollIndex b (0 : Fin ny)) := by
  obtain ⟨⟨A, hA⟩, B, hB⟩ := h
  exact ⟨_, _, fun g => planeWave_roll (by rw [hA, mul_comm]) (by rw [hB, mul_comm]) g⟩


/-! ### A crossed pattern -/

namespace Crossed

theorem orders_injective : Function.Injective (squareOrders 1) := (squareOrders_isBox 1).injective

theorem resolves : Resolves 4 4 (squareOrders 1) := (squareOrders_isBox 1).resolves (by norm_num) (by norm_num)

theorem independent : Independent unitSquare.u unitSquare.v := by unfold Independent unitSquare; norm_num

theorem shape : doubledMinShape (squareOrders 1) 4 4 = .ok (6, 6) := (squareOrders_isBox 1).doubledMinShape

/-- Half a period along the first axis is a whole number of points of both grids. -/
theorem common : CommonShift 4 4 (6, 6).1 (6, 6).2 2 0 := ⟨⟨3, by norm_num⟩, ⟨0, by norm_num⟩⟩

theorem sin_four : gridSin 4 1 = 1 := by
  unfold gridSin
  rw [show 2 * Real.pi * ((1 : ℕ) : ℝ) / ((4 : ℕ) : ℝ) = Real.pi / 2 by push_cast; ring, Real.sin_pi_div_two]

/-- The gradient on the grid of the array. -/
noncomputable def gradient : VectorField 4 4 := fun i j =>
  ![((-((4 : ℕ) * gridSin 4 1) * gridSin 4 i : ℝ) : ℂ), ((-((4 : ℕ) * gridSin 4 1) * gridSin 4 j : ℝ) : ℂ)]

theorem gradient_eq : computeGradient (crossedPattern 4 4) unitSquare = .ok gradient := crossedPattern_gradient (by norm_num) (by norm_num)

theorem gradient_limited (r s : Fin 6) :
    bandLimited (squareOrders 1) gradient 6 6 r s = ![((-4 * gridSin 6 r : ℝ) : ℂ), ((-4 * gridSin 6 s : ℝ) : ℂ)] := by
  have := squareOrders_crossed.bandlimited (nx := 4) (ny := 4) orders_injective resolves (-((4 : ℕ) * gridSin 4 1)) (-((4 : ℕ) * gridSin 4 1)) r s
  rw [sin_four] at this
  unfold bandLimited gradient
  rw [sin_four, this]
  norm_num

theorem sin_six_cases (r : Fin 6) : gridSin 6 r = 0 ∨ gridSin 6 r = Real.sqrt 3 / 2 ∨ gridSin 6 r = -(Real.sqrt 3 / 2) := by
  have h1 := Real.sin_pi_div_three
  have e : ∀ k : ℕ, gridSin 6 k = Real.sin (k * (Real.pi / 3)) := by
    intro k
    unfold gridSin
    congr 1
    push_cast
    ring
  have e2 : Real.sin (2 * (Real.pi / 3)) = Real.sqrt 3 / 2 := by
    rw [Real.sin_two_mul, h1, Real.cos_pi_div_three]; ring
  fin_cases r
  · left; simp [gridSin]
  · right; left; rw [e]; simp
  · right; left; rw [e]; simpa using e2
  · left; rw [e]; rw [show (((⟨3, by norm_num⟩ : Fin 6) : ℕ) : ℝ) * (Real.pi / 3) = Real.pi by push_cast; ring, Real.sin_pi]
  · right; right; rw [e]
    rw [show (((⟨4, by norm_num⟩ : Fin 6) : ℕ) : ℝ) * (Real.pi / 3) = Real.pi / 3 + Real.pi by push_cast; ring, Real.sin_add_pi, h1]
  · right; right; rw [e]
    rw [show (((⟨5, by norm_num⟩ : Fin 6) : ℕ) : ℝ) * (Real.pi / 3) = 2 * (Real.pi / 3) + Real.pi by push_cast; ring, Real.sin_add_pi, e2]

theorem sin_six_one : gridSin 6 ((1 : Fin 6) : ℕ) = Real.sqrt 3 / 2 := by
  unfold gridSin
  rw [show 2 * Real.pi * (((1 : Fin 6) : ℕ) : ℝ) / ((6 : ℕ) : ℝ) = Real.pi / 3 by
    rw [show ((1 : Fin 6) : ℕ) = 1 from rfl]; push_cast; ring, Real.sin_pi_div_three]

theorem sin_six_zero : gridSin 6 ((0 : Fin 6) : ℕ) = 0 := by simp [gridSin]

theorem magnitude_real (x y : ℝ) : magnitude ![(x : ℂ), (y : ℂ)] = Real.sqrt (x ^ 2 + y ^ 2) := by
  unfold magnitude
  simp only [cons_val_zero, cons_val_one, Complex.norm_real, Real.norm_eq_abs, sq_abs]

theorem sin_six_sq (r : Fin 6) : gridSin 6 r ^ 2 = 0 ∨ gridSin 6 r ^ 2 = 3 / 4 := by
  have h3 : Real.sqrt 3 ^ 2 = 3 := Real.sq_sqrt (by norm_num)
  rcases sin_six_cases r with h | h | h <;> rw [h]
  · left; norm_num
  · right; rw [div_pow, h3]; norm_num
  · right; rw [neg_sq, div_pow, h3]; norm_num

theorem magnitude_le (r s : Fin 6) : magnitude (bandLimited (squareOrders 1) gradient 6 6 r s) ≤ 5 := by
  rw [gradient_limited, magnitude_real, Real.sqrt_le_left (by norm_num)]
  rcases sin_six_sq r with h | h <;> rcases sin_six_sq s with h' | h' <;> nlinarith

theorem norm_real (x y : ℝ) {w : ℂ} (hw : w = Complex.I ∨ w = -Complex.I) : ‖(x : ℂ) + w * y‖ = Real.sqrt (x ^ 2 + y ^ 2) := by
  rcases hw with rfl | rfl
  · rw [mul_comm, Complex.norm_add_mul_I]
  · rw [show (x : ℂ) + -Complex.I * y = (x : ℂ) + ((-y : ℝ) : ℂ) * Complex.I by push_cast; ring, Complex.norm_add_mul_I, neg_sq]

theorem sqrt_pos : 3 < Real.sqrt 12 ∧ Real.sqrt 12 ^ 2 = 12 := ⟨Real.lt_sqrt_of_sq_lt (by norm_num), Real.sq_sqrt (by norm_num)⟩

theorem twoDirections : TwoDirections (bandLimited (squareOrders 1) gradient (6, 6).1 (6, 6).2) := by
  have h3 : Real.sqrt 3 ^ 2 = 3 := Real.sq_sqrt (by norm_num)
  have h12 := sqrt_pos
  have e10 : bandLimited (squareOrders 1) gradient 6 6 1 0 = ![((-4 * (Real.sqrt 3 / 2) : ℝ) : ℂ), ((0 : ℝ) : ℂ)] := by
    rw [gradient_limited, sin_six_one, sin_six_zero, mul_zero]
  have e01 : bandLimited (squareOrders 1) gradient 6 6 0 1 = ![((0 : ℝ) : ℂ), ((-4 * (Real.sqrt 3 / 2) : ℝ) : ℂ)] := by
    rw [gradient_limited, sin_six_one, sin_six_zero, mul_zero]
  have s1 : (-4 * (Real.sqrt 3 / 2)) ^ 2 + 0 ^ 2 = (12 : ℝ) := by nlinarith
  have s2 : (0 : ℝ) ^ 2 + (-4 * (Real.sqrt 3 / 2)) ^ 2 = (12 : ℝ) := by nlinarith
  refine ⟨by norm_num, ⟨1, 0, ?_⟩, fun w hw => ⟨(1, 0), (0, 1), fun i j => ?_, fun i j => ?_, ?_⟩⟩
  · show _ < magnitude (bandLimited (squareOrders 1) gradient 6 6 1 0)
    rw [e10, magnitude_real, s1]
    linarith
  · show _ < ‖bandLimited (squareOrders 1) gradient 6 6 1 0 0 + w * bandLimited (squareOrders 1) gradient 6 6 1 0 1‖
    have hm := magnitude_le i j
    rw [e10]
    simp only [cons_val_zero, cons_val_one]
    rw [norm_real _ _ hw, s1]
    linarith
  · show _ < ‖bandLimited (squareOrders 1) gradient 6 6 0 1 0 + w * bandLimited (squareOrders 1) gradient 6 6 0 1 1‖
    have hm := magnitude_le i j
    rw [e01]
    simp only [cons_val_zero, cons_val_one]
    rw [norm_real _ _ hw, s2]
    linarith
  · show ‖bandLimited (squareOrders 1) gradient 6 6 1 0 0 + w * bandLimited (squareOrders 1) gradient 6 6 1 0 1‖ *
        ‖bandLimited (squareOrders 1) gradient 6 6 0 1 0 + w * bandLimited (squareOrders 1) gradient 6 6 0 1 1‖ <
      20 * |((bandLimited (squareOrders 1) gradient 6 6 1 0 0 + w * bandLimited (squareOrders 1) gradient 6 6 1 0 1) *
        star (bandLimited (squareOrders 1) gradient 6 6 0 1 0 + w * bandLimited (squareOrders 1) gradient 6 6 0 1 1)).im|
    rw [e10, e01]
    simp only [cons_val_zero, cons_val_one]
    rw [norm_real _ _ hw, norm_real _ _ hw, s1, s2, ← sq, h12.2]
    have : |((((-4 * (Real.sqrt 3 / 2) : ℝ) : ℂ) + w * ((0 : ℝ) : ℂ)) * star (((0 : ℝ) : ℂ) + w * ((-4 * (Real.sqrt 3 / 2) : ℝ) : ℂ))).im| = 12 := by
      rcases hw with rfl | rfl
      · simp only [Complex.ofReal_zero, mul_zero, add_zero, zero_add, star_mul', Complex.star_def, Complex.conj_I, Complex.conj_ofReal]
        rw [show ((-4 * (Real.sqrt 3 / 2) : ℝ) : ℂ) * (-Complex.I * ((-4 * (Real.sqrt 3 / 2) : ℝ) : ℂ)) =
          ((-((-4 * (Real.sqrt 3 / 2)) ^ 2) : ℝ) : ℂ) * Complex.I by push_cast; ring, Complex.mul_I_im, Complex.ofReal_re, abs_neg,
          abs_of_nonneg (sq_nonneg _)]
        nlinarith
      · simp only [Complex.ofReal_zero, mul_zero, add_zero, zero_add, star_mul', Complex.star_def, star_neg, Complex.conj_I, Complex.conj_ofReal, neg_neg]
        rw [show ((-4 * (Real.sqrt 3 / 2) : ℝ) : ℂ) * (Complex.I * ((-4 * (Real.sqrt 3 / 2) : ℝ) : ℂ)) =
          (((-4 * (Real.sqrt 3 / 2)) ^ 2 : ℝ) : ℂ) * Complex.I by push_cast; ring, Complex.mul_I_im, Complex.ofReal_re,
          abs_of_nonneg (sq_nonneg _)]
        nlinarith
    rw [this]
    norm_num

theorem unambiguous : Unambiguous (bandLimited (squareOrders 1) gradient (6, 6).1 (6, 6).2) := by
  intro r s
  show bandLimited (squareOrders 1) gradient 6 6 r s = 0 ∨ (1e-8 < magnitude (bandLimited (squareOrders 1) gradient 6 6 r s) ∧
    (∀ i j, 1e-8 * magnitude (bandLimited (squareOrders 1) gradient 6 6 i j) < magnitude (bandLimited (squareOrders 1) gradient 6 6 r s)) ∧
    1e-8 * magnitude (bandLimited (squareOrders 1) gradient 6 6 r s) <
      ‖bandLimited (squareOrders 1) gradient 6 6 r s 0 + Complex.I * bandLimited (squareOrders 1) gradient 6 6 r s 1‖)
  have key : gridSin 6 r ^ 2 + gridSin 6 s ^ 2 = 0 ∨ 3 / 4 ≤ gridSin 6 r ^ 2 + gridSin 6 s ^ 2 := by
    rcases sin_six_sq r with h | h <;> rcases sin_six_sq s with h' | h' <;> rw [h, h'] <;> norm_num
  have hm := magnitude_le r s
  have hall := fun i j => magnitude_le i j
  rw [gradient_limited] at hm ⊢
  rcases key with h | h
  · left
    have h1 : gridSin 6 r = 0 := by nlinarith [sq_nonneg (gridSin 6 r), sq_nonneg (gridSin 6 s)]
    have h2 : gridSin 6 s = 0 := by nlinarith [sq_nonneg (gridSin 6 r), sq_nonneg (gridSin 6 s)]
    rw [h1, h2]
    funext e
    fin_cases e <;> simp
  · right
    have h3 : 3 < Real.sqrt ((-4 * gridSin 6 r) ^ 2 + (-4 * gridSin 6 s) ^ 2) := Real.lt_sqrt_of_sq_lt (by nlinarith)
    simp only [cons_val_zero, cons_val_one]
    rw [norm_real _ _ (Or.inl rfl)]
    rw [magnitude_real] at hm ⊢
    refine ⟨by linarith, fun i j => ?_, by linarith⟩
    have := hall i j
    linarith

/-- The tangent field of the pattern is computed. -/
theorem computed (method : VectorMethod) : ∃ t, computeField method (crossedPattern 4 4) (squareOrders 1) unitSquare 0 2 = .ok t :=
  C75_finite method _ _ _ 0 2 orders_injective resolves independent (Or.inr two_pos)

/-- A turn by the angle of the triangle with sides 3, 4 and 5. -/
noncomputable def turn : Matrix (Fin 2) (Fin 2) ℝ := !![3 / 5, -4 / 5; 4 / 5, 3 / 5]

theorem turn_orthogonal : turnᵀ * turn = 1 := by
  ext i j
  fin_cases i <;> fin_cases j <;> simp [turn, Matrix.mul_apply, Fin.sum_univ_two] <;> norm_num

theorem turn_det : turn.det = 1 := by
  rw [turn, det_fin_two_of]; norm_num

end Crossed

/-- **C104** The tangent field of a pattern moved in the cell is the moved tangent field, for every method, if the move is one of the grid on which the field is
optimised, too, and the gradient of the pattern does not have the same direction everywhere. -/
theorem C104_translation (method : VectorMethod) (hG : Function.Injective G) (hr : Resolves nx ny G) (hl : Independent l.u l.v) (hw : 0 < fw ∨ 0 < sw)
    (hM : doubledMinShape G nx ny = .ok M) (hs : CommonShift nx ny M.1 M.2 a b) (hg : computeGradient x l = .ok g) (h2 : TwoDirections (bandLimited G g M.1 M.2))
    {t : VectorField nx ny} (ht : computeField method x G l fw sw = .ok t) :
    computeField method (x.pull (roll a b)) G l fw sw = .ok fun i j => t (roll a b (i, j)).1 (roll a b (i, j)).2 := by
  have : NeZero nx := ⟨hr.pos.1.ne'⟩
  have : NeZero ny := ⟨hr.pos.2.ne'⟩
  have hMr := doubledMinShape_resolves hM
  have : NeZero M.1 := ⟨hMr.pos.1.ne'⟩
  have : NeZero M.2 := ⟨hMr.pos.2.ne'⟩
  obtain ⟨c', d', hp⟩ := commonShift_planeWave hs
  have key : ∀ (b' : Bool) (t : VectorField nx ny), computeTangentFieldNoBatch x G l b' fw sw 1 = .ok t →
      computeTangentFieldNoBatch (x.pull (roll a b)) G l b' fw sw 1 = .ok (moveField 1 (rollIndex a 0) (rollIndex b 0) t) := by
    intro b' t ht
    rw [pull_roll]
    exact computeTangentField_shift hG hr hl hM (fun i => hp (G i)) hg h2 hw ht
  have e : (fun i j => t (roll a b (i, j)).1 (roll a b (i, j)).2 : VectorField nx ny) = moveField 1 (rollIndex a 0) (rollIndex b 0) t := by
    funext i j
    simp only [moveField, roll, rollIndex_add a i, rollIndex_add b j, one_mulVec]
  rw [e]
  cases method with
  | jonesDirect => exact key _ _ ht
  | pol => exact key _ _ ht
  | jones =>
    simp only [computeField] at ht ⊢
    obtain ⟨q, hq, ht⟩ := bind_eq_ok.1 ht
    exact bind_eq_ok.2 ⟨_, key _ _ hq, normalizeJones_shift ht⟩
  | normal =>
    simp only [computeField] at ht ⊢
    obtain ⟨q, hq, ht⟩ := bind_eq_ok.1 ht
    rw [ok_inj] at ht
    refine bind_eq_ok.2 ⟨_, key _ _ hq, ?_⟩
    rw [normalizeElementwise_move (by simp), ← ht]

/-- The hypotheses hold for the crossed pattern moved by half a period. -/
example (method : VectorMethod) : ∃ t, computeField method (crossedPattern 4 4) (squareOrders 1) unitSquare 0 2 = .ok t ∧
    computeField method (Grid.pull (roll 2 0) (crossedPattern 4 4)) (squareOrders 1) unitSquare 0 2 = .ok fun i j => t (roll 2 0 (i, j)).1 (roll 2 0 (i, j)).2 := by
  obtain ⟨t, ht⟩ := Crossed.computed method
  exact ⟨t, ht, C104_translation (M := (6, 6)) method Crossed.orders_injective Crossed.resolves Crossed.independent (Or.inr two_pos) Crossed.shape Crossed.common Crossed.gradient_eq
    Crossed.twoDirections ht⟩

/-- **C104** Turning or mirroring the lattice turns or mirrors the tangent field, up to the sign of the determinant; the pattern may be moved at the same time.  For the
methods without Jones vectors. -/
theorem C104_turn {method : VectorMethod} (hmethod : method = .pol ∨ method = .normal) (hO : Oᵀ * O = 1) (hG : Function.Injective G) (hr : Resolves nx ny G)
    (hl : Independent l.u l.v) (hw : 0 < fw ∨ 0 < sw) (hM : doubledMinShape G nx ny = .ok M) (hs : CommonShift nx ny M.1 M.2 a b)
    (hg : computeGradient x l = .ok g) (h2 : TwoDirections (bandLimited G g M.1 M.2)) {t : VectorField nx ny} (ht : computeField method x G l fw sw = .ok t) :
    computeField method (x.pull (roll a b)) G (turnLattice O l) fw sw = .ok (turnField O.det O (roll a b) t) := by
  have : NeZero nx := ⟨hr.pos.1.ne'⟩
  have : NeZero ny := ⟨hr.pos.2.ne'⟩
  have hMr := doubledMinShape_resolves hM
  have : NeZero M.1 := ⟨hMr.pos.1.ne'⟩
  have : NeZero M.2 := ⟨hMr.pos.2.ne'⟩
  obtain ⟨c', d', hp⟩ := commonShift_planeWave hs
  rw [turnField_eq_move, pull_roll]
  rcases hmethod with rfl | rfl
  · exact computeTangentField_turn hO hG hr hl hM (fun i => hp (G i)) hg h2 hw ht
  · simp only [computeField] at ht ⊢
    obtain ⟨q, hq, ht⟩ := bind_eq_ok.1 ht
    rw [ok_inj] at ht
    refine bind_eq_ok.2 ⟨_, computeTangentField_turn hO hG hr hl hM (fun i => hp (G i)) hg h2 hw hq, ?_⟩
    rw [normalizeElementwise_move (signed_unitary hO), ← ht]

/-- The hypotheses hold for the crossed pattern, turned and moved. -/
example : ∃ t, computeField .normal (crossedPattern 4 4) (squareOrders 1) unitSquare 0 2 = .ok t ∧
    computeField .normal (Grid.pull (roll 2 0) (crossedPattern 4 4)) (squareOrders 1) (turnLattice Crossed.turn unitSquare) 0 2 =
      .ok (turnField Crossed.turn.det Crossed.turn (roll 2 0) t) := by
  obtain ⟨t, ht⟩ := Crossed.computed .normal
  exact ⟨t, ht, C104_turn (M := (6, 6)) (Or.inr rfl) Crossed.turn_orthogonal Crossed.orders_injective Crossed.resolves Crossed.independent (Or.inr two_pos) Crossed.shape Crossed.common
    Crossed.gradient_eq Crossed.twoDirections ht⟩

/-- **C104** Turning the lattice turns Jones fields, and multiplies them by the phase factor of the rotation, if the field which is made a Jones field (the tangent field
of the method without Jones vectors, or the gradient) does not become negligible or circularly polarised without vanishing. -/
theorem C104_turn_jones {method : VectorMethod}
    (hmethod : method = .jones ∧ (∀ q, computeField .pol x G l fw sw = .ok q → Unambiguous q) ∨ method = .jonesDirect ∧ Unambiguous (bandLimited G g M.1 M.2))
    (hO : Oᵀ * O = 1) (hdet : O.det = 1) (hG : Function.Injective G) (hr : Resolves nx ny G)
    (hl : Independent l.u l.v) (hw : 0 < fw ∨ 0 < sw) (hM : doubledMinShape G nx ny = .ok M) (hs : CommonShift nx ny M.1 M.2 a b)
    (hg : computeGradient x l = .ok g) (h2 : TwoDirections (bandLimited G g M.1 M.2)) {t : VectorField nx ny} (ht : computeField method x G l fw sw = .ok t) :
    computeField method (x.pull (roll a b)) G (turnLattice O l) fw sw = .ok (turnField (O 0 0 + Complex.I * O 1 0) O (roll a b) t) := by
  have : NeZero nx := ⟨hr.pos.1.ne'⟩
  have : NeZero ny := ⟨hr.pos.2.ne'⟩
  have hMr := doubledMinShape_resolves hM
  have : NeZero M.1 := ⟨hMr.pos.1.ne'⟩
  have : NeZero M.2 := ⟨hMr.pos.2.ne'⟩
  obtain ⟨c', d', hp⟩ := commonShift_planeWave hs
  rw [turnField_eq_move, pull_roll]
  rcases hmethod with ⟨rfl, hu⟩ | ⟨rfl, hu⟩
  · simp only [computeField] at ht hu ⊢
    obtain ⟨q, hq, ht⟩ := bind_eq_ok.1 ht
    have := computeTangentField_turn hO hG hr hl hM (fun i => hp (G i)) hg h2 hw hq
    rw [hdet, Complex.ofReal_one, one_smul] at this
    exact bind_eq_ok.2 ⟨_, this, normalizeJones_turn hO hdet (hu q hq) ht⟩
  · exact computeTangentFieldJones_turn hO hdet hG hr hl hM (fun i => hp (G i)) hg h2 hu hw ht

/-- The hypotheses hold for the crossed pattern, turned and moved. -/
example : ∃ t, computeField .jonesDirect (crossedPattern 4 4) (squareOrders 1) unitSquare 0 2 = .ok t ∧
    computeField .jonesDirect (Grid.pull (roll 2 0) (crossedPattern 4 4)) (squareOrders 1) (turnLattice Crossed.turn unitSquare) 0 2 =
      .ok (turnField (Crossed.turn 0 0 + Complex.I * Crossed.turn 1 0) Crossed.turn (roll 2 0) t) := by
  obtain ⟨t, ht⟩ := Crossed.computed .jonesDirect
  exact ⟨t, ht, C104_turn_jones (M := (6, 6)) (Or.inr ⟨rfl, Crossed.unambiguous⟩) Crossed.turn_orthogonal Crossed.turn_det Crossed.orders_injective Crossed.resolves Crossed.independent
    (Or.inr two_pos) Crossed.shape Crossed.common Crossed.gradient_eq Crossed.twoDirections ht⟩

/-! ### Stacks in named vector formulations -/

/-- The gradient of the array, as the scheme sees it, has clearly different directions at two points, and a shift of the array by `a` and `b` points is one of the
grid on which the tangent field is optimised. -/
def MovablePattern (c : Setup ι) (a b : ℤ) (x : Grid nx ny) : Prop :=
  ∃ M g, doubledMinShape c.expansion nx ny = .ok M ∧ CommonShift nx ny M.1 M.2 a b ∧ computeGradient x c.lattice = .ok g ∧
    TwoDirections (bandLimited c.expansion g M.1 M.2)

theorem scheme_weights {scheme : String × VectorMethod × ℝ × ℝ} (h : scheme ∈ vectorFieldSchemes) : 0 < scheme.2.2.1 ∨ 0 < scheme.2.2.2 := by
  simp only [vectorFieldSchemes, List.mem_cons, List.not_mem_nil, or_false] at h
  rcases h with rfl | rfl | rfl | rfl | rfl | rfl | rfl | rfl <;> norm_num

variable {c : Setup ι}

/-- **C104** The tangent field of every named scheme is moved with the pattern. -/
theorem C104_formulation_translation {scheme : String × VectorMethod × ℝ × ℝ} (hscheme : scheme ∈ vectorFieldSchemes) (hG : Function.Injective c.expansion)
    (hr : Resolves nx ny c.expansion) (hl : Independent c.lattice.u c.lattice.v) (hx : MovablePattern c a b x) :
    FormulationImage 1 c c (roll a b) x (.ofScheme scheme) (.ofScheme scheme) := by
  obtain ⟨M, g, hM, hs, hg, h2⟩ := hx
  refine ⟨1, norm_one, fun t ht => ?_⟩
  obtain ⟨q, hq, ht⟩ := bind_eq_ok.1 ht
  rw [ok_inj] at ht
  subst ht
  refine bind_eq_ok.2 ⟨_, C104_translation scheme.2.1 hG hr hl (scheme_weights hscheme) hM hs hg h2 hq, ?_⟩
  simp [Grid.pull]

theorem roll_zero : (roll 0 0 : Fin nx × Fin ny → Fin nx × Fin ny) = id := by
  funext p
  have h : ∀ {n : ℕ} (r : Fin n), rollIndex 0 r = r := by
    intro n r
    have : NeZero n := ⟨r.pos.ne'⟩
    obtain ⟨z, hz⟩ := rollIndex_val 0 r
    have h1 := (rollIndex 0 r).2
    have h2 := r.2
    have h3 : z = 0 := by
      by_contra h0
      rcases lt_or_gt_of_ne h0 with h0 | h0 <;> nlinarith
    rw [h3] at hz
    exact Fin.ext (by omega)
  simp only [roll, h, id]

theorem similar_lattice (c : Setup ι) (s : ℝ) (O : Matrix (Fin 2) (Fin 2) ℝ) : (c.similar s O).lattice =
    ⟨(s⁻¹ * (turnLattice O c.lattice).u.1, s⁻¹ * (turnLattice O c.lattice).u.2), (s⁻¹ * (turnLattice O c.lattice).v.1, s⁻¹ * (turnLattice O c.lattice).v.2)⟩ := by
  simp [Setup.similar, turnLattice, Prod.smul_def]

theorem similar_image {s : ℝ} (hs : 0 < s) {scheme : String × VectorMethod × ℝ × ℝ} {p : ℂ} (hp : ‖p‖ = 1)
    (h : ∀ t, computeField scheme.2.1 x c.expansion c.lattice scheme.2.2.1 scheme.2.2.2 = .ok t →
      computeField scheme.2.1 (x.pull (roll 0 0)) c.expansion (turnLattice O c.lattice) scheme.2.2.1 scheme.2.2.2 = .ok (turnField p O (roll 0 0) t)) :
    FormulationImage O c (c.similar s O) id x (.ofScheme scheme) (.ofScheme scheme) := by
  refine ⟨p, hp, fun t ht => ?_⟩
  obtain ⟨q, hq, ht⟩ := bind_eq_ok.1 ht
  rw [ok_inj] at ht
  subst ht
  have := h q hq
  rw [roll_zero] at this
  refine bind_eq_ok.2 ⟨turnField p O id q, ?_, ?_⟩
  · rw [similar_lattice, C60_scale _ _ _ _ _ _ _ (inv_pos.2 hs)]
    exact this
  · simp [turnField, Grid.pull]

/-- **C104** The tangent fields of the named schemes without Jones vectors are turned and mirrored with the lattice. -/
theorem C104_formulation_turn {s : ℝ} (hs : 0 < s) {scheme : String × VectorMethod × ℝ × ℝ} (hscheme : scheme ∈ vectorFieldSchemes)
    (hmethod : scheme.2.1 = .pol ∨ scheme.2.1 = .normal) (hO : Oᵀ * O = 1) (hG : Function.Injective c.expansion)
    (hr : Resolves nx ny c.expansion) (hl : Independent c.lattice.u c.lattice.v) (hx : MovablePattern c 0 0 x) :
    FormulationImage O c (c.similar s O) id x (.ofScheme scheme) (.ofScheme scheme) := by
  obtain ⟨M, g, hM, hs', hg, h2⟩ := hx
  refine similar_image hs (p := O.det) ?_ fun t ht => C104_turn hmethod hO hG hr hl (scheme_weights hscheme) hM hs' hg h2 ht
  rw [Complex.norm_real, Real.norm_eq_abs, orthogonal_det_abs hO]

/-- **C104** The tangent fields of the direct schemes with Jones vectors are turned with the lattice, up to a phase factor, for arrays whose gradient does not become
negligible without vanishing. -/
theorem C104_formulation_turn_jones {s : ℝ} (hs : 0 < s) {scheme : String × VectorMethod × ℝ × ℝ} (hscheme : scheme ∈ vectorFieldSchemes)
    (hmethod : scheme.2.1 = .jonesDirect) (hO : Oᵀ * O = 1) (hdet : O.det = 1) (hG : Function.Injective c.expansion)
    (hr : Resolves nx ny c.expansion) (hl : Independent c.lattice.u c.lattice.v) (hM : doubledMinShape c.expansion nx ny = .ok M)
    (hg : computeGradient x c.lattice = .ok g) (h2 : TwoDirections (bandLimited c.expansion g M.1 M.2)) (hu : Unambiguous (bandLimited c.expansion g M.1 M.2)) :
    FormulationImage O c (c.similar s O) id x (.ofScheme scheme) (.ofScheme scheme) := by
  obtain ⟨o1, -, -, o3, o4, -⟩ := orthogonal_entries hO
  refine similar_image hs (p := O 0 0 + Complex.I * O 1 0) ?_ fun t ht =>
    C104_turn_jones (Or.inr ⟨hmethod, hu⟩) hO hdet hG hr hl (scheme_weights hscheme) hM ⟨⟨0, by simp⟩, ⟨0, by simp⟩⟩ hg h2 ht
  have e := congrFun (congrFun hO 0) 0
  simp only [mul_apply, Fin.sum_univ_two, transpose_apply, one_apply_eq] at e
  rw [mul_comm Complex.I, Complex.norm_add_mul_I, Real.sqrt_eq_one]
  linarith

variable {layers : List (StackLayer ι)} {S : ScatteringMatrix ι} {eig : Matrix (ι ⊕ ι) (ι ⊕ ι) ℂ → (ι ⊕ ι → ℂ) × Matrix (ι ⊕ ι) (ι ⊕ ι) ℂ}

/-- **C104** Stacks with layers in the FFT formulation and in any of the named vector formulations: moving the patterns multiplies scattered amplitudes by phase factors. -/
theorem C104_stack_translation (he : IsEig eig) (hG : Function.Injective c.expansion) (hl : Independent c.lattice.u c.lattice.v) {τ : ℝ × ℝ} {a b : StackLayer ι → ℤ}
    (hτ : ∀ p ∈ layers, ¬(p.nx = 1 ∧ p.ny = 1) → (a p : ℝ) = τ.1 * p.nx ∧ (b p : ℝ) = τ.2 * p.ny)
    (hf : ∀ p ∈ layers, ¬(p.nx = 1 ∧ p.ny = 1) → p.medium.formulation = .fft ∨
      ∃ scheme ∈ vectorFieldSchemes, p.medium.formulation = .ofScheme scheme ∧ MovablePattern c (a p) (b p) p.medium.source)
    (hfirst : ∀ p ∈ layers.head?, p.Uniform) (hlast : ∀ p ∈ layers.getLast?, p.Uniform) (hS : ComputedSMatrix eig c layers S) :
    ∃ S', ComputedSMatrix eig c (layers.map fun p => p.move (roll (a p) (b p))) S' ∧ ∀ a b : ι ⊕ ι,
      let G := c.expansion (a.elim id id) - c.expansion (b.elim id id)
      let phase := Complex.exp (-2 * Real.pi * Complex.I * (G.1 * τ.1 + G.2 * τ.2))
      S'.s11 a b = phase * S.s11 a b ∧ S'.s12 a b = phase * S.s12 a b ∧ S'.s21 a b = phase * S.s21 a b ∧ S'.s22 a b = phase * S.s22 a b := by
  refine C85_rolled_formulations he hτ (fun p hp hn => ?_) hfirst hlast hS
  obtain ⟨solved, h, -⟩ := hS
  obtain ⟨r, hr⟩ := forall₂_solve_mem h p hp
  rcases hf p hp hn with h | ⟨scheme, hscheme, h, hx⟩
  · exact fft_image h h
  · rw [h]
    exact C104_formulation_translation hscheme hG (solve_resolves hr hn) hl hx

/-- **C104** Stacks with layers in the FFT formulation and in the named vector formulations without Jones vectors: turning or mirroring the structure and dividing all
lengths by `s` turns or mirrors the two field components of every order, and nothing else changes. -/
theorem C104_stack_turn (he : IsEig eig) (hG : Function.Injective c.expansion) (hl : Independent c.lattice.u c.lattice.v) {s : ℝ} (hs : 0 < s) (hO : Oᵀ * O = 1)
    (hf : ∀ p ∈ layers, ¬(p.nx = 1 ∧ p.ny = 1) → p.medium.formulation = .fft ∨ ∃ scheme ∈ vectorFieldSchemes, p.medium.formulation = .ofScheme scheme ∧
      (scheme.2.1 = .pol ∨ scheme.2.1 = .normal) ∧ MovablePattern c 0 0 p.medium.source)
    (hfirst : ∀ p ∈ layers.head?, p.Uniform) (hlast : ∀ p ∈ layers.getLast?, p.Uniform) (hS : ComputedSMatrix eig c layers S) :
    ∃ S', ComputedSMatrix eig (c.similar s O) (layers.map (StackLayer.similar s O)) S' ∧
      let R : ModeMatrix ι := fromBlocks ((O 0 0 : ℂ) • 1) ((O 0 1 : ℂ) • 1) ((O 1 0 : ℂ) • 1) ((O 1 1 : ℂ) • 1)
      S'.s11 = R * S.s11 * Rᵀ ∧ S'.s12 = R * S.s12 * Rᵀ ∧ S'.s21 = R * S.s21 * Rᵀ ∧ S'.s22 = R * S.s22 * Rᵀ := by
  refine C86_formulations he hs hO (fun p hp hn => ?_) hfirst hlast hS
  obtain ⟨solved, h, -⟩ := hS
  obtain ⟨r, hr⟩ := forall₂_solve_mem h p hp
  rcases hf p hp hn with h | ⟨scheme, hscheme, h, hm, hx⟩
  · exact fft_image h h
  · rw [h]
    exact C104_formulation_turn hs hscheme hm hO hG (solve_resolves hr hn) hl hx

namespace Crossed

noncomputable def setup : Setup (Fin 3 × Fin 3) := { wavelength := 1, inPlaneWavevector := (0, 0), lattice := unitSquare, expansion := squareOrders 1 }

theorem movable : MovablePattern setup 2 0 (crossedPattern 4 4 : Grid 4 4) := ⟨(6, 6), gradient, shape, common, gradient_eq, twoDirections⟩

/-- The hypotheses of the theorems on formulations hold for the crossed pattern. -/
example {scheme : String × VectorMethod × ℝ × ℝ} (hscheme : scheme ∈ vectorFieldSchemes) :
    FormulationImage 1 setup setup (roll 2 0) (crossedPattern 4 4 : Grid 4 4) (.ofScheme scheme) (.ofScheme scheme) :=
  C104_formulation_translation hscheme orders_injective resolves independent movable

example {scheme : String × VectorMethod × ℝ × ℝ} (hscheme : scheme ∈ vectorFieldSchemes) (hmethod : scheme.2.1 ≠ .jones) :
    FormulationImage turn setup (setup.similar 1000 turn) id (crossedPattern 4 4 : Grid 4 4) (.ofScheme scheme) (.ofScheme scheme) := by
  have h0 : MovablePattern setup 0 0 (crossedPattern 4 4 : Grid 4 4) := ⟨(6, 6), gradient, shape, ⟨⟨0, by simp⟩, ⟨0, by simp⟩⟩, gradient_eq, twoDirections⟩
  obtain ⟨name, method, w⟩ := scheme
  cases method with
  | jones => exact (hmethod rfl).elim
  | pol => exact C104_formulation_turn (by norm_num) hscheme (Or.inl rfl) turn_orthogonal orders_injective resolves independent h0
  | normal => exact C104_formulation_turn (by norm_num) hscheme (Or.inr rfl) turn_orthogonal orders_injective resolves independent h0
  | jonesDirect =>
    exact C104_formulation_turn_jones (M := (6, 6)) (by norm_num) hscheme rfl turn_orthogonal turn_det orders_injective resolves independent shape gradient_eq twoDirections
      unambiguous

end Crossed

/-- The hypotheses of the theorems on stacks hold for a stack with a grating in the FFT formulation; those on the layers in vector formulations hold for the crossed
pattern, see above. -/
example : ∃ eig S S' S'', ComputedSMatrix eig SymmetryExample.setup SymmetryExample.stack S ∧
    ComputedSMatrix eig SymmetryExample.setup (SymmetryExample.stack.map fun p => p.move (roll 1 0)) S' ∧
    ComputedSMatrix eig (SymmetryExample.setup.similar 1000 Crossed.turn) (SymmetryExample.stack.map (StackLayer.similar 1000 Crossed.turn)) S'' ∧
    S'.s11 (.inl 0) (.inl 0) = S.s11 (.inl 0) (.inl 0) := by
  obtain ⟨eig, he, S, hS⟩ := SymmetryExample.computed
  have hl : Independent SymmetryExample.setup.lattice.u SymmetryExample.setup.lattice.v := by norm_num [Independent, SymmetryExample.setup, unitLattice]
  obtain ⟨S', hS', h⟩ := C104_stack_translation he SymmetryExample.injective hl (τ := (1 / 6, 0)) (a := fun _ => 1) (b := fun _ => 0) (by
    intro p hp hn
    simp only [SymmetryExample.stack, List.mem_cons, List.not_mem_nil, or_false] at hp
    rcases hp with rfl | rfl | rfl
    · simp at hn
    · norm_num
    · simp at hn) (fun p hp _ => Or.inl (SymmetryExample.fft p hp)) SymmetryExample.uniform_ends.1 SymmetryExample.uniform_ends.2 hS
  obtain ⟨S'', hS'', -⟩ := C104_stack_turn he SymmetryExample.injective hl (s := 1000) (by norm_num) Crossed.turn_orthogonal
    (fun p hp _ => Or.inl (SymmetryExample.fft p hp)) SymmetryExample.uniform_ends.1 SymmetryExample.uniform_ends.2 hS
  refine ⟨eig, S, S', S'', hS, hS', hS'', ?_⟩
  rw [(h (.inl 0) (.inl 0)).1]
  simp

/-! ### Findings -/

/-- The turn by the angle `α`. -/
noncomputable def turnBy (α : ℝ) : Matrix (Fin 2) (Fin 2) ℝ := !![Real.cos α, -Real.sin α; Real.sin α, Real.cos α]

theorem turnBy_orthogonal (α : ℝ) : (turnBy α)ᵀ * turnBy α = 1 := by
  have h := Real.sin_sq_add_cos_sq α
  ext i j
  fin_cases i <;> fin_cases j <;> simp [turnBy, Matrix.mul_apply, Fin.sum_univ_two] <;> linarith

/-- **C104** is false for gratings.  If the gradient has one direction everywhere, the tangent field before and after turning the lattice by `α` is constant, and the
sine of the angle between the turned field and the field of the turned lattice is `± sin 2α`: the field turns against the lattice.  The two are parallel only if the
turn is by a multiple of a right angle. -/
theorem C104_finding_gratings {x : Grid nx ny} (b' : Bool) (n : ℕ) (hG : Function.Injective G) (hsym : ∀ i, ∃ j, G j = -G i) (hr : Resolves nx ny G)
    (d : Matrix (Fin nx) (Fin ny) ℝ) (θ α : ℝ) (hg : computeGradient x l = .ok fun i j => ![(d i j * Real.cos θ : ℂ), (d i j * Real.sin θ : ℂ)])
    (hM : doubledMinShape G nx ny = .ok M) (r : Fin M.1) (s : Fin M.2)
    (h1 : 1e-8 < ‖fourierSeries G (fun k => fourierCoefficient (d.map Complex.ofReal) (G k)) M.1 M.2 r s‖) :
    ∃ t t' : Fin 2 → ℂ, computeTangentFieldNoBatch x G l b' fw sw n = .ok (fun _ _ => t) ∧
      computeTangentFieldNoBatch x G (turnLattice (turnBy α) l) b' fw sw n = .ok (fun _ _ => t') ∧ ∃ σ : ℝ, (σ = 1 ∨ σ = -1) ∧ ∀ (i : Fin nx) (j : Fin ny),
        t' 0 * turnField 1 (turnBy α) id (fun _ _ => t) i j 1 - t' 1 * turnField 1 (turnBy α) id (fun _ _ => t) i j 0 = σ * Real.sin (2 * α) := by
  have : NeZero nx := ⟨hr.pos.1.ne'⟩
  have : NeZero ny := ⟨hr.pos.2.ne'⟩
  obtain ⟨σ, hσ, h⟩ := tangentField_1d x G l b' fw sw n hG hsym hr d θ hg hM r s h1
  have hg' : computeGradient x (turnLattice (turnBy α) l) = .ok fun i j => ![(d i j * Real.cos (θ + α) : ℂ), (d i j * Real.sin (θ + α) : ℂ)] := by
    have := computeGradient_move (c := (0 : Fin nx)) (d := (0 : Fin ny)) (turnBy_orthogonal α) hg
    simp only [add_zero] at this
    refine this.trans (congrArg Except.ok ?_)
    funext i j e
    fin_cases e
    · simp only [moveField, mulVec, dotProduct, Fin.sum_univ_two, toC_apply, turnBy, Real.cos_add, Real.sin_add, of_apply, cons_val_zero, cons_val_one, Fin.zero_eta]
      simp only [add_zero]
      push_cast
      ring
    · simp only [moveField, mulVec, dotProduct, Fin.sum_univ_two, toC_apply, turnBy, Real.cos_add, Real.sin_add, of_apply, cons_val_zero, cons_val_one, Fin.mk_one]
      simp only [add_zero]
      push_cast
      ring
  obtain ⟨σ', hσ', h'⟩ := tangentField_1d x G (turnLattice (turnBy α) l) b' fw sw n hG hsym hr d (θ + α) hg' hM r s h1
  refine ⟨_, _, h, h', σ' * σ, ?_, fun i j => ?_⟩
  · rcases hσ with rfl | rfl <;> rcases hσ' with rfl | rfl <;> norm_num
  · simp only [turnField, turnBy, of_apply, cons_val', cons_val_zero, cons_val_one, Real.cos_add, Real.sin_add, Real.sin_two_mul]
    have hc : (Real.sin θ : ℂ) ^ 2 + (Real.cos θ : ℂ) ^ 2 = 1 := by exact_mod_cast Real.sin_sq_add_cos_sq θ
    push_cast at hc ⊢
    linear_combination (2 * σ' * σ * Complex.sin α * Complex.cos α : ℂ) * hc

/-- The hypotheses hold for a grating along an axis. -/
example : ∃ t t' : Fin 2 → ℂ, computeTangentFieldNoBatch axisGrating (gratingOrders (1, 0)) unitSquare false 0 2 1 = .ok (fun _ _ => t) ∧
    computeTangentFieldNoBatch axisGrating (gratingOrders (1, 0)) (turnLattice (turnBy (Real.pi / 4)) unitSquare) false 0 2 1 = .ok (fun _ _ => t') ∧
    ∀ (p : ℂ) (i j : Fin 4), t' ≠ turnField p (turnBy (Real.pi / 4)) id (fun _ _ => t) i j := by
  obtain ⟨d, h1, h2, h3, -, h5, h6, h7⟩ := axisGrating_hypotheses
  obtain ⟨t, t', ht, ht', σ, hσ, h⟩ := C104_finding_gratings (fw := 0) (sw := 2) false 1 h1 h2 h3 d 0 (Real.pi / 4) h5 h6 1 0 h7
  refine ⟨t, t', ht, ht', fun p i j hp => ?_⟩
  have := h i j
  rw [hp, show 2 * (Real.pi / 4) = Real.pi / 2 by ring, Real.sin_pi_div_two] at this
  simp only [turnField] at this
  have h0 : (σ : ℂ) = 0 := by
    rw [Complex.ofReal_one, mul_one] at this
    rw [← this]; ring
  rcases hσ with rfl | rfl <;> norm_num at h0

/-- The field along the first axis at two points, half as large at the second one. -/
noncomputable def alongAxis : VectorField 2 1 := fun i _ => ![if i = 0 then 1 else 1 / 2, 0]

/-- **C104** is false for Jones fields of mirrored fields: Jones vectors are elliptically polarised with the same handedness everywhere, so that a field which
is its own mirror image is given a Jones field which is not. -/
theorem C104_finding_jones_mirror (p : ℂ) : turnField 1 !![1, 0; 0, -1] id alongAxis = alongAxis ∧
    ∃ j, normalizeJones alongAxis = .ok j ∧ turnField p !![1, 0; 0, -1] id j ≠ j := by
  constructor
  · funext i j e
    fin_cases e <;> simp [turnField, alongAxis]
  have mag : ∀ i j, magnitude (alongAxis i j) = if i = 0 then 1 else 1 / 2 := by
    intro i j
    unfold magnitude alongAxis
    fin_cases i <;> simp
  have hmax : maxFieldMagnitude alongAxis = .ok 1 := by
    refine maxFieldMagnitude_eq_ok.2 ⟨fun i j => ?_, 0, 0, by rw [mag]; simp⟩
    rw [mag]
    split_ifs <;> norm_num
  have hn : normalize alongAxis = .ok alongAxis := by
    rw [normalize_large hmax (by norm_num)]
    simp
  obtain ⟨q, hq⟩ := normalizeJones_exists (by norm_num) (by norm_num) alongAxis
  refine ⟨q, hq, fun h => ?_⟩
  obtain ⟨g, hg, hp⟩ := normalizeJones_point hq
  rw [hn, ok_inj] at hg
  subst hg
  have hm : fieldMagnitude alongAxis 1 0 = 1 / 2 := by rw [fieldMagnitude_eq, mag]; simp
  have hc : ¬IsClose (fieldMagnitude alongAxis 1 0) 0 := by
    rw [hm, isClose_zero_iff (by norm_num)]
    norm_num
  have hj := hp 1 0
  rw [if_neg hc, hm] at hj
  have e0 : alongAxis 1 0 0 / (((1 / 2 : ℝ)) : ℂ) = 1 := by simp [alongAxis]
  have e1 : alongAxis 1 0 1 / (((1 / 2 : ℝ)) : ℂ) = 0 := by simp [alongAxis]
  have hphi : Real.pi / 8 * (1 + Real.cos (Real.pi * (1 / 2))) = Real.pi / 8 := by
    rw [show Real.pi * (1 / 2) = Real.pi / 2 by ring, Real.cos_pi_div_two]; ring
  have hcos : Real.cos (Real.pi / 8) ≠ 0 := (Real.cos_pos_of_mem_Ioo ⟨by linarith [Real.pi_pos], by linarith [Real.pi_pos]⟩).ne'
  have hsin : Real.sin (Real.pi / 8) ≠ 0 := (Real.sin_pos_of_pos_of_lt_pi (by linarith [Real.pi_pos]) (by linarith [Real.pi_pos])).ne'
  unfold jonesPoint at hj
  simp only [e0, e1, hphi, one_mul, zero_mul, sub_zero, zero_add] at hj
  set z := Complex.exp (Complex.I * (angleSafe (1 + Complex.I * 0) : ℂ)) with hz
  have hz0 : z ≠ 0 := Complex.exp_ne_zero _
  have h0 := congrFun (congrFun (congrFun h 1) 0) 0
  have h1 := congrFun (congrFun (congrFun h 1) 0) 1
  simp only [turnField, id, hj, cons_val_zero, cons_val_one, of_apply, cons_val'] at h0 h1
  push_cast at h0 h1
  have hc' : z * Complex.cos (Real.pi / 8 : ℂ) ≠ 0 := by
    refine mul_ne_zero hz0 ?_
    have : (Real.cos (Real.pi / 8) : ℂ) ≠ 0 := by exact_mod_cast hcos
    push_cast at this
    exact this
  have hs' : z * (Complex.I * Complex.sin (Real.pi / 8 : ℂ)) ≠ 0 := by
    refine mul_ne_zero hz0 (mul_ne_zero Complex.I_ne_zero ?_)
    have : (Real.sin (Real.pi / 8) : ℂ) ≠ 0 := by exact_mod_cast hsin
    push_cast at this
    exact this
  have hp1 : p = 1 := by
    refine mul_right_cancel₀ hc' ?_
    linear_combination h0
  rw [hp1] at h1
  refine hs' ?_
  linear_combination -(1 / 2) * h1

end Fmmax
