import Verif.Proofs.SupercellTangent
import Mathlib.Analysis.SpecialFunctions.Trigonometric.Bounds

/-! Tangent fields of the pattern `cos x + cos y`. -/

namespace Fmmax

open Matrix Spec

variable {nx ny a b : ℕ}

/-! ### The pattern -/

/-- Samples of the sine. -/
noncomputable def gridSin (n i : ℕ) : ℝ := Real.sin (2 * Real.pi * i / n)

/-- Samples of the cosine. -/
noncomputable def gridCos (n i : ℕ) : ℝ := Real.cos (2 * Real.pi * i / n)

/-- The sum of a cosine along either axis of the unit cell. -/
noncomputable def crossedPattern (nx ny : ℕ) : Matrix (Fin nx) (Fin ny) ℂ := Matrix.of fun i j => ((gridCos nx i + gridCos ny j : ℝ) : ℂ)

/-- The orders in the crossed pattern. -/
def crossedOrders : Fin 5 → ℤ × ℤ := ![(0, 0), (1, 0), (-1, 0), (0, 1), (0, -1)]

theorem crossedOrders_injective : Function.Injective crossedOrders := by decide

theorem angle_mod {n : ℕ} (hn : n ≠ 0) (k : ℕ) : ∃ q : ℕ, 2 * Real.pi * k / n = 2 * Real.pi * (k % n : ℕ) / n + q * (2 * Real.pi) := by
  refine ⟨k / n, ?_⟩
  have h : (n : ℝ) ≠ 0 := by exact_mod_cast hn
  have e : (k : ℝ) = (k % n : ℕ) + n * (k / n : ℕ) := by exact_mod_cast (Nat.mod_add_div k n).symm
  generalize (k % n : ℕ) = p at *
  generalize (k / n : ℕ) = q at *
  rw [e]
  field_simp

theorem gridCos_step [NeZero a] (i : Fin a) (ha : 1 < a) : gridCos a (i + 1 : Fin a) - gridCos a (i - 1 : Fin a) = -2 * gridSin a i * gridSin a 1 := by
  have h1 : ((1 : Fin a) : ℕ) = 1 := by rw [Fin.val_one', Nat.mod_eq_of_lt ha]
  have ha0 : (a : ℝ) ≠ 0 := by exact_mod_cast NeZero.ne a
  have key : ∀ k : Fin a, ∃ q : ℕ, 2 * Real.pi * k / a + 2 * Real.pi * (1 : ℕ) / a = 2 * Real.pi * (k + 1 : Fin a) / a + q * (2 * Real.pi) := by
    intro k
    obtain ⟨q, hq⟩ := angle_mod (NeZero.ne a) (k + 1)
    refine ⟨q, ?_⟩
    rw [Fin.val_add, h1, ← hq]
    push_cast
    ring
  have e1 : gridCos a (i + 1 : Fin a) = Real.cos (2 * Real.pi * i / a + 2 * Real.pi * (1 : ℕ) / a) := by
    obtain ⟨q, hq⟩ := key i
    rw [hq, Real.cos_add_nat_mul_two_pi]
    rfl
  have e2 : gridCos a (i - 1 : Fin a) = Real.cos (2 * Real.pi * i / a - 2 * Real.pi * (1 : ℕ) / a) := by
    obtain ⟨q, hq⟩ := key (i - 1)
    rw [sub_add_cancel] at hq
    have : 2 * Real.pi * (i : ℕ) / a - 2 * Real.pi * (1 : ℕ) / a = 2 * Real.pi * (i - 1 : Fin a) / a - q * (2 * Real.pi) := by linarith
    rw [this, Real.cos_sub_nat_mul_two_pi]
    rfl
  rw [e1, e2, Real.cos_add, Real.cos_sub]
  unfold gridSin
  ring

theorem gridSin_neg [NeZero a] (i : Fin a) : gridSin a (-i : Fin a) = -gridSin a i := by
  have ha0 : (a : ℝ) ≠ 0 := by exact_mod_cast NeZero.ne a
  obtain ⟨q, hq⟩ := angle_mod (NeZero.ne a) (a - i)
  unfold gridSin
  rw [Fin.val_neg']
  have hle : (i : ℕ) ≤ a := i.isLt.le
  have : 2 * Real.pi * (((a - (i : ℕ)) % a : ℕ) : ℝ) / a = -(2 * Real.pi * i / a) + 2 * Real.pi - q * (2 * Real.pi) := by
    rw [Nat.cast_sub hle] at hq
    have e : 2 * Real.pi * ((a : ℝ) - i) / a = -(2 * Real.pi * i / a) + 2 * Real.pi := by
      field_simp
      ring
    linarith
  rw [this, Real.sin_sub_nat_mul_two_pi, Real.sin_add_two_pi, Real.sin_neg]

theorem crossedPattern_gradient (hx : 1 < nx) (hy : 1 < ny) :
    computeGradient (crossedPattern nx ny) ⟨(1, 0), (0, 1)⟩ = .ok fun i j =>
      ![((-(nx * gridSin nx 1) * gridSin nx i : ℝ) : ℂ), ((-(ny * gridSin ny 1) * gridSin ny j : ℝ) : ℂ)] := by
  have : NeZero nx := ⟨by omega⟩
  have : NeZero ny := ⟨by omega⟩
  rw [computeGradient_eq_ok]
  refine ⟨by unfold Independent; norm_num, fun i j => ?_⟩
  have e1 : (gridCos nx (i + 1 : Fin nx) : ℂ) - gridCos nx (i - 1 : Fin nx) = -2 * gridSin nx i * gridSin nx 1 := by exact_mod_cast gridCos_step i hx
  have e2 : (gridCos ny (j + 1 : Fin ny) : ℂ) - gridCos ny (j - 1 : Fin ny) = -2 * gridSin ny j * gridSin ny 1 := by exact_mod_cast gridCos_step j hy
  simp only [crossedPattern, of_apply, cons_val_zero, cons_val_one]
  push_cast
  constructor
  · norm_num
    linear_combination -(nx : ℂ) / 2 * e1
  · norm_num
    linear_combination -(ny : ℂ) / 2 * e2

/-! ### Its Fourier series -/

theorem planeWave_axis (s : ℤ) (i j : ℕ) (hs : s = 1 ∨ s = -1) : planeWave a b (s, 0) i j = gridCos a i + s * gridSin a i * Complex.I := by
  have e : planeWave a b (s, 0) i j = Complex.exp (((s * (2 * Real.pi * i / a) : ℝ) : ℂ) * Complex.I) := by
    unfold planeWave
    congr 1
    push_cast
    ring
  rw [e, Complex.exp_mul_I, ← Complex.ofReal_cos, ← Complex.ofReal_sin]
  unfold gridCos gridSin
  rcases hs with rfl | rfl <;> simp

theorem planeWave_axis' (s : ℤ) (i j : ℕ) (hs : s = 1 ∨ s = -1) : planeWave a b (0, s) i j = gridCos b j + s * gridSin b j * Complex.I := by
  have e : planeWave a b (0, s) i j = Complex.exp (((s * (2 * Real.pi * j / b) : ℝ) : ℂ) * Complex.I) := by
    unfold planeWave
    congr 1
    push_cast
    ring
  rw [e, Complex.exp_mul_I, ← Complex.ofReal_cos, ← Complex.ofReal_sin]
  unfold gridCos gridSin
  rcases hs with rfl | rfl <;> simp

/-- An expansion with the orders of the crossed pattern. -/
structure HasCrossed {ι : Type} (G : ι → ℤ × ℤ) where
  right : ι
  left : ι
  up : ι
  down : ι
  right_eq : G right = (1, 0)
  left_eq : G left = (-1, 0)
  up_eq : G up = (0, 1)
  down_eq : G down = (0, -1)

section
variable {ι : Type} [Fintype ι] [DecidableEq ι] {G : ι → ℤ × ℤ}

theorem HasCrossed.series (h : HasCrossed G) (i j : ℕ) :
    ∑ k, (Pi.single h.right (1 / (2 * Complex.I)) - Pi.single h.left (1 / (2 * Complex.I)) : ι → ℂ) k * planeWave a b (G k) i j = gridSin a i := by
  simp only [Pi.sub_apply, sub_mul, Finset.sum_sub_distrib, Pi.single_apply, ite_mul, zero_mul, Finset.sum_ite_eq', Finset.mem_univ, if_true]
  rw [h.right_eq, h.left_eq, planeWave_axis _ _ _ (Or.inl rfl), planeWave_axis _ _ _ (Or.inr rfl)]
  have := Complex.I_ne_zero
  push_cast
  field_simp
  ring

theorem HasCrossed.series' (h : HasCrossed G) (i j : ℕ) :
    ∑ k, (Pi.single h.up (1 / (2 * Complex.I)) - Pi.single h.down (1 / (2 * Complex.I)) : ι → ℂ) k * planeWave a b (G k) i j = gridSin b j := by
  simp only [Pi.sub_apply, sub_mul, Finset.sum_sub_distrib, Pi.single_apply, ite_mul, zero_mul, Finset.sum_ite_eq', Finset.mem_univ, if_true]
  rw [h.up_eq, h.down_eq, planeWave_axis' _ _ _ (Or.inl rfl), planeWave_axis' _ _ _ (Or.inr rfl)]
  have := Complex.I_ne_zero
  push_cast
  field_simp
  ring

theorem HasCrossed.bandlimited (h : HasCrossed G) (hG : Function.Injective G) (hr : Resolves nx ny G) (p q : ℝ) (r : Fin a) (s : Fin b) :
    (fun c => fourierSeries G (fun k => fourierCoefficient (Matrix.of fun (i : Fin nx) (j : Fin ny) =>
        (![((p * gridSin nx i : ℝ) : ℂ), ((q * gridSin ny j : ℝ) : ℂ)] : Fin 2 → ℂ) c) (G k)) a b r s) =
      ![((p * gridSin a r : ℝ) : ℂ), ((q * gridSin b s : ℝ) : ℂ)] := by
  have e0 : (Matrix.of fun (i : Fin nx) (j : Fin ny) => (![((p * gridSin nx i : ℝ) : ℂ), ((q * gridSin ny j : ℝ) : ℂ)] : Fin 2 → ℂ) 0) =
      fourierSeries G (fun k => (p : ℂ) * (Pi.single h.right (1 / (2 * Complex.I)) - Pi.single h.left (1 / (2 * Complex.I)) : ι → ℂ) k) nx ny := by
    ext i j
    unfold fourierSeries
    simp only [of_apply, mul_assoc, ← Finset.mul_sum, h.series, cons_val_zero]
    push_cast
    rfl
  have e1 : (Matrix.of fun (i : Fin nx) (j : Fin ny) => (![((p * gridSin nx i : ℝ) : ℂ), ((q * gridSin ny j : ℝ) : ℂ)] : Fin 2 → ℂ) 1) =
      fourierSeries G (fun k => (q : ℂ) * (Pi.single h.up (1 / (2 * Complex.I)) - Pi.single h.down (1 / (2 * Complex.I)) : ι → ℂ) k) nx ny := by
    ext i j
    unfold fourierSeries
    simp only [of_apply, mul_assoc, ← Finset.mul_sum, h.series', cons_val_one]
    push_cast
    rfl
  funext c
  fin_cases c
  · simp only [Fin.zero_eta, e0, fourierCoefficient_series hr hG]
    unfold fourierSeries
    simp only [of_apply, mul_assoc, ← Finset.mul_sum, h.series, cons_val_zero]
    push_cast
    rfl
  · simp only [Fin.mk_one, e1, fourierCoefficient_series hr hG]
    unfold fourierSeries
    simp only [of_apply, mul_assoc, ← Finset.mul_sum, h.series', cons_val_one]
    push_cast
    rfl

theorem HasCrossed.bandlimitedGradient (h : HasCrossed G) (hG : Function.Injective G) (hr : Resolves nx ny G) (hM : Resolves a b G) :
    bandlimitedGradient (crossedPattern nx ny) G ⟨(1, 0), (0, 1)⟩ a b = .ok fun i j =>
      ![((-(nx * gridSin nx 1) * gridSin a i : ℝ) : ℂ), ((-(ny * gridSin ny 1) * gridSin b j : ℝ) : ℂ)] := by
  have hx : 1 < nx := by have := (hr.2 h.right).1; rw [h.right_eq] at this; simp at this; omega
  have hy : 1 < ny := by have := (hr.2 h.up).2; rw [h.up_eq] at this; simp at this; omega
  rw [bandlimitedGradient_eq hG (crossedPattern_gradient hx hy) hr hM]
  refine congrArg Except.ok ?_
  funext r s
  exact h.bandlimited hG hr _ _ r s

end

/-! ### The gradient is not one dimensional -/

theorem not_is1d {f : VectorField a b} (ha : a ≠ 1) (hb : b ≠ 1) {i i' : Fin a} {j j' : Fin b} {u v : ℝ} (h1 : f i j = ![(u : ℂ), 0]) (h2 : f i' j' = ![0, (v : ℂ)])
    (hu : 1e-8 < |u|) (hv : 1e-8 < |v|) {d : Prop × ℝ} (h : is1dField f = .ok d) : ¬d.1 := by
  unfold is1dField at h
  obtain ⟨r, -, h⟩ := bind_eq_ok.1 h
  rw [ok_inj] at h
  subst h
  rintro (h | h | h)
  · have hx := h i j
    have hy := h i' j'
    have e1 : f i j 0 + Complex.I * f i j 1 = (u : ℂ) := by simp [h1]
    have e2 : f i' j' 0 + Complex.I * f i' j' 1 = (v : ℂ) * Complex.I := by simp [h2, mul_comm]
    simp only [e1, e2] at hx hy
    set ρ := angleSafe (r 0 + Complex.I * r 1) with hρ
    have hρ' : |ρ| ≤ Real.pi := Complex.abs_arg_le_pi _
    have m1 : ¬IsClose (fieldMagnitude f i j) 0 := by
      rw [fieldMagnitude_eq, isClose_zero_iff (magnitude_nonneg _), h1]
      have : magnitude ![(u : ℂ), 0] = |u| := by
        unfold magnitude
        simp [Real.sqrt_sq_eq_abs]
      rw [this]
      exact not_le.2 hu
    have m2 : ¬IsClose (fieldMagnitude f i' j') 0 := by
      rw [fieldMagnitude_eq, isClose_zero_iff (magnitude_nonneg _), h2]
      have : magnitude ![0, (v : ℂ)] = |v| := by
        unfold magnitude
        simp [Real.sqrt_sq_eq_abs]
      rw [this]
      exact not_le.2 hv
    have close : ∀ θ : ℝ, (IsClose θ (ρ - 2 * Real.pi) atol1dFieldAngle ∨ IsClose θ (ρ - 1 * Real.pi) atol1dFieldAngle ∨ IsClose θ ρ atol1dFieldAngle ∨
        IsClose θ (ρ + 1 * Real.pi) atol1dFieldAngle ∨ IsClose θ (ρ + 2 * Real.pi) atol1dFieldAngle) → Real.sin (θ - ρ) ^ 2 ≤ 0.0004 := by
      intro θ hθ
      have one : ∀ k : ℤ, |(k : ℝ)| ≤ 2 → IsClose θ (ρ + k * Real.pi) atol1dFieldAngle → Real.sin (θ - ρ) ^ 2 ≤ 0.0004 := by
        intro k hk hc
        have h4 : |ρ + k * Real.pi| ≤ 12 := by
          have hp := Real.pi_lt_four
          have hp0 := Real.pi_pos
          have h5 := abs_add_le ρ (k * Real.pi)
          rw [abs_mul, abs_of_pos hp0] at h5
          nlinarith
        have h5 : |θ - (ρ + k * Real.pi)| ≤ 0.02 := by
          unfold IsClose atol1dFieldAngle at hc
          rw [Real.norm_eq_abs, Real.norm_eq_abs] at hc
          linarith
        have h6 : Real.sin (θ - ρ) ^ 2 = Real.sin (θ - (ρ + k * Real.pi)) ^ 2 := by
          have hk : ((-1 : ℝ) ^ k) ^ 2 = 1 := by
            rw [← zpow_natCast, ← _root_.zpow_mul, mul_comm k, _root_.zpow_mul]
            norm_num
          rw [← sub_sub, Real.sin_sub_int_mul_pi, mul_pow, hk, one_mul]
        have h7 : |Real.sin (θ - (ρ + k * Real.pi))| ≤ |θ - (ρ + k * Real.pi)| := Real.abs_sin_le_abs
        rw [h6, ← sq_abs]
        nlinarith [abs_nonneg (Real.sin (θ - (ρ + k * Real.pi)))]
      rcases hθ with h | h | h | h | h
      · exact one (-2) (by norm_num) (by push_cast; rw [neg_mul, ← sub_eq_add_neg]; exact h)
      · exact one (-1) (by norm_num) (by push_cast; rw [neg_mul, ← sub_eq_add_neg]; exact h)
      · exact one 0 (by norm_num) (by push_cast; rw [zero_mul, add_zero]; exact h)
      · exact one 1 (by norm_num) (by push_cast; exact h)
      · exact one 2 (by norm_num) (by push_cast; exact h)
    have c1 := close _ (hx.resolve_left m1)
    have c2 := close _ (hy.resolve_left m2)
    have hu0 : u ≠ 0 := by rintro rfl; norm_num at hu
    have hv0 : v ≠ 0 := by rintro rfl; norm_num at hv
    have a1 : Real.sin (angleSafe (u : ℂ)) = 0 ∧ Real.cos (angleSafe (u : ℂ)) ^ 2 = 1 := by
      rw [angleSafe_large (by rw [Complex.norm_real]; exact hu)]
      have hc : (u : ℂ) ≠ 0 := by exact_mod_cast hu0
      have hs : Real.sin (Complex.arg (u : ℂ)) = 0 := by rw [Complex.sin_arg]; simp
      refine ⟨hs, ?_⟩
      have := Real.sin_sq_add_cos_sq (Complex.arg (u : ℂ))
      rw [hs] at this
      linarith
    have a2 : Real.cos (angleSafe ((v : ℂ) * Complex.I)) = 0 ∧ Real.sin (angleSafe ((v : ℂ) * Complex.I)) ^ 2 = 1 := by
      rw [angleSafe_large (by rw [norm_mul, Complex.norm_I, mul_one, Complex.norm_real]; exact hv)]
      have hc : (v : ℂ) * Complex.I ≠ 0 := mul_ne_zero (by exact_mod_cast hv0) Complex.I_ne_zero
      have hs : Real.cos (Complex.arg ((v : ℂ) * Complex.I)) = 0 := by rw [Complex.cos_arg hc]; simp
      refine ⟨hs, ?_⟩
      have := Real.sin_sq_add_cos_sq (Complex.arg ((v : ℂ) * Complex.I))
      rw [hs] at this
      linarith
    rw [Real.sin_sub, a1.1, zero_mul, zero_sub, neg_sq, mul_pow, a1.2, one_mul] at c1
    rw [Real.sin_sub, a2.1, zero_mul, sub_zero, mul_pow, a2.2, one_mul] at c2
    have := Real.sin_sq_add_cos_sq ρ
    norm_num at c1 c2
    linarith
  · exact ha h
  · exact hb h

end Fmmax
