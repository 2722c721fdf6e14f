import Verif.Proofs.VectorLoss
import Verif.Props.Vector
import Verif.Props.Fourier

/-! Properties of the computed tangent vector fields (C60, C61, C74, C75). -/

namespace Fmmax

open Matrix Spec

variable {nx ny : ℕ} {ι : Type}

/-! ### C60 -/

theorem computeField_congr [Fintype ι] [DecidableEq ι] {x x' : Matrix (Fin nx) (Fin ny) ℂ} {G : ι → ℤ × ℤ}
    {l l' : LatticeVectors} {fw sw : ℝ}
    (h : ∀ b, computeTangentFieldNoBatch x G l b fw sw 1 = computeTangentFieldNoBatch x' G l' b fw sw 1)
    (method : VectorMethod) : computeField method x G l fw sw = computeField method x' G l' fw sw := by
  unfold computeField
  cases method <;> simp only [h]

/-- C60: scaling the unit cell does not change the field, whatever the method (errors included). -/
theorem C60_scale [Fintype ι] [DecidableEq ι] (method : VectorMethod) (x : Matrix (Fin nx) (Fin ny) ℂ)
    (G : ι → ℤ × ℤ) (l : LatticeVectors) (fw sw s : ℝ) (hs : 0 < s) :
    computeField method x G ⟨(s * l.u.1, s * l.u.2), (s * l.v.1, s * l.v.2)⟩ fw sw = computeField method x G l fw sw :=
  computeField_congr (fun b => computeTangentField_scale hs x G l b fw sw 1) method

/-- C60: adding a constant to the array does not change the field, whatever the method. -/
theorem C60_offset [Fintype ι] [DecidableEq ι] (method : VectorMethod) (x : Matrix (Fin nx) (Fin ny) ℂ)
    (G : ι → ℤ × ℤ) (l : LatticeVectors) (fw sw : ℝ) (c : ℂ) :
    computeField method (Matrix.of fun i j => x i j + c) G l fw sw = computeField method x G l fw sw :=
  computeField_congr (fun b => computeTangentField_offset x G l b fw sw 1 c) method

/-- C60: multiplying the array by a positive constant does not change the field, whatever the method, provided that the
band-limited gradient of the array is not negligible before and after (it exceeds the threshold `1e-8` of `normalize`
somewhere on the grid of the optimisation). -/
theorem C60_contrast [Fintype ι] [DecidableEq ι] (method : VectorMethod) (x : Matrix (Fin nx) (Fin ny) ℂ)
    (G : ι → ℤ × ℤ) (l : LatticeVectors) (fw sw a : ℝ) (ha : 0 < a) (hG : Function.Injective G) (hr : Resolves nx ny G)
    (g : VectorField nx ny) (hg : computeGradient x l = .ok g)
    (m : ℕ × ℕ) (hm : doubledMinShape G nx ny = .ok m) (r : Fin m.1) (s : Fin m.2)
    (h1 : 1e-8 < magnitude fun c =>
      fourierSeries G (fun k => fourierCoefficient (Matrix.of fun i j => g i j c) (G k)) m.1 m.2 r s)
    (h2 : 1e-8 < a * magnitude fun c =>
      fourierSeries G (fun k => fourierCoefficient (Matrix.of fun i j => g i j c) (G k)) m.1 m.2 r s) :
    computeField method (Matrix.of fun i j => (a : ℂ) * x i j) G l fw sw = computeField method x G l fw sw :=
  computeField_congr (fun b => computeTangentField_contrast x G l b fw sw 1 ha hG hr hg hm r s h1 h2) method

/-! ### C61 -/

/-- The dot product (without conjugation) of two vectors of a field. -/
noncomputable def fieldDot (a b : Fin 2 → ℂ) : ℂ := a 0 * b 0 + a 1 * b 1

/-- C61, what holds in general: if the gradient of the array has the one direction `(cos θ, sin θ)` everywhere, the tangent
field is constant, of length one, and its dot product with the gradient is plus or minus the length of the gradient times
`sin (2 θ)`. -/
theorem C61_direction [Fintype ι] [DecidableEq ι] (x : Matrix (Fin nx) (Fin ny) ℂ)
    (G : ι → ℤ × ℤ) (l : LatticeVectors) (b : Bool) (fw sw : ℝ) (n : ℕ)
    (hG : Function.Injective G) (hsym : ∀ i, ∃ j, G j = -G i) (hr : Resolves nx ny G) (d : Matrix (Fin nx) (Fin ny) ℝ)
    (θ : ℝ) (hg : computeGradient x l = .ok fun i j => ![(d i j * Real.cos θ : ℂ), (d i j * Real.sin θ : ℂ)])
    (m : ℕ × ℕ) (hm : doubledMinShape G nx ny = .ok m) (r : Fin m.1) (s : Fin m.2)
    (h1 : 1e-8 < ‖fourierSeries G (fun k => fourierCoefficient (d.map Complex.ofReal) (G k)) m.1 m.2 r s‖) :
    ∃ t, computeTangentFieldNoBatch x G l b fw sw n = .ok (fun _ _ => t) ∧ magnitude t = 1 ∧
      ∃ σ : ℝ, (σ = 1 ∨ σ = -1) ∧ ∀ i j,
        fieldDot ![(d i j * Real.cos θ : ℂ), (d i j * Real.sin θ : ℂ)] t = σ * d i j * Real.sin (2 * θ) := by
  obtain ⟨σ, hσ, h⟩ := tangentField_1d x G l b fw sw n hG hsym hr d θ hg hm r s h1
  refine ⟨_, h, ?_, σ, hσ, fun i j => ?_⟩
  · unfold magnitude
    simp only [Matrix.cons_val_zero, Matrix.cons_val_one]
    rw [← Complex.ofReal_mul, ← Complex.ofReal_mul, Complex.norm_real, Complex.norm_real, Real.norm_eq_abs,
      Real.norm_eq_abs, sq_abs, sq_abs, Real.sqrt_eq_one]
    have hs : σ ^ 2 = 1 := by rcases hσ with rfl | rfl <;> norm_num
    rw [mul_pow, mul_pow, ← mul_add, Real.sin_sq_add_cos_sq, hs, one_mul]
  · unfold fieldDot
    simp only [Matrix.cons_val_zero, Matrix.cons_val_one]
    rw [Real.sin_two_mul]
    push_cast
    ring

/-- C61, complex arrays: if the gradient of the array has one direction `(cos θ, sin θ)` and one phase `φ` everywhere, the tangent
field is constant, of length one, and its dot product with the direction is `sin (2 θ + φ)` up to the sign: the phase of the contrast is
taken for a part of the direction. -/
theorem C61_phase [Fintype ι] [DecidableEq ι] (x : Matrix (Fin nx) (Fin ny) ℂ)
    (G : ι → ℤ × ℤ) (l : LatticeVectors) (b : Bool) (fw sw : ℝ) (n : ℕ)
    (hG : Function.Injective G) (hsym : ∀ i, ∃ j, G j = -G i) (hr : Resolves nx ny G) (d : Matrix (Fin nx) (Fin ny) ℝ)
    (θ φ : ℝ) (hg : computeGradient x l = .ok fun i j =>
      ![Complex.exp (φ * Complex.I) * (d i j * Real.cos θ), Complex.exp (φ * Complex.I) * (d i j * Real.sin θ)])
    (m : ℕ × ℕ) (hm : doubledMinShape G nx ny = .ok m) (r : Fin m.1) (s : Fin m.2)
    (h1 : 1e-8 < ‖fourierSeries G (fun k => fourierCoefficient (d.map Complex.ofReal) (G k)) m.1 m.2 r s‖) :
    ∃ t, computeTangentFieldNoBatch x G l b fw sw n = .ok (fun _ _ => t) ∧ magnitude t = 1 ∧
      ∃ σ : ℝ, (σ = 1 ∨ σ = -1) ∧ fieldDot ![(Real.cos θ : ℂ), (Real.sin θ : ℂ)] t = σ * Real.sin (2 * θ + φ) := by
  obtain ⟨σ, hσ, h⟩ := tangentField_phase x G l b fw sw n hG hsym hr d θ φ hg hm r s h1
  refine ⟨_, h, ?_, σ, hσ, ?_⟩
  · unfold magnitude
    simp only [Matrix.cons_val_zero, Matrix.cons_val_one]
    rw [← Complex.ofReal_mul, ← Complex.ofReal_mul, Complex.norm_real, Complex.norm_real, Real.norm_eq_abs,
      Real.norm_eq_abs, sq_abs, sq_abs, Real.sqrt_eq_one]
    have hs : σ ^ 2 = 1 := by rcases hσ with rfl | rfl <;> norm_num
    rw [mul_pow, mul_pow, ← mul_add, Real.sin_sq_add_cos_sq, hs, one_mul]
  · unfold fieldDot
    simp only [Matrix.cons_val_zero, Matrix.cons_val_one]
    have h2 : Real.sin (2 * θ + φ) = Real.sin θ * Real.cos (θ + φ) + Real.cos θ * Real.sin (θ + φ) := by
      rw [← Real.sin_add, two_mul, add_assoc]
    rw [h2, Complex.ofReal_add, Complex.ofReal_mul, Complex.ofReal_mul]
    ring

/-- C61 (partial): if the gradient of the array has the direction of a coordinate axis everywhere, the tangent field is
perpendicular to it.  Missing: all other directions, for which the claim is false (`C61_false_diagonal`), and complex
contrast, for which it is false also on the axes (`C61_false_complex_contrast`). -/
theorem C61_axis_aligned_partial [Fintype ι] [DecidableEq ι] (x : Matrix (Fin nx) (Fin ny) ℂ)
    (G : ι → ℤ × ℤ) (l : LatticeVectors) (b : Bool) (fw sw : ℝ) (n : ℕ)
    (hG : Function.Injective G) (hsym : ∀ i, ∃ j, G j = -G i) (hr : Resolves nx ny G) (d : Matrix (Fin nx) (Fin ny) ℝ)
    (θ : ℝ) (hθ : Real.cos θ = 0 ∨ Real.sin θ = 0)
    (hg : computeGradient x l = .ok fun i j => ![(d i j * Real.cos θ : ℂ), (d i j * Real.sin θ : ℂ)])
    (m : ℕ × ℕ) (hm : doubledMinShape G nx ny = .ok m) (r : Fin m.1) (s : Fin m.2)
    (h1 : 1e-8 < ‖fourierSeries G (fun k => fourierCoefficient (d.map Complex.ofReal) (G k)) m.1 m.2 r s‖) :
    ∃ t, computeTangentFieldNoBatch x G l b fw sw n = .ok (fun _ _ => t) ∧ magnitude t = 1 ∧
      ∀ i j, fieldDot ![(d i j * Real.cos θ : ℂ), (d i j * Real.sin θ : ℂ)] t = 0 := by
  obtain ⟨t, ht, hm', σ, -, h⟩ := C61_direction x G l b fw sw n hG hsym hr d θ hg m hm r s h1
  refine ⟨t, ht, hm', fun i j => ?_⟩
  rw [h, Real.sin_two_mul]
  rcases hθ with h | h <;> rw [h] <;> simp

/-! The witnesses: gratings with one harmonic on a grid of 4 by 4 points, expanded with three orders. -/

/-- The orders `0`, `g`, `-g`. -/
def gratingOrders (g : ℤ × ℤ) : Fin 3 → ℤ × ℤ := ![0, g, -g]

/-- The unit square. -/
def unitSquare : LatticeVectors := ⟨(1, 0), (0, 1)⟩

/-- The values of the cosine at quarter turns. -/
def quarterCos : Fin 4 → ℝ := ![1, 0, -1, 0]

/-- Minus the values of the sine at quarter turns. -/
def quarterSin : Fin 4 → ℝ := ![0, -1, 0, 1]

/-- A grating whose lines have the direction of a diagonal of the cell. -/
noncomputable def diagonalGrating : Matrix (Fin 4) (Fin 4) ℂ := Matrix.of fun i j => (quarterCos (i + j) : ℂ)

/-- A grating whose lines have the direction of the second axis. -/
noncomputable def axisGrating : Matrix (Fin 4) (Fin 4) ℂ := Matrix.of fun i _ => (quarterCos i : ℂ)

theorem exp_quarter (n : ℕ) : Complex.exp (2 * Real.pi * Complex.I * (n / 4)) = Complex.I ^ n := by
  rw [show 2 * Real.pi * Complex.I * ((n : ℂ) / 4) = n * (Real.pi / 2 * Complex.I) by ring, Complex.exp_nat_mul,
    Complex.exp_pi_div_two_mul_I]

theorem quarterSin_eq (n : ℕ) (k : Fin 4) (h : n % 4 = (k : ℕ)) :
    (quarterSin k : ℂ) = Complex.I / 2 * Complex.I ^ n + -(Complex.I / 2) * star (Complex.I ^ n) := by
  have e : Complex.I ^ n = Complex.I ^ (k : ℕ) := by
    rw [← Nat.div_add_mod n 4, pow_add, pow_mul, Complex.I_pow_four, one_pow, one_mul, h]
  rw [e]
  have h2 := Complex.I_sq
  have h3 : Complex.I ^ 3 = -Complex.I := Complex.I_pow_three
  fin_cases k <;> simp [quarterSin, h2, h3]
  · linear_combination (-1 : ℂ) * h2
  · linear_combination (1 : ℂ) * h2

theorem gratingOrders_injective {g : ℤ × ℤ} (hg : g ≠ 0) : Function.Injective (gratingOrders g) := by
  have h1 : g ≠ -g := fun h => hg (by
    have h1 := congrArg Prod.fst h
    have h2 := congrArg Prod.snd h
    simp only [Prod.fst_neg, Prod.snd_neg] at h1 h2
    ext <;> simp <;> omega)
  have h2 : -g ≠ 0 := neg_ne_zero.2 hg
  intro a b h
  fin_cases a <;> fin_cases b <;> simp [gratingOrders] at h ⊢ <;> first | exact hg h | exact hg h.symm | exact h1 h | exact h1 h.symm

theorem gratingOrders_symmetric (g : ℤ × ℤ) (i : Fin 3) : ∃ j, gratingOrders g j = -gratingOrders g i := by
  fin_cases i
  · exact ⟨0, by simp [gratingOrders]⟩
  · exact ⟨2, by simp [gratingOrders]⟩
  · exact ⟨1, by simp [gratingOrders]⟩

theorem grating_series {g : ℤ × ℤ} (n : Fin 4 → Fin 4 → ℕ) (k : Fin 4 → Fin 4 → Fin 4) (A : ℝ)
    (hn : ∀ i j : Fin 4, planeWave 4 4 g i j = Complex.I ^ n i j) (hk : ∀ i j, n i j % 4 = (k i j : ℕ)) :
    ((Matrix.of fun i j => A * quarterSin (k i j)) : Matrix (Fin 4) (Fin 4) ℝ).map Complex.ofReal =
      fourierSeries (gratingOrders g) ![0, A * (Complex.I / 2), -(A * (Complex.I / 2))] 4 4 := by
  ext i j
  unfold fourierSeries
  simp only [Matrix.map_apply, Matrix.of_apply, Fin.sum_univ_three, gratingOrders, Matrix.cons_val_zero,
    Matrix.cons_val_one, Matrix.cons_val]
  rw [Complex.ofReal_mul, quarterSin_eq _ _ (hk i j), planeWave_neg_conj, hn]
  simp only [Complex.star_def]
  ring

/-- On the finer grid of the optimisation the band-limited gradient of the grating does not vanish at the point `(1, 0)`. -/
theorem grating_bandlimited {g : ℤ × ℤ} (h1 : g.1 = 1) (h2 : |g.2| ≤ 1) (n : Fin 4 → Fin 4 → ℕ) (k : Fin 4 → Fin 4 → Fin 4)
    (A : ℝ) (hA : 1 ≤ |A|)
    (hn : ∀ i j : Fin 4, planeWave 4 4 g i j = Complex.I ^ n i j) (hk : ∀ i j, n i j % 4 = (k i j : ℕ)) {my : ℕ} :
    1e-8 < ‖(∑ q, fourierCoefficient (((Matrix.of fun i j => A * quarterSin (k i j)) :
        Matrix (Fin 4) (Fin 4) ℝ).map Complex.ofReal) (gratingOrders g q) * planeWave 6 my (gratingOrders g q) 1 0)‖ := by
  have hg : g ≠ 0 := fun h => by rw [h] at h1; exact absurd h1 (by norm_num)
  have hr : Resolves 4 4 (gratingOrders g) := by
    refine ⟨⟨0⟩, fun i => ?_⟩
    fin_cases i <;> simp [gratingOrders, h1] <;> omega
  rw [grating_series n k A hn hk]
  simp only [fourierCoefficient_series hr (gratingOrders_injective hg)]
  simp only [Fin.sum_univ_three, gratingOrders, Matrix.cons_val_zero, Matrix.cons_val_one, Matrix.cons_val]
  have e1 : planeWave 6 my g 1 0 = Complex.exp ((Real.pi / 3 : ℝ) * Complex.I) := by
    unfold planeWave
    rw [h1]
    congr 1
    push_cast
    ring
  have e2 : planeWave 6 my (-g) 1 0 = Complex.exp (-((Real.pi / 3 : ℝ) * Complex.I)) := by
    unfold planeWave
    rw [Prod.fst_neg, h1]
    congr 1
    push_cast
    ring
  have e3 : (0 : ℂ) * planeWave 6 my 0 1 0 + A * (Complex.I / 2) * planeWave 6 my g 1 0 +
      -(A * (Complex.I / 2)) * planeWave 6 my (-g) 1 0 = ((-(A * Real.sin (Real.pi / 3)) : ℝ) : ℂ) := by
    rw [e1, e2, Complex.ofReal_neg, Complex.ofReal_mul, Complex.ofReal_sin, Complex.sin, neg_mul]
    ring_nf
  rw [e3, Complex.norm_real, Real.norm_eq_abs, abs_neg, abs_mul, Real.sin_pi_div_three]
  have h3 : 1 ≤ Real.sqrt 3 := Real.one_le_sqrt.2 (by norm_num)
  have h4 : |Real.sqrt 3 / 2| = Real.sqrt 3 / 2 := abs_of_pos (by positivity)
  rw [h4]
  nlinarith

/-- C61 is false: a grating along the diagonal of a square cell is given a field that is not perpendicular to the gradient
of the array (it is parallel to it). -/
theorem C61_false_diagonal (b : Bool) (fw sw : ℝ) (n : ℕ) :
    ∃ (g : VectorField 4 4) (t : Fin 2 → ℂ),
      computeGradient diagonalGrating unitSquare = .ok g ∧
      (∀ i j, g i j 0 = g i j 1) ∧
      computeTangentFieldNoBatch diagonalGrating (gratingOrders (1, 1)) unitSquare b fw sw n = .ok (fun _ _ => t) ∧
      fieldDot (g 1 0) t ≠ 0 := by
  have s2 : Real.sqrt 2 * Real.sqrt 2 = 2 := Real.mul_self_sqrt (by norm_num)
  let d : Matrix (Fin 4) (Fin 4) ℝ := Matrix.of fun i j => 4 * Real.sqrt 2 * quarterSin (i + j)
  have hT : ∀ k : Fin 4, quarterCos (k + 1) - quarterCos (k - 1) = 2 * quarterSin k := by
    intro k
    have e : ∀ k : Fin 4, quarterCos (k + 1) = quarterSin k := by
      intro k; fin_cases k <;> rfl
    have e' : ∀ k : Fin 4, quarterCos (k - 1) = -quarterSin k := by
      intro k
      fin_cases k
      · exact neg_zero.symm
      · exact (neg_neg _).symm
      · exact neg_zero.symm
      · rfl
    rw [e, e']; ring
  have hcomp : ∀ k : Fin 4, ((4 * Real.sqrt 2 * quarterSin k : ℝ) : ℂ) * ((Real.sqrt 2 / 2 : ℝ) : ℂ) = 4 * (quarterSin k : ℂ) := by
    intro k
    rw [← Complex.ofReal_mul]
    rw [show 4 * Real.sqrt 2 * quarterSin k * (Real.sqrt 2 / 2) = 4 * quarterSin k by linear_combination (2 * quarterSin k) * s2]
    push_cast; ring
  have hg : computeGradient diagonalGrating unitSquare =
      .ok fun i j => ![(d i j * Real.cos (Real.pi / 4) : ℂ), (d i j * Real.sin (Real.pi / 4) : ℂ)] := by
    rw [computeGradient_eq_ok]
    refine ⟨by unfold Independent unitSquare; norm_num, fun i j => ?_⟩
    have hT' := hT (i + j)
    have e1 : i + 1 + j = i + j + 1 := by abel
    have e2 : i - 1 + j = i + j - 1 := by abel
    have e3 : i + (j + 1) = i + j + 1 := by abel
    have e4 : i + (j - 1) = i + j - 1 := by abel
    have hT'' : (quarterCos (i + j + 1) : ℂ) - quarterCos (i + j - 1) = 2 * quarterSin (i + j) := by exact_mod_cast hT'
    simp only [Matrix.cons_val_zero, Matrix.cons_val_one, Real.cos_pi_div_four, Real.sin_pi_div_four, d, Matrix.of_apply,
      diagonalGrating, unitSquare, e1, e2, e3, e4, hcomp, hT'']
    norm_num
  have hm : doubledMinShape (gratingOrders (1, 1)) 4 4 = .ok (6, 6) := by
    unfold doubledMinShape minArrayShapeForExpansion
    rfl
  have hr : Resolves 4 4 (gratingOrders (1, 1)) := by
    refine ⟨⟨0⟩, fun i => ?_⟩
    fin_cases i <;> simp [gratingOrders]
  have h1 := grating_bandlimited (g := (1, 1)) rfl (by norm_num) (fun i j => (i : ℕ) + j) (fun i j => i + j)
    (4 * Real.sqrt 2) (by
      have h3 : 1 ≤ Real.sqrt 2 := Real.one_le_sqrt.2 (by norm_num)
      rw [abs_of_pos (by positivity)]; linarith)
    (fun i j => by
      rw [← exp_quarter]
      unfold planeWave
      congr 1
      push_cast
      ring) (fun i j => by rw [Fin.val_add]) (my := 6)
  obtain ⟨t, ht, -, σ, hσ, h⟩ := C61_direction diagonalGrating (gratingOrders (1, 1)) unitSquare b fw sw n
    (gratingOrders_injective (by decide)) (gratingOrders_symmetric _) hr d (Real.pi / 4) hg (6, 6) hm 1 0 h1
  refine ⟨_, t, hg, fun i j => ?_, ht, ?_⟩
  · simp only [Matrix.cons_val_zero, Matrix.cons_val_one, Real.cos_pi_div_four, Real.sin_pi_div_four]
  · rw [h 1 0, show 2 * (Real.pi / 4) = Real.pi / 2 by ring, Real.sin_pi_div_two]
    have hd : d 1 0 = -(4 * Real.sqrt 2) := by
      simp [d, quarterSin]
    have hne : d 1 0 ≠ 0 := by rw [hd]; exact neg_ne_zero.2 (by positivity)
    rcases hσ with rfl | rfl <;> simpa using hne

/-- The hypotheses of `C61_direction`, `C61_axis_aligned_partial` and `C60_contrast` hold for a grating along an axis. -/
theorem axisGrating_hypotheses :
    ∃ d : Matrix (Fin 4) (Fin 4) ℝ,
      Function.Injective (gratingOrders (1, 0)) ∧ (∀ i, ∃ j, gratingOrders (1, 0) j = -gratingOrders (1, 0) i) ∧
      Resolves 4 4 (gratingOrders (1, 0)) ∧ Real.sin 0 = 0 ∧
      computeGradient axisGrating unitSquare = .ok (fun i j => ![(d i j * Real.cos 0 : ℂ), (d i j * Real.sin 0 : ℂ)]) ∧
      doubledMinShape (gratingOrders (1, 0)) 4 4 = .ok (6, 2) ∧
      1e-8 < ‖fourierSeries (gratingOrders (1, 0)) (fun k => fourierCoefficient (d.map Complex.ofReal)
        (gratingOrders (1, 0) k)) 6 2 1 0‖ := by
  have hT : ∀ k : Fin 4, quarterCos (k + 1) - quarterCos (k - 1) = 2 * quarterSin k := by
    intro k
    have e : ∀ k : Fin 4, quarterCos (k + 1) = quarterSin k := by
      intro k; fin_cases k <;> rfl
    have e' : ∀ k : Fin 4, quarterCos (k - 1) = -quarterSin k := by
      intro k
      fin_cases k
      · exact neg_zero.symm
      · exact (neg_neg _).symm
      · exact neg_zero.symm
      · rfl
    rw [e, e']; ring
  refine ⟨Matrix.of fun i _ => 4 * quarterSin i, gratingOrders_injective (by decide), gratingOrders_symmetric _, ?_,
    Real.sin_zero, ?_, ?_, ?_⟩
  · refine ⟨⟨0⟩, fun i => ?_⟩
    fin_cases i <;> simp [gratingOrders]
  · rw [computeGradient_eq_ok]
    refine ⟨by unfold Independent unitSquare; norm_num, fun i j => ?_⟩
    have hT'' : (quarterCos (i + 1) : ℂ) - quarterCos (i - 1) = 2 * quarterSin i := by exact_mod_cast hT i
    simp only [Matrix.cons_val_zero, Matrix.cons_val_one, Real.cos_zero, Real.sin_zero, Matrix.of_apply, axisGrating,
      unitSquare, hT'']
    norm_num
  · unfold doubledMinShape minArrayShapeForExpansion
    rfl
  · exact grating_bandlimited (g := (1, 0)) rfl (by norm_num) (fun i _ => (i : ℕ)) (fun i _ => i) 4
      (by rw [abs_of_pos (by norm_num)]; norm_num)
      (fun i j => by
        rw [← exp_quarter]
        unfold planeWave
        congr 1
        push_cast
        ring) (fun i j => Nat.mod_eq_of_lt i.2) (my := 2)

example : ∃ t, computeTangentFieldNoBatch axisGrating (gratingOrders (1, 0)) unitSquare false 0 2 1 = .ok (fun _ _ => t) ∧
    magnitude t = 1 := by
  obtain ⟨d, h1, h2, h3, h4, h5, h6, h7⟩ := axisGrating_hypotheses
  obtain ⟨t, ht, hm, -⟩ := C61_axis_aligned_partial _ _ _ false 0 2 1 h1 h2 h3 d 0 (Or.inr h4) h5 _ h6
    (1 : Fin 6) (0 : Fin 2) h7
  exact ⟨t, ht, hm⟩

/-- The permittivity of an absorbing grating with lines along an axis: its imaginary part varies between 0 and 2. -/
noncomputable def absorbingGrating : Matrix (Fin 4) (Fin 4) ℂ := Matrix.of fun i _ => 2 + (1 + (quarterCos i : ℂ)) * Complex.I

/-- The gradient of the absorbing grating is `I` times that of the transparent one. -/
theorem absorbingGrating_gradient {d : Matrix (Fin 4) (Fin 4) ℝ}
    (hg : computeGradient axisGrating unitSquare = .ok (fun i j => ![(d i j * Real.cos 0 : ℂ), (d i j * Real.sin 0 : ℂ)])) :
    computeGradient absorbingGrating unitSquare = .ok fun i j =>
      ![Complex.exp ((Real.pi / 2 : ℝ) * Complex.I) * (d i j * Real.cos 0), Complex.exp ((Real.pi / 2 : ℝ) * Complex.I) * (d i j * Real.sin 0)] := by
  rw [computeGradient_eq_ok] at hg ⊢
  refine ⟨hg.1, fun i j => ?_⟩
  have h := hg.2 i j
  have e : Complex.exp ((Real.pi / 2 : ℝ) * Complex.I) = Complex.I := by
    push_cast
    exact Complex.exp_pi_div_two_mul_I
  have hx : ∀ i j i' j', absorbingGrating i j - absorbingGrating i' j' = Complex.I * (axisGrating i j - axisGrating i' j') := by
    intro i j i' j'
    simp only [absorbingGrating, axisGrating, Matrix.of_apply]
    ring
  simp only [e, hx, Matrix.cons_val_zero, Matrix.cons_val_one] at h ⊢
  exact ⟨by linear_combination Complex.I * h.1, by linear_combination Complex.I * h.2⟩

/-- C61 is false for complex contrast even if the gradient is along an axis: an absorbing grating with lines along an axis is given a field
that is parallel to the gradient. -/
theorem C61_false_complex_contrast (b : Bool) (fw sw : ℝ) (n : ℕ) :
    ∃ (g : VectorField 4 4) (t : Fin 2 → ℂ),
      computeGradient absorbingGrating unitSquare = .ok g ∧ (∀ i j, g i j 1 = 0) ∧ (∃ i j, g i j 0 ≠ 0) ∧
      computeTangentFieldNoBatch absorbingGrating (gratingOrders (1, 0)) unitSquare b fw sw n = .ok (fun _ _ => t) ∧
      t 0 ≠ 0 ∧ t 1 = 0 := by
  obtain ⟨d, h1, h2, h3, h4, h5, h6, h7⟩ := axisGrating_hypotheses
  have hg := absorbingGrating_gradient h5
  obtain ⟨σ, hσ, h⟩ := tangentField_phase absorbingGrating _ unitSquare b fw sw n h1 h2 h3 d 0 (Real.pi / 2) hg h6 (1 : Fin 6) (0 : Fin 2) h7
  refine ⟨_, _, hg, fun i j => ?_, ?_, h, ?_, ?_⟩
  · simp
  · by_contra hne
    push Not at hne
    have hd : ∀ i j, d i j = 0 := by
      intro i j
      have := hne i j
      simpa [Complex.exp_ne_zero] using this
    have : d.map Complex.ofReal = 0 := by
      ext i j
      simp [hd]
    rw [this] at h7
    have hz : (fun k => fourierCoefficient (0 : Matrix (Fin 4) (Fin 4) ℂ) (gratingOrders (1, 0) k)) = fun _ => 0 := by
      funext k
      simp [fourierCoefficient]
    rw [hz] at h7
    simp [fourierSeries] at h7
    linarith
  · rcases hσ with rfl | rfl <;> simp
  · rcases hσ with rfl | rfl <;> simp

/-- The hypotheses of `C61_phase` hold for the absorbing grating. -/
example : ∃ t, computeTangentFieldNoBatch absorbingGrating (gratingOrders (1, 0)) unitSquare false 0 2 1 = .ok (fun _ _ => t) ∧
    magnitude t = 1 := by
  obtain ⟨d, h1, h2, h3, h4, h5, h6, h7⟩ := axisGrating_hypotheses
  obtain ⟨t, ht, hm, -⟩ := C61_phase _ _ _ false 0 2 1 h1 h2 h3 d 0 (Real.pi / 2) (absorbingGrating_gradient h5) _ h6
    (1 : Fin 6) (0 : Fin 2) h7
  exact ⟨t, ht, hm⟩

/-- The hypotheses of `C60_contrast` hold for the grating. -/
example (method : VectorMethod) :
    computeField method (Matrix.of fun i j => ((2 : ℝ) : ℂ) * axisGrating i j) (gratingOrders (1, 0)) unitSquare 0 2 =
      computeField method axisGrating (gratingOrders (1, 0)) unitSquare 0 2 := by
  obtain ⟨d, h1, h2, h3, h4, h5, h6, h7⟩ := axisGrating_hypotheses
  have hmag : (1e-8 : ℝ) < magnitude fun c => fourierSeries (gratingOrders (1, 0)) (fun k => fourierCoefficient (Matrix.of
      fun i j => (![(d i j * Real.cos 0 : ℂ), (d i j * Real.sin 0 : ℂ)] : Fin 2 → ℂ) c) (gratingOrders (1, 0) k)) 6 2 1 0 := by
    have e : (Matrix.of fun i j => (![(d i j * Real.cos 0 : ℂ), (d i j * Real.sin 0 : ℂ)] : Fin 2 → ℂ) 0) =
        d.map Complex.ofReal := by
      ext i j; simp
    refine lt_of_lt_of_le h7 ?_
    unfold magnitude
    beta_reduce
    rw [e]
    exact Real.le_sqrt_of_sq_le (le_add_of_nonneg_right (sq_nonneg _))
  exact C60_contrast method axisGrating _ unitSquare 0 2 2 two_pos h1 h3 _ h5 (6, 2) h6 (1 : Fin 6) (0 : Fin 2) hmag
    (lt_of_lt_of_le hmag (le_mul_of_one_le_left (Real.sqrt_nonneg _) one_le_two))

/-! ### C74 -/

/-- C74: one Newton step from any starting point reaches the minimiser of the loss, and the minimiser is unique. -/
theorem C74_minimizer [Fintype ι] [DecidableEq ι] (P : LossParams ι nx ny) (hG : Function.Injective P.expansion)
    (hr : Resolves nx ny P.expansion) (hw : ∀ i j, 0 ≤ P.weight i j) (z z' : ι × Fin 2 → ℂ) (h : newtonStep P z = .ok z')
    (y : ι × Fin 2 → ℂ) :
    ∃ a b, fieldLoss P z' = .ok a ∧ fieldLoss P y = .ok b ∧ a ≤ b ∧ (b ≤ a → y = z') :=
  newtonStep_minimizer hG hr hw h y

/-- C74: the point reached does not depend on the starting point. -/
theorem C74_start [Fintype ι] [DecidableEq ι] (P : LossParams ι nx ny) (hG : Function.Injective P.expansion)
    (hr : Resolves nx ny P.expansion) (hw : ∀ i j, 0 ≤ P.weight i j) (y z y' z' : ι × Fin 2 → ℂ)
    (hy : newtonStep P y = .ok y') (hz : newtonStep P z = .ok z') : y' = z' := by
  obtain ⟨a, b, ha, hb, -, h1⟩ := newtonStep_minimizer hG hr hw hz y'
  obtain ⟨a', b', ha', hb', h2, -⟩ := newtonStep_minimizer hG hr hw hy z'
  obtain rfl := ok_inj.1 (hb.symm.trans ha')
  obtain rfl := ok_inj.1 (ha.symm.trans hb')
  exact h1 h2

/-- C74: the step can be carried out whenever one of the penalties has a positive weight, the lattice vectors are
independent and the alignment weight is positive somewhere. -/
theorem C74_solvable [Fintype ι] [DecidableEq ι] (P : LossParams ι nx ny) (hG : Function.Injective P.expansion)
    (hr : Resolves nx ny P.expansion) (hw : ∀ i j, 0 ≤ P.weight i j) (i : Fin nx) (j : Fin ny) (hij : 0 < P.weight i j)
    (hl : Independent P.lattice.u P.lattice.v) (hp : 0 < P.fourierWeight ∨ 0 < P.smoothnessWeight) (z : ι × Fin 2 → ℂ) :
    ∃ z', newtonStep P z = .ok z' :=
  newtonStep_exists hG hr hw hij hl hp z

/-- C74: any positive number of steps gives the same tangent field as one step (errors included). -/
theorem C74_steps [Fintype ι] [DecidableEq ι] (x : Matrix (Fin nx) (Fin ny) ℂ) (G : ι → ℤ × ℤ) (l : LatticeVectors)
    (b : Bool) (fw sw : ℝ) (n : ℕ) (hG : Function.Injective G) :
    computeTangentFieldNoBatch x G l b fw sw (n + 1) = computeTangentFieldNoBatch x G l b fw sw 1 := by
  unfold computeTangentFieldNoBatch
  split_ifs
  · rfl
  · cases hm : doubledMinShape G nx ny with
    | error e => rfl
    | ok m =>
      have e : ∀ grad : VectorField m.1 m.2, ∀ fw sw, tangentFieldOfGradient grad G l b fw sw (n + 1) nx ny =
          tangentFieldOfGradient grad G l b fw sw 1 nx ny := by
        intro grad fw sw
        unfold tangentFieldOfGradient
        rw [optimizedFourierField_steps grad l b fw sw hG (doubledMinShape_resolves hm) n]
      simp only [bind, Except.bind]
      simp only [e]

/-- C74: unless the gradient is one dimensional, the field returned is the normalised Fourier series whose coefficients minimise the
loss, among all coefficients for the expansion; the target of the loss is the unit vector in the direction of the gradient, turned by a right angle
(in the Jones formulation with direct optimisation, the Jones field of that target), and its weight is the magnitude of the gradient. -/
theorem C74_tangent_field [Fintype ι] [DecidableEq ι] {x : Matrix (Fin nx) (Fin ny) ℂ} {G : ι → ℤ × ℤ} {l : LatticeVectors} {b : Bool} {fw sw : ℝ}
    {n : ℕ} (hG : Function.Injective G) (hr : Resolves nx ny G) {t : VectorField nx ny} (h : computeTangentFieldNoBatch x G l b fw sw (n + 1) = .ok t)
    {m : ℕ × ℕ} (hm : doubledMinShape G nx ny = .ok m) {grad : VectorField m.1 m.2} (hgrad : filteredGradient x G l m.1 m.2 = .ok grad)
    {d : Prop × ℝ} (hd : is1dField grad = .ok d) (hd' : ¬d.1) :
    ∃ (direction target : VectorField m.1 m.2) (y : ι × Fin 2 → ℂ),
      (∀ i j, fieldDot (grad i j) (direction i j) = 0 ∧
        (1e-8 < magnitude (grad i j) → magnitude (direction i j) = 1 ∧ ∀ c, magnitude (grad i j) * direction i j c = ![grad i j 1, -grad i j 0] c) ∧
        (magnitude (grad i j) ≤ 1e-8 → direction i j = ![grad i j 1, -grad i j 0])) ∧
      (if b then normalizeJones direction = .ok target else target = direction) ∧
      (∀ z, ∃ p q, fieldLoss ⟨G, l, target, fun i j => magnitude (grad i j), fw / Fintype.card ι, sw / Fintype.card ι⟩ y = .ok p ∧
        fieldLoss ⟨G, l, target, fun i j => magnitude (grad i j), fw / Fintype.card ι, sw / Fintype.card ι⟩ z = .ok q ∧ p ≤ q ∧ (q ≤ p → z = y)) ∧
      normalize (fun i j c => fourierSeries G (fun k => y (k, c)) nx ny i j) = .ok t := by
  classical
  have hmr := doubledMinShape_resolves hm
  have hcard : ¬Fintype.card ι = 0 := by
    have := hr.1
    exact Fintype.card_pos.ne'
  unfold computeTangentFieldNoBatch at h
  rw [if_neg hcard, hm] at h
  simp only [bind, Except.bind] at h
  rw [hgrad] at h
  simp only at h
  unfold tangentFieldOfGradient at h
  rw [hd] at h
  simp only [bind, Except.bind, if_neg hd'] at h
  have hmag : (fun i j => magnitude (grad i j)) = fieldMagnitude grad := by
    funext i j
    rw [fieldMagnitude_eq]
  rw [hmag]
  have hrot : ∀ i j, magnitude (![grad i j 1, -grad i j 0]) = magnitude (grad i j) := by
    intro i j
    unfold magnitude
    simp only [Matrix.cons_val_zero, Matrix.cons_val_one, norm_neg]
    rw [add_comm]
  cases ho : optimizedFourierField grad G l b (fw / Fintype.card ι) (sw / Fintype.card ι) (n + 1) with
  | error e => rw [ho] at h; cases h
  | ok y =>
    rw [ho] at h
    simp only [ifftVector_eq y hG hr] at h
    unfold optimizedFourierField at ho
    obtain ⟨tt, ht, ho⟩ := bind_eq_ok.1 ho
    obtain ⟨y0, hy0, ho⟩ := bind_eq_ok.1 ho
    have hstep := newtonLoop_succ (P := ⟨G, l, tt.1, fieldMagnitude grad, fw / Fintype.card ι, sw / Fintype.card ι⟩) hG hmr (fieldMagnitude_nonneg grad) n y0
    rw [ho] at hstep
    refine ⟨normalizeElementwise fun i j => ![grad i j 1, -grad i j 0], tt.1, y, fun i j => ⟨?_, fun hij => ⟨?_, ?_⟩, fun hij => ?_⟩, ?_,
      fun z => newtonStep_minimizer (P := ⟨G, l, tt.1, fieldMagnitude grad, fw / Fintype.card ι, sw / Fintype.card ι⟩) hG hmr (fieldMagnitude_nonneg grad) hstep.symm z, h⟩
    · by_cases hij : magnitude (grad i j) ≤ 1e-8
      · rw [normalizeElementwise_small (by rw [hrot]; exact hij)]
        simp only [fieldDot, Matrix.cons_val_zero, Matrix.cons_val_one]
        ring
      · rw [normalizeElementwise_large (by rw [hrot]; exact not_le.1 hij)]
        simp only [fieldDot, Matrix.cons_val_zero, Matrix.cons_val_one]
        ring
    · have hpos : 0 < magnitude (grad i j) := lt_trans (by norm_num) hij
      rw [normalizeElementwise_large (by rw [hrot]; exact hij)]
      simp only [hrot]
      unfold magnitude at hpos ⊢
      have hp2 : 0 < ‖grad i j 0‖ ^ 2 + ‖grad i j 1‖ ^ 2 := Real.sqrt_pos.1 hpos
      simp only [norm_div, Complex.norm_real, Real.norm_eq_abs, abs_of_pos hpos, div_pow, Real.sq_sqrt hp2.le, Matrix.cons_val_zero, Matrix.cons_val_one, norm_neg, ← add_div]
      rw [add_comm, div_self hp2.ne', Real.sqrt_one]
    · intro c
      have hpos : (magnitude (grad i j) : ℂ) ≠ 0 := by
        have : 0 < magnitude (grad i j) := lt_trans (by norm_num) hij
        exact_mod_cast this.ne'
      rw [normalizeElementwise_large (by rw [hrot]; exact hij)]
      simp only [hrot]
      field_simp
    · exact normalizeElementwise_small (by rw [hrot]; exact hij)
    · unfold targetAndInitialField at ht
      cases b
      · simp only [Bool.false_eq_true, if_false] at ht ⊢
        obtain ⟨_, -, ht⟩ := bind_eq_ok.1 ht
        rw [← ok_inj.1 ht]
      · simp only [if_true] at ht ⊢
        obtain ⟨q, hq, ht⟩ := bind_eq_ok.1 ht
        rw [← ok_inj.1 ht]
        exact hq

/-- C74: the loss is evaluated on a grid with twice the smallest number of points resolving the expansion along each axis; an axis with a single
point is not doubled. -/
theorem C74_working_grid [Fintype ι] {G : ι → ℤ × ℤ} {m : ℕ × ℕ} (h : doubledMinShape G nx ny = .ok m) :
    ∃ kx ky, m = ((if nx ≤ 1 then 1 else 2) * kx, (if ny ≤ 1 then 1 else 2) * ky) ∧ ∀ px py, Resolves px py G ↔ kx ≤ px ∧ ky ≤ py := by
  unfold doubledMinShape at h
  obtain ⟨k, hk, h⟩ := bind_eq_ok.1 h
  refine ⟨k.1, k.2, ?_, fun px py => C19_min_shape G k hk⟩
  rw [← ok_inj.1 h]
  by_cases hx : 1 < nx <;> by_cases hy : 1 < ny <;> simp [hx, hy, not_le.2, not_lt.1, mul_comm] <;> omega

example : doubledMinShape (gratingOrders (1, 0)) 4 1 = .ok (6, 1) ∧ ∃ kx ky, (6, 1) = ((if 4 ≤ 1 then 1 else 2) * kx, (if 1 ≤ 1 then 1 else 2) * ky) ∧
    ∀ px py, Resolves px py (gratingOrders (1, 0)) ↔ kx ≤ px ∧ ky ≤ py := by
  have h : doubledMinShape (gratingOrders (1, 0)) 4 1 = .ok (6, 1) := by
    unfold doubledMinShape minArrayShapeForExpansion
    simp [gratingOrders, bind, Except.bind]
    decide
  exact ⟨h, C74_working_grid h⟩

/-- C61: the tangent field of a pattern with a single gridpoint along one axis is a constant, real unit vector, whatever the pattern, the formulation and the weights are. -/
theorem C61_singleton_axis [Fintype ι] [DecidableEq ι] (x : Matrix (Fin nx) (Fin ny) ℂ) {G : ι → ℤ × ℤ} {l : LatticeVectors} (b : Bool) (fw sw : ℝ) (n : ℕ)
    (hG : Function.Injective G) (hr : Resolves nx ny G) (hl : Independent l.u l.v) (h1 : nx = 1 ∨ ny = 1) :
    ∃ a : ℝ, computeTangentFieldNoBatch x G l b fw sw n = .ok fun _ _ => ![(Real.sin a : ℂ), (Real.cos a : ℂ)] := by
  classical
  obtain ⟨hx, hy⟩ := hr.pos
  have : NeZero nx := ⟨hx.ne'⟩
  have : NeZero ny := ⟨hy.ne'⟩
  have := hr.1
  have hcard : 0 < Fintype.card ι := Fintype.card_pos
  have hm : ∃ m, doubledMinShape G nx ny = .ok m := by
    unfold doubledMinShape minArrayShapeForExpansion
    rw [if_neg hcard.ne']
    exact ⟨_, rfl⟩
  obtain ⟨m, hm⟩ := hm
  have hmr := doubledMinShape_resolves hm
  obtain ⟨mx, my⟩ := hmr.pos
  have hm1 : m.1 = 1 ∨ m.2 = 1 := by
    obtain ⟨kx, ky, e, hk⟩ := C74_working_grid hm
    obtain ⟨r1, r2⟩ := (hk nx ny).1 hr
    rw [e] at mx my ⊢
    simp only at mx my ⊢
    rcases h1 with h1 | h1
    · left
      rw [h1] at mx r1 ⊢
      simp only [le_refl, if_true] at mx ⊢
      omega
    · right
      rw [h1] at my r2 ⊢
      simp only [le_refl, if_true] at my ⊢
      omega
  obtain ⟨g, hg⟩ := computeGradient_exists x hl
  obtain ⟨grad, hgrad⟩ := normalize_exists mx my fun r s c =>
    fourierSeries G (fun k => fourierCoefficient (Matrix.of fun i j => g i j c) (G k)) m.1 m.2 r s
  have hfil : filteredGradient x G l m.1 m.2 = .ok grad := by
    unfold filteredGradient
    rw [bandlimitedGradient_eq hG hg hr hmr]
    exact hgrad
  obtain ⟨P, a, hP, hP'⟩ : ∃ P a, is1dField grad = .ok (P, a) ∧ P := by
    obtain ⟨r, h, -⟩ := is1dField_exists mx my grad
    unfold is1dField at h ⊢
    obtain ⟨ref, href, -⟩ := bind_eq_ok.1 h
    rw [href]
    exact ⟨_, _, rfl, Or.inr hm1⟩
  refine ⟨a, ?_⟩
  unfold computeTangentFieldNoBatch
  rw [if_neg hcard.ne', hm]
  simp only [bind, Except.bind]
  rw [hfil]
  simp only
  unfold tangentFieldOfGradient
  rw [hP]
  simp only [bind, Except.bind, if_pos hP']
  have hunit : maxFieldMagnitude (fun _ _ => ![(Real.sin a : ℂ), (Real.cos a : ℂ)] : VectorField nx ny) = .ok 1 := by
    have : magnitude ![(Real.sin a : ℂ), (Real.cos a : ℂ)] = 1 := by
      unfold magnitude
      simp only [Matrix.cons_val_zero, Matrix.cons_val_one, Complex.norm_real, Real.norm_eq_abs, sq_abs]
      rw [Real.sin_sq_add_cos_sq, Real.sqrt_one]
    rw [maxFieldMagnitude_eq_ok]
    exact ⟨fun _ _ => this.le, ⟨0, hx⟩, ⟨0, hy⟩, this⟩
  rw [normalize_large hunit (by norm_num)]
  refine congrArg Except.ok ?_
  funext i j c
  rw [Complex.ofReal_one, div_one]

/-- C61: a pattern with twelve gridpoints along the first axis and one along the second. -/
example : Function.Injective (gratingOrders (1, 0)) ∧ Resolves 12 1 (gratingOrders (1, 0)) ∧ Independent unitSquare.u unitSquare.v ∧ (12 = 1 ∨ 1 = 1) := by
  obtain ⟨d, h1, -⟩ := axisGrating_hypotheses
  refine ⟨h1, ⟨⟨0⟩, fun i => ?_⟩, by norm_num [Independent, unitSquare], Or.inr rfl⟩
  fin_cases i <;> simp [gratingOrders]

/-- C74: without Newton steps the field returned is the initial field, restricted to the orders of the expansion and normalised: the gradient turned by a
right angle and normalised, or in the Jones formulation with direct optimisation the target. -/
theorem C74_no_steps [Fintype ι] [DecidableEq ι] {x : Matrix (Fin nx) (Fin ny) ℂ} {G : ι → ℤ × ℤ} {l : LatticeVectors} {b : Bool} {fw sw : ℝ}
    (hG : Function.Injective G) (hr : Resolves nx ny G) {t : VectorField nx ny} (h : computeTangentFieldNoBatch x G l b fw sw 0 = .ok t)
    {m : ℕ × ℕ} (hm : doubledMinShape G nx ny = .ok m) {grad : VectorField m.1 m.2} (hgrad : filteredGradient x G l m.1 m.2 = .ok grad)
    {d : Prop × ℝ} (hd : is1dField grad = .ok d) (hd' : ¬d.1) :
    ∃ initial : VectorField m.1 m.2,
      (if b then normalizeJones (normalizeElementwise fun i j => ![grad i j 1, -grad i j 0]) = .ok initial
        else normalize (fun i j => ![grad i j 1, -grad i j 0]) = .ok initial) ∧
      normalize (fun i j c => fourierSeries G (fun k => fourierCoefficient (Matrix.of fun p q => initial p q c) (G k)) nx ny i j) = .ok t := by
  classical
  have hmr := doubledMinShape_resolves hm
  have hcard : ¬Fintype.card ι = 0 := by
    have := hr.1
    exact Fintype.card_pos.ne'
  unfold computeTangentFieldNoBatch at h
  rw [if_neg hcard, hm] at h
  simp only [bind, Except.bind] at h
  rw [hgrad] at h
  simp only at h
  unfold tangentFieldOfGradient at h
  rw [hd] at h
  simp only [bind, Except.bind, if_neg hd'] at h
  cases ho : optimizedFourierField grad G l b (fw / Fintype.card ι) (sw / Fintype.card ι) 0 with
  | error e => rw [ho] at h; cases h
  | ok y =>
    rw [ho] at h
    simp only [ifftVector_eq y hG hr] at h
    unfold optimizedFourierField at ho
    obtain ⟨tt, ht, ho⟩ := bind_eq_ok.1 ho
    obtain ⟨y0, hy0, ho⟩ := bind_eq_ok.1 ho
    unfold newtonLoop at ho
    rw [ok_inj] at ho
    subst ho
    unfold fftVector at hy0
    rw [fft_eq _ hmr, fft_eq _ hmr] at hy0
    simp only [bind, Except.bind, ok_inj] at hy0
    refine ⟨tt.2, ?_, ?_⟩
    · unfold targetAndInitialField at ht
      cases b
      · simp only [Bool.false_eq_true, if_false] at ht ⊢
        obtain ⟨q, hq, ht⟩ := bind_eq_ok.1 ht
        rw [← ok_inj.1 ht]
        exact hq
      · simp only [if_true] at ht ⊢
        obtain ⟨q, hq, ht⟩ := bind_eq_ok.1 ht
        rw [← ok_inj.1 ht]
        exact hq
    · rw [← h]
      congr 1
      funext i j c
      rw [← hy0]
      unfold seriesMap
      fin_cases c <;> simp [fourierSeries]

/-- Two values whose phases differ by a third of `π` do not have the same direction within the tolerance. -/
theorem angle_not_close {w z : ℂ} (hw : ‖w‖ = 1) (h : z = w * Complex.exp ((Real.pi / 3 : ℝ) * Complex.I)) (k : ℤ) (hk : |(k : ℝ)| ≤ 2) :
    ¬ IsClose (angleSafe z) (angleSafe w + k * Real.pi) atol1dFieldAngle := by
  have hz : ‖z‖ = 1 := by rw [h, norm_mul, hw, Complex.norm_exp_ofReal_mul_I, one_mul]
  have ra := Complex.norm_mul_cos_arg z
  have ia := Complex.norm_mul_sin_arg z
  have rb := Complex.norm_mul_cos_arg w
  have ib := Complex.norm_mul_sin_arg w
  rw [hz, one_mul] at ra ia
  rw [hw, one_mul] at rb ib
  have hw2 : w.re ^ 2 + w.im ^ 2 = 1 := by rw [← rb, ← ib]; exact Real.cos_sq_add_sin_sq _
  rw [angleSafe_large (by rw [hz]; norm_num), angleSafe_large (by rw [hw]; norm_num)]
  intro hc
  have h1 : Real.sin (Complex.arg z - Complex.arg w) = Real.sin (Real.pi / 3) := by
    rw [Real.sin_sub, ra, ia, rb, ib, h, Complex.exp_mul_I, ← Complex.ofReal_cos, ← Complex.ofReal_sin]
    simp only [Complex.mul_re, Complex.mul_im, Complex.add_re, Complex.add_im, Complex.ofReal_re, Complex.ofReal_im, Complex.I_re, Complex.I_im]
    linear_combination Real.sin (Real.pi / 3) * hw2
  have h2 : Real.sin (Complex.arg z - (Complex.arg w + k * Real.pi)) ^ 2 = 3 / 4 := by
    rw [← sub_sub, Real.sin_sub_int_mul_pi, mul_pow, ← zpow_natCast, ← zpow_mul, mul_comm k, zpow_mul, h1, Real.sin_pi_div_three, div_pow, Real.sq_sqrt (by norm_num)]
    norm_num
  have h3 : |Real.sin (Complex.arg z - (Complex.arg w + k * Real.pi))| ≤ |Complex.arg z - (Complex.arg w + k * Real.pi)| := Real.abs_sin_le_abs
  have h4 : |Complex.arg w + k * Real.pi| ≤ 12 := by
    have hp := Real.pi_lt_four
    have hp0 := Real.pi_pos
    have h5 := abs_add_le (Complex.arg w) (k * Real.pi)
    have h6 := Complex.abs_arg_le_pi w
    rw [abs_mul, abs_of_pos hp0] at h5
    nlinarith
  have h5 : |Complex.arg z - (Complex.arg w + k * Real.pi)| ≤ 0.02 := by
    unfold IsClose atol1dFieldAngle at hc
    rw [Real.norm_eq_abs, Real.norm_eq_abs] at hc
    linarith
  rw [← sq_abs] at h2
  nlinarith [abs_nonneg (Real.sin (Complex.arg z - (Complex.arg w + k * Real.pi)))]

/-- A pattern whose phase rotates along the first axis. -/
noncomputable def helicalGrating : Matrix (Fin 4) (Fin 4) ℂ := Matrix.of fun i _ => Complex.I ^ (i : ℕ)

/-- The hypotheses of `C74_tangent_field` hold for the pattern with rotating phase: its gradient is not one dimensional. -/
theorem helicalGrating_hypotheses :
    Function.Injective (gratingOrders (1, 0)) ∧ Resolves 4 4 (gratingOrders (1, 0)) ∧
    doubledMinShape (gratingOrders (1, 0)) 4 4 = .ok (6, 2) ∧
    ∃ grad, filteredGradient helicalGrating (gratingOrders (1, 0)) unitSquare 6 2 = .ok grad ∧
      (∀ i j, grad i j 1 = 0 ∧ magnitude (grad i j) = 1) ∧ ∃ d, is1dField grad = .ok d ∧ ¬d.1 := by
  obtain ⟨-, h1, h2, h3, -, -, h6, -⟩ := axisGrating_hypotheses
  have hm : Resolves 6 2 (gratingOrders (1, 0)) := by
    refine ⟨⟨0⟩, fun i => ?_⟩
    fin_cases i <;> simp [gratingOrders]
  have hpw : ∀ i j : Fin 4, planeWave 4 4 (1, 0) i j = Complex.I ^ (i : ℕ) := by
    intro i j
    rw [← exp_quarter]
    unfold planeWave
    congr 1
    push_cast
    ring
  have hg : computeGradient helicalGrating unitSquare = .ok fun i j => ![4 * Complex.I * Complex.I ^ (i : ℕ), 0] := by
    rw [computeGradient_eq_ok]
    refine ⟨by unfold Independent unitSquare; norm_num, fun i j => ?_⟩
    have h3 : Complex.I ^ 3 = -Complex.I := Complex.I_pow_three
    have h2 : Complex.I ^ 2 = -1 := Complex.I_sq
    have hI : Complex.I * Complex.I = -1 := Complex.I_mul_I
    simp only [helicalGrating, unitSquare, Matrix.of_apply, Matrix.cons_val_zero, Matrix.cons_val_one]
    have hs : (Complex.I ^ ((i + 1 : Fin 4) : ℕ) - Complex.I ^ ((i - 1 : Fin 4) : ℕ)) = 2 * Complex.I * Complex.I ^ (i : ℕ) := by
      fin_cases i <;> simp [h2, h3, mul_assoc, hI] <;> ring
    rw [hs]
    norm_num
    ring
  have hs : ∀ c : Fin 2, (Matrix.of fun i j => (![4 * Complex.I * Complex.I ^ (i : ℕ), 0] : Fin 2 → ℂ) c : Matrix (Fin 4) (Fin 4) ℂ) =
      fourierSeries (gratingOrders (1, 0)) (if c = 0 then ![0, 4 * Complex.I, 0] else 0) 4 4 := by
    intro c
    ext i j
    unfold fourierSeries
    fin_cases c
    · simp [Fin.sum_univ_three, gratingOrders, hpw]
    · simp
  have hband : bandlimitedGradient helicalGrating (gratingOrders (1, 0)) unitSquare 6 2 = .ok fun i j => ![4 * (Complex.I * planeWave 6 2 (1, 0) i j), 0] := by
    rw [bandlimitedGradient_eq h1 hg h3 hm]
    refine congrArg Except.ok ?_
    funext r s c
    simp only [hs, fourierCoefficient_series h3 h1]
    unfold fourierSeries
    fin_cases c
    · simp [Fin.sum_univ_three, gratingOrders, mul_assoc]
    · simp
  have hnorm : ∀ i j : ℕ, ‖Complex.I * planeWave 6 2 (1, 0) i j‖ = 1 := by
    intro i j
    unfold planeWave
    rw [norm_mul, Complex.norm_I, one_mul, show (2 * Real.pi * Complex.I * (((1 : ℤ) : ℂ) * (i : ℂ) / ((6 : ℕ) : ℂ) + ((0 : ℤ) : ℂ) * (j : ℂ) / ((2 : ℕ) : ℂ)) : ℂ) =
      ((2 * Real.pi * i / 6 : ℝ) : ℂ) * Complex.I by push_cast; ring]
    exact Complex.norm_exp_ofReal_mul_I _
  have hmax : maxFieldMagnitude (fun i j => ![4 * (Complex.I * planeWave 6 2 (1, 0) i j), 0] : VectorField 6 2) = .ok 4 := by
    have : ∀ i j : ℕ, magnitude ![4 * (Complex.I * planeWave 6 2 (1, 0) i j), 0] = 4 := by
      intro i j
      unfold magnitude
      simp only [Matrix.cons_val_zero, Matrix.cons_val_one, norm_zero]
      rw [norm_mul, hnorm, show ‖(4 : ℂ)‖ = 4 by norm_num]
      rw [show ((4 : ℝ) * 1) ^ 2 + 0 ^ 2 = 4 ^ 2 by norm_num]
      exact Real.sqrt_sq (by norm_num)
    rw [maxFieldMagnitude_eq_ok]
    exact ⟨fun _ _ => (this _ _).le, 0, 0, this _ _⟩
  have hfil : filteredGradient helicalGrating (gratingOrders (1, 0)) unitSquare 6 2 = .ok fun i j => ![Complex.I * planeWave 6 2 (1, 0) i j, 0] := by
    unfold filteredGradient
    rw [hband]
    simp only [bind, Except.bind]
    rw [normalize_large hmax (by norm_num)]
    refine congrArg Except.ok ?_
    funext r s c
    fin_cases c
    · change 4 * _ / _ = _
      push_cast
      simp
    · change (0 : ℂ) / _ = _
      simp
  refine ⟨h1, h3, h6, _, hfil, fun i j => ⟨rfl, ?_⟩, ?_⟩
  · unfold magnitude
    simp only [Matrix.cons_val_zero, Matrix.cons_val_one, hnorm]
    norm_num
  unfold is1dField fieldAtMaxMagnitude
  cases h : (List.finRange 6 ×ˢ List.finRange 2).argmax (fun p => fieldMagnitude (fun i j => ![Complex.I * planeWave 6 2 (1, 0) i j, 0]) p.1 p.2) with
  | none =>
    rw [List.argmax_eq_none] at h
    exact absurd h (by decide)
  | some p =>
    refine ⟨_, rfl, ?_⟩
    simp only [Matrix.cons_val_zero, Matrix.cons_val_one, mul_zero, add_zero]
    rintro (hall | h | h)
    · have := hall (p.1 + 1) p.2
      have hstep : Complex.I * planeWave 6 2 (1, 0) (p.1 + 1 : Fin 6) p.2 = Complex.I * planeWave 6 2 (1, 0) p.1 p.2 * Complex.exp ((Real.pi / 3 : ℝ) * Complex.I) := by
        rw [mul_assoc]
        congr 1
        have key : planeWave 6 2 (1, 0) (p.1 + 1 : Fin 6) p.2 = planeWave 6 2 (1, 0) ((p.1 : ℕ) + 1) p.2 := by
          by_cases h5 : (p.1 : ℕ) = 5
          · have e0 : ((p.1 + 1 : Fin 6) : ℕ) = 0 := by
              rw [Fin.val_add, h5]
              rfl
            rw [e0, h5]
            unfold planeWave
            rw [show (2 * Real.pi * Complex.I * (((1 : ℤ) : ℂ) * ((5 + 1 : ℕ) : ℂ) / ((6 : ℕ) : ℂ) + ((0 : ℤ) : ℂ) * ((p.2 : ℕ) : ℂ) / ((2 : ℕ) : ℂ)) : ℂ) = 2 * Real.pi * Complex.I by
              push_cast; ring, Complex.exp_two_pi_mul_I]
            simp
          · have e0 : ((p.1 + 1 : Fin 6) : ℕ) = (p.1 : ℕ) + 1 := by
              have := p.1.is_lt
              rw [Fin.val_add]
              exact Nat.mod_eq_of_lt (show (p.1 : ℕ) + 1 < 6 by omega)
            rw [e0]
        rw [key]
        unfold planeWave
        rw [← Complex.exp_add]
        congr 1
        push_cast
        ring
      have hn := angle_not_close (hnorm p.1 p.2) hstep
      rcases this with h | h | h | h | h | h
      · rw [fieldMagnitude_eq, isClose_zero_iff (magnitude_nonneg _)] at h
        unfold magnitude at h
        simp only [Matrix.cons_val_zero, Matrix.cons_val_one, hnorm] at h
        norm_num at h
      · exact hn (-2) (by norm_num) (by push_cast; rw [neg_mul, ← sub_eq_add_neg]; exact h)
      · exact hn (-1) (by norm_num) (by push_cast; rw [neg_mul, ← sub_eq_add_neg]; exact h)
      · exact hn 0 (by norm_num) (by push_cast; rw [zero_mul, add_zero]; exact h)
      · exact hn 1 (by norm_num) (by push_cast; exact h)
      · exact hn 2 (by norm_num) (by push_cast; exact h)
    · omega
    · omega

example (b : Bool) : ∃ (t : VectorField 4 4) (direction : VectorField 6 2),
    computeTangentFieldNoBatch helicalGrating (gratingOrders (1, 0)) unitSquare b 0 2 1 = .ok t ∧
    (∀ i j, direction i j 0 = 0 ∧ magnitude (direction i j) = 1) := by
  obtain ⟨h1, h2, h3, grad, h4, hg, d, h5, h6⟩ := helicalGrating_hypotheses
  obtain ⟨t, ht⟩ := computeTangentField_exists helicalGrating b 0 h1 h2 (l := unitSquare) (by unfold Independent unitSquare; norm_num) (Or.inr two_pos) (fw := 0) (sw := 2)
  obtain ⟨direction, target, y, hdir, -⟩ := C74_tangent_field h1 h2 ht h3 h4 h5 h6
  refine ⟨t, direction, ht, fun i j => ?_⟩
  obtain ⟨-, hd, -⟩ := hdir i j
  obtain ⟨e1, e2⟩ := hd (by rw [(hg i j).2]; norm_num)
  have := e2 0
  rw [(hg i j).2, (hg i j).1] at this
  exact ⟨by simpa using this, e1⟩

/-- C74: without Newton steps, for the pattern with rotating phase. -/
example : ∃ (t : VectorField 4 4) (initial : VectorField 6 2), computeTangentFieldNoBatch helicalGrating (gratingOrders (1, 0)) unitSquare false 0 2 0 = .ok t ∧
    normalize (fun i j c => fourierSeries (gratingOrders (1, 0)) (fun k => fourierCoefficient (Matrix.of fun (p : Fin 6) (q : Fin 2) => initial p q c)
      (gratingOrders (1, 0) k)) 4 4 i j) = .ok t := by
  obtain ⟨h1, h2, h3, grad, h4, hg, d, h5, h6⟩ := helicalGrating_hypotheses
  obtain ⟨t, ht⟩ := computeTangentField_exists_steps helicalGrating false 0 h1 h2 (l := unitSquare) (by unfold Independent unitSquare; norm_num) (Or.inr two_pos) (fw := 0) (sw := 2)
  obtain ⟨initial, -, h⟩ := C74_no_steps h1 h2 ht h3 h4 h5 h6
  exact ⟨t, initial, ht, h⟩

example : ∃ P : LossParams (Fin 3) 4 4, Function.Injective P.expansion ∧ Resolves 4 4 P.expansion ∧
    (∀ i j, 0 ≤ P.weight i j) ∧ 0 < P.weight 0 0 ∧ Independent P.lattice.u P.lattice.v ∧ 0 < P.smoothnessWeight ∧
    ∃ z', newtonStep P 0 = .ok z' := by
  obtain ⟨d, h1, h2, h3, -⟩ := axisGrating_hypotheses
  have hl : Independent unitSquare.u unitSquare.v := by unfold Independent unitSquare; norm_num
  refine ⟨⟨gratingOrders (1, 0), unitSquare, fun _ _ => ![1, 0], fun _ _ => 1, 0, 2⟩, h1, h3, fun _ _ => zero_le_one,
    one_pos, hl, two_pos, ?_⟩
  exact C74_solvable ⟨gratingOrders (1, 0), unitSquare, fun _ _ => ![1, 0], fun _ _ => 1, 0, 2⟩ h1 h3
    (fun _ _ => zero_le_one) (0 : Fin 4) (0 : Fin 4) one_pos hl (Or.inr two_pos) 0

/-! ### C75 -/

/-- C75: on every array, for every expansion with distinct orders that the grid resolves and every non-degenerate lattice,
all methods return a finite field if one of the penalties has a positive weight. -/
theorem C75_finite [Fintype ι] [DecidableEq ι] (method : VectorMethod) (x : Matrix (Fin nx) (Fin ny) ℂ) (G : ι → ℤ × ℤ)
    (l : LatticeVectors) (fw sw : ℝ) (hG : Function.Injective G) (hr : Resolves nx ny G) (hl : Independent l.u l.v)
    (hp : 0 < fw ∨ 0 < sw) : ∃ t, computeField method x G l fw sw = .ok t := by
  obtain ⟨hx, hy⟩ := hr.pos
  obtain ⟨t1, h1⟩ := computeTangentField_exists x true 0 hG hr hl hp
  obtain ⟨t0, h0⟩ := computeTangentField_exists x false 0 hG hr hl hp
  cases method
  · exact ⟨t1, h1⟩
  · exact ⟨t0, h0⟩
  · obtain ⟨t, ht⟩ := normalizeJones_exists hx hy t0
    refine ⟨t, ?_⟩
    unfold computeField
    simp only [bind, Except.bind]
    rw [h0]
    exact ht
  · refine ⟨normalizeElementwise t0, ?_⟩
    unfold computeField
    simp only [bind, Except.bind]
    rw [h0]

/-- C75: in particular every named scheme returns a finite field. -/
theorem C75_schemes [Fintype ι] [DecidableEq ι] (x : Matrix (Fin nx) (Fin ny) ℂ) (G : ι → ℤ × ℤ)
    (l : LatticeVectors) (hG : Function.Injective G) (hr : Resolves nx ny G) (hl : Independent l.u l.v)
    (name : String) (method : VectorMethod) (fw sw : ℝ) (h : (name, method, fw, sw) ∈ vectorFieldSchemes) :
    ∃ t, computeField method x G l fw sw = .ok t := by
  refine C75_finite method x G l fw sw hG hr hl ?_
  simp only [vectorFieldSchemes, List.mem_cons, Prod.mk.injEq, List.not_mem_nil, or_false] at h
  rcases h with h | h | h | h | h | h | h | h <;> obtain ⟨-, -, rfl, rfl⟩ := h <;> norm_num

example : ∃ t, computeField .jones (Matrix.of fun i j => ((i : ℕ) * (j : ℕ) : ℂ) : Matrix (Fin 5) (Fin 4) ℂ)
    (gratingOrders (1, 1)) ⟨(1, 0), (1 / 2, 1)⟩ 0 2 = .ok t := by
  refine C75_schemes _ _ _ (gratingOrders_injective (by decide)) ?_ (by unfold Independent; norm_num) "jones" .jones 0 2
    (by simp [vectorFieldSchemes])
  refine ⟨⟨0⟩, fun i => ?_⟩
  fin_cases i <;> simp [gratingOrders]

/-- The hypotheses of `C57_fields` hold for every scheme. -/
example : ∃ t, computeField .normal (Matrix.of fun i j => ((i : ℕ) * (j : ℕ) : ℂ) : Matrix (Fin 5) (Fin 4) ℂ)
    (gratingOrders (1, 1)) ⟨(1, 0), (1 / 2, 1)⟩ 0 2 = .ok t ∧
    ∀ i j, magnitude (t i j) = 1 ∨ magnitude (t i j) ≤ 1e-8 := by
  obtain ⟨t, ht⟩ := C75_finite .normal (Matrix.of fun i j => ((i : ℕ) * (j : ℕ) : ℂ) : Matrix (Fin 5) (Fin 4) ℂ)
    (gratingOrders (1, 1)) ⟨(1, 0), (1 / 2, 1)⟩ 0 2 (gratingOrders_injective (by decide))
    (by refine ⟨⟨0⟩, fun i => ?_⟩; fin_cases i <;> simp [gratingOrders]) (by unfold Independent; norm_num) (Or.inr two_pos)
  exact ⟨t, ht, fun i j => (C57_fields _ _ _ _ _ t i j).2.2 ht⟩

end Fmmax
