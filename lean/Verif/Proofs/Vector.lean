import Verif.Model.Vector
import Verif.Proofs.Basic
import Verif.Proofs.Fft
import Verif.Spec.VectorField
import Verif.Spec.Lattice

/-! Lemmas about the tangent field computation. -/

namespace Fmmax

open Matrix Spec

variable {nx ny : ℕ} {ι : Type}

theorem fieldMagnitude_eq (f : VectorField nx ny) (i : Fin nx) (j : Fin ny) :
    fieldMagnitude f i j = magnitude (f i j) := by
  unfold fieldMagnitude magnitude
  simp only [Fin.sum_univ_two]
  by_cases h : ‖f i j 0‖ ^ 2 + ‖f i j 1‖ ^ 2 = 0
  · simp only [h, if_true, Real.sqrt_zero]
  · simp only [h, if_false]

theorem magnitude_nonneg (t : Fin 2 → ℂ) : 0 ≤ magnitude t := Real.sqrt_nonneg _

theorem magnitude_sq (t : Fin 2 → ℂ) : magnitude t ^ 2 = ‖t 0‖ ^ 2 + ‖t 1‖ ^ 2 :=
  Real.sq_sqrt (by positivity)

theorem magnitude_eq_zero {t : Fin 2 → ℂ} : magnitude t = 0 ↔ t = 0 := by
  rw [← sq_eq_zero_iff, magnitude_sq]
  constructor
  · intro h
    have h0 : ‖t 0‖ ^ 2 = 0 := by nlinarith [sq_nonneg ‖t 0‖, sq_nonneg ‖t 1‖]
    have h1 : ‖t 1‖ ^ 2 = 0 := by nlinarith [sq_nonneg ‖t 0‖, sq_nonneg ‖t 1‖]
    funext c
    fin_cases c
    · simpa using h0
    · simpa using h1
  · rintro rfl; simp

theorem magnitude_mul (w : ℂ) (t : Fin 2 → ℂ) : magnitude (fun c => w * t c) = ‖w‖ * magnitude t := by
  unfold magnitude
  simp only [norm_mul, mul_pow]
  rw [← mul_add, Real.sqrt_mul (by positivity), Real.sqrt_sq (norm_nonneg _)]

theorem magnitude_div (r : ℝ) (hr : 0 < r) (t : Fin 2 → ℂ) : magnitude (fun c => t c / (r : ℂ)) = magnitude t / r := by
  have := magnitude_mul (r : ℂ)⁻¹ t
  simp only [norm_inv, Complex.norm_real, Real.norm_eq_abs, abs_of_pos hr] at this
  rw [div_eq_inv_mul, ← this]
  congr 1; funext c; rw [div_eq_inv_mul]

theorem isClose_zero_iff {r : ℝ} (hr : 0 ≤ r) : IsClose r 0 ↔ r ≤ 1e-8 := by
  unfold IsClose
  simp [abs_of_nonneg hr]

theorem isClose_zero_complex {x : ℂ} : IsClose x 0 ↔ ‖x‖ ≤ 1e-8 := by
  unfold IsClose
  simp

theorem maxFieldMagnitude_eq_ok {f : VectorField nx ny} {m : ℝ} :
    maxFieldMagnitude f = .ok m ↔ (∀ i j, magnitude (f i j) ≤ m) ∧ ∃ i j, magnitude (f i j) = m := by
  classical
  unfold maxFieldMagnitude
  by_cases h : (Finset.univ : Finset (Fin nx × Fin ny)).Nonempty
  · simp only [h, dif_pos, Except.ok.injEq, fieldMagnitude_eq]
    obtain ⟨p, _, hp⟩ := Finset.exists_mem_eq_sup' h (fun p : Fin nx × Fin ny => magnitude (f p.1 p.2))
    constructor
    · rintro rfl
      refine ⟨fun i j => Finset.le_sup' (fun p : Fin nx × Fin ny => magnitude (f p.1 p.2)) (Finset.mem_univ (i, j)), ?_⟩
      exact ⟨p.1, p.2, hp.symm⟩
    · rintro ⟨h1, i, j, h2⟩
      apply le_antisymm
      · exact Finset.sup'_le _ _ fun p _ => h1 _ _
      · rw [← h2]
        exact Finset.le_sup' (fun p : Fin nx × Fin ny => magnitude (f p.1 p.2)) (Finset.mem_univ (i, j))
  · simp only [h, dif_neg, not_false_eq_true, reduceCtorEq, false_iff]
    rintro ⟨_, i, j, _⟩
    exact h ⟨(i, j), Finset.mem_univ _⟩

theorem maxFieldMagnitude_exists (hx : 0 < nx) (hy : 0 < ny) (f : VectorField nx ny) : ∃ m, maxFieldMagnitude f = .ok m := by
  unfold maxFieldMagnitude
  rw [dif_pos ⟨(⟨0, hx⟩, ⟨0, hy⟩), Finset.mem_univ _⟩]
  exact ⟨_, rfl⟩

theorem maxFieldMagnitude_nonneg {f : VectorField nx ny} {m : ℝ} (h : maxFieldMagnitude f = .ok m) : 0 ≤ m := by
  obtain ⟨_, i, j, h⟩ := maxFieldMagnitude_eq_ok.1 h
  rw [← h]; exact magnitude_nonneg _

/-- `normalize` divides by a positive number. -/
theorem normalize_eq_ok {f g : VectorField nx ny} (h : normalize f = .ok g) :
    ∃ m, maxFieldMagnitude f = .ok m ∧
      ((m ≤ 1e-8 ∧ g = f) ∨ (1e-8 < m ∧ g = fun i j c => f i j c / (m : ℂ))) := by
  classical
  unfold normalize at h
  obtain ⟨m, hm, h⟩ := bind_eq_ok.1 h
  have hm0 := maxFieldMagnitude_nonneg hm
  refine ⟨m, hm, ?_⟩
  have h := (ok_inj.1 h).symm
  by_cases hc : m ≤ 1e-8
  · left
    refine ⟨hc, h.trans ?_⟩
    funext i j c
    simp only [(isClose_zero_iff hm0).2 hc, if_true, Complex.ofReal_one, div_one]
  · right
    refine ⟨not_le.1 hc, h.trans ?_⟩
    have hc' : ¬ IsClose m 0 := fun h' => hc ((isClose_zero_iff hm0).1 h')
    funext i j c
    simp only [hc', if_false]

theorem normalize_small {f : VectorField nx ny} {m : ℝ} (h : maxFieldMagnitude f = .ok m) (hm : m ≤ 1e-8) :
    normalize f = .ok f := by
  classical
  have hm0 := maxFieldMagnitude_nonneg h
  unfold normalize
  rw [h]
  refine congrArg Except.ok ?_
  funext i j c
  simp only [(isClose_zero_iff hm0).2 hm, if_true, Complex.ofReal_one, div_one]

theorem normalize_large {f : VectorField nx ny} {m : ℝ} (h : maxFieldMagnitude f = .ok m) (hm : 1e-8 < m) :
    normalize f = .ok fun i j c => f i j c / (m : ℂ) := by
  classical
  have hm0 := maxFieldMagnitude_nonneg h
  have hc' : ¬ IsClose m 0 := fun h' => absurd ((isClose_zero_iff hm0).1 h') (not_le.2 hm)
  unfold normalize
  rw [h]
  refine congrArg Except.ok ?_
  funext i j c
  simp only [hc', if_false]

theorem normalize_idem {f g : VectorField nx ny} (h : normalize f = .ok g) : normalize g = .ok g := by
  obtain ⟨m, hm, ⟨h1, rfl⟩ | ⟨h1, rfl⟩⟩ := normalize_eq_ok h
  · exact h
  · have hpos : 0 < m := lt_trans (by norm_num) h1
    have : maxFieldMagnitude (fun i j c => f i j c / (m : ℂ)) = .ok 1 := by
      rw [maxFieldMagnitude_eq_ok] at hm ⊢
      obtain ⟨ha, i, j, hb⟩ := hm
      refine ⟨fun i j => ?_, i, j, ?_⟩
      · rw [magnitude_div m hpos, div_le_one hpos]; exact ha i j
      · rw [magnitude_div m hpos, hb, div_self hpos.ne']
    rw [normalize_large this (by norm_num)]
    simp

/-- A positive multiple has the same normalisation, if neither is negligible. -/
theorem normalize_smul {f : VectorField nx ny} {m r : ℝ} (hr : 0 < r) (h : maxFieldMagnitude f = .ok m) (h1 : 1e-8 < m)
    (h2 : 1e-8 < r * m) : normalize (fun i j c => (r : ℂ) * f i j c) = normalize f := by
  have hpos : 0 < m := lt_trans (by norm_num) h1
  have h' : maxFieldMagnitude (fun i j c => (r : ℂ) * f i j c) = .ok (r * m) := by
    rw [maxFieldMagnitude_eq_ok] at h ⊢
    obtain ⟨ha, i, j, hb⟩ := h
    have e : ‖(r : ℂ)‖ = r := by rw [Complex.norm_real, Real.norm_eq_abs, abs_of_pos hr]
    refine ⟨fun i j => ?_, i, j, ?_⟩
    · rw [magnitude_mul, e]; exact mul_le_mul_of_nonneg_left (ha i j) hr.le
    · rw [magnitude_mul, e, hb]
  rw [normalize_large h h1, normalize_large h' h2]
  refine congrArg Except.ok ?_
  funext i j c
  have : (r : ℂ) ≠ 0 := by exact_mod_cast hr.ne'
  rw [Complex.ofReal_mul, mul_div_mul_left _ _ this]

theorem normalizeElementwise_small {f : VectorField nx ny} {i : Fin nx} {j : Fin ny} (h : magnitude (f i j) ≤ 1e-8) :
    normalizeElementwise f i j = f i j := by
  funext c
  unfold normalizeElementwise
  simp only [fieldMagnitude_eq, (isClose_zero_iff (magnitude_nonneg (f i j))).2 h, if_true, Complex.ofReal_one, div_one]

theorem normalizeElementwise_large {f : VectorField nx ny} {i : Fin nx} {j : Fin ny} (h : 1e-8 < magnitude (f i j)) :
    normalizeElementwise f i j = fun c => f i j c / (magnitude (f i j) : ℂ) := by
  funext c
  unfold normalizeElementwise
  have hc' : ¬ IsClose (magnitude (f i j)) 0 :=
    fun h' => absurd ((isClose_zero_iff (magnitude_nonneg _)).1 h') (not_le.2 h)
  simp only [fieldMagnitude_eq, hc', if_false]

/-! ### Jones vectors -/

/-- The Jones vector of an amplitude `(tx, ty)`, with ellipticity `phi` and phase `theta`. -/
noncomputable def jonesVector (tx ty : ℂ) (phi theta : ℝ) : Fin 2 → ℂ :=
  ![Complex.exp (Complex.I * theta) * (tx * Real.cos phi - ty * Complex.I * Real.sin phi),
    Complex.exp (Complex.I * theta) * (ty * Real.cos phi + tx * Complex.I * Real.sin phi)]

theorem magnitude_jonesVector (tx ty : ℂ) (phi theta : ℝ) :
    magnitude (jonesVector tx ty phi theta) ^ 2 =
      ‖tx‖ ^ 2 + ‖ty‖ ^ 2 - 2 * Real.sin (2 * phi) * (tx * star ty).im := by
  have e : ‖Complex.exp (Complex.I * theta)‖ = 1 := by rw [mul_comm]; exact Complex.norm_exp_ofReal_mul_I theta
  have q : ∀ z : ℂ, ‖z‖ ^ 2 = z.re ^ 2 + z.im ^ 2 := fun z => by
    rw [← Complex.normSq_eq_norm_sq, Complex.normSq_apply]; ring
  have t := Real.sin_sq_add_cos_sq phi
  rw [magnitude_sq, Real.sin_two_mul]
  unfold jonesVector
  simp only [Matrix.cons_val_zero, Matrix.cons_val_one, norm_mul, e, one_mul]
  simp only [q, Complex.sub_re, Complex.sub_im, Complex.add_re, Complex.add_im, Complex.mul_re, Complex.mul_im,
    Complex.ofReal_re, Complex.ofReal_im, Complex.I_re, Complex.I_im, Complex.star_def, Complex.conj_re, Complex.conj_im]
  linear_combination (tx.re ^ 2 + tx.im ^ 2 + ty.re ^ 2 + ty.im ^ 2) * t

theorem normalizeJones_eq_ok {f g : VectorField nx ny} (h : normalizeJones f = .ok g) :
    ∃ f', normalize f = .ok f' ∧ ∀ i j,
      (magnitude (f' i j) ≤ 1e-8 ∧ ∃ theta, g i j = jonesVector ((1 / Real.sqrt 2 : ℝ) : ℂ) ((1 / Real.sqrt 2 : ℝ) : ℂ)
        (Real.pi / 8 * (1 + Real.cos (Real.pi * magnitude (f' i j)))) theta) ∨
      (1e-8 < magnitude (f' i j) ∧ ∃ theta, g i j = jonesVector (f' i j 0 / (magnitude (f' i j) : ℂ))
        (f' i j 1 / (magnitude (f' i j) : ℂ)) (Real.pi / 8 * (1 + Real.cos (Real.pi * magnitude (f' i j)))) theta) := by
  classical
  unfold normalizeJones at h
  obtain ⟨f', hf, h⟩ := bind_eq_ok.1 h
  refine ⟨f', hf, fun i j => ?_⟩
  have h := congrFun (congrFun (ok_inj.1 h) i) j
  simp only [fieldMagnitude_eq] at h
  by_cases hc : magnitude (f' i j) ≤ 1e-8
  · left
    simp only [(isClose_zero_iff (magnitude_nonneg (f' i j))).2 hc, if_true] at h
    exact ⟨hc, _, h.symm⟩
  · right
    have hc' : ¬ IsClose (magnitude (f' i j)) 0 := fun h' => hc ((isClose_zero_iff (magnitude_nonneg _)).1 h')
    simp only [hc', if_false] at h
    exact ⟨not_le.1 hc, _, h.symm⟩

/-! ### Gradients -/

theorem transformGradient_eq_ok {p g : VectorField nx ny} {b : Matrix (Fin 2) (Fin 2) ℝ} :
    transformGradient p b = .ok g ↔ b.det ≠ 0 ∧ ∀ i j, g i j ᵥ* b.map Complex.ofReal = p i j := by
  classical
  set B : Matrix (Fin 2) (Fin 2) ℂ := b.map Complex.ofReal with hB
  have hdet : B.det = (b.det : ℂ) := by
    rw [hB, Matrix.det_fin_two, Matrix.det_fin_two]; simp
  have hmetric : (metricTensor b).map Complex.ofReal = Bᵀ * B := by
    unfold metricTensor
    ext i k
    simp [hB, Matrix.mul_apply]
  have ht : (bᵀ).map Complex.ofReal = Bᵀ := by ext i k; simp [hB]
  have hdm : (Bᵀ * B).det = (b.det : ℂ) ^ 2 := by rw [Matrix.det_mul, Matrix.det_transpose, hdet]; ring
  unfold transformGradient
  simp only [hmetric, ht]
  by_cases h : b.det = 0
  · rw [if_neg (by rw [hdm, h]; simp)]
    simp [h]
  · have hu : IsUnit B.det := by rw [hdet]; exact isUnit_iff_ne_zero.2 (by exact_mod_cast h)
    have hut : IsUnit Bᵀ.det := by rw [Matrix.det_transpose]; exact hu
    rw [if_pos (by rw [hdm]; exact isUnit_iff_ne_zero.2 (pow_ne_zero _ (by exact_mod_cast h)))]
    simp only [Except.ok.injEq, h, not_false_eq_true, ne_eq, true_and]
    have inv : ∀ q : Fin 2 → ℂ, q ᵥ* (Bᵀ * B)⁻¹ ᵥ* Bᵀ = q ᵥ* B⁻¹ := by
      intro q
      rw [Matrix.vecMul_vecMul, Matrix.mul_inv_rev, Matrix.mul_assoc, Matrix.nonsing_inv_mul _ hut, Matrix.mul_one]
    simp only [inv]
    constructor
    · rintro rfl i j
      rw [Matrix.vecMul_vecMul, Matrix.nonsing_inv_mul _ hu, Matrix.vecMul_one]
    · intro h'
      funext i j
      rw [← h' i j, Matrix.vecMul_vecMul, Matrix.mul_nonsing_inv _ hu, Matrix.vecMul_one]

theorem transformGradient_exists (p : VectorField nx ny) {b : Matrix (Fin 2) (Fin 2) ℝ} (h : b.det ≠ 0) :
    ∃ g, transformGradient p b = .ok g := by
  classical
  have hB : (metricTensor b).map Complex.ofReal = ((b.map Complex.ofReal)ᵀ * b.map Complex.ofReal) := by
    unfold metricTensor
    ext i k
    simp [Matrix.mul_apply]
  have hdet : (b.map Complex.ofReal).det = (b.det : ℂ) := by rw [Matrix.det_fin_two, Matrix.det_fin_two]; simp
  unfold transformGradient
  rw [if_pos]
  · exact ⟨_, rfl⟩
  · rw [hB, Matrix.det_mul, Matrix.det_transpose, hdet]
    exact isUnit_iff_ne_zero.2 (mul_ne_zero (by exact_mod_cast h) (by exact_mod_cast h))

theorem basisMatrix_det (l : LatticeVectors) : (basisMatrix l).det = l.u.1 * l.v.2 - l.u.2 * l.v.1 := by
  unfold basisMatrix
  rw [Matrix.det_fin_two_of]; ring

theorem normalizedBasis_eq_ok {l : LatticeVectors} {b : Matrix (Fin 2) (Fin 2) ℝ} :
    normalizedBasis l = .ok b ↔ Independent l.u l.v ∧
      b = Matrix.of fun r c => basisMatrix l r c / Real.sqrt |l.u.1 * l.v.2 - l.u.2 * l.v.1| := by
  unfold normalizedBasis Independent
  simp only [basisMatrix_det, abs_eq_zero]
  by_cases h : l.u.1 * l.v.2 - l.u.2 * l.v.1 = 0
  · simp [h]
  · simp only [h, if_false, Except.ok.injEq, ne_eq, not_false_eq_true, true_and]
    exact eq_comm

theorem normalizedBasis_det {l : LatticeVectors} {b : Matrix (Fin 2) (Fin 2) ℝ} (h : normalizedBasis l = .ok b) :
    b.det ≠ 0 := by
  obtain ⟨hi, rfl⟩ := normalizedBasis_eq_ok.1 h
  have hs : Real.sqrt |l.u.1 * l.v.2 - l.u.2 * l.v.1| ≠ 0 := (Real.sqrt_pos.2 (abs_pos.2 hi)).ne'
  rw [Matrix.det_fin_two]
  simp only [Matrix.of_apply]
  intro h0
  apply hi
  have := basisMatrix_det l
  rw [Matrix.det_fin_two] at this
  rw [← this]
  field_simp at h0
  linarith

/-- The central difference along the first axis. -/
theorem padWrap_gradient [NeZero nx] [NeZero ny] (x : Matrix (Fin nx) (Fin ny) ℂ) :
    ∃ q, padWrap x = .ok q ∧
      (∀ i j, unpad (Matrix.of fun i j => npGradient (fun k => q k j) i) i j = (x (i + 1) j - x (i - 1) j) / 2) ∧
      ∀ i j, unpad (Matrix.of fun i j => npGradient (fun k => q i k) j) i j = (x i (j + 1) - x i (j - 1)) / 2 := by
  have hx := Nat.pos_of_ne_zero (NeZero.ne nx)
  have hy := Nat.pos_of_ne_zero (NeZero.ne ny)
  have idx : ∀ {n : ℕ} [NeZero n] (i : Fin n) (hn : 0 < n),
      (⟨((i : ℕ) + 1 + n - 1) % n, Nat.mod_lt _ hn⟩ : Fin n) = i := by
    intro n _ i hn
    ext
    simp only
    rw [show (i : ℕ) + 1 + n - 1 = i + n by omega, Nat.add_mod_right, Nat.mod_eq_of_lt i.2]
  have up : ∀ {n : ℕ} [NeZero n] (i : Fin n) (hn : 0 < n),
      (⟨((i : ℕ) + 1 + 1 + n - 1) % n, Nat.mod_lt _ hn⟩ : Fin n) = i + 1 := by
    intro n _ i hn
    ext
    simp only
    rw [show (i : ℕ) + 1 + 1 + n - 1 = i + 1 + n by omega, Nat.add_mod_right, Fin.val_add, Fin.val_one']
    simp
  have down : ∀ {n : ℕ} [NeZero n] (i : Fin n) (hn : 0 < n),
      (⟨((i : ℕ) + 1 - 1 + n - 1) % n, Nat.mod_lt _ hn⟩ : Fin n) = i - 1 := by
    intro n _ i hn
    have : (⟨((i : ℕ) + 1 - 1 + n - 1) % n, Nat.mod_lt _ hn⟩ : Fin n) + 1 = i := by
      ext
      rw [Fin.val_add, Fin.val_one']
      simp only [Nat.add_mod_mod, Nat.mod_add_mod]
      rw [show (i : ℕ) + 1 - 1 + n - 1 + 1 = i + n by omega, Nat.add_mod_right, Nat.mod_eq_of_lt i.2]
    exact eq_sub_of_add_eq this
  refine ⟨_, dif_pos ⟨hx, hy⟩, fun i j => ?_, fun i j => ?_⟩
  · unfold unpad npGradient
    simp only [Matrix.of_apply]
    rw [dif_neg (by omega), dif_neg (by omega)]
    rw [idx j hy, up i hx, down i hx]
  · unfold unpad npGradient
    simp only [Matrix.of_apply]
    rw [dif_neg (by omega), dif_neg (by omega)]
    rw [idx i hx, up j hy, down j hy]

theorem computeGradient_eq_ok [NeZero nx] [NeZero ny] {x : Matrix (Fin nx) (Fin ny) ℂ} {l : LatticeVectors}
    {g : VectorField nx ny} :
    computeGradient x l = .ok g ↔ Independent l.u l.v ∧ ∀ i j,
      (l.u.1 * g i j 0 + l.u.2 * g i j 1 =
        Real.sqrt |l.u.1 * l.v.2 - l.u.2 * l.v.1| * nx * ((x (i + 1) j - x (i - 1) j) / 2)) ∧
      (l.v.1 * g i j 0 + l.v.2 * g i j 1 =
        Real.sqrt |l.u.1 * l.v.2 - l.u.2 * l.v.1| * ny * ((x i (j + 1) - x i (j - 1)) / 2)) := by
  obtain ⟨q, hq, h0, h1⟩ := padWrap_gradient x
  unfold computeGradient
  by_cases hi : Independent l.u l.v
  swap
  · have : ∃ e, normalizedBasis l = .error e := by
      cases h : normalizedBasis l with
      | ok b => exact absurd (normalizedBasis_eq_ok.1 h).1 hi
      | error e => exact ⟨e, rfl⟩
    obtain ⟨e, he⟩ := this
    rw [he]
    simp [bind, Except.bind, hi]
  have hb := normalizedBasis_eq_ok.2 ⟨hi, rfl⟩
  have hdet := normalizedBasis_det hb
  rw [hb, hq]
  simp only [bind, Except.bind]
  rw [transformGradient_eq_ok]
  have hs : (Real.sqrt |l.u.1 * l.v.2 - l.u.2 * l.v.1| : ℂ) ≠ 0 := by
    exact_mod_cast (Real.sqrt_pos.2 (abs_pos.2 hi)).ne'
  simp only [ne_eq, hdet, not_false_eq_true, hi, true_and]
  refine forall_congr' fun i => forall_congr' fun j => ?_
  rw [h0 i j, h1 i j, funext_iff, Fin.forall_fin_two]
  simp only [Matrix.vecMul, dotProduct, Fin.sum_univ_two, Matrix.map_apply, Matrix.of_apply, basisMatrix,
    Matrix.cons_val_zero, Matrix.cons_val_one, Complex.ofReal_div, Matrix.cons_val', Matrix.cons_val_fin_one]
  refine and_congr ?_ ?_ <;>
  · rw [← mul_right_inj' hs (b := _ + _)]
    have e : ∀ a b c d : ℂ, (Real.sqrt |l.u.1 * l.v.2 - l.u.2 * l.v.1| : ℂ) *
        (a * (b / (Real.sqrt |l.u.1 * l.v.2 - l.u.2 * l.v.1| : ℂ)) + c * (d / (Real.sqrt |l.u.1 * l.v.2 - l.u.2 * l.v.1| : ℂ))) =
        b * a + d * c := by
      intro a b c d
      field_simp
    rw [e]
    constructor <;> intro h <;> rw [h] <;> ring

theorem computeGradient_exists [NeZero nx] [NeZero ny] (x : Matrix (Fin nx) (Fin ny) ℂ) {l : LatticeVectors}
    (hl : Independent l.u l.v) : ∃ g, computeGradient x l = .ok g := by
  obtain ⟨q, hq, -⟩ := padWrap_gradient x
  have hb := normalizedBasis_eq_ok.2 ⟨hl, rfl⟩
  unfold computeGradient
  rw [hb, hq]
  exact transformGradient_exists _ (normalizedBasis_det hb)

/-! ### Scaling the unit cell -/

/-- The lattice scaled by a factor. -/
noncomputable def scaleLattice (s : ℝ) (l : LatticeVectors) : LatticeVectors :=
  ⟨(s * l.u.1, s * l.u.2), (s * l.v.1, s * l.v.2)⟩

theorem scaleLattice_det (s : ℝ) (l : LatticeVectors) :
    (basisMatrix (scaleLattice s l)).det = s ^ 2 * (basisMatrix l).det := by
  rw [basisMatrix_det, basisMatrix_det]
  unfold scaleLattice
  ring

theorem normalizedBasis_scale {s : ℝ} (hs : 0 < s) (l : LatticeVectors) :
    normalizedBasis (scaleLattice s l) = normalizedBasis l := by
  unfold normalizedBasis
  simp only [scaleLattice_det, abs_mul, abs_of_pos (pow_pos hs 2), mul_eq_zero, (pow_pos hs 2).ne', false_or]
  by_cases h : |(basisMatrix l).det| = 0
  · rw [if_pos h, if_pos h]
  · rw [if_neg h, if_neg h, Real.sqrt_mul (by positivity), Real.sqrt_sq hs.le]
    refine congrArg Except.ok ?_
    ext a b
    have e : basisMatrix (scaleLattice s l) a b = s * basisMatrix l a b := by
      unfold basisMatrix scaleLattice
      fin_cases a <;> fin_cases b <;> rfl
    simp only [Matrix.of_apply]
    rw [e, mul_div_mul_left _ _ hs.ne']

theorem computeGradient_scale {s : ℝ} (hs : 0 < s) (x : Matrix (Fin nx) (Fin ny) ℂ) (l : LatticeVectors) :
    computeGradient x (scaleLattice s l) = computeGradient x l := by
  unfold computeGradient
  rw [normalizedBasis_scale hs]

theorem smoothnessLoss_scale {s : ℝ} (hs : 0 < s) (f : VectorField nx ny) (l : LatticeVectors) :
    smoothnessLoss f (scaleLattice s l) = smoothnessLoss f l := by
  unfold smoothnessLoss vectorForwardGradient
  rw [normalizedBasis_scale hs]

theorem fourierLoss_scale [Fintype ι] {s : ℝ} (hs : 0 < s) (y : ι × Fin 2 → ℂ) (G : ι → ℤ × ℤ) (l : LatticeVectors) :
    fourierLoss y G (scaleLattice s l) = fourierLoss y G l := by
  unfold fourierLoss transverseWavevectors reciprocal
  have hc : crossProduct (scaleLattice s l).u (scaleLattice s l).v = s ^ 2 * crossProduct l.u l.v := by
    unfold crossProduct scaleLattice
    ring
  simp only [hc, mul_eq_zero, (pow_pos hs 2).ne', false_or, scaleLattice_det]
  by_cases h : crossProduct l.u l.v = 0
  · rw [if_pos h, if_pos h]; rfl
  · rw [if_neg h, if_neg h]
    simp only [bind, Except.bind]
    refine congrArg Except.ok ?_
    refine Finset.sum_congr rfl fun i _ => Finset.sum_congr rfl fun c _ => ?_
    congr 2
    rw [abs_mul, abs_of_pos (pow_pos hs 2), ← Real.sqrt_mul (by positivity), ← Real.sqrt_mul (by positivity)]
    congr 1
    unfold scaleLattice
    simp only
    field_simp
    ring

theorem fieldLoss_scale [Fintype ι] {s : ℝ} (hs : 0 < s) (P : LossParams ι nx ny) :
    fieldLoss { P with lattice := scaleLattice s P.lattice } = fieldLoss P := by
  funext y
  unfold fieldLoss
  simp only [fourierLoss_scale hs, smoothnessLoss_scale hs]

theorem newtonLoop_congr [Fintype ι] [DecidableEq ι] {P Q : LossParams ι nx ny} (h : fieldLoss P = fieldLoss Q) (n : ℕ)
    (z : ι × Fin 2 → ℂ) : newtonLoop P n z = newtonLoop Q n z := by
  have step : ∀ z, newtonStep P z = newtonStep Q z := by
    intro z
    unfold newtonStep fieldLossValueJacAndHessian
    rw [h]
  induction n generalizing z with
  | zero => rfl
  | succ n ih =>
    unfold newtonLoop
    rw [step]
    refine congrArg (newtonStep Q z >>= ·) ?_
    funext z'
    exact ih z'

theorem computeTangentField_scale [Fintype ι] [DecidableEq ι] {s : ℝ} (hs : 0 < s) (x : Matrix (Fin nx) (Fin ny) ℂ)
    (G : ι → ℤ × ℤ) (l : LatticeVectors) (b : Bool) (fw sw : ℝ) (n : ℕ) :
    computeTangentFieldNoBatch x G (scaleLattice s l) b fw sw n = computeTangentFieldNoBatch x G l b fw sw n := by
  have e1 : ∀ mx my, filteredGradient x G (scaleLattice s l) mx my = filteredGradient x G l mx my := by
    intro mx my
    unfold filteredGradient bandlimitedGradient
    rw [computeGradient_scale hs]
  have e2 : ∀ {px py : ℕ} (grad : VectorField px py) fw sw,
      optimizedFourierField grad G (scaleLattice s l) b fw sw n = optimizedFourierField grad G l b fw sw n := by
    intro px py grad fw sw
    unfold optimizedFourierField
    refine congrArg (targetAndInitialField grad b >>= ·) ?_
    funext t
    refine congrArg (fftVector t.2 G >>= ·) ?_
    funext y
    exact newtonLoop_congr (fieldLoss_scale hs ⟨G, l, t.1, fieldMagnitude grad, fw, sw⟩) n y
  unfold computeTangentFieldNoBatch tangentFieldOfGradient
  simp only [e1, e2]

/-! ### Offset and contrast of the array -/

theorem computeGradient_offset (x : Matrix (Fin nx) (Fin ny) ℂ) (l : LatticeVectors) (c : ℂ) :
    computeGradient (Matrix.of fun i j => x i j + c) l = computeGradient x l := by
  rcases Nat.eq_zero_or_pos nx with rfl | hx
  · congr 1; ext i; exact i.elim0
  rcases Nat.eq_zero_or_pos ny with rfl | hy
  · congr 1; ext i j; exact j.elim0
  have : NeZero nx := ⟨hx.ne'⟩
  have : NeZero ny := ⟨hy.ne'⟩
  by_cases hl : Independent l.u l.v
  · obtain ⟨g, hg⟩ := computeGradient_exists x hl
    rw [hg, computeGradient_eq_ok]
    rw [computeGradient_eq_ok] at hg
    refine ⟨hl, fun i j => ?_⟩
    simp only [Matrix.of_apply, add_sub_add_right_eq_sub]
    exact hg.2 i j
  · have : ∃ e, normalizedBasis l = .error e := by
      cases h : normalizedBasis l with
      | ok b => exact absurd (normalizedBasis_eq_ok.1 h).1 hl
      | error e => exact ⟨e, rfl⟩
    obtain ⟨e, he⟩ := this
    unfold computeGradient
    rw [he]
    rfl

theorem computeTangentField_offset [Fintype ι] [DecidableEq ι] (x : Matrix (Fin nx) (Fin ny) ℂ)
    (G : ι → ℤ × ℤ) (l : LatticeVectors) (b : Bool) (fw sw : ℝ) (n : ℕ) (c : ℂ) :
    computeTangentFieldNoBatch (Matrix.of fun i j => x i j + c) G l b fw sw n =
      computeTangentFieldNoBatch x G l b fw sw n := by
  unfold computeTangentFieldNoBatch filteredGradient bandlimitedGradient
  simp only [computeGradient_offset]

theorem fourierSeries_filter_smul [Fintype ι] (G : ι → ℤ × ℤ) (x : Matrix (Fin nx) (Fin ny) ℂ) (c : ℂ) (mx my : ℕ) :
    fourierSeries G (fun k => fourierCoefficient (Matrix.of fun i j => c * x i j) (G k)) mx my =
      Matrix.of fun r s => c * fourierSeries G (fun k => fourierCoefficient x (G k)) mx my r s := by
  ext r s
  unfold fourierSeries fourierCoefficient
  simp only [Matrix.of_apply, Finset.mul_sum, Finset.sum_mul, div_eq_mul_inv]
  refine Finset.sum_congr rfl fun k _ => Finset.sum_congr rfl fun i _ => Finset.sum_congr rfl fun j _ => ?_
  ring

theorem filterAndAdjustResolution_eq [Fintype ι] (x : Matrix (Fin nx) (Fin ny) ℂ) {G : ι → ℤ × ℤ}
    (hG : Function.Injective G) {mx my : ℕ} (h : Resolves nx ny G) (hm : Resolves mx my G) :
    filterAndAdjustResolution x G mx my = .ok (fourierSeries G (fun k => fourierCoefficient x (G k)) mx my) := by
  unfold filterAndAdjustResolution
  rw [fft_eq x h]
  exact ifft_eq _ hm hG

theorem doubledMinShape_resolves [Fintype ι] {G : ι → ℤ × ℤ} {m : ℕ × ℕ} (h : doubledMinShape G nx ny = .ok m) :
    Resolves m.1 m.2 G := by
  unfold doubledMinShape at h
  obtain ⟨p, hp, h⟩ := bind_eq_ok.1 h
  obtain rfl := ok_inj.1 h
  have hr : Resolves p.1 p.2 G := by
    rw [← validateShape_ok_iff]
    unfold validateShapeForExpansion
    rw [hp]
    simp [bind, Except.bind]
  refine ⟨hr.1, fun i => ?_⟩
  have h2 := hr.2 i
  have key : ∀ (a n : ℕ), (a : ℤ) ≤ ((a * (if 1 < n then 2 else 1) : ℕ) : ℤ) := by
    intro a n
    split_ifs <;> push_cast <;> omega
  exact ⟨h2.1.trans (key _ _), h2.2.trans (key _ _)⟩

/-- The filtered gradient in terms of Fourier series. -/
theorem bandlimitedGradient_eq [Fintype ι] {x : Matrix (Fin nx) (Fin ny) ℂ} {G : ι → ℤ × ℤ} {l : LatticeVectors}
    (hG : Function.Injective G) {g : VectorField nx ny} (hg : computeGradient x l = .ok g) {mx my : ℕ}
    (h : Resolves nx ny G) (hm : Resolves mx my G) :
    bandlimitedGradient x G l mx my = .ok fun r s c =>
      fourierSeries G (fun k => fourierCoefficient (Matrix.of fun i j => g i j c) (G k)) mx my r s := by
  unfold bandlimitedGradient
  rw [hg]
  simp only [bind, Except.bind, filterAndAdjustResolution_eq _ hG h hm]
  refine congrArg Except.ok ?_
  funext r s c
  fin_cases c <;> rfl

theorem computeGradient_smul {x : Matrix (Fin nx) (Fin ny) ℂ} {l : LatticeVectors} {g : VectorField nx ny}
    (hg : computeGradient x l = .ok g) (a : ℂ) :
    computeGradient (Matrix.of fun i j => a * x i j) l = .ok fun i j c => a * g i j c := by
  rcases Nat.eq_zero_or_pos nx with rfl | hx
  · rw [show (Matrix.of fun i j => a * x i j) = x by ext i; exact i.elim0, hg]
    congr 1; funext i; exact i.elim0
  rcases Nat.eq_zero_or_pos ny with rfl | hy
  · rw [show (Matrix.of fun i j => a * x i j) = x by ext i j; exact j.elim0, hg]
    congr 1; funext i j; exact j.elim0
  have : NeZero nx := ⟨hx.ne'⟩
  have : NeZero ny := ⟨hy.ne'⟩
  rw [computeGradient_eq_ok] at hg ⊢
  refine ⟨hg.1, fun i j => ?_⟩
  simp only [Matrix.of_apply]
  constructor
  · linear_combination a * (hg.2 i j).1
  · linear_combination a * (hg.2 i j).2

theorem computeTangentField_contrast [Fintype ι] [DecidableEq ι] (x : Matrix (Fin nx) (Fin ny) ℂ)
    (G : ι → ℤ × ℤ) (l : LatticeVectors) (b : Bool) (fw sw : ℝ) (n : ℕ) {a : ℝ} (ha : 0 < a)
    (hG : Function.Injective G) (hr : Resolves nx ny G) {g : VectorField nx ny} (hg : computeGradient x l = .ok g)
    {m : ℕ × ℕ} (hm : doubledMinShape G nx ny = .ok m) (r : Fin m.1) (s : Fin m.2)
    (h1 : 1e-8 < magnitude fun c =>
      fourierSeries G (fun k => fourierCoefficient (Matrix.of fun i j => g i j c) (G k)) m.1 m.2 r s)
    (h2 : 1e-8 < a * magnitude fun c =>
      fourierSeries G (fun k => fourierCoefficient (Matrix.of fun i j => g i j c) (G k)) m.1 m.2 r s) :
    computeTangentFieldNoBatch (Matrix.of fun i j => (a : ℂ) * x i j) G l b fw sw n =
      computeTangentFieldNoBatch x G l b fw sw n := by
  have hmr := doubledMinShape_resolves hm
  have e : filteredGradient (Matrix.of fun i j => (a : ℂ) * x i j) G l m.1 m.2 = filteredGradient x G l m.1 m.2 := by
    unfold filteredGradient
    rw [bandlimitedGradient_eq hG hg hr hmr, bandlimitedGradient_eq hG (computeGradient_smul hg a) hr hmr]
    simp only [bind, Except.bind]
    obtain ⟨M, hM⟩ := maxFieldMagnitude_exists r.pos s.pos fun r s c =>
      fourierSeries G (fun k => fourierCoefficient (Matrix.of fun i j => g i j c) (G k)) m.1 m.2 r s
    have hle := (maxFieldMagnitude_eq_ok.1 hM).1 r s
    rw [← normalize_smul ha hM (h1.trans_le hle) (h2.trans_le (mul_le_mul_of_nonneg_left hle ha.le))]
    congr 1
    funext r s c
    have := fourierSeries_filter_smul G (Matrix.of fun i j => g i j c) a m.1 m.2
    exact congrFun (congrFun this r) s
  unfold computeTangentFieldNoBatch
  rw [hm]
  simp only [bind, Except.bind, e]

/-! ### One dimensional patterns -/

/-- The band-limited version of a real function is real, if the orders come in opposite pairs. -/
theorem fourierSeries_real [Fintype ι] {G : ι → ℤ × ℤ} (hG : Function.Injective G) (hs : ∀ i, ∃ j, G j = -G i)
    (d : Matrix (Fin nx) (Fin ny) ℝ) (mx my : ℕ) (r : Fin mx) (s : Fin my) :
    (fourierSeries G (fun k => fourierCoefficient (d.map Complex.ofReal) (G k)) mx my r s).im = 0 := by
  rw [← Complex.conj_eq_iff_im]
  choose σ hσ using hs
  have inv : Function.Involutive σ := fun i => hG (by rw [hσ, hσ, neg_neg])
  unfold fourierSeries
  simp only [Matrix.of_apply, map_sum, map_mul]
  rw [← Equiv.sum_comp inv.toPerm (fun k => fourierCoefficient (d.map Complex.ofReal) (G k) * planeWave mx my (G k) r s)]
  refine Finset.sum_congr rfl fun k _ => ?_
  simp only [Function.Involutive.coe_toPerm, hσ]
  congr 1
  · unfold fourierCoefficient
    rw [map_div₀, map_mul, map_natCast, map_natCast, map_sum]
    congr 1
    refine Finset.sum_congr rfl fun i _ => ?_
    rw [map_sum]
    refine Finset.sum_congr rfl fun j _ => ?_
    rw [map_mul, Matrix.map_apply, Complex.conj_ofReal]
    congr 1
    rw [planeWave_neg_conj (-G k)]
    rfl
  · rw [planeWave_neg_conj]; rfl

theorem angleSafe_large {x : ℂ} (h : 1e-8 < ‖x‖) : angleSafe x = Complex.arg x := by
  unfold angleSafe
  rw [if_neg]
  rw [isClose_zero_complex]; exact not_le.2 h

theorem angle_direction {e θ : ℝ} (he : 1e-8 < |e|) :
    (Real.cos (angleSafe (e * Real.cos θ + Complex.I * (e * Real.sin θ))) = e / |e| * Real.cos θ) ∧
    (Real.sin (angleSafe (e * Real.cos θ + Complex.I * (e * Real.sin θ))) = e / |e| * Real.sin θ) := by
  have hpos : 0 < |e| := lt_trans (by norm_num) he
  have hx : (e * Real.cos θ + Complex.I * (e * Real.sin θ) : ℂ) = (e : ℂ) * Complex.exp (θ * Complex.I) := by
    rw [Complex.exp_mul_I, Complex.ofReal_cos, Complex.ofReal_sin]; ring
  have hn : ‖(e * Real.cos θ + Complex.I * (e * Real.sin θ) : ℂ)‖ = |e| := by
    rw [hx, norm_mul, Complex.norm_exp_ofReal_mul_I, mul_one, Complex.norm_real, Real.norm_eq_abs]
  have hne : (e * Real.cos θ + Complex.I * (e * Real.sin θ) : ℂ) ≠ 0 := by
    rw [← norm_pos_iff, hn]; exact hpos
  rw [angleSafe_large (by rw [hn]; exact he), Complex.cos_arg hne, Complex.sin_arg, hn]
  simp only [Complex.add_re, Complex.add_im, Complex.mul_re, Complex.mul_im, Complex.ofReal_re, Complex.ofReal_im,
    Complex.I_re, Complex.I_im]
  constructor <;> ring

theorem angle_mem (x : ℂ) : -Real.pi < angleSafe x ∧ angleSafe x ≤ Real.pi := by
  unfold angleSafe
  exact ⟨Complex.neg_pi_lt_arg _, Complex.arg_le_pi _⟩

/-- Two angles in the principal range with equal or opposite cosines and sines differ by a multiple of `π`. -/
theorem angles_differ {a b t : ℝ} (ha : -Real.pi < a ∧ a ≤ Real.pi) (hb : -Real.pi < b ∧ b ≤ Real.pi)
    (hc : Real.cos a = t * Real.cos b) (hs : Real.sin a = t * Real.sin b) :
    a = b - 1 * Real.pi ∨ a = b ∨ a = b + 1 * Real.pi := by
  have hpi := Real.pi_pos
  have h : Real.sin (a - b) = 0 := by rw [Real.sin_sub, hc, hs]; ring
  rw [Real.sin_eq_zero_iff] at h
  obtain ⟨n, hn⟩ := h
  have h1 : (n : ℝ) * Real.pi < 2 * Real.pi := by rw [hn]; linarith [ha.2, hb.1]
  have h2 : -2 * Real.pi < (n : ℝ) * Real.pi := by rw [hn]; linarith [ha.1, hb.2]
  have h3 : (n : ℝ) < 2 := lt_of_mul_lt_mul_right h1 hpi.le
  have h4 : (-2 : ℝ) < n := lt_of_mul_lt_mul_right h2 hpi.le
  have h5 : n < 2 := by exact_mod_cast h3
  have h6 : -2 < n := by exact_mod_cast h4
  have h7 : n = -1 ∨ n = 0 ∨ n = 1 := by omega
  rcases h7 with rfl | rfl | rfl
  · left; push_cast at hn; linarith
  · right; left; push_cast at hn; linarith
  · right; right; push_cast at hn; linarith

theorem isClose_self (a : ℝ) (t : ℝ) (ht : 0 ≤ t) : IsClose a a t := by
  unfold IsClose
  simp only [sub_self, norm_zero]
  positivity

theorem magnitude_direction (e θ : ℝ) : magnitude ![(e * Real.cos θ : ℂ), (e * Real.sin θ : ℂ)] = |e| := by
  unfold magnitude
  simp only [Matrix.cons_val_zero, Matrix.cons_val_one, norm_mul, Complex.norm_real, mul_pow, Real.norm_eq_abs, sq_abs]
  rw [← mul_add, Real.cos_sq_add_sin_sq, mul_one, Real.sqrt_sq_eq_abs]

theorem magnitude_phase (w : ℂ) (hw : ‖w‖ = 1) (e θ : ℝ) : magnitude ![w * (e * Real.cos θ), w * (e * Real.sin θ)] = |e| := by
  rw [← magnitude_direction e θ]
  unfold magnitude
  simp only [Matrix.cons_val_zero, Matrix.cons_val_one, norm_mul, hw, one_mul]

/-- A field with a single direction and a single phase is recognised; the angle found is the sum of direction and phase, up to a half turn. -/
theorem is1dField_direction (f : VectorField nx ny) (e : Fin nx → Fin ny → ℝ) (θ φ : ℝ)
    (hf : ∀ i j, f i j = ![Complex.exp (φ * Complex.I) * (e i j * Real.cos θ), Complex.exp (φ * Complex.I) * (e i j * Real.sin θ)]) {r : Fin nx} {s : Fin ny}
    (hrs : 1e-8 < |e r s|) :
    ∃ P a, is1dField f = .ok (P, a) ∧ P ∧
      ∃ t : ℝ, (t = 1 ∨ t = -1) ∧ Real.cos a = t * Real.cos (θ + φ) ∧ Real.sin a = t * Real.sin (θ + φ) := by
  have hmag : ∀ i j, fieldMagnitude f i j = |e i j| := fun i j => by
    rw [fieldMagnitude_eq, hf, magnitude_phase _ (Complex.norm_exp_ofReal_mul_I φ)]
  have sgn : ∀ {x : ℝ}, 1e-8 < |x| → x / |x| = 1 ∨ x / |x| = -1 := by
    intro x hx
    have hpos : |x| ≠ 0 := (lt_trans (by norm_num) hx).ne'
    rcases abs_choice x with h | h
    · left; rw [h]; rw [h] at hpos; exact div_self hpos
    · right; rw [h]; rw [h] at hpos; rw [div_neg, div_self (neg_ne_zero.1 hpos)]
  have hex : ∃ p, (List.finRange nx ×ˢ List.finRange ny).argmax (fun p => fieldMagnitude f p.1 p.2) = some p := by
    cases h : (List.finRange nx ×ˢ List.finRange ny).argmax (fun p => fieldMagnitude f p.1 p.2) with
    | some p => exact ⟨p, rfl⟩
    | none =>
      rw [List.argmax_eq_none] at h
      have : (r, s) ∈ List.finRange nx ×ˢ List.finRange ny := List.mem_product.2 ⟨List.mem_finRange r, List.mem_finRange s⟩
      rw [h] at this
      simp at this
  obtain ⟨p, hp⟩ := hex
  have hmax : 1e-8 < |e p.1 p.2| := by
    have : (r, s) ∈ List.finRange nx ×ˢ List.finRange ny := List.mem_product.2 ⟨List.mem_finRange r, List.mem_finRange s⟩
    have := List.le_of_mem_argmax this hp
    simp only [hmag] at this
    exact hrs.trans_le this
  have href : fieldAtMaxMagnitude f = .ok (f p.1 p.2) := by
    unfold fieldAtMaxMagnitude
    rw [hp]
  have hx : ∀ i j, f i j 0 + Complex.I * f i j 1 = e i j * Real.cos (θ + φ) + Complex.I * (e i j * Real.sin (θ + φ)) := by
    intro i j
    rw [hf]
    simp only [Matrix.cons_val_zero, Matrix.cons_val_one]
    rw [Real.cos_add, Real.sin_add, Complex.exp_mul_I]
    push_cast
    linear_combination (-(e i j : ℂ) * Complex.sin θ * Complex.sin φ) * Complex.I_sq.symm
  unfold is1dField
  rw [href]
  refine ⟨_, _, rfl, ?_, _, sgn hmax, ?_, ?_⟩
  · left
    intro i j
    by_cases hij : |e i j| ≤ 1e-8
    · left
      rw [hmag, isClose_zero_iff (abs_nonneg _)]
      exact hij
    · right
      have hij := not_le.1 hij
      have h1 := angle_direction (θ := θ + φ) hij
      have h2 := angle_direction (θ := θ + φ) hmax
      rw [← hx] at h1 h2
      have hq2 : (e p.1 p.2 / |e p.1 p.2|) * (e p.1 p.2 / |e p.1 p.2|) = 1 := by
        rcases sgn hmax with h' | h' <;> rw [h'] <;> norm_num
      have ht : (0 : ℝ) ≤ atol1dFieldAngle := by unfold atol1dFieldAngle; norm_num
      rcases angles_differ (angle_mem (f i j 0 + Complex.I * f i j 1))
          (angle_mem (f p.1 p.2 0 + Complex.I * f p.1 p.2 1))
          (t := e i j / |e i j| * (e p.1 p.2 / |e p.1 p.2|))
          (by rw [h1.1, h2.1]; linear_combination (-(e i j / |e i j|) * Real.cos (θ + φ)) * hq2)
          (by rw [h1.2, h2.2]; linear_combination (-(e i j / |e i j|) * Real.sin (θ + φ)) * hq2) with h | h | h
      · right; left; rw [h]; exact isClose_self _ _ ht
      · right; right; left; rw [h]; exact isClose_self _ _ ht
      · right; right; right; left; rw [h]; exact isClose_self _ _ ht
  · rw [hx]; exact (angle_direction hmax).1
  · rw [hx]; exact (angle_direction hmax).2

/-- The tangent field of a pattern whose gradient has a single direction `(cos θ, sin θ)` and phase `φ`. -/
theorem tangentField_phase [Fintype ι] [DecidableEq ι] (x : Matrix (Fin nx) (Fin ny) ℂ)
    (G : ι → ℤ × ℤ) (l : LatticeVectors) (b : Bool) (fw sw : ℝ) (n : ℕ)
    (hG : Function.Injective G) (hsym : ∀ i, ∃ j, G j = -G i) (hr : Resolves nx ny G) (d : Matrix (Fin nx) (Fin ny) ℝ)
    (θ φ : ℝ) (hg : computeGradient x l = .ok fun i j => ![Complex.exp (φ * Complex.I) * (d i j * Real.cos θ), Complex.exp (φ * Complex.I) * (d i j * Real.sin θ)])
    {m : ℕ × ℕ} (hm : doubledMinShape G nx ny = .ok m) (r : Fin m.1) (s : Fin m.2)
    (h1 : 1e-8 < ‖fourierSeries G (fun k => fourierCoefficient (d.map Complex.ofReal) (G k)) m.1 m.2 r s‖) :
    ∃ t : ℝ, (t = 1 ∨ t = -1) ∧ computeTangentFieldNoBatch x G l b fw sw n =
      .ok fun _ _ => ![(t * Real.sin (θ + φ) : ℂ), (t * Real.cos (θ + φ) : ℂ)] := by
  classical
  have hmr := doubledMinShape_resolves hm
  have hx : 0 < nx := by
    obtain ⟨⟨i⟩, h⟩ := hr
    have := (h i).1
    have := abs_nonneg (G i).1
    omega
  have hy : 0 < ny := by
    obtain ⟨⟨i⟩, h⟩ := hr
    have := (h i).2
    have := abs_nonneg (G i).2
    omega
  set F : Matrix (Fin m.1) (Fin m.2) ℂ :=
    fourierSeries G (fun k => fourierCoefficient (d.map Complex.ofReal) (G k)) m.1 m.2 with hF
  have hre : ∀ r s, F r s = ((F r s).re : ℂ) := fun r s =>
    (Complex.ext (by simp) (by rw [Complex.ofReal_im]; exact fourierSeries_real hG hsym d m.1 m.2 r s))
  have hband : bandlimitedGradient x G l m.1 m.2 =
      .ok fun r s => ![Complex.exp (φ * Complex.I) * ((F r s).re * Real.cos θ), Complex.exp (φ * Complex.I) * ((F r s).re * Real.sin θ)] := by
    rw [bandlimitedGradient_eq hG hg hr hmr]
    refine congrArg Except.ok ?_
    funext r s c
    have e : ∀ a : ℂ, fourierSeries G (fun k => fourierCoefficient (Matrix.of fun i j => (d i j : ℂ) * a) (G k)) m.1 m.2 r s =
        (F r s).re * a := by
      intro a
      have := congrFun (congrFun (fourierSeries_filter_smul G (d.map Complex.ofReal) a m.1 m.2) r) s
      rw [← hre, mul_comm (F r s)]
      simp only [Matrix.map_apply, mul_comm a] at this
      rw [this]
      simp only [Matrix.of_apply, mul_comm a]
      rfl
    have e' : ∀ a : ℝ, fourierSeries G (fun k => fourierCoefficient (Matrix.of fun i j => Complex.exp (φ * Complex.I) * ((d i j : ℂ) * a)) (G k)) m.1 m.2 r s =
        Complex.exp (φ * Complex.I) * ((F r s).re * a) := by
      intro a
      have := e (Complex.exp (φ * Complex.I) * a)
      simp only [mul_left_comm _ (Complex.exp (φ * Complex.I))] at this
      exact this
    fin_cases c
    · exact e' _
    · exact e' _
  obtain ⟨M, hM⟩ := maxFieldMagnitude_exists r.pos s.pos
    fun r s => ![Complex.exp (φ * Complex.I) * ((F r s).re * Real.cos θ), Complex.exp (φ * Complex.I) * ((F r s).re * Real.sin θ)]
  have hle := (maxFieldMagnitude_eq_ok.1 hM).1 r s
  rw [magnitude_phase _ (Complex.norm_exp_ofReal_mul_I φ)] at hle
  have hn : ‖F r s‖ = |(F r s).re| := by
    rw [hre r s, Complex.norm_real, Complex.ofReal_re, Real.norm_eq_abs]
  have hM1 : 1e-8 < M := by
    refine lt_of_lt_of_le ?_ hle
    rw [← hn]; exact h1
  have hMpos : 0 < M := lt_trans (by norm_num) hM1
  have hfil : filteredGradient x G l m.1 m.2 =
      .ok fun r s => ![Complex.exp (φ * Complex.I) * (((F r s).re / M : ℝ) * Real.cos θ), Complex.exp (φ * Complex.I) * (((F r s).re / M : ℝ) * Real.sin θ)] := by
    unfold filteredGradient
    rw [hband]
    simp only [bind, Except.bind]
    rw [normalize_large hM hM1]
    refine congrArg Except.ok ?_
    funext r s c
    push_cast
    fin_cases c
    · change _ / _ = Complex.exp _ * _
      simp
      ring
    · change _ / _ = Complex.exp _ * _
      simp
      ring
  obtain ⟨r', s', hrs⟩ := (maxFieldMagnitude_eq_ok.1 hM).2
  rw [magnitude_phase _ (Complex.norm_exp_ofReal_mul_I φ)] at hrs
  obtain ⟨P, a, hP, hP', t, ht, hc, hs⟩ := is1dField_direction
    (fun r s => ![Complex.exp (φ * Complex.I) * (((F r s).re / M : ℝ) * Real.cos θ), Complex.exp (φ * Complex.I) * (((F r s).re / M : ℝ) * Real.sin θ)])
    (fun r s => (F r s).re / M) θ φ (fun _ _ => rfl) (r := r') (s := s')
    (by simp only [abs_div, abs_of_pos hMpos, hrs, div_self hMpos.ne']; norm_num)
  refine ⟨t, ht, ?_⟩
  have hcard : Fintype.card ι ≠ 0 := by
    have := hr.1
    exact Fintype.card_ne_zero
  unfold computeTangentFieldNoBatch
  rw [if_neg hcard, hm]
  simp only [bind, Except.bind]
  rw [hfil]
  simp only
  unfold tangentFieldOfGradient
  rw [hP]
  simp only [bind, Except.bind, if_pos hP', hc, hs]
  have hunit : maxFieldMagnitude (fun _ _ => ![((t * Real.sin (θ + φ) : ℝ) : ℂ), ((t * Real.cos (θ + φ) : ℝ) : ℂ)] : VectorField nx ny) =
      .ok 1 := by
    have : magnitude ![((t * Real.sin (θ + φ) : ℝ) : ℂ), ((t * Real.cos (θ + φ) : ℝ) : ℂ)] = 1 := by
      unfold magnitude
      simp only [Matrix.cons_val_zero, Matrix.cons_val_one, Complex.norm_real, Real.norm_eq_abs, sq_abs]
      rw [show (t * Real.sin (θ + φ)) ^ 2 + (t * Real.cos (θ + φ)) ^ 2 = t ^ 2 * (Real.sin (θ + φ) ^ 2 + Real.cos (θ + φ) ^ 2) by ring,
        Real.sin_sq_add_cos_sq]
      rcases ht with rfl | rfl <;> norm_num
    rw [maxFieldMagnitude_eq_ok]
    exact ⟨fun _ _ => this.le, ⟨0, hx⟩, ⟨0, hy⟩, this⟩
  rw [normalize_large hunit (by norm_num)]
  refine congrArg Except.ok ?_
  funext i j c
  rw [Complex.ofReal_one, div_one, Complex.ofReal_mul, Complex.ofReal_mul]

/-- The tangent field of a pattern whose gradient has a single direction `(cos θ, sin θ)`. -/
theorem tangentField_1d [Fintype ι] [DecidableEq ι] (x : Matrix (Fin nx) (Fin ny) ℂ)
    (G : ι → ℤ × ℤ) (l : LatticeVectors) (b : Bool) (fw sw : ℝ) (n : ℕ)
    (hG : Function.Injective G) (hsym : ∀ i, ∃ j, G j = -G i) (hr : Resolves nx ny G) (d : Matrix (Fin nx) (Fin ny) ℝ)
    (θ : ℝ) (hg : computeGradient x l = .ok fun i j => ![(d i j * Real.cos θ : ℂ), (d i j * Real.sin θ : ℂ)])
    {m : ℕ × ℕ} (hm : doubledMinShape G nx ny = .ok m) (r : Fin m.1) (s : Fin m.2)
    (h1 : 1e-8 < ‖fourierSeries G (fun k => fourierCoefficient (d.map Complex.ofReal) (G k)) m.1 m.2 r s‖) :
    ∃ t : ℝ, (t = 1 ∨ t = -1) ∧ computeTangentFieldNoBatch x G l b fw sw n =
      .ok fun _ _ => ![(t * Real.sin θ : ℂ), (t * Real.cos θ : ℂ)] := by
  have := tangentField_phase x G l b fw sw n hG hsym hr d θ 0 (by simpa using hg) hm r s h1
  simpa using this

end Fmmax
