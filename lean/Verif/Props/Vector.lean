import Verif.Proofs.Vector

/-! Properties of tangent vector fields (C57 to C61, C74). -/

namespace Fmmax

open Matrix Spec

variable {nx ny : ℕ} {ι : Type}

/-- C57: on a nonempty grid `normalize` always succeeds.  Unless every vector is negligible it returns a positive multiple
of the field, no vector of which is longer than one and some vector of which has length one; a negligible field is returned
unchanged; normalising again changes nothing. -/
theorem C57_normalize (hx : 0 < nx) (hy : 0 < ny) (f : VectorField nx ny) :
    ∃ g, normalize f = .ok g ∧
      ((∃ i j, 1e-8 < magnitude (f i j)) →
        (∃ r : ℝ, 0 < r ∧ ∀ i j c, g i j c = r * f i j c) ∧
        (∀ i j, magnitude (g i j) ≤ 1) ∧ ∃ i j, magnitude (g i j) = 1) ∧
      ((∀ i j, magnitude (f i j) ≤ 1e-8) → g = f) ∧
      normalize g = .ok g := by
  obtain ⟨m, hm⟩ := maxFieldMagnitude_exists hx hy f
  have hm' := maxFieldMagnitude_eq_ok.1 hm
  by_cases h : m ≤ 1e-8
  · refine ⟨f, normalize_small hm h, ?_, fun _ => rfl, normalize_small hm h⟩
    rintro ⟨i, j, hij⟩
    exact absurd (lt_of_lt_of_le hij (hm'.1 i j)) (not_lt.2 h)
  · have h := not_le.1 h
    have hpos : 0 < m := lt_trans (by norm_num) h
    refine ⟨_, normalize_large hm h, fun _ => ⟨⟨m⁻¹, inv_pos.2 hpos, fun i j c => ?_⟩, fun i j => ?_, ?_⟩, fun h' => ?_,
      normalize_idem (normalize_large hm h)⟩
    · rw [Complex.ofReal_inv, div_eq_inv_mul]
    · rw [magnitude_div m hpos, div_le_one hpos]; exact hm'.1 i j
    · obtain ⟨i, j, hij⟩ := hm'.2
      exact ⟨i, j, by rw [magnitude_div m hpos, hij, div_self hpos.ne']⟩
    · obtain ⟨i, j, hij⟩ := hm'.2
      exact absurd (h' i j) (not_le.2 (hij ▸ h))

example : (0 : ℕ) < 2 ∧ (0 : ℕ) < 1 ∧
    ∃ i j, 1e-8 < magnitude ((fun i _ => ![(3 * (i : ℕ) : ℂ), 4 * (i : ℕ)] : VectorField 2 1) i j) := by
  refine ⟨by norm_num, by norm_num, 1, 0, ?_⟩
  have : magnitude ![(3 : ℂ), 4] = 5 := by
    unfold magnitude
    simp only [Matrix.cons_val_zero, Matrix.cons_val_one, Complex.norm_ofNat]
    rw [show (3 : ℝ) ^ 2 + 4 ^ 2 = 5 ^ 2 by norm_num, Real.sqrt_sq (by norm_num)]
  simp only [Fin.val_one, Nat.cast_one, mul_one, this]
  norm_num

/-- C57: `normalize_elementwise` returns, at every point, a vector of length one in the direction of the given one, unless
that is negligible, in which case it is unchanged; normalising again changes nothing. -/
theorem C57_normalize_elementwise (f : VectorField nx ny) (i : Fin nx) (j : Fin ny) :
    (1e-8 < magnitude (f i j) → magnitude (normalizeElementwise f i j) = 1 ∧
      ∃ r : ℝ, 0 < r ∧ ∀ c, normalizeElementwise f i j c = r * f i j c) ∧
    (magnitude (f i j) ≤ 1e-8 → normalizeElementwise f i j = f i j) ∧
    normalizeElementwise (normalizeElementwise f) = normalizeElementwise f := by
  have large : ∀ i j, 1e-8 < magnitude (f i j) → magnitude (normalizeElementwise f i j) = 1 := by
    intro i j h
    have hpos : 0 < magnitude (f i j) := lt_trans (by norm_num) h
    rw [normalizeElementwise_large h, magnitude_div _ hpos, div_self hpos.ne']
  refine ⟨fun h => ⟨large i j h, ?_⟩, normalizeElementwise_small, ?_⟩
  · have hpos : 0 < magnitude (f i j) := lt_trans (by norm_num) h
    refine ⟨(magnitude (f i j))⁻¹, inv_pos.2 hpos, fun c => ?_⟩
    simp only [normalizeElementwise_large h, Complex.ofReal_inv, div_eq_inv_mul]
  · funext i j
    by_cases h : magnitude (f i j) ≤ 1e-8
    · apply normalizeElementwise_small
      rwa [normalizeElementwise_small h]
    · have h := large i j (not_le.1 h)
      rw [normalizeElementwise_large (f := normalizeElementwise f) (by rw [h]; norm_num), h]
      funext c
      simp

/-- C57: whatever the array, expansion, lattice and weights, the vectors returned by `compute_field_pol` and
`compute_field_jones_direct` are not longer than one, and those returned by `compute_field_normal` have length one or are
negligible. -/
theorem C57_fields [Fintype ι] [DecidableEq ι] (x : Matrix (Fin nx) (Fin ny) ℂ) (G : ι → ℤ × ℤ) (l : LatticeVectors)
    (fw sw : ℝ) (t : VectorField nx ny) (i : Fin nx) (j : Fin ny) :
    (computeField .pol x G l fw sw = .ok t → magnitude (t i j) ≤ 1) ∧
    (computeField .jonesDirect x G l fw sw = .ok t → magnitude (t i j) ≤ 1) ∧
    (computeField .normal x G l fw sw = .ok t → magnitude (t i j) = 1 ∨ magnitude (t i j) ≤ 1e-8) := by
  have key : ∀ b t, computeTangentFieldNoBatch x G l b fw sw 1 = .ok t → magnitude (t i j) ≤ 1 := by
    intro b t h
    unfold computeTangentFieldNoBatch at h
    split_ifs at h
    obtain ⟨m, -, h⟩ := bind_eq_ok.1 h
    obtain ⟨g, -, h⟩ := bind_eq_ok.1 h
    obtain ⟨f, -, h⟩ := bind_eq_ok.1 h
    have hx : 0 < nx := i.pos
    have hy : 0 < ny := j.pos
    obtain ⟨t', h', h1, h2, -⟩ := C57_normalize hx hy f
    obtain rfl := ok_inj.1 (h'.symm.trans h)
    by_cases hs : ∃ i j, 1e-8 < magnitude (f i j)
    · exact (h1 hs).2.1 i j
    · push Not at hs
      rw [h2 hs]
      exact (hs i j).trans (by norm_num)
  refine ⟨key _ t, key _ t, fun h => ?_⟩
  obtain ⟨s, -, h⟩ := bind_eq_ok.1 h
  obtain rfl := ok_inj.1 h
  by_cases hs : magnitude (s i j) ≤ 1e-8
  · right
    rw [normalizeElementwise_small hs]; exact hs
  · exact Or.inl ((C57_normalize_elementwise s i j).1 (not_le.1 hs)).1

/-- C58: `normalize_jones` of a field whose vectors are linearly polarised, in particular of a real field, has vectors of
length one everywhere. -/
theorem C58_unit (hx : 0 < nx) (hy : 0 < ny) (f : VectorField nx ny) (hf : ∀ i j, LinearlyPolarized (f i j)) :
    ∃ g, normalizeJones f = .ok g ∧ ∀ i j, magnitude (g i j) = 1 := by
  obtain ⟨f', hf', -⟩ := C57_normalize hx hy f
  have ex : ∃ g, normalizeJones f = .ok g := by
    unfold normalizeJones
    rw [hf']
    exact ⟨_, rfl⟩
  obtain ⟨g, hg⟩ := ex
  refine ⟨g, hg, fun i j => ?_⟩
  obtain ⟨f'', h'', h⟩ := normalizeJones_eq_ok hg
  obtain rfl := ok_inj.1 (hf'.symm.trans h'')
  have one : ∀ {t : Fin 2 → ℂ}, magnitude t ^ 2 = 1 → magnitude t = 1 := fun {t} h =>
    (sq_eq_sq₀ (magnitude_nonneg t) zero_le_one).1 (by rw [h]; norm_num)
  rcases h i j with ⟨-, theta, h⟩ | ⟨hm, theta, h⟩
  · apply one
    rw [h, magnitude_jonesVector]
    have e : ‖((1 / Real.sqrt 2 : ℝ) : ℂ)‖ ^ 2 = 1 / 2 := by
      rw [Complex.norm_real, Real.norm_eq_abs, sq_abs, div_pow, Real.sq_sqrt (by norm_num)]; norm_num
    rw [e, Complex.star_def, Complex.conj_ofReal, ← Complex.ofReal_mul, Complex.ofReal_im]
    norm_num
  · apply one
    rw [h, magnitude_jonesVector]
    have hpos : 0 < magnitude (f' i j) := lt_trans (by norm_num) hm
    have e : ‖f' i j 0 / (magnitude (f' i j) : ℂ)‖ ^ 2 + ‖f' i j 1 / (magnitude (f' i j) : ℂ)‖ ^ 2 = 1 := by
      rw [norm_div, norm_div, div_pow, div_pow, ← add_div, ← magnitude_sq, Complex.norm_real, Real.norm_eq_abs, sq_abs,
        div_self (by positivity)]
    have z : (f' i j 0 / (magnitude (f' i j) : ℂ) * star (f' i j 1 / (magnitude (f' i j) : ℂ))).im = 0 := by
      obtain ⟨w, a, b, ha, hb⟩ := hf i j
      obtain ⟨m, -, ⟨-, rfl⟩ | ⟨-, rfl⟩⟩ := normalize_eq_ok hf'
      · rw [ha, hb]
        simp only [Complex.star_def, map_div₀, map_mul, Complex.conj_ofReal]
        rw [show w * a / (magnitude (f' i j) : ℂ) * ((starRingEnd ℂ) w * b / (magnitude (f' i j) : ℂ)) =
          (w * (starRingEnd ℂ) w) * ((a * b / (magnitude (f' i j) * magnitude (f' i j)) : ℝ) : ℂ) by push_cast; ring,
          Complex.mul_conj, ← Complex.ofReal_mul, Complex.ofReal_im]
      · simp only [ha, hb, Complex.star_def, map_div₀, map_mul, Complex.conj_ofReal]
        generalize (magnitude fun c => f i j c / (m : ℂ)) = q
        rw [show w * a / (m : ℂ) / (q : ℂ) * ((starRingEnd ℂ) w * b / (m : ℂ) / (q : ℂ)) =
          (w * (starRingEnd ℂ) w) * ((a / m / q * (b / m / q) : ℝ) : ℂ) by push_cast; ring,
          Complex.mul_conj, ← Complex.ofReal_mul, Complex.ofReal_im]
    rw [e, z]; ring

/-- C58: where the field has its largest magnitude (and is not negligible) the Jones vector is linearly polarised along the
field; where it vanishes the Jones vector is circularly polarised. -/
theorem C58_polarization (f g : VectorField nx ny) (hg : normalizeJones f = .ok g) (i : Fin nx) (j : Fin ny) :
    (1e-8 < magnitude (f i j) → (∀ i' j', magnitude (f i' j') ≤ magnitude (f i j)) →
      ∃ w : ℂ, w ≠ 0 ∧ ∀ c, g i j c = w * f i j c) ∧
    (f i j = 0 → CircularlyPolarized (g i j)) := by
  obtain ⟨f', hf', h⟩ := normalizeJones_eq_ok hg
  obtain ⟨m, hm, hm'⟩ := normalize_eq_ok hf'
  constructor
  · intro h0 hmax
    have hmm : m = magnitude (f i j) := by
      have h := maxFieldMagnitude_eq_ok.1 hm
      obtain ⟨a, b, hab⟩ := h.2
      exact le_antisymm (hab ▸ hmax a b) (h.1 i j)
    have hpos : 0 < m := by rw [hmm]; exact lt_trans (by norm_num) h0
    rcases hm' with ⟨h1, -⟩ | ⟨-, rfl⟩
    · rw [hmm] at h1; exact absurd h0 (not_lt.2 h1)
    have h1 : magnitude (fun c => f i j c / (m : ℂ)) = 1 := by
      rw [magnitude_div m hpos, ← hmm, div_self hpos.ne']
    rcases h i j with ⟨h2, -⟩ | ⟨-, theta, h2⟩
    · rw [h1] at h2; norm_num at h2
    · rw [h1] at h2
      have hphi : Real.pi / 8 * (1 + Real.cos (Real.pi * 1)) = 0 := by rw [mul_one, Real.cos_pi]; ring
      rw [hphi] at h2
      refine ⟨Complex.exp (Complex.I * theta) / m, div_ne_zero (Complex.exp_ne_zero _) (by exact_mod_cast hpos.ne'),
        fun c => ?_⟩
      rw [h2]
      unfold jonesVector
      fin_cases c <;> simp <;> ring
  · intro h0
    have z : f' i j = 0 := by
      rcases hm' with ⟨-, rfl⟩ | ⟨-, rfl⟩
      · exact h0
      · funext c; simp [h0]
    have zm : magnitude (f' i j) = 0 := magnitude_eq_zero.2 z
    rcases h i j with ⟨-, theta, h2⟩ | ⟨h2, -⟩
    · rw [zm] at h2
      have hphi : Real.pi / 8 * (1 + Real.cos (Real.pi * 0)) = Real.pi / 4 := by rw [mul_zero, Real.cos_zero]; ring
      rw [hphi] at h2
      have s2 : Real.sqrt 2 ≠ 0 := by positivity
      have s3 : (Real.sqrt 2 : ℂ) ^ 2 = 2 := by
        rw [← Complex.ofReal_pow, Real.sq_sqrt (by norm_num)]; norm_num
      constructor
      · intro h3
        have h4 := congrFun (h2.symm.trans h3) 0
        unfold jonesVector at h4
        simp only [Matrix.cons_val_zero, Pi.zero_apply, mul_eq_zero, Complex.exp_ne_zero, false_or] at h4
        have h5 := congrArg Complex.re h4
        simp [Real.cos_pi_div_four] at h5
      · rw [h2]
        unfold jonesVector
        simp only [Matrix.cons_val_zero, Matrix.cons_val_one, Real.cos_pi_div_four, Real.sin_pi_div_four]
        linear_combination (Complex.exp (Complex.I * theta) * ((1 / Real.sqrt 2 : ℝ) : ℂ) *
          ((Real.sqrt 2 / 2 : ℝ) : ℂ)) * Complex.I_sq
    · rw [zm] at h2; norm_num at h2

example : LinearlyPolarized ![(3 : ℂ), 4 * Complex.I ^ 4] ∧
    (1e-8 : ℝ) < 5 ∧ normalizeJones (fun _ _ => 0 : VectorField 1 1) ≠ .error .valueError := by
  refine ⟨⟨1, 3, 4, by simp, by simp⟩, by norm_num, ?_⟩
  obtain ⟨g, hg, -⟩ := C58_unit (by norm_num) (by norm_num) (fun _ _ => 0 : VectorField 1 1)
    fun _ _ => ⟨0, 0, 0, by simp, by simp⟩
  rw [hg]; simp

/-- C58, side finding: for a complex field the Jones vectors need not have length one.  Here the second vector is
elliptically polarised. -/
theorem C58_finding_complex_field :
    ∃ (f g : VectorField 1 2), normalizeJones f = .ok g ∧ magnitude (g 0 1) ≠ 1 := by
  let f : VectorField 1 2 := fun _ j => if j = 0 then ![1, 0] else ![3 / 10, 4 / 10 * Complex.I]
  have m0 : magnitude (f 0 0) = 1 := by simp [f, magnitude]
  have m1 : magnitude (f 0 1) = 1 / 2 := by
    simp only [f, magnitude, Fin.isValue, one_ne_zero, if_false, Matrix.cons_val_zero, Matrix.cons_val_one, norm_mul,
      Complex.norm_I, norm_div, Complex.norm_ofNat]
    rw [show (3 / 10 : ℝ) ^ 2 + (4 / 10 * 1) ^ 2 = (1 / 2) ^ 2 by norm_num, Real.sqrt_sq (by norm_num)]
  have hm : maxFieldMagnitude f = .ok 1 := by
    rw [maxFieldMagnitude_eq_ok]
    refine ⟨fun i j => ?_, 0, 0, m0⟩
    have hi : i = 0 := Subsingleton.elim _ _
    subst hi
    fin_cases j
    · exact m0.le
    · exact m1.le.trans (by norm_num)
  have hn : normalize f = .ok f := by
    rw [normalize_large hm (by norm_num)]
    simp
  have ex : ∃ g, normalizeJones f = .ok g := by
    unfold normalizeJones
    rw [hn]
    exact ⟨_, rfl⟩
  obtain ⟨g, hg⟩ := ex
  refine ⟨f, g, hg, fun h1 => ?_⟩
  obtain ⟨f', hf', h⟩ := normalizeJones_eq_ok hg
  obtain rfl := ok_inj.1 (hn.symm.trans hf')
  rcases h 0 1 with ⟨h, -⟩ | ⟨-, theta, h⟩
  · rw [m1] at h; norm_num at h
  · have hq := magnitude_jonesVector (f 0 1 0 / (magnitude (f 0 1) : ℂ)) (f 0 1 1 / (magnitude (f 0 1) : ℂ))
      (Real.pi / 8 * (1 + Real.cos (Real.pi * magnitude (f 0 1)))) theta
    rw [← h, h1, m1] at hq
    have hphi : 2 * (Real.pi / 8 * (1 + Real.cos (Real.pi * (1 / 2)))) = Real.pi / 4 := by
      rw [show Real.pi * (1 / 2) = Real.pi / 2 by ring, Real.cos_pi_div_two]; ring
    rw [hphi, Real.sin_pi_div_four] at hq
    have e0 : f 0 1 0 / ((1 / 2 : ℝ) : ℂ) = ((3 / 5 : ℝ) : ℂ) := by simp [f]; norm_num
    have e1 : f 0 1 1 / ((1 / 2 : ℝ) : ℂ) = ((4 / 5 : ℝ) : ℂ) * Complex.I := by simp [f]; ring
    rw [e0, e1] at hq
    have s2 : 0 < Real.sqrt 2 := by positivity
    simp only [norm_mul, Complex.norm_I, Complex.norm_real, Complex.star_def, map_mul, Complex.conj_ofReal, Complex.conj_I,
      Complex.mul_im, Complex.mul_re, Complex.ofReal_re, Complex.ofReal_im, Complex.neg_im, Complex.neg_re, Complex.I_im,
      Complex.I_re, Real.norm_eq_abs] at hq
    rw [abs_of_pos (by norm_num : (0 : ℝ) < 3 / 5), abs_of_pos (by norm_num : (0 : ℝ) < 4 / 5)] at hq
    nlinarith

/-- C59: for independent lattice vectors `compute_gradient` returns the vector field whose components along `u` and `v`,
divided by the square root of the cell area, are the periodic central differences times the number of samples; there is
only one such field.  For dependent lattice vectors the result is not finite. -/
theorem C59_gradient [NeZero nx] [NeZero ny] (x : Matrix (Fin nx) (Fin ny) ℂ) (l : LatticeVectors) :
    (Independent l.u l.v → ∃ g, computeGradient x l = .ok g ∧ ∀ i j,
      (l.u.1 * g i j 0 + l.u.2 * g i j 1 =
        Real.sqrt |l.u.1 * l.v.2 - l.u.2 * l.v.1| * nx * ((x (i + 1) j - x (i - 1) j) / 2)) ∧
      (l.v.1 * g i j 0 + l.v.2 * g i j 1 =
        Real.sqrt |l.u.1 * l.v.2 - l.u.2 * l.v.1| * ny * ((x i (j + 1) - x i (j - 1)) / 2))) ∧
    (¬ Independent l.u l.v → computeGradient x l = .error .nonFinite) := by
  refine ⟨fun hl => ?_, fun hl => ?_⟩
  · obtain ⟨g, hg⟩ := computeGradient_exists x hl
    exact ⟨g, hg, (computeGradient_eq_ok.1 hg).2⟩
  · have hl' : l.u.1 * l.v.2 - l.u.2 * l.v.1 = 0 := by unfold Independent at hl; push Not at hl; exact hl
    unfold computeGradient normalizedBasis
    simp only [basisMatrix_det, hl', abs_zero, if_true]
    rfl

example : Independent ((1, 0) : ℝ × ℝ) (1 / 2, 1) := by unfold Independent; norm_num

/-- C59: the gradient of a constant vanishes, the gradient is linear, commutes with cyclic shifts, does not change when the
unit cell is scaled, and rotates with the lattice. -/
theorem C59_invariances [NeZero nx] [NeZero ny] (x y : Matrix (Fin nx) (Fin ny) ℂ) (l : LatticeVectors)
    (g h : VectorField nx ny) (hg : computeGradient x l = .ok g) (hh : computeGradient y l = .ok h) :
    (∀ c : ℂ, computeGradient (Matrix.of fun _ _ => c : Matrix (Fin nx) (Fin ny) ℂ) l = .ok fun _ _ _ => 0) ∧
    (∀ a b : ℂ, computeGradient (a • x + b • y) l = .ok fun i j c => a * g i j c + b * h i j c) ∧
    (∀ (p : Fin nx) (q : Fin ny), computeGradient (Matrix.of fun i j => x (i + p) (j + q)) l = .ok fun i j => g (i + p) (j + q)) ∧
    (∀ s : ℝ, 0 < s → computeGradient x ⟨(s * l.u.1, s * l.u.2), (s * l.v.1, s * l.v.2)⟩ = .ok g) ∧
    (∀ θ : ℝ, computeGradient x ⟨(Real.cos θ * l.u.1 - Real.sin θ * l.u.2, Real.sin θ * l.u.1 + Real.cos θ * l.u.2),
        (Real.cos θ * l.v.1 - Real.sin θ * l.v.2, Real.sin θ * l.v.1 + Real.cos θ * l.v.2)⟩ =
      .ok fun i j => ![Real.cos θ * g i j 0 - Real.sin θ * g i j 1, Real.sin θ * g i j 0 + Real.cos θ * g i j 1]) := by
  obtain ⟨hl, hg⟩ := computeGradient_eq_ok.1 hg
  obtain ⟨-, hh⟩ := computeGradient_eq_ok.1 hh
  refine ⟨fun c => computeGradient_eq_ok.2 ⟨hl, fun i j => ?_⟩, fun a b => computeGradient_eq_ok.2 ⟨hl, fun i j => ?_⟩,
    fun p q => computeGradient_eq_ok.2 ⟨hl, fun i j => ?_⟩, fun s hs => computeGradient_eq_ok.2 ⟨?_, fun i j => ?_⟩,
    fun θ => ?_⟩
  · simp
  · simp only [Matrix.add_apply, Matrix.smul_apply, smul_eq_mul]
    constructor
    · linear_combination a * (hg i j).1 + b * (hh i j).1
    · linear_combination a * (hg i j).2 + b * (hh i j).2
  · simp only [Matrix.of_apply]
    have e1 : i + 1 + p = i + p + 1 := by abel
    have e2 : i - 1 + p = i + p - 1 := by abel
    have e3 : j + 1 + q = j + q + 1 := by abel
    have e4 : j - 1 + q = j + q - 1 := by abel
    rw [e1, e2, e3, e4]
    exact hg (i + p) (j + q)
  · unfold Independent at hl ⊢
    simp only
    rw [show s * l.u.1 * (s * l.v.2) - s * l.u.2 * (s * l.v.1) = s ^ 2 * (l.u.1 * l.v.2 - l.u.2 * l.v.1) by ring]
    exact mul_ne_zero (by positivity) hl
  · simp only
    rw [show s * l.u.1 * (s * l.v.2) - s * l.u.2 * (s * l.v.1) = s ^ 2 * (l.u.1 * l.v.2 - l.u.2 * l.v.1) by ring, abs_mul,
      Real.sqrt_mul (abs_nonneg _), abs_of_nonneg (by positivity), Real.sqrt_sq hs.le]
    push_cast
    constructor
    · linear_combination (s : ℂ) * (hg i j).1
    · linear_combination (s : ℂ) * (hg i j).2
  · have hd : (Real.cos θ * l.u.1 - Real.sin θ * l.u.2) * (Real.sin θ * l.v.1 + Real.cos θ * l.v.2) -
        (Real.sin θ * l.u.1 + Real.cos θ * l.u.2) * (Real.cos θ * l.v.1 - Real.sin θ * l.v.2) =
        l.u.1 * l.v.2 - l.u.2 * l.v.1 := by
      linear_combination (l.u.1 * l.v.2 - l.u.2 * l.v.1) * Real.sin_sq_add_cos_sq θ
    have hq : (Real.sin θ : ℂ) ^ 2 + (Real.cos θ : ℂ) ^ 2 = 1 := by
      have := Real.sin_sq_add_cos_sq θ
      exact_mod_cast this
    refine computeGradient_eq_ok.2 ⟨?_, fun i j => ?_⟩
    · unfold Independent at hl ⊢
      simp only [hd]
      exact hl
    · simp only [hd, Matrix.cons_val_zero, Matrix.cons_val_one]
      push_cast [← Complex.ofReal_cos, ← Complex.ofReal_sin]
      constructor
      · linear_combination (hg i j).1 + (l.u.1 * g i j 0 + l.u.2 * g i j 1) * hq
      · linear_combination (hg i j).2 + (l.v.1 * g i j 0 + l.v.2 * g i j 1) * hq

example : ∃ (l : LatticeVectors) (g : VectorField 2 3),
    computeGradient (Matrix.of fun i j => ((i : ℕ) + 2 * (j : ℕ) : ℂ)) l = .ok g := by
  refine ⟨⟨(1, 0), (1 / 2, 1)⟩, ?_⟩
  obtain ⟨g, hg, -⟩ := (C59_gradient (Matrix.of fun i j => ((i : ℕ) + 2 * (j : ℕ) : ℂ) : Matrix (Fin 2) (Fin 3) ℂ)
    ⟨(1, 0), (1 / 2, 1)⟩).1 (by unfold Independent; norm_num)
  exact ⟨g, hg⟩

end Fmmax
