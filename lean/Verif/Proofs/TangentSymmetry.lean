import Verif.Spec.TangentSymmetry
import Verif.Proofs.SupercellTangent
import Verif.Proofs.Media

/-! Tangent vector fields in turned and shifted coordinates. -/

namespace Fmmax

open Matrix Spec

variable {ι : Type} {nx ny a b : ℕ}

/-- The field multiplied by a matrix, with its points shifted. -/
noncomputable def moveField [NeZero nx] [NeZero ny] (U : Matrix (Fin 2) (Fin 2) ℂ) (c : Fin nx) (d : Fin ny) (f : VectorField nx ny) : VectorField nx ny :=
  fun i j => U *ᵥ f (i + c) (j + d)

/-- The Fourier coefficients of the moved field. -/
noncomputable def moveCoefficients [NeZero nx] [NeZero ny] (G : ι → ℤ × ℤ) (U : Matrix (Fin 2) (Fin 2) ℂ) (c : Fin nx) (d : Fin ny) (y : ι × Fin 2 → ℂ) : ι × Fin 2 → ℂ :=
  fun p => (U *ᵥ fun e => y (p.1, e)) p.2 * planeWave nx ny (G p.1) c d

theorem unitary_norm {U : Matrix (Fin 2) (Fin 2) ℂ} (hU : Uᴴ * U = 1) (v : Fin 2 → ℂ) : ∑ c, ‖(U *ᵥ v) c‖ ^ 2 = ∑ c, ‖v c‖ ^ 2 := by
  have h : ∀ w : Fin 2 → ℂ, ((∑ c, ‖w c‖ ^ 2 : ℝ) : ℂ) = star w ⬝ᵥ w := by
    intro w
    simp only [dotProduct, Pi.star_apply, Complex.ofReal_sum, Complex.ofReal_pow]
    refine Finset.sum_congr rfl fun c _ => ?_
    rw [Complex.star_def, mul_comm, Complex.mul_conj, Complex.normSq_eq_norm_sq]
    push_cast; rfl
  have e : ((∑ c, ‖(U *ᵥ v) c‖ ^ 2 : ℝ) : ℂ) = ((∑ c, ‖v c‖ ^ 2 : ℝ) : ℂ) := by
    rw [h, h, star_mulVec, dotProduct_mulVec, vecMul_vecMul, hU, vecMul_one]
  exact_mod_cast e

theorem magnitude_sum (v : Fin 2 → ℂ) : magnitude v = Real.sqrt (∑ c, ‖v c‖ ^ 2) := by
  unfold magnitude
  rw [Fin.sum_univ_two]

theorem unitary_magnitude {U : Matrix (Fin 2) (Fin 2) ℂ} (hU : Uᴴ * U = 1) (v : Fin 2 → ℂ) : magnitude (U *ᵥ v) = magnitude v := by
  rw [magnitude_sum, magnitude_sum, unitary_norm hU]

section

variable [NeZero nx] [NeZero ny] {U : Matrix (Fin 2) (Fin 2) ℂ} {c : Fin nx} {d : Fin ny}

theorem moveField_magnitude (hU : Uᴴ * U = 1) (f : VectorField nx ny) (i : Fin nx) (j : Fin ny) :
    magnitude (moveField U c d f i j) = magnitude (f (i + c) (j + d)) := unitary_magnitude hU _

theorem moveField_fieldMagnitude (hU : Uᴴ * U = 1) (f : VectorField nx ny) (i : Fin nx) (j : Fin ny) :
    fieldMagnitude (moveField U c d f) i j = fieldMagnitude f (i + c) (j + d) := by
  rw [fieldMagnitude_eq, fieldMagnitude_eq, moveField_magnitude hU]

theorem maxFieldMagnitude_move (hU : Uᴴ * U = 1) {f : VectorField nx ny} {m : ℝ} (h : maxFieldMagnitude f = .ok m) :
    maxFieldMagnitude (moveField U c d f) = .ok m := by
  obtain ⟨h1, i, j, h2⟩ := maxFieldMagnitude_eq_ok.1 h
  refine maxFieldMagnitude_eq_ok.2 ⟨fun i j => ?_, i - c, j - d, ?_⟩
  · rw [moveField_magnitude hU]; exact h1 _ _
  · rw [moveField_magnitude hU, sub_add_cancel, sub_add_cancel, h2]

theorem moveField_div (f : VectorField nx ny) (r : ℂ) :
    (fun i j e => moveField U c d f i j e / r) = moveField U c d fun i j e => f i j e / r := by
  funext i j e
  simp only [moveField, mulVec, dotProduct, Finset.sum_div, mul_div_assoc]

theorem normalize_move (hU : Uᴴ * U = 1) {f g : VectorField nx ny} (h : normalize f = .ok g) :
    normalize (moveField U c d f) = .ok (moveField U c d g) := by
  unfold normalize at h ⊢
  obtain ⟨m, hm, h⟩ := bind_eq_ok.1 h
  rw [ok_inj] at h
  rw [maxFieldMagnitude_move hU hm]
  simp only [bind, Except.bind, ok_inj, ← h]
  exact moveField_div f _

theorem normalizeElementwise_move (hU : Uᴴ * U = 1) (f : VectorField nx ny) :
    normalizeElementwise (moveField U c d f) = moveField U c d (normalizeElementwise f) := by
  funext i j e
  unfold normalizeElementwise
  have h := moveField_fieldMagnitude (c := c) (d := d) hU f i j
  by_cases hz : IsClose (fieldMagnitude f (i + c) (j + d)) 0
  · have hz' : IsClose (fieldMagnitude (moveField U c d f) i j) 0 := h ▸ hz
    simp only [moveField, if_pos hz, if_pos hz', mulVec, dotProduct, Finset.sum_div, mul_div_assoc]
  · have hz' : ¬IsClose (fieldMagnitude (moveField U c d f) i j) 0 := h ▸ hz
    simp only [moveField, if_neg hz, mulVec, dotProduct, Finset.sum_div, mul_div_assoc] at h hz' ⊢
    simp only [if_neg hz', h]

variable [Fintype ι] {G : ι → ℤ × ℤ}

theorem seriesMap_move {mx my : ℕ} [NeZero mx] [NeZero my] {c' : Fin mx} {d' : Fin my} (h : ∀ i, planeWave mx my (G i) c' d' = planeWave nx ny (G i) c d)
    (y : ι × Fin 2 → ℂ) : seriesMap G mx my (moveCoefficients G U c d y) = moveField U c' d' (seriesMap G mx my y) := by
  funext i j e
  change (∑ k, (U *ᵥ fun e => y (k, e)) e * planeWave nx ny (G k) c d * planeWave mx my (G k) i j) =
    ∑ e', U e e' * ∑ k, y (k, e') * planeWave mx my (G k) (i + c' : Fin mx) (j + d' : Fin my)
  simp only [planeWave_shift, h, mulVec, dotProduct, Fin.sum_univ_two, Finset.mul_sum, ← Finset.sum_add_distrib]
  refine Finset.sum_congr rfl fun k _ => ?_
  ring

omit [Fintype ι] in
theorem coefficient_move (f : VectorField nx ny) :
    (fun p : ι × Fin 2 => fourierCoefficient (Matrix.of fun i j => moveField U c d f i j p.2) (G p.1)) =
      moveCoefficients G U c d fun p => fourierCoefficient (Matrix.of fun i j => f i j p.2) (G p.1) := by
  funext ⟨k, e⟩
  have hs : ∀ F : Fin nx → Fin ny → ℂ, ∑ i, ∑ j, F (i + c) (j + d) = ∑ i, ∑ j, F i j := by
    intro F
    have h1 := Equiv.sum_comp (Equiv.addRight c) fun i => ∑ j, F i (j + d)
    simp only [Equiv.coe_addRight] at h1
    rw [h1]
    exact Finset.sum_congr rfl fun i _ => Equiv.sum_comp (Equiv.addRight d) fun j => F i j
  have hc : planeWave nx ny (-G k) c d * planeWave nx ny (G k) c d = 1 := by
    unfold planeWave
    rw [← Complex.exp_add, Complex.exp_eq_one_iff]
    refine ⟨0, ?_⟩
    simp only [Prod.fst_neg, Prod.snd_neg]
    push_cast
    ring
  have key : ∀ e', (∑ i, ∑ j, f (i + c) (j + d) e' * planeWave nx ny (-G k) i j) =
      (∑ i, ∑ j, f i j e' * planeWave nx ny (-G k) i j) * planeWave nx ny (G k) c d := by
    intro e'
    rw [← hs fun i j => f i j e' * planeWave nx ny (-G k) i j]
    simp only [Finset.sum_mul, planeWave_shift]
    refine Finset.sum_congr rfl fun i _ => Finset.sum_congr rfl fun j _ => ?_
    linear_combination (-(f (i + c) (j + d) e' * planeWave nx ny (-G k) i j)) * hc
  simp only [fourierCoefficient, moveCoefficients, moveField, of_apply, mulVec, dotProduct, Fin.sum_univ_two, add_mul, Finset.sum_add_distrib, mul_assoc,
    ← Finset.mul_sum, key]
  ring

theorem alignmentLoss_move (hU : Uᴴ * U = 1) (f t : VectorField nx ny) (w : Fin nx → Fin ny → ℝ) :
    alignmentLoss (moveField U c d f) (moveField U c d t) (fun i j => w (i + c) (j + d)) = alignmentLoss f t w := by
  unfold alignmentLoss
  rw [← sum_shift c d fun i j => w i j * ∑ e, ‖f i j e - t i j e‖ ^ 2]
  congr 1
  refine Finset.sum_congr rfl fun i _ => Finset.sum_congr rfl fun j _ => ?_
  congr 1
  rw [← unitary_norm hU fun e => f (i + c) (j + d) e - t (i + c) (j + d) e]
  refine Finset.sum_congr rfl fun e _ => ?_
  congr 2
  exact (congrFun (mulVec_sub U (f (i + c) (j + d)) (t (i + c) (j + d))) e).symm

end

/-! ### Turned lattices -/

variable {O : Matrix (Fin 2) (Fin 2) ℝ}

theorem turnLattice_cross (O : Matrix (Fin 2) (Fin 2) ℝ) (l : LatticeVectors) : (turnLattice O l).u.1 * (turnLattice O l).v.2 - (turnLattice O l).u.2 * (turnLattice O l).v.1 =
    O.det * (l.u.1 * l.v.2 - l.u.2 * l.v.1) := by
  rw [det_fin_two]
  simp only [turnLattice]
  ring

theorem orthogonal_det_abs (hO : Oᵀ * O = 1) : |O.det| = 1 := by
  have := (orthogonal_entries hO).2.2.2.2.2.2.2
  rw [← sq_abs] at this
  nlinarith [abs_nonneg O.det, sq_nonneg (|O.det| - 1), mul_self_eq_one_iff.1 (by rw [← sq]; exact this : |O.det| * |O.det| = 1)]

theorem turnLattice_area (hO : Oᵀ * O = 1) (l : LatticeVectors) :
    |(turnLattice O l).u.1 * (turnLattice O l).v.2 - (turnLattice O l).u.2 * (turnLattice O l).v.1| = |l.u.1 * l.v.2 - l.u.2 * l.v.1| := by
  rw [turnLattice_cross, abs_mul, orthogonal_det_abs hO, one_mul]

theorem turnLattice_independent (hO : Oᵀ * O = 1) {l : LatticeVectors} : Independent (turnLattice O l).u (turnLattice O l).v ↔ Independent l.u l.v := by
  change _ ≠ 0 ↔ _ ≠ 0
  rw [← abs_pos, ← abs_pos (a := l.u.1 * l.v.2 - l.u.2 * l.v.1)]
  rw [turnLattice_area hO]

theorem toC_orthogonal (hO : Oᵀ * O = 1) : (toC O)ᵀ * toC O = 1 := by
  rw [show (toC O)ᵀ = toC Oᵀ from rfl, ← toC_mul, hO, toC_one]

theorem toC_unitary (hO : Oᵀ * O = 1) : (toC O)ᴴ * toC O = 1 := by
  rw [← toC_orthogonal hO]
  congr 1
  ext i j
  simp [toC, conjTranspose_apply]

theorem computeGradient_move [NeZero nx] [NeZero ny] {c : Fin nx} {d : Fin ny} (hO : Oᵀ * O = 1) {x : Matrix (Fin nx) (Fin ny) ℂ} {l : LatticeVectors} {g : VectorField nx ny}
    (h : computeGradient x l = .ok g) :
    computeGradient (Matrix.of fun i j => x (i + c) (j + d)) (turnLattice O l) = .ok (moveField (toC O) c d g) := by
  obtain ⟨hl, h⟩ := computeGradient_eq_ok.1 h
  refine computeGradient_eq_ok.2 ⟨(turnLattice_independent hO).2 hl, fun i j => ?_⟩
  obtain ⟨h1, h2⟩ := h (i + c) (j + d)
  obtain ⟨o1, o2, o3, -⟩ := orthogonal_entries hO
  have o1' : (O 0 0 : ℂ) * O 0 0 + O 1 0 * O 1 0 = 1 := by exact_mod_cast o1
  have o2' : (O 0 0 : ℂ) * O 0 1 + O 1 0 * O 1 1 = 0 := by exact_mod_cast o2
  have o3' : (O 0 1 : ℂ) * O 0 1 + O 1 1 * O 1 1 = 1 := by exact_mod_cast o3
  rw [turnLattice_area hO]
  simp only [of_apply, moveField, mulVec, dotProduct, Fin.sum_univ_two, toC_apply, turnLattice, Complex.ofReal_add, Complex.ofReal_mul]
  rw [add_right_comm i 1 c, add_right_comm j 1 d, sub_add_eq_add_sub i 1 c, sub_add_eq_add_sub j 1 d]
  constructor
  · rw [← h1]
    linear_combination (l.u.1 * g (i + c) (j + d) 0 : ℂ) * o1' + (l.u.1 * g (i + c) (j + d) 1 + l.u.2 * g (i + c) (j + d) 0 : ℂ) * o2' +
      (l.u.2 * g (i + c) (j + d) 1 : ℂ) * o3'
  · rw [← h2]
    linear_combination (l.v.1 * g (i + c) (j + d) 0 : ℂ) * o1' + (l.v.1 * g (i + c) (j + d) 1 + l.v.2 * g (i + c) (j + d) 0 : ℂ) * o2' +
      (l.v.2 * g (i + c) (j + d) 1 : ℂ) * o3'

/-! ### The loss -/

theorem normalizedBasis_turn (hO : Oᵀ * O = 1) {l : LatticeVectors} {b : Matrix (Fin 2) (Fin 2) ℝ} (h : normalizedBasis l = .ok b) :
    normalizedBasis (turnLattice O l) = .ok (O * b) := by
  obtain ⟨hl, rfl⟩ := normalizedBasis_eq_ok.1 h
  refine normalizedBasis_eq_ok.2 ⟨(turnLattice_independent hO).2 hl, ?_⟩
  rw [turnLattice_area hO]
  ext i j
  fin_cases i <;> fin_cases j <;> simp [Matrix.mul_apply, basisMatrix, turnLattice, Fin.sum_univ_two] <;> ring

theorem vecMul_turn (hO : Oᵀ * O = 1) (b : Matrix (Fin 2) (Fin 2) ℝ) (v : Fin 2 → ℂ) :
    v ᵥ* ((O * b).map Complex.ofReal)⁻¹ = toC O *ᵥ (v ᵥ* (b.map Complex.ofReal)⁻¹) := by
  have e : ((O * b).map Complex.ofReal) = toC O * b.map Complex.ofReal := toC_mul O b
  have hinv : (toC O)⁻¹ = (toC O)ᵀ := Matrix.inv_eq_left_inv (toC_orthogonal hO)
  rw [e, Matrix.mul_inv_rev, hinv, ← Matrix.vecMul_vecMul, Matrix.vecMul_transpose]

theorem forwardDifferences_move [NeZero nx] [NeZero ny] {c : Fin nx} {d : Fin ny} (U : Matrix (Fin 2) (Fin 2) ℂ) (f : VectorField nx ny) (e : Fin 2) (i : Fin nx) (j : Fin ny) :
    forwardDifferences (moveField U c d f) e i j = fun k => (U *ᵥ fun e' => forwardDifferences f e' (i + c) (j + d) k) e := by
  have e1 : (⟨((i : ℕ) + 1) % nx, Nat.mod_lt _ i.pos⟩ : Fin nx) + c = ⟨(((i + c : Fin nx) : ℕ) + 1) % nx, Nat.mod_lt _ i.pos⟩ := by
    apply Fin.ext
    simp only [Fin.val_add, Nat.mod_add_mod]
    congr 1
    ring
  have e2 : (⟨((j : ℕ) + 1) % ny, Nat.mod_lt _ j.pos⟩ : Fin ny) + d = ⟨(((j + d : Fin ny) : ℕ) + 1) % ny, Nat.mod_lt _ j.pos⟩ := by
    apply Fin.ext
    simp only [Fin.val_add, Nat.mod_add_mod]
    congr 1
    ring
  funext k
  unfold forwardDifferences forwardDifference0 forwardDifference1 moveField
  fin_cases k <;> simp [e1, e2, mulVec, dotProduct, Fin.sum_univ_two] <;> ring

theorem gradientMap_apply (B : Matrix (Fin 2) (Fin 2) ℂ) (f : VectorField nx ny) (e : Fin 2) (i : Fin nx) (j : Fin ny) :
    gradientMap nx ny B f e i j = forwardDifferences f e i j ᵥ* B := rfl

theorem gradient_point [NeZero nx] [NeZero ny] {U : Matrix (Fin 2) (Fin 2) ℂ} {c : Fin nx} {d : Fin ny} (hU : Uᴴ * U = 1) (hO : Oᵀ * O = 1)
    (f : VectorField nx ny) (b : Matrix (Fin 2) (Fin 2) ℝ) (i : Fin nx) (j : Fin ny) :
    (∑ e, ∑ k, ‖gradientMap nx ny ((O * b).map Complex.ofReal)⁻¹ (moveField U c d f) e i j k‖ ^ 2) =
      ∑ e, ∑ k, ‖gradientMap nx ny (b.map Complex.ofReal)⁻¹ f e (i + c) (j + d) k‖ ^ 2 := by
  have h1 : ∀ e, (∑ k, ‖gradientMap nx ny ((O * b).map Complex.ofReal)⁻¹ (moveField U c d f) e i j k‖ ^ 2) =
      ∑ k, ‖(U *ᵥ fun e' => gradientMap nx ny (b.map Complex.ofReal)⁻¹ f e' (i + c) (j + d) k) e‖ ^ 2 := by
    intro e
    rw [gradientMap_apply, vecMul_turn hO, unitary_norm (toC_unitary hO), forwardDifferences_move]
    refine Finset.sum_congr rfl fun k _ => ?_
    congr 2
    simp only [gradientMap_apply, vecMul, mulVec, dotProduct, Fin.sum_univ_two]
    ring
  simp only [h1]
  rw [Finset.sum_comm]
  simp only [unitary_norm hU]
  rw [Finset.sum_comm]

theorem smoothnessLoss_move [NeZero nx] [NeZero ny] {U : Matrix (Fin 2) (Fin 2) ℂ} {c : Fin nx} {d : Fin ny} (hU : Uᴴ * U = 1) (hO : Oᵀ * O = 1)
    {f : VectorField nx ny} {l : LatticeVectors} {A : ℝ} (h : smoothnessLoss f l = .ok A) : smoothnessLoss (moveField U c d f) (turnLattice O l) = .ok A := by
  unfold smoothnessLoss at h ⊢
  obtain ⟨g, hg, h⟩ := bind_eq_ok.1 h
  rw [ok_inj] at h
  obtain ⟨b, hb, -⟩ := bind_eq_ok.1 hg
  rw [vectorForwardGradient_eq f hb, ok_inj] at hg
  rw [vectorForwardGradient_eq _ (normalizedBasis_turn hO hb)]
  refine congrArg Except.ok ?_
  rw [← h, ← hg]
  refine congrArg (· / _) ?_
  have swap : ∀ F : Fin 2 → Fin nx → Fin ny → ℝ, ∑ e, ∑ i, ∑ j, F e i j = ∑ i, ∑ j, ∑ e, F e i j := by
    intro F
    rw [Finset.sum_comm]
    exact Finset.sum_congr rfl fun i _ => Finset.sum_comm
  rw [swap fun e i j => ∑ k, ‖gradientMap nx ny ((O * b).map Complex.ofReal)⁻¹ (moveField U c d f) e i j k‖ ^ 2,
    swap fun e i j => ∑ k, ‖gradientMap nx ny (b.map Complex.ofReal)⁻¹ f e i j k‖ ^ 2]
  simp only [gradient_point hU hO]
  exact sum_shift c d fun i j => ∑ e, ∑ k, ‖gradientMap nx ny (b.map Complex.ofReal)⁻¹ f e i j k‖ ^ 2

theorem fourierLoss_move [Fintype ι] [NeZero nx] [NeZero ny] {U : Matrix (Fin 2) (Fin 2) ℂ} {c : Fin nx} {d : Fin ny} (hU : Uᴴ * U = 1) (hO : Oᵀ * O = 1)
    {y : ι × Fin 2 → ℂ} {G : ι → ℤ × ℤ} {l : LatticeVectors} {A : ℝ} (h : fourierLoss y G l = .ok A) :
    fourierLoss (moveCoefficients G U c d y) G (turnLattice O l) = .ok A := by
  unfold fourierLoss transverseWavevectors reciprocal at h ⊢
  by_cases hl : crossProduct l.u l.v = 0
  · rw [if_pos hl] at h
    cases h
  have hl' : crossProduct (turnLattice O l).u (turnLattice O l).v ≠ 0 := (turnLattice_independent hO).2 hl
  rw [if_neg hl] at h
  rw [if_neg hl']
  simp only [bind, Except.bind, ok_inj] at h ⊢
  rw [← h]
  refine Finset.sum_congr rfl fun i _ => ?_
  rw [← Finset.sum_mul, ← Finset.sum_mul]
  congr 1
  · simp only [moveCoefficients, norm_mul, norm_planeWave, mul_one]
    exact unitary_norm hU fun e => y (i, e)
  · have hs : ∀ p q r : ℝ, (Real.sqrt (p ^ 2 + q ^ 2) * Real.sqrt |r|) ^ 2 = (p ^ 2 + q ^ 2) * |r| := by
      intro p q r
      rw [mul_pow, Real.sq_sqrt (by positivity), Real.sq_sqrt (abs_nonneg _)]
    have hk : ∀ (l : LatticeVectors), crossProduct l.u l.v ≠ 0 →
        (0 + 2 * Real.pi * ((G i).1 * (l.v.2 / crossProduct l.u l.v) + (G i).2 * (-l.u.2 / crossProduct l.u l.v))) ^ 2 +
          (0 + 2 * Real.pi * ((G i).1 * (-l.v.1 / crossProduct l.u l.v) + (G i).2 * (l.u.1 / crossProduct l.u l.v))) ^ 2 =
        (2 * Real.pi) ^ 2 * (((G i).1 * l.v.1 - (G i).2 * l.u.1) ^ 2 + ((G i).1 * l.v.2 - (G i).2 * l.u.2) ^ 2) / crossProduct l.u l.v ^ 2 := by
      intro l hl
      field_simp
      ring
    have hc : crossProduct (turnLattice O l).u (turnLattice O l).v = O.det * crossProduct l.u l.v := turnLattice_cross O l
    have hd := (orthogonal_entries hO).2.2.2.2.2.2.2
    obtain ⟨o1, o2, o3, -⟩ := orthogonal_entries hO
    rw [hs, hs, hk _ hl', hk _ hl, basisMatrix_det, basisMatrix_det, turnLattice_area hO, hc, mul_pow O.det, hd, one_mul]
    congr 3
    simp only [turnLattice]
    linear_combination ((G i).1 * l.v.1 - (G i).2 * l.u.1) ^ 2 * o1 + 2 * ((G i).1 * l.v.1 - (G i).2 * l.u.1) * ((G i).1 * l.v.2 - (G i).2 * l.u.2) * o2 +
      ((G i).1 * l.v.2 - (G i).2 * l.u.2) ^ 2 * o3

section

variable [Fintype ι] [NeZero nx] [NeZero ny] {U : Matrix (Fin 2) (Fin 2) ℂ} {c : Fin nx} {d : Fin ny} {G : ι → ℤ × ℤ} {l : LatticeVectors}

theorem fieldLoss_move (hU : Uᴴ * U = 1) (hO : Oᵀ * O = 1) (hG : Function.Injective G) (hr : Resolves nx ny G) (t : VectorField nx ny) (w : Fin nx → Fin ny → ℝ)
    (fw sw : ℝ) (y : ι × Fin 2 → ℂ) {A : ℝ} (h : fieldLoss ⟨G, l, t, w, fw, sw⟩ y = .ok A) :
    fieldLoss ⟨G, turnLattice O l, moveField U c d t, fun i j => w (i + c) (j + d), fw, sw⟩ (moveCoefficients G U c d y) = .ok A := by
  have term : ∀ (x : ℝ) (T T' : Res ℝ) (wt a : ℝ), (∀ b, T = .ok b → T' = .ok b) → addLossTerm x wt T = .ok a → addLossTerm x wt T' = .ok a := by
    intro x T T' wt a hT h
    unfold addLossTerm at h ⊢
    by_cases hw : 0 < wt
    · rw [if_pos hw] at h ⊢
      obtain ⟨b, hb, h⟩ := bind_eq_ok.1 h
      rw [hT b hb]
      exact h
    · rwa [if_neg hw] at h ⊢
  unfold fieldLoss at h ⊢
  simp only [ifftVector_eq _ hG hr, seriesMap_move (c' := c) (d' := d) (fun _ => rfl)] at h ⊢
  obtain ⟨a1, ha1, h⟩ := bind_eq_ok.1 h
  rw [ok_inj] at ha1
  obtain ⟨a2, ha2, h⟩ := bind_eq_ok.1 h
  subst ha1
  refine bind_eq_ok.2 ⟨_, rfl, bind_eq_ok.2 ⟨a2, ?_, ?_⟩⟩
  · rw [alignmentLoss_move hU]
    exact term _ _ _ _ _ (fun b hb => fourierLoss_move hU hO hb) ha2
  · exact term _ _ _ _ _ (fun b hb => smoothnessLoss_move hU hO hb) h

omit [Fintype ι] in
theorem moveCoefficients_surjective (hU : Uᴴ * U = 1) (z : ι × Fin 2 → ℂ) : ∃ y, moveCoefficients G U c d y = z := by
  have hU' : U * Uᴴ = 1 := mul_eq_one_comm.1 hU
  have hp : ∀ k, planeWave nx ny (G k) c d ≠ 0 := fun k h => by
    have := norm_planeWave nx ny (G k) c d
    rw [h] at this
    simp at this
  refine ⟨fun p => (Uᴴ *ᵥ fun e => z (p.1, e)) p.2 / planeWave nx ny (G p.1) c d, ?_⟩
  funext ⟨k, e⟩
  have e1 : (fun e => (Uᴴ *ᵥ fun e => z (k, e)) e / planeWave nx ny (G k) c d) = (planeWave nx ny (G k) c d)⁻¹ • (Uᴴ *ᵥ fun e => z (k, e)) := by
    funext e
    simp only [Pi.smul_apply, smul_eq_mul, div_eq_inv_mul]
  simp only [moveCoefficients]
  rw [e1, mulVec_smul, mulVec_mulVec, hU', one_mulVec, Pi.smul_apply, smul_eq_mul, mul_right_comm, inv_mul_cancel₀ (hp k), one_mul]

variable [DecidableEq ι]

theorem newtonStep_move (hU : Uᴴ * U = 1) (hO : Oᵀ * O = 1) (hG : Function.Injective G) (hr : Resolves nx ny G) (t : VectorField nx ny) (w : Fin nx → Fin ny → ℝ)
    (hw : ∀ i j, 0 ≤ w i j) (fw sw : ℝ) {y z y' z' : ι × Fin 2 → ℂ} (hz : newtonStep ⟨G, l, t, w, fw, sw⟩ y = .ok z)
    (hz' : newtonStep ⟨G, turnLattice O l, moveField U c d t, fun i j => w (i + c) (j + d), fw, sw⟩ y' = .ok z') : z' = moveCoefficients G U c d z := by
  have min := newtonStep_minimizer (P := ⟨G, l, t, w, fw, sw⟩) hG hr hw hz
  have min' := newtonStep_minimizer (P := ⟨G, turnLattice O l, moveField U c d t, fun i j => w (i + c) (j + d), fw, sw⟩) hG hr (fun i j => hw _ _) hz'
  obtain ⟨v, hv⟩ := moveCoefficients_surjective (G := G) (c := c) (d := d) hU z'
  obtain ⟨a, b, ha, hb, hab, -⟩ := min v
  have ha' := fieldLoss_move (c := c) (d := d) hU hO hG hr t w fw sw _ ha
  have hb' := fieldLoss_move (c := c) (d := d) hU hO hG hr t w fw sw _ hb
  rw [hv] at hb'
  obtain ⟨a1, b1, ha1, hb1, -, huniq⟩ := min' (moveCoefficients G U c d z)
  rw [hb', ok_inj] at ha1
  rw [ha', ok_inj] at hb1
  exact (huniq (by rw [← ha1, ← hb1]; exact hab)).symm

theorem optimized_move (hU : Uᴴ * U = 1) (hO : Oᵀ * O = 1) (hG : Function.Injective G) (hr : Resolves nx ny G) {grad : VectorField nx ny} {b : Bool} {fw sw : ℝ}
    {steps : ℕ} {t : VectorField nx ny × VectorField nx ny} (ht : targetAndInitialField grad b = .ok t)
    (ht' : targetAndInitialField (moveField (toC O) c d grad) b = .ok (moveField U c d t.1, moveField U c d t.2)) {z z' : ι × Fin 2 → ℂ}
    (hz : optimizedFourierField grad G l b fw sw steps = .ok z)
    (hz' : optimizedFourierField (moveField (toC O) c d grad) G (turnLattice O l) b fw sw steps = .ok z') : z' = moveCoefficients G U c d z := by
  unfold optimizedFourierField at hz hz'
  rw [ht] at hz
  rw [ht'] at hz'
  simp only [bind, Except.bind, fftVector_eq _ hr] at hz hz'
  have hmag : fieldMagnitude (moveField (toC O) c d grad) = fun i j => fieldMagnitude grad (i + c) (j + d) := by
    funext i j
    exact moveField_fieldMagnitude (toC_unitary hO) grad i j
  cases steps with
  | zero =>
    simp only [newtonLoop, ok_inj] at hz hz'
    rw [← hz, ← hz', coefficient_move]
  | succ q =>
    rw [newtonLoop_succ (P := ⟨G, l, t.1, fieldMagnitude grad, fw, sw⟩) hG hr (fieldMagnitude_nonneg grad)] at hz
    rw [newtonLoop_succ (P := ⟨G, turnLattice O l, moveField U c d t.1, fieldMagnitude (moveField (toC O) c d grad), fw, sw⟩) hG hr (fieldMagnitude_nonneg _)] at hz'
    rw [hmag] at hz'
    exact newtonStep_move hU hO hG hr t.1 (fieldMagnitude grad) (fieldMagnitude_nonneg grad) fw sw hz hz'

end

/-! ### The gradient -/

section

variable [Fintype ι] [NeZero nx] [NeZero ny] {c : Fin nx} {d : Fin ny} {G : ι → ℤ × ℤ} {l : LatticeVectors} {mx my : ℕ} [NeZero mx] [NeZero my] {c' : Fin mx} {d' : Fin my}

theorem bandlimited_move (h : ∀ i, planeWave mx my (G i) c' d' = planeWave nx ny (G i) c d) (U : Matrix (Fin 2) (Fin 2) ℂ) (g : VectorField nx ny) :
    (fun r s e => fourierSeries G (fun k => fourierCoefficient (Matrix.of fun i j => moveField U c d g i j e) (G k)) mx my r s) =
      moveField U c' d' fun r s e => fourierSeries G (fun k => fourierCoefficient (Matrix.of fun i j => g i j e) (G k)) mx my r s := by
  classical
  rw [seriesMap_coefficient, coefficient_move, seriesMap_move h]
  rfl

theorem filteredGradient_move (hO : Oᵀ * O = 1) (hG : Function.Injective G) (hr : Resolves nx ny G) (hM : Resolves mx my G)
    (h : ∀ i, planeWave mx my (G i) c' d' = planeWave nx ny (G i) c d) {x : Matrix (Fin nx) (Fin ny) ℂ} {g : VectorField nx ny} (hg : computeGradient x l = .ok g)
    {f : VectorField mx my} (hf : filteredGradient x G l mx my = .ok f) :
    filteredGradient (Matrix.of fun i j => x (i + c) (j + d)) G (turnLattice O l) mx my = .ok (moveField (toC O) c' d' f) := by
  unfold filteredGradient at hf ⊢
  rw [bandlimitedGradient_eq hG hg hr hM] at hf
  rw [bandlimitedGradient_eq hG (computeGradient_move hO hg) hr hM]
  simp only [bind, Except.bind] at hf ⊢
  rw [bandlimited_move h]
  exact normalize_move (toC_unitary hO) hf

end

/-! ### The target -/

theorem signed_unitary (hO : Oᵀ * O = 1) : ((O.det : ℂ) • toC O)ᴴ * ((O.det : ℂ) • toC O) = 1 := by
  have hd := (orthogonal_entries hO).2.2.2.2.2.2.2
  have hd' : (O.det : ℂ) * O.det = 1 := by rw [← sq]; exact_mod_cast hd
  rw [conjTranspose_smul, smul_mul_smul_comm, toC_unitary hO, Complex.star_def, Complex.conj_ofReal, hd', one_smul]

theorem rotated_move [NeZero nx] [NeZero ny] {c : Fin nx} {d : Fin ny} (hO : Oᵀ * O = 1) (f : VectorField nx ny) :
    (fun i j => ![moveField (toC O) c d f i j 1, -moveField (toC O) c d f i j 0] : VectorField nx ny) =
      moveField ((O.det : ℂ) • toC O) c d fun i j => ![f i j 1, -f i j 0] := by
  obtain ⟨-, -, -, o1, o2, -, -, o5⟩ := orthogonal_entries hO
  have p11 : (O 1 1 : ℂ) = O.det * O 0 0 := by exact_mod_cast o1
  have p10 : (O 1 0 : ℂ) = -(O.det * O 0 1) := by exact_mod_cast o2
  have p5 : (O.det : ℂ) * O.det = 1 := by rw [← sq]; exact_mod_cast o5
  funext i j e
  fin_cases e
  · simp [moveField, mulVec, dotProduct, Fin.sum_univ_two, toC_apply, p11, p10]
    ring
  · simp [moveField, mulVec, dotProduct, Fin.sum_univ_two, toC_apply, p11, p10]
    linear_combination (O 0 0 * f (i + c) (j + d) 0 + O 0 1 * f (i + c) (j + d) 1 : ℂ) * p5

theorem target_move [NeZero nx] [NeZero ny] {c : Fin nx} {d : Fin ny} (hO : Oᵀ * O = 1) {f : VectorField nx ny} {t : VectorField nx ny × VectorField nx ny}
    (h : targetAndInitialField f false = .ok t) :
    targetAndInitialField (moveField (toC O) c d f) false = .ok (moveField ((O.det : ℂ) • toC O) c d t.1, moveField ((O.det : ℂ) • toC O) c d t.2) := by
  unfold targetAndInitialField at h ⊢
  simp only [Bool.false_eq_true, if_false] at h ⊢
  obtain ⟨q, hq, h⟩ := bind_eq_ok.1 h
  rw [ok_inj] at h
  rw [rotated_move hO, normalize_move (signed_unitary hO) hq, normalizeElementwise_move (signed_unitary hO), ← h]
  rfl

/-! ### Fields with two directions -/

theorem sin_sub_int_mul_pi_abs (x : ℝ) (n : ℤ) : |Real.sin (x - n * Real.pi)| = |Real.sin x| := by
  rw [Real.sin_sub_int_mul_pi, abs_mul, abs_zpow, abs_neg, abs_one, _root_.one_zpow, one_mul]

/-- Two numbers whose angles are within the tolerance of multiples of a half turn from a common angle are almost parallel. -/
theorem angles_parallel {z w : ℂ} {R : ℝ} (hR : -Real.pi < R ∧ R ≤ Real.pi)
    (hz : ∃ k : ℤ, |(k : ℝ)| ≤ 2 ∧ IsClose (Complex.arg z) (R + k * Real.pi) atol1dFieldAngle)
    (hw : ∃ k : ℤ, |(k : ℝ)| ≤ 2 ∧ IsClose (Complex.arg w) (R + k * Real.pi) atol1dFieldAngle) :
    20 * |(z * star w).im| ≤ ‖z‖ * ‖w‖ := by
  have hpi : Real.pi < 3.15 := Real.pi_lt_d2
  have bound : ∀ (y : ℂ) (k : ℤ), |(k : ℝ)| ≤ 2 → IsClose (Complex.arg y) (R + k * Real.pi) atol1dFieldAngle → |Complex.arg y - (R + k * Real.pi)| ≤ 1 / 40 := by
    intro y k hk h
    unfold IsClose atol1dFieldAngle at h
    simp only [Real.norm_eq_abs] at h
    have hb : |R + k * Real.pi| ≤ 3 * Real.pi := by
      have h1 : |R| ≤ Real.pi := abs_le.2 ⟨hR.1.le, hR.2⟩
      have h2 : |(k : ℝ) * Real.pi| ≤ 2 * Real.pi := by
        rw [abs_mul, abs_of_pos Real.pi_pos]
        exact mul_le_mul_of_nonneg_right hk Real.pi_pos.le
      linarith [abs_add_le R (k * Real.pi)]
    refine h.trans ?_
    norm_num at hpi ⊢
    linarith
  obtain ⟨k, hk, hz⟩ := hz
  obtain ⟨m, hm, hw⟩ := hw
  have h1 := bound z k hk hz
  have h2 := bound w m hm hw
  have hsin : |Real.sin (Complex.arg z - Complex.arg w)| ≤ 1 / 20 := by
    rw [← sin_sub_int_mul_pi_abs _ (k - m)]
    refine (Real.abs_sin_le_abs).trans ?_
    have : Complex.arg z - Complex.arg w - ((k - m : ℤ) : ℝ) * Real.pi = (Complex.arg z - (R + k * Real.pi)) - (Complex.arg w - (R + m * Real.pi)) := by
      push_cast; ring
    rw [this]
    refine (abs_sub _ _).trans ?_
    linarith
  have him : (z * star w).im = ‖z‖ * ‖w‖ * Real.sin (Complex.arg z - Complex.arg w) := by
    have e : z * star w = ((‖z‖ * ‖w‖ : ℝ) : ℂ) * Complex.exp (((Complex.arg z - Complex.arg w : ℝ) : ℂ) * Complex.I) := by
      conv_lhs => rw [← Complex.norm_mul_exp_arg_mul_I z, ← Complex.norm_mul_exp_arg_mul_I w]
      rw [Complex.star_def, map_mul, Complex.conj_ofReal, ← Complex.exp_conj, map_mul, Complex.conj_I, Complex.conj_ofReal]
      push_cast
      rw [sub_mul, sub_eq_add_neg, Complex.exp_add, ← mul_neg, mul_neg]
      ring_nf
    rw [e, Complex.im_ofReal_mul, Complex.exp_ofReal_mul_I_im]
  rw [him, abs_mul, abs_of_nonneg (by positivity)]
  have : 0 ≤ ‖z‖ * ‖w‖ := by positivity
  nlinarith

theorem twoDirections_not_1d {F f : VectorField nx ny} (h : TwoDirections F) (hf : normalize F = .ok f) {r : Prop × ℝ} (hr : is1dField f = .ok r) : ¬r.1 := by
  unfold normalize at hf
  obtain ⟨m, hm, hf⟩ := bind_eq_ok.1 hf
  obtain ⟨hmax, i0, j0, hm0⟩ := maxFieldMagnitude_eq_ok.1 hm
  obtain ⟨i1, j1, hlarge⟩ := h.large
  have hm1 : 1e-8 < m := hlarge.trans_le (hmax i1 j1)
  have hmpos : 0 < m := lt_trans (by norm_num) hm1
  have hnc : ¬IsClose m 0 := by
    rw [isClose_zero_iff hmpos.le]
    exact not_le.2 hm1
  simp only [if_neg hnc, ok_inj] at hf
  unfold is1dField at hr
  obtain ⟨ref, -, hr⟩ := bind_eq_ok.1 hr
  rw [ok_inj] at hr
  subst hr
  rintro (hall | h1 | h1)
  · obtain ⟨p, q, hp, hq, hpq⟩ := h.directions Complex.I (Or.inl rfl)
    set R := angleSafe (ref 0 + Complex.I * ref 1)
    have point : ∀ p : Fin nx × Fin ny, (∀ i j, 2e-8 * magnitude (F i j) < ‖F p.1 p.2 0 + Complex.I * F p.1 p.2 1‖) →
        ∃ k : ℤ, |(k : ℝ)| ≤ 2 ∧ IsClose (Complex.arg (F p.1 p.2 0 + Complex.I * F p.1 p.2 1)) (R + k * Real.pi) atol1dFieldAngle := by
      intro p hp
      have hp' := hp i0 j0
      rw [hm0] at hp'
      have hz : f p.1 p.2 0 + Complex.I * f p.1 p.2 1 = ((1 / m : ℝ) : ℂ) * (F p.1 p.2 0 + Complex.I * F p.1 p.2 1) := by
        rw [← hf]
        push_cast
        ring
      have hznorm : 2e-8 < ‖f p.1 p.2 0 + Complex.I * f p.1 p.2 1‖ := by
        rw [hz, norm_mul, Complex.norm_real, Real.norm_eq_abs, abs_of_pos (by positivity), one_div, ← div_eq_inv_mul, lt_div_iff₀ hmpos]
        exact hp'
      have hang : angleSafe (f p.1 p.2 0 + Complex.I * f p.1 p.2 1) = Complex.arg (F p.1 p.2 0 + Complex.I * F p.1 p.2 1) := by
        rw [angleSafe_large (lt_trans (by norm_num) hznorm), hz, Complex.arg_real_mul _ (by positivity)]
      have hmag : ¬IsClose (fieldMagnitude f p.1 p.2) 0 := by
        rw [isClose_zero_iff (fieldMagnitude_nonneg _ _ _), fieldMagnitude_eq]
        intro hle
        have h1 : ‖f p.1 p.2 0 + Complex.I * f p.1 p.2 1‖ ≤ ‖f p.1 p.2 0‖ + ‖f p.1 p.2 1‖ := by
          refine (norm_add_le _ _).trans ?_
          rw [norm_mul, Complex.norm_I, one_mul]
        have h2 := magnitude_sq (f p.1 p.2)
        have h3 := magnitude_nonneg (f p.1 p.2)
        have h4 : ‖f p.1 p.2 0‖ ≤ magnitude (f p.1 p.2) := abs_le_of_sq_le_sq' (by nlinarith [sq_nonneg ‖f p.1 p.2 1‖]) h3 |>.2
        have h5 : ‖f p.1 p.2 1‖ ≤ magnitude (f p.1 p.2) := abs_le_of_sq_le_sq' (by nlinarith [sq_nonneg ‖f p.1 p.2 0‖]) h3 |>.2
        norm_num at hznorm hle
        linarith
      have := (hall p.1 p.2).resolve_left hmag
      rw [hang] at this
      rcases this with h | h | h | h | h
      · exact ⟨-2, by norm_num, by simpa [sub_eq_add_neg] using h⟩
      · exact ⟨-1, by norm_num, by simpa [sub_eq_add_neg] using h⟩
      · exact ⟨0, by norm_num, by simpa using h⟩
      · exact ⟨1, by norm_num, by simpa using h⟩
      · exact ⟨2, by norm_num, by simpa using h⟩
    have := angles_parallel (angle_mem _) (point p hp) (point q hq)
    linarith
  · exact absurd h1 h.axes.1.ne'
  · exact absurd h1 h.axes.2.ne'

theorem turned_direction (hO : Oᵀ * O = 1) {w : ℂ} (hw : w = Complex.I ∨ w = -Complex.I) :
    ∃ w' v : ℂ, (w' = Complex.I ∨ w' = -Complex.I) ∧ ‖v‖ = 1 ∧ ∀ f : Fin 2 → ℂ, (toC O *ᵥ f) 0 + w * (toC O *ᵥ f) 1 = v * (f 0 + w' * f 1) := by
  obtain ⟨o0, -, -, o1, o2, o3, -, o5⟩ := orthogonal_entries hO
  have p11 : (O 1 1 : ℂ) = O.det * O 0 0 := by exact_mod_cast o1
  have p10 : (O 1 0 : ℂ) = -(O.det * O 0 1) := by exact_mod_cast o2
  have p5 : (O.det : ℂ) * O.det = 1 := by rw [← sq]; exact_mod_cast o5
  have hw2 : w * w = -1 := by rcases hw with rfl | rfl <;> simp
  refine ⟨O.det * w, O 0 0 + w * O 1 0, ?_, ?_, fun f => ?_⟩
  · have : O.det = 1 ∨ O.det = -1 := mul_self_eq_one_iff.1 (by rw [← sq]; exact o5)
    rcases this with h | h <;> rw [h] <;> rcases hw with rfl | rfl <;> simp
  · have e : ‖(O 0 0 + w * O 1 0 : ℂ)‖ ^ 2 = 1 := by
      rw [← Complex.normSq_eq_norm_sq]
      rcases hw with rfl | rfl <;> simp [Complex.normSq_apply] <;> linarith
    nlinarith [norm_nonneg (O 0 0 + w * O 1 0 : ℂ), mul_self_eq_one_iff.1 (by rw [← sq]; exact e : ‖(O 0 0 + w * O 1 0 : ℂ)‖ * ‖(O 0 0 + w * O 1 0 : ℂ)‖ = 1)]
  · simp only [mulVec, dotProduct, Fin.sum_univ_two, toC_apply, p11, p10]
    linear_combination (-(O 0 1 * f 1) : ℂ) * p5 + (O 0 1 * f 1 * O.det ^ 2 : ℂ) * hw2

theorem twoDirections_move [NeZero nx] [NeZero ny] {c : Fin nx} {d : Fin ny} (hO : Oᵀ * O = 1) {F : VectorField nx ny} (h : TwoDirections F) :
    TwoDirections (moveField (toC O) c d F) := by
  obtain ⟨i, j, hij⟩ := h.large
  refine ⟨h.axes, ⟨i - c, j - d, ?_⟩, fun w hw => ?_⟩
  · rw [moveField_magnitude (toC_unitary hO), sub_add_cancel, sub_add_cancel]
    exact hij
  · obtain ⟨w', v, hw', hv, he⟩ := turned_direction hO hw
    obtain ⟨p, q, hp, hq, hpq⟩ := h.directions w' hw'
    have e : ∀ r : Fin nx × Fin ny, moveField (toC O) c d F (r.1 - c) (r.2 - d) 0 + w * moveField (toC O) c d F (r.1 - c) (r.2 - d) 1 =
        v * (F r.1 r.2 0 + w' * F r.1 r.2 1) := by
      intro r
      simp only [moveField, sub_add_cancel]
      exact he _
    refine ⟨(p.1 - c, p.2 - d), (q.1 - c, q.2 - d), fun i j => ?_, fun i j => ?_, ?_⟩
    · simp only [e, norm_mul, hv, one_mul, moveField_magnitude (toC_unitary hO)]
      exact hp _ _
    · simp only [e, norm_mul, hv, one_mul, moveField_magnitude (toC_unitary hO)]
      exact hq _ _
    · simp only [e, norm_mul, hv, one_mul]
      have : v * (F p.1 p.2 0 + w' * F p.1 p.2 1) * star (v * (F q.1 q.2 0 + w' * F q.1 q.2 1)) =
          (F p.1 p.2 0 + w' * F p.1 p.2 1) * star (F q.1 q.2 0 + w' * F q.1 q.2 1) := by
        have hvv : v * star v = 1 := by
          rw [Complex.star_def, Complex.mul_conj, Complex.normSq_eq_norm_sq, hv]
          norm_num
        rw [star_mul']
        linear_combination ((F p.1 p.2 0 + w' * F p.1 p.2 1) * star (F q.1 q.2 0 + w' * F q.1 q.2 1)) * hvv
      rw [this]
      exact hpq

/-! ### Jones fields -/

theorem normalizeJones_shift [NeZero nx] [NeZero ny] {c : Fin nx} {d : Fin ny} {f j : VectorField nx ny} (h : normalizeJones f = .ok j) :
    normalizeJones (moveField 1 c d f) = .ok (moveField 1 c d j) := by
  unfold normalizeJones at h ⊢
  obtain ⟨g, hg, h⟩ := bind_eq_ok.1 h
  rw [normalize_move (by simp) hg]
  rw [ok_inj] at h
  simp only [bind, Except.bind, ok_inj]
  rw [← h]
  have e : ∀ f : VectorField nx ny, moveField 1 c d f = fun i j => f (i + c) (j + d) := by
    intro f
    funext i j
    simp [moveField]
  rw [e, e]
  rfl

/-- The field which `normalizeJones` computes at a point from the magnitude and the direction there. -/
noncomputable def jonesPoint (m : ℝ) (t : Fin 2 → ℂ) : Fin 2 → ℂ :=
  let phi : ℝ := Real.pi / 8 * (1 + Real.cos (Real.pi * m))
  let theta : ℝ := angleSafe (t 0 + Complex.I * t 1)
  ![Complex.exp (Complex.I * theta) * (t 0 * Real.cos phi - t 1 * Complex.I * Real.sin phi),
    Complex.exp (Complex.I * theta) * (t 1 * Real.cos phi + t 0 * Complex.I * Real.sin phi)]

theorem exp_angle {z : ℂ} (h : 1e-8 < ‖z‖) : Complex.exp (Complex.I * (angleSafe z : ℂ)) * ‖z‖ = z := by
  rw [angleSafe_large h, mul_comm Complex.I, mul_comm]
  exact Complex.norm_mul_exp_arg_mul_I z

theorem jonesPoint_turn (hO : Oᵀ * O = 1) (hdet : O.det = 1) (m : ℝ) {t : Fin 2 → ℂ} (ht : 1e-8 < ‖t 0 + Complex.I * t 1‖) :
    jonesPoint m (toC O *ᵥ t) = ((O 0 0 + Complex.I * O 1 0 : ℂ) • toC O) *ᵥ jonesPoint m t := by
  obtain ⟨o1, -, -, p11, p10, -, -, -⟩ := orthogonal_entries hO
  rw [hdet, one_mul] at p11 p10
  have q11 : (O 1 1 : ℂ) = O 0 0 := by exact_mod_cast p11
  have q01 : (O 0 1 : ℂ) = -O 1 0 := by exact_mod_cast (by linarith : O 0 1 = -O 1 0)
  have q1 : (O 0 0 : ℂ) * O 0 0 + O 1 0 * O 1 0 = 1 := by exact_mod_cast o1
  have hp : ‖(O 0 0 + Complex.I * O 1 0 : ℂ)‖ = 1 := by
    have : ‖(O 0 0 + Complex.I * O 1 0 : ℂ)‖ ^ 2 = 1 := by
      rw [← Complex.normSq_eq_norm_sq, Complex.normSq_apply]
      simp
      linarith
    exact (pow_eq_one_iff_of_nonneg (norm_nonneg _) two_ne_zero).1 this
  have hz : (toC O *ᵥ t) 0 + Complex.I * (toC O *ᵥ t) 1 = (O 0 0 + Complex.I * O 1 0) * (t 0 + Complex.I * t 1) := by
    simp only [mulVec, dotProduct, Fin.sum_univ_two, toC_apply, q11, q01]
    linear_combination (-(O 1 0 * t 1) : ℂ) * Complex.I_mul_I
  have hn : ‖(toC O *ᵥ t) 0 + Complex.I * (toC O *ᵥ t) 1‖ = ‖t 0 + Complex.I * t 1‖ := by rw [hz, norm_mul, hp, one_mul]
  have hexp : Complex.exp (Complex.I * (angleSafe ((toC O *ᵥ t) 0 + Complex.I * (toC O *ᵥ t) 1) : ℂ)) =
      (O 0 0 + Complex.I * O 1 0) * Complex.exp (Complex.I * (angleSafe (t 0 + Complex.I * t 1) : ℂ)) := by
    have h0 : (‖t 0 + Complex.I * t 1‖ : ℂ) ≠ 0 := by
      have : ‖t 0 + Complex.I * t 1‖ ≠ 0 := (lt_trans (by norm_num) ht).ne'
      exact_mod_cast this
    refine mul_right_cancel₀ h0 ?_
    rw [mul_assoc, exp_angle ht, ← hn, exp_angle (by rw [hn]; exact ht), hz]
  funext e
  fin_cases e
  · simp only [jonesPoint, Fin.zero_eta, cons_val_zero, smul_mulVec, Pi.smul_apply, smul_eq_mul]
    rw [hexp]
    simp only [mulVec, dotProduct, Fin.sum_univ_two, toC_apply, q11, q01, cons_val_zero, cons_val_one]
    ring
  · simp only [jonesPoint, Fin.mk_one, cons_val_one, smul_mulVec, Pi.smul_apply, smul_eq_mul]
    rw [hexp]
    simp only [mulVec, dotProduct, Fin.sum_univ_two, toC_apply, q11, q01, cons_val_zero, cons_val_one]
    ring

/-- Where the field vanishes, the Jones field is circularly polarized, and rotations change its phase only. -/
theorem jonesPoint_zero (hO : Oᵀ * O = 1) (hdet : O.det = 1) :
    ((O 0 0 + Complex.I * O 1 0 : ℂ) • toC O) *ᵥ jonesPoint 0 (fun _ => ((1 / Real.sqrt 2 : ℝ) : ℂ)) = jonesPoint 0 fun _ => ((1 / Real.sqrt 2 : ℝ) : ℂ) := by
  obtain ⟨o1, -, -, p11, p10, -, -, -⟩ := orthogonal_entries hO
  rw [hdet, one_mul] at p11 p10
  have q11 : (O 1 1 : ℂ) = O 0 0 := by exact_mod_cast p11
  have q01 : (O 0 1 : ℂ) = -O 1 0 := by exact_mod_cast (by linarith : O 0 1 = -O 1 0)
  have q1 : (O 0 0 : ℂ) * O 0 0 + O 1 0 * O 1 0 = 1 := by exact_mod_cast o1
  set s : ℂ := ((1 / Real.sqrt 2 : ℝ) : ℂ)
  have hphi : Real.pi / 8 * (1 + Real.cos (Real.pi * 0)) = Real.pi / 4 := by rw [mul_zero, Real.cos_zero]; ring
  set E := Complex.exp (Complex.I * (angleSafe (s + Complex.I * s) : ℂ)) with hE
  have e : jonesPoint 0 (fun _ => s) = ![E * s * (Real.sqrt 2 / 2 : ℝ) * (1 - Complex.I), E * s * (Real.sqrt 2 / 2 : ℝ) * (1 + Complex.I)] := by
    simp only [jonesPoint, hphi, Real.cos_pi_div_four, Real.sin_pi_div_four, ← hE]
    funext e
    fin_cases e
    · simp only [Fin.zero_eta, cons_val_zero]; ring
    · simp only [Fin.mk_one, cons_val_one]; ring_nf
  rw [e]
  funext e
  fin_cases e
  · simp only [Fin.zero_eta, smul_mulVec, Pi.smul_apply, smul_eq_mul]
    simp only [mulVec, dotProduct, Fin.sum_univ_two, toC_apply, q01, cons_val_zero, cons_val_one]
    linear_combination (E * s * (Real.sqrt 2 / 2 : ℝ) * (1 - Complex.I)) * q1 - (E * s * (Real.sqrt 2 / 2 : ℝ)) * (O 1 0 * (O 0 0 + O 1 0)) * Complex.I_mul_I
  · simp only [Fin.mk_one, smul_mulVec, Pi.smul_apply, smul_eq_mul]
    simp only [mulVec, dotProduct, Fin.sum_univ_two, toC_apply, q11, cons_val_zero, cons_val_one]
    linear_combination (E * s * (Real.sqrt 2 / 2 : ℝ) * (1 + Complex.I)) * q1 + (E * s * (Real.sqrt 2 / 2 : ℝ)) * (O 1 0 * (O 0 0 - O 1 0)) * Complex.I_mul_I

open Classical in
theorem normalizeJones_point {f j : VectorField nx ny} (h : normalizeJones f = .ok j) : ∃ g, normalize f = .ok g ∧
    ∀ r s, j r s = if IsClose (fieldMagnitude g r s) 0 then jonesPoint (fieldMagnitude g r s) (fun _ => ((1 / Real.sqrt 2 : ℝ) : ℂ))
      else jonesPoint (fieldMagnitude g r s) fun e => g r s e / (fieldMagnitude g r s : ℂ) := by
  unfold normalizeJones at h
  obtain ⟨g, hg, h⟩ := bind_eq_ok.1 h
  rw [ok_inj] at h
  refine ⟨g, hg, fun r s => ?_⟩
  rw [← h]
  by_cases hc : IsClose (fieldMagnitude g r s) 0
  · simp only [if_pos hc]
    rfl
  · simp only [if_neg hc]
    rfl

theorem normalize_unambiguous {f g : VectorField nx ny} (hf : Unambiguous f) (h : normalize f = .ok g) (r : Fin nx) (s : Fin ny) :
    g r s = 0 ∨ (¬IsClose (fieldMagnitude g r s) 0 ∧ 0 < fieldMagnitude g r s ∧ 1e-8 * fieldMagnitude g r s < ‖g r s 0 + Complex.I * g r s 1‖) := by
  unfold normalize at h
  obtain ⟨m, hm, h⟩ := bind_eq_ok.1 h
  obtain ⟨hmax, i0, j0, hm0⟩ := maxFieldMagnitude_eq_ok.1 hm
  have hm0n : 0 ≤ m := by rw [← hm0]; exact magnitude_nonneg _
  by_cases hc : IsClose m 0
  · have hle : m ≤ 1e-8 := (isClose_zero_iff hm0n).1 hc
    rcases hf r s with h0 | ⟨h1, -, -⟩
    · left
      simp only [if_pos hc, ok_inj] at h
      rw [← h]
      funext e
      simp [h0]
    · exact absurd (hmax r s) (not_le.2 (hle.trans_lt h1))
  · have hlt : 1e-8 < m := not_le.1 fun h => hc ((isClose_zero_iff hm0n).2 h)
    have hpos : 0 < m := lt_trans (by norm_num) hlt
    simp only [if_neg hc, ok_inj] at h
    have e : g r s = ((1 / m : ℝ) : ℂ) • f r s := by
      rw [← h]
      funext e
      simp only [Pi.smul_apply, smul_eq_mul]
      push_cast
      ring
    rcases hf r s with h0 | ⟨-, h2, h3⟩
    · left; rw [e, h0, smul_zero]
    · right
      have hmag : fieldMagnitude g r s = magnitude (f r s) / m := by
        rw [fieldMagnitude_eq, e]
        simp only [magnitude, Pi.smul_apply, smul_eq_mul, norm_mul, Complex.norm_real, Real.norm_eq_abs, abs_of_pos (one_div_pos.2 hpos), mul_pow, ← mul_add]
        rw [Real.sqrt_mul (by positivity), Real.sqrt_sq (by positivity)]
        ring
      have h2' := h2 i0 j0
      rw [hm0] at h2'
      have hbig : 1e-8 < fieldMagnitude g r s := by rwa [hmag, lt_div_iff₀ hpos]
      refine ⟨fun hc => ?_, lt_trans (by norm_num) hbig, ?_⟩
      · rw [isClose_zero_iff (fieldMagnitude_nonneg _ _ _)] at hc
        exact absurd hbig (not_lt.2 hc)
      · have : g r s 0 + Complex.I * g r s 1 = ((1 / m : ℝ) : ℂ) * (f r s 0 + Complex.I * f r s 1) := by
          rw [e]
          simp only [Pi.smul_apply, smul_eq_mul]
          ring
        rw [this, norm_mul, Complex.norm_real, Real.norm_eq_abs, abs_of_pos (one_div_pos.2 hpos), hmag, mul_div_assoc', one_div, ← div_eq_inv_mul]
        exact div_lt_div_of_pos_right h3 hpos

theorem normalizeJones_turn [NeZero nx] [NeZero ny] {c : Fin nx} {d : Fin ny} (hO : Oᵀ * O = 1) (hdet : O.det = 1) {f j : VectorField nx ny} (hf : Unambiguous f)
    (h : normalizeJones f = .ok j) :
    normalizeJones (moveField (toC O) c d f) = .ok (moveField ((O 0 0 + Complex.I * O 1 0 : ℂ) • toC O) c d j) := by
  obtain ⟨g, hg, hj⟩ := normalizeJones_point h
  obtain ⟨j', hj'⟩ := normalizeJones_exists (NeZero.pos nx) (NeZero.pos ny) (moveField (toC O) c d f)
  obtain ⟨g', hg', hjj⟩ := normalizeJones_point hj'
  rw [normalize_move (toC_unitary hO) hg, ok_inj] at hg'
  rw [hj', ok_inj]
  funext r s
  rw [hjj, ← hg', moveField_fieldMagnitude (toC_unitary hO)]
  have e : moveField ((O 0 0 + Complex.I * O 1 0 : ℂ) • toC O) c d j r s = ((O 0 0 + Complex.I * O 1 0 : ℂ) • toC O) *ᵥ j (r + c) (s + d) := rfl
  rw [e, hj]
  rcases normalize_unambiguous hf hg (r + c) (s + d) with h0 | ⟨h1, h2, h3⟩
  · have hm : fieldMagnitude g (r + c) (s + d) = 0 := by
      rw [fieldMagnitude_eq, h0]
      simp [magnitude]
    have hc : IsClose (fieldMagnitude g (r + c) (s + d)) 0 := by
      rw [hm, isClose_zero_iff le_rfl]
      norm_num
    rw [if_pos hc, if_pos hc, hm, jonesPoint_zero hO hdet]
  · rw [if_neg h1, if_neg h1, ← jonesPoint_turn hO hdet]
    · congr 1
      funext k
      simp only [moveField, mulVec, dotProduct, Fin.sum_univ_two]
      ring
    · have : g (r + c) (s + d) 0 / (fieldMagnitude g (r + c) (s + d) : ℂ) + Complex.I * (g (r + c) (s + d) 1 / (fieldMagnitude g (r + c) (s + d) : ℂ)) =
          (g (r + c) (s + d) 0 + Complex.I * g (r + c) (s + d) 1) / (fieldMagnitude g (r + c) (s + d) : ℂ) := by ring
      rw [this, norm_div, Complex.norm_real, Real.norm_eq_abs, abs_of_pos h2, lt_div_iff₀ h2]
      exact h3

theorem targetJones_move [NeZero nx] [NeZero ny] {c : Fin nx} {d : Fin ny} (hO : Oᵀ * O = 1) {f : VectorField nx ny} {t : VectorField nx ny × VectorField nx ny}
    {U : Matrix (Fin 2) (Fin 2) ℂ} (hJ : ∀ j, normalizeJones (normalizeElementwise fun i j => ![f i j 1, -f i j 0]) = .ok j →
      normalizeJones (moveField ((O.det : ℂ) • toC O) c d (normalizeElementwise fun i j => ![f i j 1, -f i j 0])) = .ok (moveField U c d j))
    (h : targetAndInitialField f true = .ok t) : targetAndInitialField (moveField (toC O) c d f) true = .ok (moveField U c d t.1, moveField U c d t.2) := by
  unfold targetAndInitialField at h ⊢
  simp only [if_true] at h ⊢
  obtain ⟨q, hq, h⟩ := bind_eq_ok.1 h
  rw [ok_inj] at h
  rw [rotated_move hO, normalizeElementwise_move (signed_unitary hO), hJ q hq, ← h]
  rfl

theorem elementwise_unambiguous {F f : VectorField nx ny} (hF : Unambiguous F) (hf : normalize F = .ok f) :
    Unambiguous (normalizeElementwise fun i j => ![f i j 1, -f i j 0] : VectorField nx ny) := by
  have hmag : ∀ i j, fieldMagnitude (fun i j => ![f i j 1, -f i j 0] : VectorField nx ny) i j = fieldMagnitude f i j := by
    intro i j
    simp only [fieldMagnitude_eq, magnitude, cons_val_zero, cons_val_one, norm_neg]
    rw [add_comm]
  have key : ∀ i j, (normalizeElementwise (fun i j => ![f i j 1, -f i j 0]) : VectorField nx ny) i j = 0 ∨
      (magnitude ((normalizeElementwise (fun i j => ![f i j 1, -f i j 0]) : VectorField nx ny) i j) = 1 ∧
        1e-8 < ‖(normalizeElementwise (fun i j => ![f i j 1, -f i j 0]) : VectorField nx ny) i j 0 +
          Complex.I * (normalizeElementwise (fun i j => ![f i j 1, -f i j 0]) : VectorField nx ny) i j 1‖) := by
    intro i j
    rcases normalize_unambiguous hF hf i j with h0 | ⟨h1, h2, h3⟩
    · left
      funext e
      fin_cases e <;> simp [normalizeElementwise, h0]
    · right
      have e : ∀ k, (normalizeElementwise (fun i j => ![f i j 1, -f i j 0]) : VectorField nx ny) i j k = ![f i j 1, -f i j 0] k / (fieldMagnitude f i j : ℂ) := by
        intro k
        have h1' : ¬IsClose (fieldMagnitude (fun i j => ![f i j 1, -f i j 0] : VectorField nx ny) i j) 0 := by rwa [hmag]
        simp only [normalizeElementwise]
        rw [if_neg h1', hmag]
      constructor
      · have hm := fieldMagnitude_eq f i j
        simp only [magnitude, e, cons_val_zero, cons_val_one, norm_div, norm_neg, Complex.norm_real, Real.norm_eq_abs, abs_of_pos h2, div_pow, ← add_div]
        rw [Real.sqrt_div' _ (by positivity), Real.sqrt_sq h2.le, add_comm, div_eq_one_iff_eq h2.ne', hm]
        rfl
      · rw [e, e]
        have : (![f i j 1, -f i j 0] : Fin 2 → ℂ) 0 / (fieldMagnitude f i j : ℂ) + Complex.I * ((![f i j 1, -f i j 0] : Fin 2 → ℂ) 1 / (fieldMagnitude f i j : ℂ)) =
            -Complex.I * ((f i j 0 + Complex.I * f i j 1) / (fieldMagnitude f i j : ℂ)) := by
          simp only [cons_val_zero, cons_val_one]
          linear_combination (f i j 1 / (fieldMagnitude f i j : ℂ)) * Complex.I_mul_I
        rw [this, norm_mul, norm_neg, Complex.norm_I, one_mul, norm_div, Complex.norm_real, Real.norm_eq_abs, abs_of_pos h2, lt_div_iff₀ h2]
        exact h3
  intro i j
  rcases key i j with h | ⟨h1, h2⟩
  · exact Or.inl h
  · refine Or.inr ⟨by rw [h1]; norm_num, fun r s => ?_, by rw [h1]; simpa using h2⟩
    rw [h1]
    rcases key r s with h | ⟨h, -⟩
    · rw [h]; norm_num [magnitude]
    · rw [h]; norm_num

/-! ### The tangent field -/

theorem computeTangentField_move [Fintype ι] [DecidableEq ι] [NeZero nx] [NeZero ny] {c : Fin nx} {d : Fin ny} {G : ι → ℤ × ℤ} {l : LatticeVectors} {M : ℕ × ℕ} [NeZero M.1] [NeZero M.2]
    {c' : Fin M.1} {d' : Fin M.2} {U : Matrix (Fin 2) (Fin 2) ℂ} (hU : Uᴴ * U = 1) (hO : Oᵀ * O = 1) (hG : Function.Injective G) (hr : Resolves nx ny G)
    (hM : doubledMinShape G nx ny = .ok M) (hp : ∀ i, planeWave M.1 M.2 (G i) c' d' = planeWave nx ny (G i) c d)
    {x : Matrix (Fin nx) (Fin ny) ℂ} {g : VectorField nx ny} (hg : computeGradient x l = .ok g)
    (h2 : TwoDirections fun r s e => fourierSeries G (fun k => fourierCoefficient (Matrix.of fun i j => g i j e) (G k)) M.1 M.2 r s) {b : Bool}
    (htarget : ∀ grad t, normalize (fun r s e => fourierSeries G (fun k => fourierCoefficient (Matrix.of fun i j => g i j e) (G k)) M.1 M.2 r s) = .ok grad →
      targetAndInitialField grad b = .ok t → targetAndInitialField (moveField (toC O) c' d' grad) b = .ok (moveField U c' d' t.1, moveField U c' d' t.2))
    {fw sw : ℝ} {steps : ℕ} {t t' : VectorField nx ny} (ht : computeTangentFieldNoBatch x G l b fw sw steps = .ok t)
    (ht' : computeTangentFieldNoBatch (Matrix.of fun i j => x (i + c) (j + d)) G (turnLattice O l) b fw sw steps = .ok t') : t' = moveField U c d t := by
  have hMr := doubledMinShape_resolves hM
  have hc : Fintype.card ι ≠ 0 := by have := hr.1; exact Fintype.card_ne_zero
  unfold computeTangentFieldNoBatch at ht ht'
  rw [if_neg hc, hM] at ht ht'
  simp only [bind, Except.bind] at ht ht'
  cases hgrad : filteredGradient x G l M.1 M.2 with
  | error e => rw [hgrad] at ht; cases ht
  | ok grad =>
    have hgrad' := filteredGradient_move hO hG hr hMr hp hg hgrad
    have hn : normalize (fun r s e => fourierSeries G (fun k => fourierCoefficient (Matrix.of fun i j => g i j e) (G k)) M.1 M.2 r s) = .ok grad := by
      unfold filteredGradient at hgrad
      rw [bandlimitedGradient_eq hG hg hr hMr] at hgrad
      exact hgrad
    have hn' := normalize_move (c := c') (d := d') (toC_unitary hO) hn
    rw [hgrad] at ht
    rw [hgrad'] at ht'
    simp only at ht ht'
    obtain ⟨f, hf, ht⟩ := bind_eq_ok.1 ht
    obtain ⟨f', hf', ht'⟩ := bind_eq_ok.1 ht'
    have key : f' = moveField U c d f := by
      unfold tangentFieldOfGradient at hf hf'
      obtain ⟨q, hq, hf⟩ := bind_eq_ok.1 hf
      obtain ⟨q', hq', hf'⟩ := bind_eq_ok.1 hf'
      rw [if_neg (twoDirections_not_1d h2 hn hq)] at hf
      rw [if_neg (twoDirections_not_1d (twoDirections_move hO h2) hn' hq')] at hf'
      obtain ⟨z, hz, hf⟩ := bind_eq_ok.1 hf
      obtain ⟨z', hz', hf'⟩ := bind_eq_ok.1 hf'
      have hz2 := hz
      unfold optimizedFourierField at hz2
      obtain ⟨t0, ht0, -⟩ := bind_eq_ok.1 hz2
      have e := optimized_move hU hO hG hMr ht0 (htarget grad t0 hn ht0) hz hz'
      rw [ifftVector_eq z hG hr, ok_inj] at hf
      rw [ifftVector_eq z' hG hr, ok_inj, e, seriesMap_move (fun i => (hp i).symm)] at hf'
      rw [← hf', ← hf]
    rw [key, normalize_move hU ht, ok_inj] at ht'
    exact ht'.symm

theorem rotationPhase_unitary (hO : Oᵀ * O = 1) : ((O 0 0 + Complex.I * O 1 0 : ℂ) • toC O)ᴴ * ((O 0 0 + Complex.I * O 1 0 : ℂ) • toC O) = 1 := by
  have h1 := (orthogonal_entries hO).1
  have : star (O 0 0 + Complex.I * O 1 0 : ℂ) * (O 0 0 + Complex.I * O 1 0) = 1 := by
    have : (O 0 0 : ℂ) * O 0 0 + O 1 0 * O 1 0 = 1 := by exact_mod_cast h1
    simp only [star_add, star_mul', Complex.star_def, Complex.conj_ofReal, Complex.conj_I]
    linear_combination this - (O 1 0 * O 1 0 : ℂ) * Complex.I_mul_I
  rw [conjTranspose_smul, smul_mul_smul_comm, toC_unitary hO, this, one_smul]

section

variable [Fintype ι] [DecidableEq ι] [NeZero nx] [NeZero ny] {c : Fin nx} {d : Fin ny} {G : ι → ℤ × ℤ} {l : LatticeVectors} {M : ℕ × ℕ}

theorem computeTangentField_turn (hO : Oᵀ * O = 1) (hG : Function.Injective G) (hr : Resolves nx ny G) (hl : Independent l.u l.v)
    (hM : doubledMinShape G nx ny = .ok M) [NeZero M.1] [NeZero M.2] {c' : Fin M.1} {d' : Fin M.2} (hp : ∀ i, planeWave M.1 M.2 (G i) c' d' = planeWave nx ny (G i) c d)
    {x : Matrix (Fin nx) (Fin ny) ℂ} {g : VectorField nx ny} (hg : computeGradient x l = .ok g)
    (h2 : TwoDirections fun r s e => fourierSeries G (fun k => fourierCoefficient (Matrix.of fun i j => g i j e) (G k)) M.1 M.2 r s)
    {fw sw : ℝ} (hw : 0 < fw ∨ 0 < sw) {steps : ℕ} {t : VectorField nx ny} (ht : computeTangentFieldNoBatch x G l false fw sw steps = .ok t) :
    computeTangentFieldNoBatch (Matrix.of fun i j => x (i + c) (j + d)) G (turnLattice O l) false fw sw steps = .ok (moveField ((O.det : ℂ) • toC O) c d t) := by
  obtain ⟨t', ht'⟩ := computeTangentField_exists_steps (Matrix.of fun i j => x (i + c) (j + d)) false (fw := fw) (sw := sw) steps hG hr ((turnLattice_independent hO).2 hl) hw
  rw [ht', computeTangentField_move (signed_unitary hO) hO hG hr hM hp hg h2 (fun _ _ _ h => target_move hO h) ht ht']

theorem computeTangentFieldJones_turn (hO : Oᵀ * O = 1) (hdet : O.det = 1) (hG : Function.Injective G) (hr : Resolves nx ny G) (hl : Independent l.u l.v)
    (hM : doubledMinShape G nx ny = .ok M) [NeZero M.1] [NeZero M.2] {c' : Fin M.1} {d' : Fin M.2} (hp : ∀ i, planeWave M.1 M.2 (G i) c' d' = planeWave nx ny (G i) c d)
    {x : Matrix (Fin nx) (Fin ny) ℂ} {g : VectorField nx ny} (hg : computeGradient x l = .ok g)
    (h2 : TwoDirections fun r s e => fourierSeries G (fun k => fourierCoefficient (Matrix.of fun i j => g i j e) (G k)) M.1 M.2 r s)
    (h3 : Unambiguous fun r s e => fourierSeries G (fun k => fourierCoefficient (Matrix.of fun i j => g i j e) (G k)) M.1 M.2 r s)
    {fw sw : ℝ} (hw : 0 < fw ∨ 0 < sw) {steps : ℕ} {t : VectorField nx ny} (ht : computeTangentFieldNoBatch x G l true fw sw steps = .ok t) :
    computeTangentFieldNoBatch (Matrix.of fun i j => x (i + c) (j + d)) G (turnLattice O l) true fw sw steps =
      .ok (moveField ((O 0 0 + Complex.I * O 1 0 : ℂ) • toC O) c d t) := by
  obtain ⟨t', ht'⟩ := computeTangentField_exists_steps (Matrix.of fun i j => x (i + c) (j + d)) true (fw := fw) (sw := sw) steps hG hr ((turnLattice_independent hO).2 hl) hw
  rw [ht', computeTangentField_move (rotationPhase_unitary hO) hO hG hr hM hp hg h2 (fun grad t hn h => targetJones_move hO (fun j hj => ?_) h) ht ht']
  rw [hdet, Complex.ofReal_one, one_smul]
  exact normalizeJones_turn hO hdet (elementwise_unambiguous h3 hn) hj

theorem turnLattice_one : turnLattice 1 l = l := by
  simp [turnLattice]

theorem computeTangentField_shift (hG : Function.Injective G) (hr : Resolves nx ny G) (hl : Independent l.u l.v)
    (hM : doubledMinShape G nx ny = .ok M) [NeZero M.1] [NeZero M.2] {c' : Fin M.1} {d' : Fin M.2} (hp : ∀ i, planeWave M.1 M.2 (G i) c' d' = planeWave nx ny (G i) c d)
    {x : Matrix (Fin nx) (Fin ny) ℂ} {g : VectorField nx ny} (hg : computeGradient x l = .ok g)
    (h2 : TwoDirections fun r s e => fourierSeries G (fun k => fourierCoefficient (Matrix.of fun i j => g i j e) (G k)) M.1 M.2 r s) {b : Bool}
    {fw sw : ℝ} (hw : 0 < fw ∨ 0 < sw) {steps : ℕ} {t : VectorField nx ny} (ht : computeTangentFieldNoBatch x G l b fw sw steps = .ok t) :
    computeTangentFieldNoBatch (Matrix.of fun i j => x (i + c) (j + d)) G l b fw sw steps = .ok (moveField 1 c d t) := by
  obtain ⟨t', ht'⟩ := computeTangentField_exists_steps (Matrix.of fun i j => x (i + c) (j + d)) b (fw := fw) (sw := sw) steps hG hr hl hw
  have h1 : (1 : Matrix (Fin 2) (Fin 2) ℝ)ᵀ * 1 = 1 := by simp
  have ht2 := ht'
  rw [← turnLattice_one (l := l)] at ht2
  rw [ht', computeTangentField_move (O := 1) (U := 1) (by simp) h1 hG hr hM hp hg h2 (fun grad t hn h => ?_) ht ht2]
  cases b with
  | false =>
    have := target_move (c := c') (d := d') h1 h
    rw [det_one, Complex.ofReal_one, one_smul, toC_one] at this
    rw [toC_one]
    exact this
  | true =>
    refine targetJones_move h1 (fun j hj => ?_) h
    rw [det_one, Complex.ofReal_one, one_smul, toC_one]
    exact normalizeJones_shift hj

end

/-! ### Moves of the grid -/

theorem rollIndex_add [NeZero nx] (a : ℤ) (r : Fin nx) : rollIndex a r = r + rollIndex a 0 := by
  have hn : (0 : ℤ) < nx := by exact_mod_cast NeZero.pos nx
  ext
  have h : ∀ r : Fin nx, ((rollIndex a r : ℕ) : ℤ) = ((r : ℤ) - a) % nx := fun r => by
    simp only [rollIndex]
    exact Int.toNat_of_nonneg (Int.emod_nonneg _ hn.ne')
  zify
  rw [Fin.val_add]
  push_cast
  rw [h, h, Int.add_emod_emod]
  congr 1
  simp
  ring

theorem planeWave_rollIndex {mx my : ℕ} [NeZero mx] [NeZero my] (A B : ℤ) (G : ℤ × ℤ) :
    planeWave mx my G (rollIndex A (0 : Fin mx)) (rollIndex B (0 : Fin my)) = Complex.exp (-(2 * Real.pi * Complex.I * (G.1 * (A / mx) + G.2 * (B / my)))) := by
  have key : ∀ (n : ℕ) [NeZero n] (A : ℤ), ∃ q : ℤ, ((rollIndex A (0 : Fin n) : ℕ) : ℂ) / n = -(A / n) + q := by
    intro n _ A
    have hn : (0 : ℤ) < n := by exact_mod_cast NeZero.pos n
    have h : ((rollIndex A (0 : Fin n) : ℕ) : ℤ) = (-A) % n := by
      have : ((rollIndex A (0 : Fin n) : ℕ) : ℤ) = (((0 : Fin n) : ℕ) - A) % n := by
        simp only [rollIndex]
        exact Int.toNat_of_nonneg (Int.emod_nonneg _ hn.ne')
      simpa using this
    refine ⟨-((-A) / n), ?_⟩
    have h2 := Int.emod_add_mul_ediv (-A) n
    rw [← h] at h2
    have h3 : ((rollIndex A (0 : Fin n) : ℕ) : ℂ) = -A - n * (((-A) / (n : ℤ) : ℤ) : ℂ) := by
      rw [eq_sub_iff_add_eq]
      exact_mod_cast h2
    have hn' : (n : ℂ) ≠ 0 := by exact_mod_cast NeZero.ne n
    rw [h3]
    push_cast
    field_simp
    ring
  obtain ⟨q1, h1⟩ := key mx A
  obtain ⟨q2, h2⟩ := key my B
  unfold planeWave
  rw [mul_div_assoc, mul_div_assoc, h1, h2]
  refine Complex.exp_eq_exp_iff_exists_int.2 ⟨G.1 * q1 + G.2 * q2, ?_⟩
  push_cast
  ring

/-- A shift of the grid by `a` points, which is a shift of the other grid by `A` points. -/
theorem planeWave_roll {mx my : ℕ} [NeZero nx] [NeZero ny] [NeZero mx] [NeZero my] {a b A B : ℤ} (h1 : a * mx = A * nx) (h2 : b * my = B * ny) (G : ℤ × ℤ) :
    planeWave mx my G (rollIndex A (0 : Fin mx)) (rollIndex B (0 : Fin my)) = planeWave nx ny G (rollIndex a (0 : Fin nx)) (rollIndex b (0 : Fin ny)) := by
  have key : ∀ (m n : ℕ) [NeZero m] [NeZero n] (a A : ℤ), a * m = A * n → (A : ℂ) / m = a / n := by
    intro m n _ _ a A h
    have h' : (a : ℂ) * m = A * n := by exact_mod_cast h
    have hm : (m : ℂ) ≠ 0 := by exact_mod_cast NeZero.ne m
    have hn : (n : ℂ) ≠ 0 := by exact_mod_cast NeZero.ne n
    rw [div_eq_div_iff hm hn, h']
  rw [planeWave_rollIndex, planeWave_rollIndex, key mx nx a A h1, key my ny b B h2]

end Fmmax
