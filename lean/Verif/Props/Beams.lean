import Verif.Model.Beams
import Verif.Spec.Rotation
import Verif.Proofs.Basic
import Mathlib.Analysis.Calculus.FDeriv.Comp
import Mathlib.Analysis.SpecialFunctions.ExpDeriv
import Mathlib.Analysis.Calculus.FDeriv.Linear
import Mathlib.Analysis.Calculus.FDeriv.Add
import Mathlib.Analysis.Calculus.FDeriv.Mul
import Mathlib.Topology.Algebra.Module.FiniteDimension
import Mathlib.Tactic.LinearCombination

/-! Property theorems C55, C56: beams. -/

namespace Fmmax

open Matrix Spec

/-! ### C55 -/

theorem rotateAbout_zero (u : Fin 3 → ℝ) (a : ℝ) (v : Fin 3 → ℝ) : rotateAbout u a v 0 =
    Real.cos a * v 0 + Real.sin a * (u 1 * v 2 - u 2 * v 1) + (1 - Real.cos a) * (u 0 * v 0 + u 1 * v 1 + u 2 * v 2) * u 0 := by
  show Real.cos a * v 0 + Real.sin a * (u ⨯₃ v) 0 + ((1 - Real.cos a) * (u ⬝ᵥ v)) * u 0 = _
  rw [cross_apply, dotProduct, Fin.sum_univ_three]; rfl

theorem rotateAbout_one (u : Fin 3 → ℝ) (a : ℝ) (v : Fin 3 → ℝ) : rotateAbout u a v 1 =
    Real.cos a * v 1 + Real.sin a * (u 2 * v 0 - u 0 * v 2) + (1 - Real.cos a) * (u 0 * v 0 + u 1 * v 1 + u 2 * v 2) * u 1 := by
  show Real.cos a * v 1 + Real.sin a * (u ⨯₃ v) 1 + ((1 - Real.cos a) * (u ⬝ᵥ v)) * u 1 = _
  rw [cross_apply, dotProduct, Fin.sum_univ_three]; rfl

theorem rotateAbout_two (u : Fin 3 → ℝ) (a : ℝ) (v : Fin 3 → ℝ) : rotateAbout u a v 2 =
    Real.cos a * v 2 + Real.sin a * (u 0 * v 1 - u 1 * v 0) + (1 - Real.cos a) * (u 0 * v 0 + u 1 * v 1 + u 2 * v 2) * u 2 := by
  show Real.cos a * v 2 + Real.sin a * (u ⨯₃ v) 2 + ((1 - Real.cos a) * (u ⬝ᵥ v)) * u 2 = _
  rw [cross_apply, dotProduct, Fin.sum_univ_three]; rfl

theorem rotationP_mulVec (u : Fin 3 → ℝ) (a : ℝ) (v : Fin 3 → ℝ) :
    rotationP (u 0) (u 1) (u 2) (Real.cos a) (Real.sin a) *ᵥ v = rotateAbout u a v := by
  funext i
  fin_cases i <;>
    simp [rotationP, rotateAbout_zero, rotateAbout_one, rotateAbout_two, mulVec, dotProduct, Fin.sum_univ_three] <;> ring

theorem direction_unit (t p : ℝ) : direction t p ⬝ᵥ direction t p = 1 := by
  have h1 := Real.sin_sq_add_cos_sq t
  have h2 := Real.sin_sq_add_cos_sq p
  simp [direction, dotProduct, Fin.sum_univ_three]
  linear_combination h1 + Real.sin t ^ 2 * h2

/-- C55: the matrix rotates about the y-axis by the polar angle, about the z-axis by the azimuthal angle and about the resulting
direction of propagation by the polarization angle. -/
theorem C55_composition (t p a : ℝ) (v : Fin 3 → ℝ) :
    rotationMatrix t p a *ᵥ v =
      rotateAbout (direction t p) a (rotateAbout ![0, 0, 1] p (rotateAbout ![0, 1, 0] t v)) := by
  have hy : rotationY t *ᵥ v = rotateAbout ![0, 1, 0] t v := by
    funext i
    fin_cases i <;>
      simp [rotationY, rotateAbout_zero, rotateAbout_one, rotateAbout_two, mulVec, dotProduct, Fin.sum_univ_three] <;> ring
  have hz : ∀ w, rotationZ p *ᵥ w = rotateAbout ![0, 0, 1] p w := by
    intro w
    funext i
    fin_cases i <;>
      simp [rotationZ, rotateAbout_zero, rotateAbout_one, rotateAbout_two, mulVec, dotProduct, Fin.sum_univ_three] <;> ring
  have hp := rotationP_mulVec (direction t p) a
  unfold rotationMatrix
  simp only
  rw [← mulVec_mulVec, ← mulVec_mulVec, hy, hz, ← hp]
  simp only [direction, Matrix.cons_val_zero, Matrix.cons_val_one, Matrix.cons_val]
  rw [mul_comm (Real.cos p), mul_comm (Real.sin p)]

theorem rotationP_orthogonal {x y z c s : ℝ} (hu : x ^ 2 + y ^ 2 + z ^ 2 = 1) (hc : c ^ 2 + s ^ 2 = 1) :
    (rotationP x y z c s)ᵀ * rotationP x y z c s = 1 ∧ (rotationP x y z c s).det = 1 := by
  set K : Matrix (Fin 3) (Fin 3) ℝ := !![0, -z, y; z, 0, -x; -y, x, 0] with hK
  have hK3 : K * K * K = -K := by
    ext i j
    fin_cases i <;> fin_cases j <;> simp [hK, Matrix.mul_apply, Fin.sum_univ_three]
    all_goals first | ring | skip
    all_goals first
      | linear_combination (-z) * hu | linear_combination z * hu | linear_combination (-y) * hu | linear_combination y * hu
      | linear_combination (-x) * hu | linear_combination x * hu
  have hR : rotationP x y z c s = 1 + s • K + (1 - c) • (K * K) := by
    ext i j
    fin_cases i <;> fin_cases j <;> simp [rotationP, hK, Matrix.mul_apply, Fin.sum_univ_three]
    all_goals first | ring | skip
    all_goals first | linear_combination (c - 1) * hu | linear_combination (1 - c) * hu
  have hKT : Kᵀ = -K := by
    ext i j
    fin_cases i <;> fin_cases j <;> simp [hK]
  constructor
  · have hRT : (rotationP x y z c s)ᵀ = 1 - s • K + (1 - c) • (K * K) := by
      rw [hR]
      simp only [transpose_add, transpose_one, transpose_smul, transpose_mul, hKT, Matrix.neg_mul, Matrix.mul_neg, neg_neg, smul_neg]
      abel
    have hK4 : K * K * (K * K) = -(K * K) := by rw [← Matrix.mul_assoc, hK3, Matrix.neg_mul]
    have hK3' : K * (K * K) = -K := by rw [← Matrix.mul_assoc, hK3]
    rw [hRT, hR]
    have : (1 - s • K + (1 - c) • (K * K)) * (1 + s • K + (1 - c) • (K * K)) =
        1 + (2 * (1 - c) - s ^ 2 - (1 - c) ^ 2) • (K * K) := by
      simp only [Matrix.add_mul, Matrix.sub_mul, Matrix.mul_add, Matrix.one_mul, Matrix.mul_one, Matrix.smul_mul, Matrix.mul_smul,
        hK3, hK3', hK4, smul_smul, smul_neg]
      module
    rw [this, show 2 * (1 - c) - s ^ 2 - (1 - c) ^ 2 = 0 by linear_combination -hc]
    simp
  · rw [rotationP, det_fin_three]
    simp
    linear_combination (c ^ 2 * (1 - c) + c * s ^ 2 + (1 - c) * s ^ 2 * (x ^ 2 + y ^ 2 + z ^ 2 + 1)) * hu + hc

/-- C55: the matrix is orthogonal with determinant one. -/
theorem C55_rotation (t p a : ℝ) :
    (rotationMatrix t p a)ᵀ * rotationMatrix t p a = 1 ∧ rotationMatrix t p a * (rotationMatrix t p a)ᵀ = 1 ∧
    (rotationMatrix t p a).det = 1 := by
  have h1 := Real.sin_sq_add_cos_sq t
  have h2 := Real.sin_sq_add_cos_sq p
  have hP := rotationP_orthogonal (x := Real.cos p * Real.sin t) (y := Real.sin p * Real.sin t) (z := Real.cos t)
    (c := Real.cos a) (s := Real.sin a) (by linear_combination h1 + Real.sin t ^ 2 * h2) (Real.cos_sq_add_sin_sq a)
  have hY : (rotationY t)ᵀ * rotationY t = 1 ∧ (rotationY t).det = 1 := by
    constructor
    · ext i j
      fin_cases i <;> fin_cases j <;> simp [rotationY, Matrix.mul_apply, Fin.sum_univ_three]
      · linear_combination h1
      · ring
      · ring
      · linear_combination h1
    · rw [rotationY, det_fin_three]; simp; linear_combination h1
  have hZ : (rotationZ p)ᵀ * rotationZ p = 1 ∧ (rotationZ p).det = 1 := by
    constructor
    · ext i j
      fin_cases i <;> fin_cases j <;> simp [rotationZ, Matrix.mul_apply, Fin.sum_univ_three]
      · linear_combination h2
      · ring
      · ring
      · linear_combination h2
    · rw [rotationZ, det_fin_three]; simp; linear_combination h2
  have hO : (rotationMatrix t p a)ᵀ * rotationMatrix t p a = 1 := by
    unfold rotationMatrix
    simp only [transpose_mul]
    set P := rotationP (Real.cos p * Real.sin t) (Real.sin p * Real.sin t) (Real.cos t) (Real.cos a) (Real.sin a)
    calc (rotationY t)ᵀ * ((rotationZ p)ᵀ * Pᵀ) * (P * rotationZ p * rotationY t)
        = (rotationY t)ᵀ * ((rotationZ p)ᵀ * (Pᵀ * P) * rotationZ p) * rotationY t := by simp only [Matrix.mul_assoc]
      _ = 1 := by rw [hP.1, Matrix.mul_one, hZ.1, Matrix.mul_one, hY.1]
  refine ⟨hO, mul_eq_one_comm.1 hO, ?_⟩
  unfold rotationMatrix
  simp only [det_mul, hP.2, hY.2, hZ.2, mul_one]

/-- C55: the z-axis is mapped to the documented direction of propagation, for every polarization angle. -/
theorem C55_axis (t p a : ℝ) : rotationMatrix t p a *ᵥ ![0, 0, 1] = direction t p := by
  have h1 : rotateAbout ![0, 0, 1] p (rotateAbout ![0, 1, 0] t ![0, 0, 1]) = direction t p := by
    funext i
    fin_cases i <;> simp [rotateAbout_zero, rotateAbout_one, rotateAbout_two, direction] <;> ring
  rw [C55_composition, h1, rotateAbout, direction_unit, cross_self]
  module

/-- C55: changing the polarization angle rotates further about the direction of propagation. -/
theorem C55_polarization (t p a b : ℝ) (v : Fin 3 → ℝ) :
    rotationMatrix t p (a + b) *ᵥ v = rotateAbout (direction t p) a (rotationMatrix t p b *ᵥ v) := by
  rw [C55_composition, C55_composition]
  set w := rotateAbout ![0, 0, 1] p (rotateAbout ![0, 1, 0] t v)
  have hu := direction_unit t p
  set u := direction t p
  simp only [dotProduct, Fin.sum_univ_three] at hu
  have hc := Real.cos_add a b
  have hs := Real.sin_add a b
  funext i
  fin_cases i
  · show rotateAbout u (a + b) w 0 = rotateAbout u a (rotateAbout u b w) 0
    simp only [rotateAbout_zero, rotateAbout_one, rotateAbout_two, hc, hs]
    linear_combination (-((1 - Real.cos a) * (1 - Real.cos b) * (u 0 * w 0 + u 1 * w 1 + u 2 * w 2) * u 0 -
      Real.sin a * Real.sin b * w 0)) * hu
  · show rotateAbout u (a + b) w 1 = rotateAbout u a (rotateAbout u b w) 1
    simp only [rotateAbout_zero, rotateAbout_one, rotateAbout_two, hc, hs]
    linear_combination (-((1 - Real.cos a) * (1 - Real.cos b) * (u 0 * w 0 + u 1 * w 1 + u 2 * w 2) * u 1 -
      Real.sin a * Real.sin b * w 1)) * hu
  · show rotateAbout u (a + b) w 2 = rotateAbout u a (rotateAbout u b w) 2
    simp only [rotateAbout_zero, rotateAbout_one, rotateAbout_two, hc, hs]
    linear_combination (-((1 - Real.cos a) * (1 - Real.cos b) * (u 0 * w 0 + u 1 * w 1 + u 2 * w 2) * u 2 -
      Real.sin a * Real.sin b * w 2)) * hu

example : rotationMatrix (Real.pi / 2) 0 0 *ᵥ ![0, 0, 1] = ![1, 0, 0] := by
  rw [C55_axis]; simp [direction]

/-! ### C56 -/

theorem solveReal_rotation {β : Type} (t p a : ℝ) (B : Matrix (Fin 3) β ℝ) :
    solveReal (rotationMatrix t p a) B = .ok ((rotationMatrix t p a)ᵀ * B) := by
  obtain ⟨h1, h2, h3⟩ := C55_rotation t p a
  unfold solveReal
  rw [if_pos (by rw [h3]; exact isUnit_one), inv_eq_left_inv h1]

/-- C56: the fields are those given by the field function at the rotated back position relative to the origin, rotated. -/
theorem C56_evaluation {P : Type} (fieldFn : (P → Fin 3 → ℝ) → VectorFields P) (coords : P → Fin 3 → ℝ)
    (origin : Fin 3 → ℝ) (t p a : ℝ) :
    ∃ out, shiftedRotatedFields fieldFn coords origin t p a = .ok out ∧
      ∀ position : P → Fin 3 → ℝ, (∀ q, rotationMatrix t p a *ᵥ position q = coords q - origin) →
        (∀ q, out.1 q = (rotationMatrix t p a).map (algebraMap ℝ ℂ) *ᵥ (fieldFn position).1 q) ∧
        (∀ q, out.2 q = (rotationMatrix t p a).map (algebraMap ℝ ℂ) *ᵥ (fieldFn position).2 q) := by
  unfold shiftedRotatedFields
  simp only
  rw [solveReal_rotation, solveReal_rotation]
  refine ⟨_, rfl, fun position hp => ?_⟩
  have e : position = fun q i => ((rotationMatrix t p a)ᵀ * Matrix.of fun i (q : P) => coords q i) i q -
      ((rotationMatrix t p a)ᵀ * Matrix.of fun i (_ : Unit) => origin i) i () := by
    funext q
    have h : position q = (rotationMatrix t p a)ᵀ *ᵥ (coords q - origin) := by
      rw [← hp q, mulVec_mulVec, (C55_rotation t p a).1, one_mulVec]
    rw [h, mulVec_sub]
    rfl
  rw [e]
  exact ⟨fun q => rfl, fun q => rfl⟩

theorem rotation_complex (t p a : ℝ) :
    ((rotationMatrix t p a).map (algebraMap ℝ ℂ))ᵀ * (rotationMatrix t p a).map (algebraMap ℝ ℂ) = 1 := by
  rw [← transpose_map, ← Matrix.map_mul, (C55_rotation t p a).1]
  ext i j
  simp [Matrix.one_apply, apply_ite]

/-- C56: scalar products of fields are preserved, with and without complex conjugation, so norms and the angle between the electric
and the magnetic field are. -/
theorem C56_geometry {P : Type} (fieldFn : (P → Fin 3 → ℝ) → VectorFields P) (coords : P → Fin 3 → ℝ)
    (origin : Fin 3 → ℝ) (t p a : ℝ) {out : VectorFields P} (h : shiftedRotatedFields fieldFn coords origin t p a = .ok out) :
    ∃ position : P → Fin 3 → ℝ, (∀ q, rotationMatrix t p a *ᵥ position q = coords q - origin) ∧ ∀ q,
      out.1 q ⬝ᵥ out.2 q = (fieldFn position).1 q ⬝ᵥ (fieldFn position).2 q ∧
      star (out.1 q) ⬝ᵥ out.2 q = star ((fieldFn position).1 q) ⬝ᵥ (fieldFn position).2 q ∧
      star (out.1 q) ⬝ᵥ out.1 q = star ((fieldFn position).1 q) ⬝ᵥ (fieldFn position).1 q ∧
      star (out.2 q) ⬝ᵥ out.2 q = star ((fieldFn position).2 q) ⬝ᵥ (fieldFn position).2 q := by
  obtain ⟨out', h', hev⟩ := C56_evaluation fieldFn coords origin t p a
  rw [h] at h'
  obtain rfl := ok_inj.1 h'
  have hpos : ∀ q, rotationMatrix t p a *ᵥ ((rotationMatrix t p a)ᵀ *ᵥ (coords q - origin)) = coords q - origin := by
    intro q
    rw [mulVec_mulVec, (C55_rotation t p a).2.1, one_mulVec]
  refine ⟨_, hpos, fun q => ?_⟩
  obtain ⟨h1, h2⟩ := hev _ hpos
  rw [h1 q, h2 q]
  have key : ∀ v w : Fin 3 → ℂ, ((rotationMatrix t p a).map (algebraMap ℝ ℂ) *ᵥ v) ⬝ᵥ
      ((rotationMatrix t p a).map (algebraMap ℝ ℂ) *ᵥ w) = v ⬝ᵥ w := by
    intro v w
    rw [dotProduct_mulVec, ← mulVec_transpose, mulVec_mulVec, rotation_complex, one_mulVec]
  have hstar : ∀ v : Fin 3 → ℂ, star ((rotationMatrix t p a).map (algebraMap ℝ ℂ) *ᵥ v) =
      (rotationMatrix t p a).map (algebraMap ℝ ℂ) *ᵥ star v := by
    intro v
    funext i
    simp [mulVec, dotProduct, Complex.conj_ofReal]
  exact ⟨key _ _, by rw [hstar, key], by rw [hstar, key], by rw [hstar, key]⟩

theorem rotationMatrix_zero : rotationMatrix 0 0 0 = 1 := by
  ext i j
  fin_cases i <;> fin_cases j <;> simp [rotationMatrix, rotationP, rotationY, rotationZ, Matrix.mul_apply, Fin.sum_univ_three]

/-- C56: without rotation and shift the given fields are returned. -/
theorem C56_identity {P : Type} (fieldFn : (P → Fin 3 → ℝ) → VectorFields P) (coords : P → Fin 3 → ℝ) :
    shiftedRotatedFields fieldFn coords 0 0 0 0 = .ok (fieldFn coords) := by
  obtain ⟨out, h, hev⟩ := C56_evaluation fieldFn coords 0 0 0 0
  rw [h]
  obtain ⟨h1, h2⟩ := hev coords (fun q => by rw [rotationMatrix_zero, one_mulVec, sub_zero])
  have h1' : (1 : Matrix (Fin 3) (Fin 3) ℝ).map (algebraMap ℝ ℂ) = 1 := by
    ext i j; simp [Matrix.one_apply, apply_ite]
  rw [rotationMatrix_zero, h1'] at h1 h2
  refine congrArg Except.ok (Prod.ext ?_ ?_)
  · funext q; rw [h1 q, one_mulVec]
  · funext q; rw [h2 q, one_mulVec]

/-- The rows of a rotation matrix are cross products of each other. -/
theorem rotation_cofactors {R : Matrix (Fin 3) (Fin 3) ℝ} (h1 : Rᵀ * R = 1) (h2 : R.det = 1) : R.adjugate = Rᵀ := by
  have h3 : R * Rᵀ = 1 := mul_eq_one_comm.1 h1
  have h4 := adjugate_mul R
  rw [h2, one_smul] at h4
  calc R.adjugate = R.adjugate * (R * Rᵀ) := by rw [h3, Matrix.mul_one]
    _ = Rᵀ := by rw [← Matrix.mul_assoc, h4, Matrix.one_mul]

theorem curlOf_rotation {R : Matrix (Fin 3) (Fin 3) ℝ} (h1 : Rᵀ * R = 1) (h2 : R.det = 1) (J : Matrix (Fin 3) (Fin 3) ℂ) :
    curlOf (R.map (algebraMap ℝ ℂ) * J * (R.map (algebraMap ℝ ℂ))ᵀ) = R.map (algebraMap ℝ ℂ) *ᵥ curlOf J := by
  have hc := rotation_cofactors h1 h2
  rw [adjugate_fin_three] at hc
  have e : ∀ i j, algebraMap ℝ ℂ ((Matrix.of ![![R 1 1 * R 2 2 - R 1 2 * R 2 1, -(R 0 1 * R 2 2) + R 0 2 * R 2 1,
      R 0 1 * R 1 2 - R 0 2 * R 1 1], ![-(R 1 0 * R 2 2) + R 1 2 * R 2 0, R 0 0 * R 2 2 - R 0 2 * R 2 0,
      -(R 0 0 * R 1 2) + R 0 2 * R 1 0], ![R 1 0 * R 2 1 - R 1 1 * R 2 0, -(R 0 0 * R 2 1) + R 0 1 * R 2 0,
      R 0 0 * R 1 1 - R 0 1 * R 1 0]] : Matrix (Fin 3) (Fin 3) ℝ) i j) = algebraMap ℝ ℂ (R j i) := by
    intro i j; rw [hc]; rfl
  funext k
  fin_cases k
  · have a := e 0 0; have b := e 1 0; have c := e 2 0
    simp at a b c
    simp [curlOf, Matrix.mul_apply, Fin.sum_univ_three, mulVec, dotProduct]
    linear_combination (J 2 1 - J 1 2) * a + (J 0 2 - J 2 0) * b + (J 1 0 - J 0 1) * c
  · have a := e 0 1; have b := e 1 1; have c := e 2 1
    simp at a b c
    simp [curlOf, Matrix.mul_apply, Fin.sum_univ_three, mulVec, dotProduct]
    linear_combination (J 2 1 - J 1 2) * a + (J 0 2 - J 2 0) * b + (J 1 0 - J 0 1) * c
  · have a := e 0 2; have b := e 1 2; have c := e 2 2
    simp at a b c
    simp [curlOf, Matrix.mul_apply, Fin.sum_univ_three, mulVec, dotProduct]
    linear_combination (J 2 1 - J 1 2) * a + (J 0 2 - J 2 0) * b + (J 1 0 - J 0 1) * c

theorem hasJacobian_rotated {R : Matrix (Fin 3) (Fin 3) ℝ} {F : (Fin 3 → ℝ) → Fin 3 → ℂ} {J : Matrix (Fin 3) (Fin 3) ℂ}
    {x x₀ : Fin 3 → ℝ} (h : HasJacobian F J (Rᵀ *ᵥ (x - x₀))) :
    HasJacobian (fun y => R.map (algebraMap ℝ ℂ) *ᵥ F (Rᵀ *ᵥ (y - x₀)))
      (R.map (algebraMap ℝ ℂ) * J * (R.map (algebraMap ℝ ℂ))ᵀ) x := by
  intro i
  set L : (Fin 3 → ℝ) →L[ℝ] (Fin 3 → ℝ) := LinearMap.toContinuousLinearMap (Matrix.mulVecLin Rᵀ) with hL
  have hA : HasFDerivAt (fun y : Fin 3 → ℝ => Rᵀ *ᵥ (y - x₀)) L x := by
    have := L.hasFDerivAt (x := x - x₀) |>.comp x ((hasFDerivAt_id x).sub_const x₀)
    exact this.congr_fderiv (ContinuousLinearMap.comp_id _)
  have hsum : HasFDerivAt (fun y => ∑ k, R.map (algebraMap ℝ ℂ) i k * F (Rᵀ *ᵥ (y - x₀)) k)
      (∑ k, R.map (algebraMap ℝ ℂ) i k • ((∑ j, (ContinuousLinearMap.proj (R := ℝ) (φ := fun _ : Fin 3 => ℝ) j).smulRight
        (J k j)).comp L)) x :=
    HasFDerivAt.fun_sum fun k _ => ((h k).comp x hA).const_mul _
  refine hsum.congr_fderiv ?_
  refine ContinuousLinearMap.ext fun v => ?_
  have hLv : ∀ j, L v j = ∑ m, R m j * v m := fun j => rfl
  simp only [ContinuousLinearMap.sum_apply, ContinuousLinearMap.add_apply, ContinuousLinearMap.smul_apply, ContinuousLinearMap.comp_apply,
    ContinuousLinearMap.smulRight_apply, ContinuousLinearMap.proj_apply, hLv, Matrix.mul_apply, Fin.sum_univ_three,
    transpose_apply, map_apply, Complex.real_smul, smul_eq_mul, Complex.coe_algebraMap]
  push_cast
  ring

/-- C73: shifting and rotating a solution of Maxwell's equations in a homogeneous medium gives a solution. -/
theorem C73_maxwell {omega : ℝ} {permittivity : ℂ} {E H : (Fin 3 → ℝ) → Fin 3 → ℂ} (hM : SolvesMaxwell omega permittivity E H)
    (origin : Fin 3 → ℝ) (t p a : ℝ) :
    ∃ E' H' : (Fin 3 → ℝ) → Fin 3 → ℂ, SolvesMaxwell omega permittivity E' H' ∧
      ∀ (P : Type) (coords : P → Fin 3 → ℝ),
        shiftedRotatedFields (fun c => (fun q => E (c q), fun q => H (c q))) coords origin t p a =
          .ok (fun q => E' (coords q), fun q => H' (coords q)) := by
  obtain ⟨o1, o2, o3⟩ := C55_rotation t p a
  set R := rotationMatrix t p a with hR
  refine ⟨fun y => R.map (algebraMap ℝ ℂ) *ᵥ E (Rᵀ *ᵥ (y - origin)), fun y => R.map (algebraMap ℝ ℂ) *ᵥ H (Rᵀ *ᵥ (y - origin)), ?_, ?_⟩
  · intro x
    obtain ⟨JE, JH, h1, h2, h3, h4⟩ := hM (Rᵀ *ᵥ (x - origin))
    refine ⟨_, _, hasJacobian_rotated h1, hasJacobian_rotated h2, ?_, ?_⟩
    · rw [curlOf_rotation o1 o3, h3, mulVec_smul]
    · rw [curlOf_rotation o1 o3, h4, mulVec_smul]
  · intro P coords
    obtain ⟨out, h, hev⟩ := C56_evaluation (fun c : P → Fin 3 → ℝ => ((fun q => E (c q), fun q => H (c q)) : VectorFields P))
      coords origin t p a
    rw [h]
    obtain ⟨h1, h2⟩ := hev (fun q => Rᵀ *ᵥ (coords q - origin)) (fun q => by rw [← hR, mulVec_mulVec, o2, one_mulVec])
    exact congrArg Except.ok (Prod.ext (funext h1) (funext h2))

/-- A plane wave along z solves Maxwell's equations in vacuum. -/
example : SolvesMaxwell 1 1 (fun x => ![Complex.exp (Complex.I * x 2), 0, 0]) (fun x => ![0, Complex.exp (Complex.I * x 2), 0]) := by
  have hd : ∀ x : Fin 3 → ℝ, HasFDerivAt (fun y : Fin 3 → ℝ => Complex.exp (Complex.I * y 2))
      ((ContinuousLinearMap.proj (R := ℝ) (φ := fun _ : Fin 3 => ℝ) 2).smulRight (Complex.I * Complex.exp (Complex.I * x 2))) x := by
    intro x
    have h1 : HasFDerivAt (fun y : Fin 3 → ℝ => ((y 2 : ℝ) : ℂ)) (Complex.ofRealCLM.comp
        (ContinuousLinearMap.proj (R := ℝ) (φ := fun _ : Fin 3 => ℝ) 2)) x :=
      (Complex.ofRealCLM.comp (ContinuousLinearMap.proj (R := ℝ) (φ := fun _ : Fin 3 => ℝ) 2)).hasFDerivAt
    refine ((h1.const_mul Complex.I).cexp).congr_fderiv ?_
    refine ContinuousLinearMap.ext fun v => ?_
    simp
    ring
  intro x
  refine ⟨!![0, 0, Complex.I * Complex.exp (Complex.I * x 2); 0, 0, 0; 0, 0, 0],
    !![0, 0, 0; 0, 0, Complex.I * Complex.exp (Complex.I * x 2); 0, 0, 0], ?_, ?_, ?_, ?_⟩
  · intro i
    fin_cases i
    · simpa [Fin.sum_univ_three] using hd x
    · simpa [Fin.sum_univ_three] using hasFDerivAt_const (0 : ℂ) x
    · simpa [Fin.sum_univ_three] using hasFDerivAt_const (0 : ℂ) x
  · intro i
    fin_cases i
    · simpa [Fin.sum_univ_three] using hasFDerivAt_const (0 : ℂ) x
    · simpa [Fin.sum_univ_three] using hd x
    · simpa [Fin.sum_univ_three] using hasFDerivAt_const (0 : ℂ) x
  · funext i; fin_cases i <;> simp [curlOf]
  · funext i; fin_cases i <;> simp [curlOf]

end Fmmax
