import Verif.Proofs.Vector
import Verif.Proofs.LeastSquares
import Mathlib.Algebra.BigOperators.Field

/-! The field loss is a weighted sum of squares, so that the Newton step finds its minimiser. -/

namespace Fmmax

open Matrix Spec

variable {nx ny : ℕ} {ι : Type} [Fintype ι]

/-- The vector field with the given Fourier coefficients, as a linear map. -/
noncomputable def seriesMap (G : ι → ℤ × ℤ) (nx ny : ℕ) : (ι × Fin 2 → ℂ) →ₗ[ℂ] VectorField nx ny where
  toFun y := fun r s c => ∑ i, y (i, c) * planeWave nx ny (G i) r s
  map_add' y z := by
    funext r s c
    simp only [Pi.add_apply, add_mul, Finset.sum_add_distrib]
  map_smul' a y := by
    funext r s c
    simp only [Pi.smul_apply, smul_eq_mul, RingHom.id_apply, Finset.mul_sum, mul_assoc]

theorem ifftVector_eq (y : ι × Fin 2 → ℂ) {G : ι → ℤ × ℤ} (hG : Function.Injective G) (hr : Resolves nx ny G) :
    ifftVector y G nx ny = .ok (seriesMap G nx ny y) := by
  unfold ifftVector
  simp only [ifft_eq _ hr hG, bind, Except.bind]
  refine congrArg Except.ok ?_
  funext r s c
  fin_cases c <;> rfl

omit [Fintype ι] in
theorem transformGradient_eq (p : VectorField nx ny) {b : Matrix (Fin 2) (Fin 2) ℝ} (h : b.det ≠ 0) :
    transformGradient p b = .ok fun i j => p i j ᵥ* (b.map Complex.ofReal)⁻¹ := by
  rw [transformGradient_eq_ok]
  refine ⟨h, fun i j => ?_⟩
  have hdet : (b.map Complex.ofReal).det = (b.det : ℂ) := by rw [Matrix.det_fin_two, Matrix.det_fin_two]; simp
  rw [Matrix.vecMul_vecMul, Matrix.nonsing_inv_mul _ (by rw [hdet]; exact isUnit_iff_ne_zero.2 (by exact_mod_cast h)),
    Matrix.vecMul_one]

/-- The forward differences of component `a` of a vector field. -/
noncomputable def forwardDifferences (f : VectorField nx ny) (a : Fin 2) (i : Fin nx) (j : Fin ny) : Fin 2 → ℂ :=
  ![forwardDifference0 (Matrix.of fun i j => f i j a) i j, forwardDifference1 (Matrix.of fun i j => f i j a) i j]

/-- The forward gradient as a linear map. -/
noncomputable def gradientMap (nx ny : ℕ) (B : Matrix (Fin 2) (Fin 2) ℂ) :
    VectorField nx ny →ₗ[ℂ] (Fin 2 → VectorField nx ny) where
  toFun f := fun a i j => forwardDifferences f a i j ᵥ* B
  map_add' f g := by
    funext a i j
    have e : forwardDifferences (f + g) a i j = forwardDifferences f a i j + forwardDifferences g a i j := by
      unfold forwardDifferences forwardDifference0 forwardDifference1
      funext c
      fin_cases c <;> simp <;> ring
    rw [e, Matrix.add_vecMul]; rfl
  map_smul' w f := by
    funext a i j
    have e : forwardDifferences (w • f) a i j = w • forwardDifferences f a i j := by
      unfold forwardDifferences forwardDifference0 forwardDifference1
      funext c
      fin_cases c <;> simp <;> ring
    rw [e, Matrix.smul_vecMul]; rfl

theorem vectorForwardGradient_eq (f : VectorField nx ny) {l : LatticeVectors} {b : Matrix (Fin 2) (Fin 2) ℝ}
    (hb : normalizedBasis l = .ok b) :
    vectorForwardGradient f l = .ok (gradientMap nx ny (b.map Complex.ofReal)⁻¹ f) := by
  unfold vectorForwardGradient scalarForwardGradient
  rw [hb]
  simp only [bind, Except.bind, transformGradient_eq _ (normalizedBasis_det hb)]
  refine congrArg Except.ok ?_
  funext a i j
  fin_cases a <;> rfl

theorem normalizedBasis_error {l : LatticeVectors} (hl : ¬ Independent l.u l.v) : ∃ e, normalizedBasis l = .error e := by
  cases h : normalizedBasis l with
  | ok b => exact absurd (normalizedBasis_eq_ok.1 h).1 hl
  | error e => exact ⟨e, rfl⟩

theorem smoothnessLoss_leastSquares (G : ι → ℤ × ℤ) {l : LatticeVectors} (hl : Independent l.u l.v) :
    ∃ f, IsLeastSquares f f ∧ ∀ y, smoothnessLoss (seriesMap G nx ny y) l = .ok (f y) := by
  have hb := normalizedBasis_eq_ok.2 ⟨hl, rfl⟩
  set b := Matrix.of fun r c => basisMatrix l r c / Real.sqrt |l.u.1 * l.v.2 - l.u.2 * l.v.1|
  let φ0 : (ι × Fin 2 → ℂ) →ₗ[ℂ] (Fin 2 → VectorField nx ny) :=
    (gradientMap nx ny (b.map Complex.ofReal)⁻¹).comp (seriesMap G nx ny)
  let φ : (ι × Fin 2 → ℂ) →ₗ[ℂ] ((Fin 2 × Fin nx × Fin ny × Fin 2) → ℂ) :=
    { toFun := fun y k => φ0 y k.1 k.2.1 k.2.2.1 k.2.2.2
      map_add' := fun y z => by funext k; rw [map_add]; rfl
      map_smul' := fun a y => by funext k; rw [map_smul]; rfl }
  classical
  have key := IsLeastSquares.of_linear (fun _ => 1 / ((2 * nx * ny * 2 : ℕ) : ℝ)) (fun _ => by positivity) φ 0
  refine ⟨fun z => ∑ k, 1 / ((2 * nx * ny * 2 : ℕ) : ℝ) * ‖φ z k‖ ^ 2, by simpa using key, fun y => ?_⟩
  unfold smoothnessLoss
  rw [vectorForwardGradient_eq _ hb]
  refine congrArg Except.ok ?_
  beta_reduce
  rw [← Finset.mul_sum, Fintype.sum_prod_type, one_div, div_eq_inv_mul]
  congr 1
  refine Finset.sum_congr rfl fun a _ => ?_
  rw [Fintype.sum_prod_type]
  refine Finset.sum_congr rfl fun i _ => ?_
  rw [Fintype.sum_prod_type]
  rfl

theorem fourierLoss_leastSquares (G : ι → ℤ × ℤ) {l : LatticeVectors} (hl : Independent l.u l.v) :
    ∃ f, IsLeastSquares f f ∧ ∀ y, fourierLoss y G l = .ok (f y) := by
  have hc : crossProduct l.u l.v ≠ 0 := hl
  have hk : ∃ k, transverseWavevectors (0, 0) l G = .ok k := by
    unfold transverseWavevectors reciprocal
    simp only [hc, if_false]
    exact ⟨_, rfl⟩
  obtain ⟨k, hk⟩ := hk
  classical
  have key := IsLeastSquares.of_linear (κ := ι × Fin 2)
    (fun p : ι × Fin 2 => (Real.sqrt ((k p.1).1 ^ 2 + (k p.1).2 ^ 2) * Real.sqrt |(basisMatrix l).det|) ^ 2)
    (fun p => by positivity) LinearMap.id 0
  refine ⟨fun z => ∑ p : ι × Fin 2,
    (Real.sqrt ((k p.1).1 ^ 2 + (k p.1).2 ^ 2) * Real.sqrt |(basisMatrix l).det|) ^ 2 * ‖z p‖ ^ 2, by simpa using key,
    fun y => ?_⟩
  unfold fourierLoss
  rw [hk]
  refine congrArg Except.ok ?_
  beta_reduce
  rw [Fintype.sum_prod_type]
  refine Finset.sum_congr rfl fun i _ => Finset.sum_congr rfl fun c _ => ?_
  ring

theorem alignmentLoss_leastSquares (G : ι → ℤ × ℤ) (target : VectorField nx ny) {weight : Fin nx → Fin ny → ℝ}
    (hw : ∀ i j, 0 ≤ weight i j) :
    IsLeastSquares (fun y => alignmentLoss (seriesMap G nx ny y) target weight)
      (fun y => alignmentLoss (seriesMap G nx ny y) 0 weight) := by
  let φ : (ι × Fin 2 → ℂ) →ₗ[ℂ] ((Fin nx × Fin ny × Fin 2) → ℂ) :=
    { toFun := fun y k => seriesMap G nx ny y k.1 k.2.1 k.2.2
      map_add' := fun y z => by funext k; rw [map_add]; rfl
      map_smul' := fun a y => by funext k; rw [map_smul]; rfl }
  classical
  have key := IsLeastSquares.of_linear (fun k : Fin nx × Fin ny × Fin 2 => weight k.1 k.2.1 / ((nx * ny : ℕ) : ℝ))
    (fun k => div_nonneg (hw _ _) (Nat.cast_nonneg _)) φ (fun k => target k.1 k.2.1 k.2.2)
  have e : ∀ (y : ι × Fin 2 → ℂ) (t : VectorField nx ny), alignmentLoss (seriesMap G nx ny y) t weight =
      ∑ k : Fin nx × Fin ny × Fin 2, weight k.1 k.2.1 / ((nx * ny : ℕ) : ℝ) * ‖φ y k - t k.1 k.2.1 k.2.2‖ ^ 2 := by
    intro y t
    unfold alignmentLoss
    rw [Fintype.sum_prod_type, Finset.sum_div]
    refine Finset.sum_congr rfl fun i _ => ?_
    rw [Fintype.sum_prod_type, Finset.sum_div]
    refine Finset.sum_congr rfl fun j _ => ?_
    rw [mul_div_right_comm, Finset.mul_sum]
    rfl
  have e1 : (fun y => alignmentLoss (seriesMap G nx ny y) target weight) = _ := funext fun y => e y target
  have e2 : (fun y => alignmentLoss (seriesMap G nx ny y) 0 weight) = _ := funext fun y => e y 0
  rw [e1, e2]
  simpa using key

/-- The field loss in the situations in which it is finite. -/
theorem fieldLoss_leastSquares (P : LossParams ι nx ny) (hG : Function.Injective P.expansion)
    (hr : Resolves nx ny P.expansion) (hw : ∀ i j, 0 ≤ P.weight i j)
    (hl : 0 < P.fourierWeight ∨ 0 < P.smoothnessWeight → Independent P.lattice.u P.lattice.v) :
    ∃ f f0, IsLeastSquares f f0 ∧ (∀ y, fieldLoss P y = .ok (f y)) ∧
      ∀ y, f0 y = 0 → (∀ i j, 0 < P.weight i j → seriesMap P.expansion nx ny y i j = 0) ∧
        (0 < P.fourierWeight → fourierLoss y P.expansion P.lattice = .ok 0) ∧
        (0 < P.smoothnessWeight → smoothnessLoss (seriesMap P.expansion nx ny y) P.lattice = .ok 0) := by
  classical
  have ha := alignmentLoss_leastSquares P.expansion P.target hw
  have term : ∀ (c : ℝ) (h : (ι × Fin 2 → ℂ) → Res ℝ),
      (0 < c → ∃ f, IsLeastSquares f f ∧ ∀ y, h y = .ok (f y)) →
      ∃ f, IsLeastSquares f f ∧ (∀ a y, addLossTerm a c (h y) = .ok (a + f y)) ∧ (∀ y, 0 ≤ f y) ∧
        ∀ y, 0 < c → f y = 0 → h y = .ok 0 := by
    intro c h hh
    by_cases hc : 0 < c
    · obtain ⟨f, hf, hy⟩ := hh hc
      refine ⟨fun y => c * f y, hf.smul hc.le, fun a y => ?_, fun y => ?_, fun y _ h0 => ?_⟩
      · unfold addLossTerm
        rw [if_pos hc, hy]; rfl
      · obtain ⟨K, _, w, L, t, hw, h, -⟩ := hf
        simp only [h]
        exact mul_nonneg hc.le (Finset.sum_nonneg fun k _ => mul_nonneg (hw k) (sq_nonneg _))
      · rw [hy, (mul_eq_zero.1 h0).resolve_left hc.ne']
    · refine ⟨fun _ => 0, ⟨Empty, inferInstance, fun _ => 0, 0, 0, by simp, by simp, by simp⟩, fun a y => ?_, by simp,
        fun y h => absurd h hc⟩
      unfold addLossTerm
      rw [if_neg hc, add_zero]
  obtain ⟨f1, h1, h1e, h1n, h1z⟩ := term P.fourierWeight (fun y => fourierLoss y P.expansion P.lattice)
    fun h => fourierLoss_leastSquares P.expansion (hl (Or.inl h))
  obtain ⟨f2, h2, h2e, h2n, h2z⟩ := term P.smoothnessWeight (fun y => smoothnessLoss (seriesMap P.expansion nx ny y) P.lattice)
    fun h => smoothnessLoss_leastSquares P.expansion (hl (Or.inr h))
  refine ⟨_, _, (ha.add h1).add h2, fun y => ?_, fun y hy => ?_⟩
  · unfold fieldLoss
    rw [ifftVector_eq y hG hr]
    simp only [bind, Except.bind, h1e, h2e]
  · have han : 0 ≤ alignmentLoss (seriesMap P.expansion nx ny y) 0 P.weight := by
      unfold alignmentLoss
      refine div_nonneg (Finset.sum_nonneg fun i _ => Finset.sum_nonneg fun j _ => mul_nonneg (hw i j) ?_) (Nat.cast_nonneg _)
      exact Finset.sum_nonneg fun c _ => sq_nonneg _
    have z1 : f1 y = 0 := by linarith [h1n y, h2n y]
    have z2 : f2 y = 0 := by linarith [h1n y, h2n y]
    have z0 : alignmentLoss (seriesMap P.expansion nx ny y) 0 P.weight = 0 := by linarith [h1n y, h2n y]
    refine ⟨fun i j hij => ?_, fun h => h1z y h z1, fun h => h2z y h z2⟩
    unfold alignmentLoss at z0
    have hnn : ((nx * ny : ℕ) : ℝ) ≠ 0 := by
      have := i.pos
      have := j.pos
      positivity
    have z0 := (div_eq_zero_iff.1 z0).resolve_right hnn
    have n2 : ∀ i j, 0 ≤ P.weight i j * ∑ c, ‖seriesMap P.expansion nx ny y i j c - (0 : VectorField nx ny) i j c‖ ^ 2 :=
      fun i j => mul_nonneg (hw i j) (Finset.sum_nonneg fun c _ => sq_nonneg _)
    have z3 := (Finset.sum_eq_zero_iff_of_nonneg (fun i _ => Finset.sum_nonneg fun j _ => n2 i j)).1 z0 i (Finset.mem_univ i)
    have z4 := (Finset.sum_eq_zero_iff_of_nonneg (fun j _ => n2 i j)).1 z3 j (Finset.mem_univ j)
    have z5 := (mul_eq_zero.1 z4).resolve_left hij.ne'
    funext c
    have z6 := (Finset.sum_eq_zero_iff_of_nonneg (fun c _ => sq_nonneg _)).1 z5 c (Finset.mem_univ c)
    have z7 := norm_eq_zero.1 (pow_eq_zero_iff two_ne_zero |>.1 z6)
    simpa using z7

theorem seriesMap_eq_zero {G : ι → ℤ × ℤ} (hG : Function.Injective G) (hr : Resolves nx ny G) {y : ι × Fin 2 → ℂ}
    (h : seriesMap G nx ny y = 0) : y = 0 := by
  classical
  funext ⟨i, c⟩
  have h1 := fourierCoefficient_series hr hG (fun i => y (i, c)) i
  have h2 : fourierSeries G (fun i => y (i, c)) nx ny = 0 := by
    ext r s
    exact congrFun (congrFun (congrFun h r) s) c
  rw [h2] at h1
  rw [← h1]
  simp [fourierCoefficient]

/-- A grid function that does not change under either cyclic shift is constant. -/
theorem grid_const {α : Type} (f : Fin nx → Fin ny → α)
    (h0 : ∀ (i : Fin nx) (j : Fin ny), f ⟨((i : ℕ) + 1) % nx, Nat.mod_lt _ (by have := i.2; omega)⟩ j = f i j)
    (h1 : ∀ (i : Fin nx) (j : Fin ny), f i ⟨((j : ℕ) + 1) % ny, Nat.mod_lt _ (by have := j.2; omega)⟩ = f i j) (i i' : Fin nx) (j j' : Fin ny) :
    f i j = f i' j' := by
  have hx := i.pos
  have hy := j.pos
  have a0 : ∀ n (hn : n < nx) j, f ⟨n, hn⟩ j = f ⟨0, hx⟩ j := by
    intro n
    induction n with
    | zero => intro hn j; rfl
    | succ n ih =>
      intro hn j
      have := h0 ⟨n, by omega⟩ j
      rw [← ih (by omega) j, ← this]
      congr 1
      ext
      simp only
      exact (Nat.mod_eq_of_lt hn).symm
  have a1 : ∀ n (hn : n < ny) i, f i ⟨n, hn⟩ = f i ⟨0, hy⟩ := by
    intro n
    induction n with
    | zero => intro hn j; rfl
    | succ n ih =>
      intro hn i
      have := h1 i ⟨n, by omega⟩
      rw [← ih (by omega) i, ← this]
      congr 1
      ext
      simp only
      exact (Nat.mod_eq_of_lt hn).symm
  rw [a0 i i.2 j, a0 i' i'.2 j', a1 j j.2, a1 j' j'.2]

theorem smoothnessLoss_zero {f : VectorField nx ny} {l : LatticeVectors} (hl : Independent l.u l.v)
    (h : smoothnessLoss f l = .ok 0) (i i' : Fin nx) (j j' : Fin ny) : f i j = f i' j' := by
  have hb := normalizedBasis_eq_ok.2 ⟨hl, rfl⟩
  have hdet := normalizedBasis_det hb
  unfold smoothnessLoss at h
  rw [vectorForwardGradient_eq f hb] at h
  have h := ok_inj.1 h
  have hx := i.pos
  have hy := j.pos
  have h := (div_eq_zero_iff.1 h).resolve_right (by positivity)
  set B := (Matrix.map (Matrix.of fun r c => basisMatrix l r c / Real.sqrt |l.u.1 * l.v.2 - l.u.2 * l.v.1|) Complex.ofReal)
    with hB
  have n1 : ∀ a i j, 0 ≤ ∑ c, ‖gradientMap nx ny B⁻¹ f a i j c‖ ^ 2 := fun a i j => Finset.sum_nonneg fun c _ => sq_nonneg _
  have z : ∀ a i j, forwardDifferences f a i j = 0 := by
    intro a i j
    have z1 := (Finset.sum_eq_zero_iff_of_nonneg (fun a _ => Finset.sum_nonneg fun i _ => Finset.sum_nonneg fun j _ =>
      n1 a i j)).1 h a (Finset.mem_univ a)
    have z2 := (Finset.sum_eq_zero_iff_of_nonneg (fun i _ => Finset.sum_nonneg fun j _ =>
      n1 a i j)).1 z1 i (Finset.mem_univ i)
    have z3 := (Finset.sum_eq_zero_iff_of_nonneg (fun j _ => n1 a i j)).1 z2 j (Finset.mem_univ j)
    have z4 : gradientMap nx ny B⁻¹ f a i j = 0 := by
      funext c
      have z4 := (Finset.sum_eq_zero_iff_of_nonneg (fun c _ => sq_nonneg _)).1 z3 c (Finset.mem_univ c)
      exact norm_eq_zero.1 (pow_eq_zero_iff two_ne_zero |>.1 z4)
    have z5 : forwardDifferences f a i j ᵥ* B⁻¹ = 0 := z4
    have hBd : B.det = ((Matrix.of fun r c => basisMatrix l r c / Real.sqrt |l.u.1 * l.v.2 - l.u.2 * l.v.1|).det : ℂ) := by
      rw [hB, Matrix.det_fin_two, Matrix.det_fin_two]; simp
    have hBu : IsUnit B.det := by
      rw [hBd]; exact isUnit_iff_ne_zero.2 (by exact_mod_cast hdet)
    have z6 := congrArg (· ᵥ* B) z5
    simp only [Matrix.vecMul_vecMul, Matrix.nonsing_inv_mul _ hBu, Matrix.vecMul_one, Matrix.zero_vecMul] at z6
    exact z6
  apply grid_const
  · intro i j
    funext a
    have := congrFun (z a i j) 0
    unfold forwardDifferences forwardDifference0 at this
    simp only [Matrix.cons_val_zero, Matrix.of_apply, Pi.zero_apply, mul_eq_zero, Nat.cast_eq_zero] at this
    exact sub_eq_zero.1 (this.resolve_right hx.ne')
  · intro i j
    funext a
    have := congrFun (z a i j) 1
    unfold forwardDifferences forwardDifference1 at this
    simp only [Matrix.cons_val_one, Matrix.cons_val_zero, Matrix.of_apply, Pi.zero_apply, mul_eq_zero, Nat.cast_eq_zero] at this
    exact sub_eq_zero.1 (this.resolve_right hy.ne')

theorem fourierLoss_zero {y : ι × Fin 2 → ℂ} {G : ι → ℤ × ℤ} {l : LatticeVectors} (hl : Independent l.u l.v)
    (h : fourierLoss y G l = .ok 0) (i : ι) (hi : G i ≠ 0) (c : Fin 2) : y (i, c) = 0 := by
  have hc : crossProduct l.u l.v ≠ 0 := hl
  unfold fourierLoss transverseWavevectors reciprocal at h
  simp only [hc, if_false, bind, Except.bind] at h
  have h := ok_inj.1 h
  have z1 := (Finset.sum_eq_zero_iff_of_nonneg (fun i _ => Finset.sum_nonneg fun c _ => by positivity)).1 h i
    (Finset.mem_univ i)
  have z2 := (Finset.sum_eq_zero_iff_of_nonneg (fun c _ => by positivity)).1 z1 c (Finset.mem_univ c)
  rcases mul_eq_zero.1 z2 with z | z
  · exact norm_eq_zero.1 (pow_eq_zero_iff two_ne_zero |>.1 z)
  · exfalso
    rcases mul_eq_zero.1 (pow_eq_zero_iff two_ne_zero |>.1 z) with z | z
    · rw [Real.sqrt_eq_zero (by positivity)] at z
      have hpi := Real.pi_pos
      have a1 : (0 + 2 * Real.pi * ((G i).1 * (l.v.2 / crossProduct l.u l.v) +
          (G i).2 * (-l.u.2 / crossProduct l.u l.v))) = 0 := by nlinarith
      have a2 : (0 + 2 * Real.pi * ((G i).1 * (-l.v.1 / crossProduct l.u l.v) +
          (G i).2 * (l.u.1 / crossProduct l.u l.v))) = 0 := by nlinarith
      have b1 : ((G i).1 : ℝ) * l.v.2 - (G i).2 * l.u.2 = 0 := by
        field_simp at a1
        nlinarith
      have b2 : ((G i).2 : ℝ) * l.u.1 - (G i).1 * l.v.1 = 0 := by
        field_simp at a2
        nlinarith
      unfold crossProduct at hc
      have c1 : ((G i).1 : ℝ) * (l.u.1 * l.v.2 - l.u.2 * l.v.1) = 0 := by linear_combination l.u.1 * b1 + l.u.2 * b2
      have c2 : ((G i).2 : ℝ) * (l.u.1 * l.v.2 - l.u.2 * l.v.1) = 0 := by linear_combination l.v.1 * b1 + l.v.2 * b2
      have d1 := (mul_eq_zero.1 c1).resolve_right hc
      have d2 := (mul_eq_zero.1 c2).resolve_right hc
      exact hi (Prod.ext (by exact_mod_cast d1) (by exact_mod_cast d2))
    · rw [Real.sqrt_eq_zero (abs_nonneg _), abs_eq_zero, basisMatrix_det] at z
      exact hl z

/-! ### The Newton step -/

variable [DecidableEq ι]

omit [DecidableEq ι] in
theorem fieldLoss_independent {P : LossParams ι nx ny} {y : ι × Fin 2 → ℂ} {a : ℝ} (h : fieldLoss P y = .ok a)
    (hw : 0 < P.fourierWeight ∨ 0 < P.smoothnessWeight) : Independent P.lattice.u P.lattice.v := by
  unfold fieldLoss addLossTerm at h
  obtain ⟨f, -, h⟩ := bind_eq_ok.1 h
  obtain ⟨b, hb, h⟩ := bind_eq_ok.1 h
  rcases hw with hw | hw
  · rw [if_pos hw] at hb
    obtain ⟨x, hx, -⟩ := bind_eq_ok.1 hb
    unfold fourierLoss transverseWavevectors reciprocal at hx
    intro h0
    have hc : crossProduct P.lattice.u P.lattice.v = 0 := h0
    simp [hc, bind, Except.bind] at hx
  · rw [if_pos hw] at h
    obtain ⟨x, hx, -⟩ := bind_eq_ok.1 h
    unfold smoothnessLoss vectorForwardGradient at hx
    obtain ⟨g, hg, -⟩ := bind_eq_ok.1 hx
    obtain ⟨b, hb, -⟩ := bind_eq_ok.1 hg
    exact (normalizedBasis_eq_ok.1 hb).1

theorem newtonStep_eq {P : LossParams ι nx ny} {f : (ι × Fin 2 → ℂ) → ℝ} (hf : ∀ y, fieldLoss P y = .ok (f y))
    (z : ι × Fin 2 → ℂ) :
    newtonStep P z = (do
      let s ← solve (Matrix.of fun a b => jaxGrad (fun w => (jaxGrad f w a).re) z b)
        (Matrix.of fun k (_ : Unit) => star (jaxGrad f z k))
      .ok fun k => z k - s k ()) := by
  have hfn : (fun w => (fieldLoss P w).toOption.getD 0) = f := by
    funext w; rw [hf]; rfl
  unfold newtonStep fieldLossValueJacAndHessian
  rw [hf, hfn]
  rfl

/-- The Newton step reaches the unique minimiser. -/
theorem newtonStep_minimizer {P : LossParams ι nx ny} (hG : Function.Injective P.expansion)
    (hr : Resolves nx ny P.expansion) (hw : ∀ i j, 0 ≤ P.weight i j) {z z' : ι × Fin 2 → ℂ} (h : newtonStep P z = .ok z')
    (y : ι × Fin 2 → ℂ) :
    ∃ a b, fieldLoss P z' = .ok a ∧ fieldLoss P y = .ok b ∧ a ≤ b ∧ (b ≤ a → y = z') := by
  have hl : 0 < P.fourierWeight ∨ 0 < P.smoothnessWeight → Independent P.lattice.u P.lattice.v := by
    unfold newtonStep fieldLossValueJacAndHessian at h
    obtain ⟨r, hr, -⟩ := bind_eq_ok.1 h
    obtain ⟨v, hv, -⟩ := bind_eq_ok.1 hr
    exact fieldLoss_independent hv
  obtain ⟨f, f0, hls, hf, -⟩ := fieldLoss_leastSquares P hG hr hw hl
  rw [newtonStep_eq hf] at h
  obtain ⟨s, hs, h⟩ := bind_eq_ok.1 h
  obtain rfl := ok_inj.1 h
  have key := leastSquares_newton hls z s hs y
  have hn : 0 ≤ f0 (fun k => y k - (z k - s k ())) := by
    obtain ⟨K, _, w, L, t, hw, -, h0⟩ := hls
    rw [h0]
    exact Finset.sum_nonneg fun k _ => mul_nonneg (hw k) (sq_nonneg _)
  refine ⟨_, _, hf _, hf y, by rw [key.1]; linarith, fun h => key.2 ?_⟩
  rw [key.1] at h
  linarith

theorem newtonStep_again {P : LossParams ι nx ny} (hG : Function.Injective P.expansion)
    (hr : Resolves nx ny P.expansion) (hw : ∀ i j, 0 ≤ P.weight i j) {z z' : ι × Fin 2 → ℂ} (h : newtonStep P z = .ok z') :
    newtonStep P z' = .ok z' := by
  have hl : 0 < P.fourierWeight ∨ 0 < P.smoothnessWeight → Independent P.lattice.u P.lattice.v := by
    have h := h
    unfold newtonStep fieldLossValueJacAndHessian at h
    obtain ⟨r, hr, -⟩ := bind_eq_ok.1 h
    obtain ⟨v, hv, -⟩ := bind_eq_ok.1 hr
    exact fieldLoss_independent hv
  obtain ⟨f, f0, hls, hf, -⟩ := fieldLoss_leastSquares P hG hr hw hl
  have h' := h
  rw [newtonStep_eq hf] at h'
  obtain ⟨s, hs, -⟩ := bind_eq_ok.1 h'
  obtain ⟨s', hs'⟩ := leastSquares_solvable_of hls z z' ⟨s, hs⟩
  have h'' : newtonStep P z' = .ok fun k => z' k - s' k () := by
    rw [newtonStep_eq hf, hs']; rfl
  rw [h'']
  obtain ⟨a, b, ha, hb, hab, -⟩ := newtonStep_minimizer hG hr hw h (fun k => z' k - s' k ())
  obtain ⟨a', b', ha', hb', hab', huniq⟩ := newtonStep_minimizer hG hr hw h'' z'
  obtain rfl := ok_inj.1 (ha.symm.trans hb')
  exact congrArg Except.ok (huniq ((ok_inj.1 (hb.symm.trans ha')) ▸ hab)).symm

theorem newtonLoop_succ {P : LossParams ι nx ny} (hG : Function.Injective P.expansion)
    (hr : Resolves nx ny P.expansion) (hw : ∀ i j, 0 ≤ P.weight i j) (n : ℕ) (z : ι × Fin 2 → ℂ) :
    newtonLoop P (n + 1) z = newtonStep P z := by
  induction n generalizing z with
  | zero =>
    unfold newtonLoop
    cases h : newtonStep P z <;> rfl
  | succ n ih =>
    unfold newtonLoop
    cases h : newtonStep P z with
    | error e => rfl
    | ok z' =>
      simp only [bind, Except.bind]
      rw [ih, newtonStep_again hG hr hw h]

theorem newtonStep_exists {P : LossParams ι nx ny} (hG : Function.Injective P.expansion)
    (hr : Resolves nx ny P.expansion) (hw : ∀ i j, 0 ≤ P.weight i j) {i : Fin nx} {j : Fin ny} (hij : 0 < P.weight i j)
    (hl : Independent P.lattice.u P.lattice.v) (hp : 0 < P.fourierWeight ∨ 0 < P.smoothnessWeight) (z : ι × Fin 2 → ℂ) :
    ∃ z', newtonStep P z = .ok z' := by
  obtain ⟨f, f0, hls, hf, h0⟩ := fieldLoss_leastSquares P hG hr hw fun _ => hl
  have hpos : ∀ y, f0 y = 0 → y = 0 := by
    intro y hy
    obtain ⟨h1, h2, h3⟩ := h0 y hy
    have h1 := h1 i j hij
    rcases hp with hp | hp
    · have h2 := fourierLoss_zero hl (h2 hp)
      funext ⟨k, c⟩
      by_cases hk : P.expansion k = 0
      · have h4 := congrFun h1 c
        have h5 : seriesMap P.expansion nx ny y i j c = ∑ k, y (k, c) * planeWave nx ny (P.expansion k) i j := rfl
        rw [h5, Finset.sum_eq_single k] at h4
        · have h6 : planeWave nx ny (P.expansion k) i j = 1 := by
            rw [hk]; unfold planeWave; simp
          rw [h6, mul_one] at h4
          exact h4
        · intro k' _ hk'
          rw [h2 k' (fun h => hk' (hG (h.trans hk.symm))), zero_mul]
        · intro h; exact absurd (Finset.mem_univ k) h
      · exact h2 k hk c
    · apply seriesMap_eq_zero hG hr
      funext i' j'
      rw [smoothnessLoss_zero hl (h3 hp) i' i j' j]
      exact h1
  obtain ⟨s, hs⟩ := leastSquares_solvable hls hpos z
  rw [newtonStep_eq hf, hs]
  exact ⟨_, rfl⟩

/-! ### The tangent field -/

theorem fieldMagnitude_nonneg (f : VectorField nx ny) (i : Fin nx) (j : Fin ny) : 0 ≤ fieldMagnitude f i j := by
  rw [fieldMagnitude_eq]; exact magnitude_nonneg _

theorem optimizedFourierField_steps {mx my : ℕ} (grad : VectorField mx my) {G : ι → ℤ × ℤ} (l : LatticeVectors) (b : Bool)
    (fw sw : ℝ) (hG : Function.Injective G) (hr : Resolves mx my G) (n : ℕ) :
    optimizedFourierField grad G l b fw sw (n + 1) = optimizedFourierField grad G l b fw sw 1 := by
  unfold optimizedFourierField
  refine congrArg (targetAndInitialField grad b >>= ·) ?_
  funext t
  refine congrArg (fftVector t.2 G >>= ·) ?_
  funext y
  have hw := fieldMagnitude_nonneg grad
  have a := newtonLoop_succ (P := ⟨G, l, t.1, fieldMagnitude grad, fw, sw⟩) hG hr hw n y
  have b := newtonLoop_succ (P := ⟨G, l, t.1, fieldMagnitude grad, fw, sw⟩) hG hr hw 0 y
  exact a.trans b.symm

theorem normalize_exists (hx : 0 < nx) (hy : 0 < ny) (f : VectorField nx ny) : ∃ g, normalize f = .ok g := by
  obtain ⟨m, hm⟩ := maxFieldMagnitude_exists hx hy f
  by_cases h : m ≤ 1e-8
  · exact ⟨_, normalize_small hm h⟩
  · exact ⟨_, normalize_large hm (not_le.1 h)⟩

theorem normalizeJones_exists (hx : 0 < nx) (hy : 0 < ny) (f : VectorField nx ny) : ∃ g, normalizeJones f = .ok g := by
  obtain ⟨g, hg⟩ := normalize_exists hx hy f
  unfold normalizeJones
  rw [hg]
  exact ⟨_, rfl⟩

omit [Fintype ι] [DecidableEq ι] in
theorem Spec.Resolves.pos {G : ι → ℤ × ℤ} (hr : Resolves nx ny G) : 0 < nx ∧ 0 < ny := by
  obtain ⟨⟨i⟩, h⟩ := hr
  have h1 := (h i).1
  have h2 := (h i).2
  have h3 := abs_nonneg (G i).1
  have h4 := abs_nonneg (G i).2
  omega

theorem is1dField_exists (hx : 0 < nx) (hy : 0 < ny) (f : VectorField nx ny) :
    ∃ r, is1dField f = .ok r ∧ (¬ r.1 → ∃ i j, 1e-8 < fieldMagnitude f i j) := by
  have hex : ∃ v, fieldAtMaxMagnitude f = .ok v := by
    unfold fieldAtMaxMagnitude
    cases h : (List.finRange nx ×ˢ List.finRange ny).argmax (fun p => fieldMagnitude f p.1 p.2) with
    | some p => exact ⟨_, rfl⟩
    | none =>
      rw [List.argmax_eq_none] at h
      have : ((⟨0, hx⟩, ⟨0, hy⟩) : Fin nx × Fin ny) ∈ List.finRange nx ×ˢ List.finRange ny :=
        List.mem_product.2 ⟨List.mem_finRange _, List.mem_finRange _⟩
      rw [h] at this
      simp at this
  obtain ⟨v, hv⟩ := hex
  unfold is1dField
  rw [hv]
  refine ⟨_, rfl, fun h => ?_⟩
  by_contra hc
  push Not at hc
  exact h (Or.inl fun i j => Or.inl ((isClose_zero_iff (fieldMagnitude_nonneg f i j)).2 (hc i j)))

theorem computeTangentField_exists_steps (x : Matrix (Fin nx) (Fin ny) ℂ) {G : ι → ℤ × ℤ} {l : LatticeVectors} (b : Bool)
    {fw sw : ℝ} (n : ℕ) (hG : Function.Injective G) (hr : Resolves nx ny G) (hl : Independent l.u l.v)
    (hp : 0 < fw ∨ 0 < sw) : ∃ t, computeTangentFieldNoBatch x G l b fw sw n = .ok t := by
  obtain ⟨hx, hy⟩ := hr.pos
  have : NeZero nx := ⟨hx.ne'⟩
  have : NeZero ny := ⟨hy.ne'⟩
  have := hr.1
  have hcard : 0 < Fintype.card ι := Fintype.card_pos
  have hcard' : (0 : ℝ) < Fintype.card ι := by exact_mod_cast hcard
  have hm : ∃ m, doubledMinShape G nx ny = .ok m := by
    unfold doubledMinShape minArrayShapeForExpansion
    rw [if_neg hcard.ne']
    exact ⟨_, rfl⟩
  obtain ⟨m, hm⟩ := hm
  have hmr := doubledMinShape_resolves hm
  obtain ⟨mx, my⟩ := hmr.pos
  obtain ⟨g, hg⟩ := computeGradient_exists x hl
  obtain ⟨grad, hgrad⟩ := normalize_exists mx my fun r s c =>
    fourierSeries G (fun k => fourierCoefficient (Matrix.of fun i j => g i j c) (G k)) m.1 m.2 r s
  have hfil : filteredGradient x G l m.1 m.2 = .ok grad := by
    unfold filteredGradient
    rw [bandlimitedGradient_eq hG hg hr hmr]
    exact hgrad
  have hfield : ∃ f, tangentFieldOfGradient grad G l b (fw / Fintype.card ι) (sw / Fintype.card ι) n nx ny = .ok f := by
    classical
    obtain ⟨r, h1, h2⟩ := is1dField_exists mx my grad
    unfold tangentFieldOfGradient
    rw [h1]
    simp only [bind, Except.bind]
    by_cases hr1 : r.1
    · rw [if_pos hr1]; exact ⟨_, rfl⟩
    · rw [if_neg hr1]
      obtain ⟨i, j, hij⟩ := h2 hr1
      have ht : ∃ t, targetAndInitialField grad b = .ok t := by
        unfold targetAndInitialField
        cases b
        · obtain ⟨q, hq⟩ := normalize_exists mx my (fun i j => ![grad i j 1, -grad i j 0])
          simp only [Bool.false_eq_true, if_false, hq]
          exact ⟨_, rfl⟩
        · obtain ⟨q, hq⟩ := normalizeJones_exists mx my (normalizeElementwise fun i j => ![grad i j 1, -grad i j 0])
          simp only [if_true, hq]
          exact ⟨_, rfl⟩
      obtain ⟨t, ht⟩ := ht
      have hy' : ∃ y, fftVector t.2 G = .ok y := by
        unfold fftVector
        simp only [fft_eq _ hmr]
        exact ⟨_, rfl⟩
      obtain ⟨y, hy'⟩ := hy'
      obtain ⟨z, hz⟩ := newtonStep_exists (P := ⟨G, l, t.1, fieldMagnitude grad, fw / Fintype.card ι, sw / Fintype.card ι⟩)
        hG hmr (fieldMagnitude_nonneg grad) (i := i) (j := j) (lt_trans (by norm_num) hij) hl
        (hp.imp (fun h => div_pos h hcard') (fun h => div_pos h hcard')) y
      have ho : ∃ z, optimizedFourierField grad G l b (fw / Fintype.card ι) (sw / Fintype.card ι) n = .ok z := by
        unfold optimizedFourierField
        rw [ht]
        simp only [bind, Except.bind, hy']
        cases n with
        | zero => exact ⟨y, rfl⟩
        | succ n =>
          exact ⟨z, (newtonLoop_succ (P := ⟨G, l, t.1, fieldMagnitude grad, fw / Fintype.card ι, sw / Fintype.card ι⟩) hG hmr
            (fieldMagnitude_nonneg grad) n y).trans hz⟩
      obtain ⟨z, ho⟩ := ho
      rw [ho]
      simp only
      rw [ifftVector_eq z hG hr]
      exact ⟨_, rfl⟩
  obtain ⟨f, hf⟩ := hfield
  obtain ⟨t, ht⟩ := normalize_exists hx hy f
  refine ⟨t, ?_⟩
  unfold computeTangentFieldNoBatch
  rw [if_neg hcard.ne', hm]
  simp only [bind, Except.bind]
  rw [hfil]
  simp only
  rw [hf]
  exact ht

theorem computeTangentField_exists (x : Matrix (Fin nx) (Fin ny) ℂ) {G : ι → ℤ × ℤ} {l : LatticeVectors} (b : Bool)
    {fw sw : ℝ} (n : ℕ) (hG : Function.Injective G) (hr : Resolves nx ny G) (hl : Independent l.u l.v)
    (hp : 0 < fw ∨ 0 < sw) : ∃ t, computeTangentFieldNoBatch x G l b fw sw (n + 1) = .ok t :=
  computeTangentField_exists_steps x b (n + 1) hG hr hl hp

end Fmmax
