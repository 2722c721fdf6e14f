import Verif.Proofs.Covariance

/-! Fourier matrices of media in other coordinates. -/

set_option linter.unusedSectionVars false

namespace Fmmax

open Matrix Spec

variable {ι : Type} [Fintype ι] [DecidableEq ι] {nx ny mx my : ℕ}

/-- A map of grid points compatible with a change of coordinates. -/
structure GridMap (C : Coordinates ι) (G G' : ι → ℤ × ℤ) (γ : Fin mx × Fin my → Fin nx × Fin ny) : Prop where
  surjective : Function.Surjective γ
  resolves : Resolves nx ny G → Resolves mx my G'
  coefficient : ∀ (x : Grid nx ny) (i j : ι), fourierCoefficient (x.pull γ) (G' i - G' j) =
    C.phase i * star (C.phase j) * fourierCoefficient x (G (C.order i) - G (C.order j))

theorem fourierConvolutionMatrix_ok_iff {x : Grid nx ny} {G : ι → ℤ × ℤ} {X : Matrix ι ι ℂ} :
    fourierConvolutionMatrix x G = .ok X ↔ Resolves nx ny G ∧ X = convolution G x := by
  by_cases hR : Resolves nx ny G
  · rw [fourierConvolutionMatrix_eq _ hR, ok_inj]
    exact ⟨fun h => ⟨hR, h.symm⟩, fun h => h.2.symm⟩
  · simp [fourierConvolutionMatrix_unresolved hR, hR]

theorem GridMap.intertwine {C : Coordinates ι} {G G' : ι → ℤ × ℤ} {γ : Fin mx × Fin my → Fin nx × Fin ny} (h : GridMap C G G' γ) (x : Grid nx ny) :
    convolution G' (x.pull γ) * C.Q = C.Q * convolution G x :=
  C.intertwine fun i j => h.coefficient x i j

theorem convolution_linear (G : ι → ℤ × ℤ) (a b c d : ℂ) (x y z w : Grid nx ny) :
    convolution G (Matrix.of fun r s => a * x r s + b * y r s + c * z r s + d * w r s) =
      a • convolution G x + b • convolution G y + c • convolution G z + d • convolution G w := by
  ext i j
  simp only [convolution, of_apply, Matrix.add_apply, Matrix.smul_apply, fourierCoefficient, smul_eq_mul, add_mul, Finset.sum_add_distrib, mul_assoc,
    ← Finset.mul_sum]
  ring

/-- A matrix of operators transformed by orthogonal matrices. -/
theorem block_transform {Q : Matrix ι ι ℂ} {A B : Matrix (Fin 2) (Fin 2) ℝ} (hB : Bᵀ * B = 1) {F F' : Fin 2 → Fin 2 → Matrix ι ι ℂ}
    (h : ∀ i j, F' i j * Q = Q * ((A i 0 * B j 0 : ℂ) • F 0 0 + (A i 0 * B j 1 : ℂ) • F 0 1 + (A i 1 * B j 0 : ℂ) • F 1 0 + (A i 1 * B j 1 : ℂ) • F 1 1)) :
    fromBlocks (F' 0 0) (F' 0 1) (F' 1 0) (F' 1 1) * vectorTransform B Q = vectorTransform A Q * fromBlocks (F 0 0) (F 0 1) (F 1 0) (F 1 1) := by
  obtain ⟨b1, b2, b3, -⟩ := orthogonal_entries hB
  have b1' : (B 0 0 : ℂ) * B 0 0 + B 1 0 * B 1 0 = 1 := by exact_mod_cast b1
  have b2' : (B 0 0 : ℂ) * B 0 1 + B 1 0 * B 1 1 = 0 := by exact_mod_cast b2
  have b3' : (B 0 1 : ℂ) * B 0 1 + B 1 1 * B 1 1 = 1 := by exact_mod_cast b3
  unfold vectorTransform
  rw [fromBlocks_multiply, fromBlocks_multiply]
  simp only [Matrix.mul_smul, h]
  have e0 : ∀ i, (B 0 0 : ℂ) • (Q * ((A i 0 * B 0 0 : ℂ) • F 0 0 + (A i 0 * B 0 1 : ℂ) • F 0 1 + (A i 1 * B 0 0 : ℂ) • F 1 0 + (A i 1 * B 0 1 : ℂ) • F 1 1)) +
      (B 1 0 : ℂ) • (Q * ((A i 0 * B 1 0 : ℂ) • F 0 0 + (A i 0 * B 1 1 : ℂ) • F 0 1 + (A i 1 * B 1 0 : ℂ) • F 1 0 + (A i 1 * B 1 1 : ℂ) • F 1 1)) =
      ((A i 0 : ℂ) • Q) * F 0 0 + ((A i 1 : ℂ) • Q) * F 1 0 := by
    intro i
    calc _ = ((A i 0 : ℂ) * ((B 0 0 : ℂ) * B 0 0 + B 1 0 * B 1 0)) • (Q * F 0 0) + ((A i 0 : ℂ) * ((B 0 0 : ℂ) * B 0 1 + B 1 0 * B 1 1)) • (Q * F 0 1) +
          ((A i 1 : ℂ) * ((B 0 0 : ℂ) * B 0 0 + B 1 0 * B 1 0)) • (Q * F 1 0) + ((A i 1 : ℂ) * ((B 0 0 : ℂ) * B 0 1 + B 1 0 * B 1 1)) • (Q * F 1 1) := by mat_module
      _ = _ := by rw [b1', b2']; mat_module
  have e1 : ∀ i, (B 0 1 : ℂ) • (Q * ((A i 0 * B 0 0 : ℂ) • F 0 0 + (A i 0 * B 0 1 : ℂ) • F 0 1 + (A i 1 * B 0 0 : ℂ) • F 1 0 + (A i 1 * B 0 1 : ℂ) • F 1 1)) +
      (B 1 1 : ℂ) • (Q * ((A i 0 * B 1 0 : ℂ) • F 0 0 + (A i 0 * B 1 1 : ℂ) • F 0 1 + (A i 1 * B 1 0 : ℂ) • F 1 0 + (A i 1 * B 1 1 : ℂ) • F 1 1)) =
      ((A i 0 : ℂ) • Q) * F 0 1 + ((A i 1 : ℂ) • Q) * F 1 1 := by
    intro i
    calc _ = ((A i 0 : ℂ) * ((B 0 0 : ℂ) * B 0 1 + B 1 0 * B 1 1)) • (Q * F 0 0) + ((A i 0 : ℂ) * ((B 0 1 : ℂ) * B 0 1 + B 1 1 * B 1 1)) • (Q * F 0 1) +
          ((A i 1 : ℂ) * ((B 0 0 : ℂ) * B 0 1 + B 1 0 * B 1 1)) • (Q * F 1 0) + ((A i 1 : ℂ) * ((B 0 1 : ℂ) * B 0 1 + B 1 1 * B 1 1)) • (Q * F 1 1) := by mat_module
      _ = _ := by rw [b2', b3']; mat_module
  rw [e0 0, e0 1, e1 0, e1 1]

/-- The same operator on both components. -/
theorem scalar_transform {Q X X' : Matrix ι ι ℂ} (O : Matrix (Fin 2) (Fin 2) ℝ) (h : X' * Q = Q * X) :
    fromBlocks X' 0 0 X' * vectorTransform O Q = vectorTransform O Q * fromBlocks X 0 0 X := by
  unfold vectorTransform
  rw [fromBlocks_multiply, fromBlocks_multiply]
  simp [h]

theorem recipGrid_ok_iff {x y : Grid nx ny} : recipGrid x = .ok y ↔ (∀ r s, x r s ≠ 0) ∧ y = Matrix.of fun r s => 1 / x r s := by
  unfold recipGrid
  split_ifs with h
  · rw [ok_inj]; exact ⟨fun e => ⟨h, e.symm⟩, fun e => e.2.symm⟩
  · simp [h]

theorem inv_ok_iff {n : Type} [Fintype n] [DecidableEq n] {A X : Matrix n n ℂ} : inv A = .ok X ↔ IsUnit A.det ∧ X = A⁻¹ := by
  unfold Fmmax.inv
  constructor
  · intro h
    obtain ⟨h1, h2⟩ := solve_eq_ok.1 h
    exact ⟨h1, by rw [eq_comm, ← Matrix.mul_one A⁻¹, ← h2, ← Matrix.mul_assoc, nonsing_inv_mul _ h1, Matrix.one_mul]⟩
  · rintro ⟨h1, rfl⟩
    exact solve_eq_ok.2 ⟨h1, mul_nonsing_inv _ h1⟩

/-- The tangent fields of two formulations correspond, for the given source pattern. -/
abbrev FormulationMap (C : Coordinates ι) (c c' : Setup ι) (γ : Fin mx × Fin my → Fin nx × Fin ny) (x : Grid nx ny) (f : Formulation nx ny ι)
    (f' : Formulation mx my ι) : Prop := FormulationImage C.rotation c c' γ x f f'

variable {C : Coordinates ι} {c c' : Setup ι} {γ : Fin mx × Fin my → Fin nx × Fin ny}

theorem recipGrid_pull {x y : Grid nx ny} (h : recipGrid x = .ok y) : recipGrid (x.pull γ) = .ok (y.pull γ) := by
  obtain ⟨h1, rfl⟩ := recipGrid_ok_iff.1 h
  exact recipGrid_ok_iff.2 ⟨fun r s => h1 _ _, rfl⟩

theorem tangentTerms_transform {O : Matrix (Fin 2) (Fin 2) ℝ} (hO : Oᵀ * O = 1) (tx ty : ℂ) :
    let N := fun i j => (![![(tangentTerms tx ty).yy, (tangentTerms tx ty).yx], ![(tangentTerms tx ty).xy, (tangentTerms tx ty).xx]] : Fin 2 → Fin 2 → ℂ) i j
    let t' := tangentTerms (O 0 0 * tx + O 0 1 * ty) (O 1 0 * tx + O 1 1 * ty)
    let N' := fun i j => (![![t'.yy, t'.yx], ![t'.xy, t'.xx]] : Fin 2 → Fin 2 → ℂ) i j
    ∀ i j, N' i j = (O i 0 * O j 0 : ℂ) * N 0 0 + (O i 0 * O j 1 : ℂ) * N 0 1 + (O i 1 * O j 0 : ℂ) * N 1 0 + (O i 1 * O j 1 : ℂ) * N 1 1 := by
  obtain ⟨o1, o2, o3, -⟩ := orthogonal_entries hO
  have hn : ∀ z : ℂ, (‖z‖ : ℂ) ^ 2 = star z * z := by
    intro z
    rw [Complex.star_def, mul_comm, Complex.mul_conj, Complex.normSq_eq_norm_sq]
    push_cast; rfl
  have hd : ‖(O 0 0 * tx + O 0 1 * ty : ℂ)‖ ^ 2 + ‖(O 1 0 * tx + O 1 1 * ty : ℂ)‖ ^ 2 = ‖tx‖ ^ 2 + ‖ty‖ ^ 2 := by
    have : ((‖(O 0 0 * tx + O 0 1 * ty : ℂ)‖ ^ 2 + ‖(O 1 0 * tx + O 1 1 * ty : ℂ)‖ ^ 2 : ℝ) : ℂ) = ((‖tx‖ ^ 2 + ‖ty‖ ^ 2 : ℝ) : ℂ) := by
      push_cast
      rw [hn, hn, hn, hn]
      have o1' : (O 0 0 : ℂ) * O 0 0 + O 1 0 * O 1 0 = 1 := by exact_mod_cast o1
      have o2' : (O 0 0 : ℂ) * O 0 1 + O 1 0 * O 1 1 = 0 := by exact_mod_cast o2
      have o3' : (O 0 1 : ℂ) * O 0 1 + O 1 1 * O 1 1 = 1 := by exact_mod_cast o3
      simp only [star_add, star_mul', Complex.star_def, Complex.conj_ofReal]
      linear_combination ((starRingEnd ℂ) tx * tx) * o1' + ((starRingEnd ℂ) tx * ty + (starRingEnd ℂ) ty * tx) * o2' + ((starRingEnd ℂ) ty * ty) * o3'
    exact_mod_cast this
  intro N t' N' i j
  have hN : ∀ a b, N a b = star (![tx, ty] a) * ![tx, ty] b / (denomSafe (‖tx‖ ^ 2 + ‖ty‖ ^ 2) : ℂ) := by
    intro a b
    fin_cases a <;> fin_cases b <;> simp [N, tangentTerms, hn, mul_comm]
  have hN' : ∀ a b, N' a b = star (O a 0 * tx + O a 1 * ty) * (O b 0 * tx + O b 1 * ty) / (denomSafe (‖tx‖ ^ 2 + ‖ty‖ ^ 2) : ℂ) := by
    intro a b
    rw [← hd]
    fin_cases a <;> fin_cases b <;> simp [N', t', tangentTerms, hn, mul_comm]
  rw [hN', hN, hN, hN, hN]
  simp only [Matrix.cons_val_zero, Matrix.cons_val_one, star_add, star_mul', Complex.star_def, Complex.conj_ofReal]
  ring

theorem vector_transform (hγ : GridMap C c.expansion c'.expansion γ) {ε tx ty : Grid nx ny} {E : ModeMatrix ι}
    (h : transversePermittivityVector ε tx ty c.expansion = .ok E) :
    ∃ E', transversePermittivityVector (ε.pull γ) (Matrix.of fun r s => C.rotation 0 0 * tx.pull γ r s + C.rotation 0 1 * ty.pull γ r s)
        (Matrix.of fun r s => C.rotation 1 0 * tx.pull γ r s + C.rotation 1 1 * ty.pull γ r s) c'.expansion = .ok E' ∧ E' * C.R = C.R * E := by
  unfold transversePermittivityVector at h ⊢
  simp only [bind_eq_ok, fourierConvolutionMatrix_ok_iff, inv_ok_iff, ok_inj] at h ⊢
  obtain ⟨_, ⟨hR, rfl⟩, η, hη, _, ⟨-, rfl⟩, _, ⟨hu, rfl⟩, _, ⟨-, rfl⟩, _, ⟨-, rfl⟩, _, ⟨-, rfl⟩, _, ⟨-, rfl⟩, rfl⟩ := h
  have hR' := hγ.resolves hR
  have hu' : IsUnit (convolution c'.expansion (η.pull γ)).det := by
    rw [det_intertwine C.Q_isUnit (hγ.intertwine η)]; exact hu
  refine ⟨_, ⟨_, ⟨hR', rfl⟩, _, recipGrid_pull hη, _, ⟨hR', rfl⟩, _, ⟨hu', rfl⟩, _, ⟨hR', rfl⟩, _, ⟨hR', rfl⟩, _, ⟨hR', rfl⟩, _, ⟨hR', rfl⟩, rfl⟩, ?_⟩
  have hd : (convolution c'.expansion (ε.pull γ) - (convolution c'.expansion (η.pull γ))⁻¹) * C.Q =
      C.Q * (convolution c.expansion ε - (convolution c.expansion η)⁻¹) := by
    rw [Matrix.sub_mul, Matrix.mul_sub, hγ.intertwine, inv_intertwine hu hu' (hγ.intertwine η)]
  have hP := block_transform (Q := C.Q) (A := C.rotation) (B := C.rotation) C.orthogonal
    (F := fun i j => convolution c.expansion (Matrix.of fun r s => (![![(tangentTerms (tx r s) (ty r s)).yy, (tangentTerms (tx r s) (ty r s)).yx],
      ![(tangentTerms (tx r s) (ty r s)).xy, (tangentTerms (tx r s) (ty r s)).xx]] : Fin 2 → Fin 2 → ℂ) i j))
    (F' := fun i j => convolution c'.expansion (Matrix.of fun r s =>
      let t' := tangentTerms (C.rotation 0 0 * tx.pull γ r s + C.rotation 0 1 * ty.pull γ r s) (C.rotation 1 0 * tx.pull γ r s + C.rotation 1 1 * ty.pull γ r s)
      (![![t'.yy, t'.yx], ![t'.xy, t'.xx]] : Fin 2 → Fin 2 → ℂ) i j)) (by
    intro i j
    rw [← convolution_linear, ← hγ.intertwine]
    congr 2
    ext r s
    exact tangentTerms_transform C.orthogonal (tx.pull γ r s) (ty.pull γ r s) i j)
  have e1 := scalar_transform C.rotation (hγ.intertwine ε)
  have e2 := scalar_transform C.rotation hd
  rw [show C.R = vectorTransform C.rotation C.Q from rfl, Matrix.sub_mul, Matrix.mul_sub, e1, ← Matrix.mul_assoc (vectorTransform C.rotation C.Q), ← e2,
    Matrix.mul_assoc, Matrix.mul_assoc]
  congr 2

/-! ### The phase of the tangent field -/

theorem star_mul_self_of_norm {p : ℂ} (hp : ‖p‖ = 1) : star p * p = 1 := by
  rw [Complex.star_def, ← Complex.normSq_eq_conj_mul_self, Complex.normSq_eq_norm_sq, hp]
  simp

theorem tangentTerms_phase {p : ℂ} (hp : star p * p = 1) (tx ty : ℂ) : tangentTerms (p * tx) (p * ty) = tangentTerms tx ty := by
  have hn : ‖p‖ = 1 := by
    have : ((‖p‖ ^ 2 : ℝ) : ℂ) = 1 := by
      rw [← Complex.normSq_eq_norm_sq, Complex.normSq_eq_conj_mul_self]
      exact hp
    exact (pow_eq_one_iff_of_nonneg (norm_nonneg _) two_ne_zero).1 (by exact_mod_cast this)
  unfold tangentTerms
  simp only [norm_mul, hn, one_mul, star_mul', TangentTerms.mk.injEq, true_and, and_true]
  constructor
  · congr 1
    linear_combination (tx * star ty) * hp
  · congr 1
    linear_combination (star tx * ty) * hp

theorem transversePermittivityVector_phase {p : ℂ} (hp : star p * p = 1) (ε tx ty : Grid nx ny) (G : ι → ℤ × ℤ) :
    transversePermittivityVector ε (Matrix.of fun r s => p * tx r s) (Matrix.of fun r s => p * ty r s) G = transversePermittivityVector ε tx ty G := by
  unfold transversePermittivityVector
  simp only [of_apply, tangentTerms_phase hp]

theorem convolution_scaled (G : ι → ℤ × ℤ) (a : ℂ) (x : Grid nx ny) : convolution G (Matrix.of fun r s => a * x r s) = a • convolution G x := by
  have := convolution_linear G a 0 0 0 x 0 0 0
  simpa using this

theorem rotatedFourierMatrix_phase {p q : ℂ} (hp : p * q = 1) {tensor : Fin nx → Fin ny → Matrix (Fin 2) (Fin 2) ℂ} {t00 t01 t10 t11 : Grid nx ny} {G : ι → ℤ × ℤ}
    {E : Matrix (ι ⊕ ι) (ι ⊕ ι) ℂ} (h : rotatedFourierMatrix tensor t00 t01 t10 t11 G = .ok E) :
    rotatedFourierMatrix tensor (Matrix.of fun r s => p * t00 r s) (Matrix.of fun r s => q * t01 r s) (Matrix.of fun r s => p * t10 r s)
      (Matrix.of fun r s => q * t11 r s) G = .ok E := by
  unfold rotatedFourierMatrix rotationMatrices at h ⊢
  simp only [bind_eq_ok, fourierConvolutionMatrix_ok_iff, inv_ok_iff, ok_inj, allOk_eq_ok, Prod.exists, Prod.mk.injEq, solve_eq_ok] at h ⊢
  obtain ⟨_, _, _, ⟨_, ⟨hR, rfl⟩, _, ⟨-, rfl⟩, _, ⟨-, rfl⟩, _, ⟨-, rfl⟩, _, ⟨-, rfl⟩, _, ⟨-, rfl⟩, _, ⟨-, rfl⟩, _, ⟨-, rfl⟩, rfl, rfl, rfl⟩, rot, hrot,
    _, ⟨-, rfl⟩, _, ⟨-, rfl⟩, _, ⟨-, rfl⟩, η, hη, _, ⟨-, rfl⟩, _, ⟨hu, rfl⟩, rfl⟩ := h
  have hq : q * p = 1 := by rw [mul_comm]; exact hp
  have hT : ∀ r s, (!![p * t00 r s, q * t01 r s; p * t10 r s, q * t11 r s] : Matrix (Fin 2) (Fin 2) ℂ) = !![t00 r s, t01 r s; t10 r s, t11 r s] * !![p, 0; 0, q] := by
    intro r s
    rw [mul_fin_two]
    simp [mul_comm]
  have hdet : ∀ r s, p * t00 r s * (q * t11 r s) - p * t10 r s * (q * t01 r s) = t00 r s * t11 r s - t10 r s * t01 r s := by
    intro r s
    linear_combination (t00 r s * t11 r s - t10 r s * t01 r s) * hp
  let M : Matrix (Fin 2) (Fin 2) ℂ → Matrix (Fin 2) (Fin 2) ℂ := fun X => !![X 0 0, (q * q) * X 0 1; (p * p) * X 1 0, X 1 1]
  have hM : ∀ X, !![p, 0; 0, q] * M X = X * !![p, 0; 0, q] := by
    intro X
    rw [Matrix.eta_fin_two X]
    simp only [M, mul_fin_two, of_apply, cons_val_zero, cons_val_one, zero_mul, mul_zero, add_zero, zero_add]
    ext i j
    fin_cases i <;> fin_cases j
    · simp; ring
    · simp; linear_combination (q * X 0 1) * hp
    · simp; linear_combination (p * X 1 0) * hp
    · simp; ring
  refine ⟨_, _, _, ⟨_, ⟨hR, rfl⟩, _, ⟨hR, rfl⟩, _, ⟨hR, rfl⟩, _, ⟨hR, rfl⟩, _, ⟨hR, rfl⟩, _, ⟨hR, rfl⟩, _, ⟨hR, rfl⟩, _, ⟨hR, rfl⟩, rfl, rfl, rfl⟩,
    fun k => M (rot k), ?_, _, ⟨hR, rfl⟩, _, ⟨hR, rfl⟩, _, ⟨hR, rfl⟩, η, hη, _, ⟨hR, rfl⟩, _, ⟨hu, rfl⟩, ?_⟩
  · intro k
    obtain ⟨h1, h2⟩ := hrot k
    simp only [of_apply, hT] at h1 h2 ⊢
    refine ⟨?_, ?_⟩
    · rw [det_mul, det_fin_two_of p 0 0 q, hp, zero_mul, sub_zero, mul_one]
      exact h1
    · rw [Matrix.mul_assoc, hM, ← Matrix.mul_assoc, h2, Matrix.mul_assoc]
  · have e01 : convolution G (Matrix.of fun r s => M (rot (r, s)) 0 1 : Grid nx ny) = (q * q) • convolution G (Matrix.of fun r s => rot (r, s) 0 1) :=
      convolution_scaled G (q * q) (Matrix.of fun r s => rot (r, s) 0 1)
    have e10 : convolution G (Matrix.of fun r s => M (rot (r, s)) 1 0 : Grid nx ny) = (p * p) • convolution G (Matrix.of fun r s => rot (r, s) 1 0) :=
      convolution_scaled G (p * p) (Matrix.of fun r s => rot (r, s) 1 0)
    have e00 : (Matrix.of fun r s => M (rot (r, s)) 0 0 : Grid nx ny) = Matrix.of fun r s => rot (r, s) 0 0 := rfl
    have g : ∀ (a : ℂ) (x : Grid nx ny) (d : Fin nx → Fin ny → ℂ), (Matrix.of fun r s => a * x r s / d r s : Grid nx ny) =
        Matrix.of fun r s => a * (Matrix.of fun r s => x r s / d r s) r s := by
      intro a x d
      ext r s
      simp only [of_apply]
      ring
    have gn : ∀ (a : ℂ) (x : Grid nx ny) (d : Fin nx → Fin ny → ℂ), (Matrix.of fun r s => -(a * x r s) / d r s : Grid nx ny) =
        Matrix.of fun r s => a * (Matrix.of fun r s => -x r s / d r s) r s := by
      intro a x d
      ext r s
      simp only [of_apply]
      ring
    simp only [e00, e01, e10, of_apply, hdet]
    simp only [g, gn, convolution_scaled]
    simp only [fromBlocks_multiply, Matrix.smul_mul, Matrix.mul_smul, smul_smul, Matrix.add_mul, smul_add]
    have k1 : q * (p * p * q) = 1 := by linear_combination (p * q + 1) * hp
    have k2 : p * (q * q * p) = 1 := by linear_combination (p * q + 1) * hp
    simp only [hp, hq, k1, k2, one_smul]

theorem vectorAnisotropic_phase {p : ℂ} (hp : star p * p = 1) (xx xy yx yy tx ty : Grid nx ny) (G : ι → ℤ × ℤ) {E : Matrix (ι ⊕ ι) (ι ⊕ ι) ℂ} :
    (transversePermittivityVectorAnisotropic xx xy yx yy tx ty G = .ok E →
      transversePermittivityVectorAnisotropic xx xy yx yy (Matrix.of fun r s => p * tx r s) (Matrix.of fun r s => p * ty r s) G = .ok E) ∧
    (transversePermeabilityVectorAnisotropic xx xy yx yy tx ty G = .ok E →
      transversePermeabilityVectorAnisotropic xx xy yx yy (Matrix.of fun r s => p * tx r s) (Matrix.of fun r s => p * ty r s) G = .ok E) := by
  have hp' : p * star p = 1 := by rw [mul_comm]; exact hp
  constructor <;> intro h
  · unfold transversePermittivityVectorAnisotropic at h ⊢
    rw [← rotatedFourierMatrix_phase hp' h]
    congr 1 <;> ext r s <;> simp
  · unfold transversePermeabilityVectorAnisotropic at h ⊢
    rw [← rotatedFourierMatrix_phase hp' h]
    congr 1 <;> ext r s <;> simp

/-- Isotropic patterns. -/
theorem isotropic_fourierMap (hγ : GridMap C c.expansion c'.expansion γ) {ε : Grid nx ny} {f : Formulation nx ny ι} {f' : Formulation mx my ι}
    (hf : FormulationMap C c c' γ ε f f') {m : FourierMatrices ι} (h : fourierMatricesPatternedIsotropic c.lattice ε c.expansion f = .ok m) :
    ∃ m', fourierMatricesPatternedIsotropic c'.lattice (ε.pull γ) c'.expansion f' = .ok m' ∧ FourierMap C m m' := by
  unfold fourierMatricesPatternedIsotropic at h ⊢
  simp only [bind_eq_ok, fourierConvolutionMatrix_ok_iff, ok_inj, diag_const, one_smul, zero_smul, Matrix.fromBlocks_one] at h ⊢
  obtain ⟨E, hE, η, hη, _, ⟨hR, rfl⟩, _, ⟨-, rfl⟩, rfl⟩ := h
  have hR' := hγ.resolves hR
  obtain ⟨E', hE', hEE⟩ : ∃ E', transversePermittivityIsotropic c'.lattice (ε.pull γ) c'.expansion f' = .ok E' ∧ E' * C.R = C.R * E := by
    cases f with
    | fft =>
      cases f' with
      | fft =>
        unfold transversePermittivityIsotropic transversePermittivityFft at hE ⊢
        simp only [bind_eq_ok, fourierConvolutionMatrix_ok_iff, ok_inj] at hE ⊢
        obtain ⟨_, ⟨-, rfl⟩, rfl⟩ := hE
        exact ⟨_, ⟨_, ⟨hR', rfl⟩, rfl⟩, scalar_transform _ (hγ.intertwine ε)⟩
      | vector fn' => exact hf.elim
    | vector fn =>
      cases f' with
      | fft => exact hf.elim
      | vector fn' =>
        unfold transversePermittivityIsotropic at hE ⊢
        simp only [bind_eq_ok] at hE ⊢
        obtain ⟨t, ht, hE⟩ := hE
        obtain ⟨E', hE', h2⟩ := vector_transform hγ hE
        obtain ⟨p, hp, hf⟩ := hf
        exact ⟨E', ⟨_, hf t ht, (transversePermittivityVector_phase (star_mul_self_of_norm hp) ..).trans hE'⟩, h2⟩
  refine ⟨_, ⟨_, hE', _, recipGrid_pull hη, _, ⟨hR', rfl⟩, _, ⟨hR', rfl⟩, rfl⟩, ?_⟩
  refine ⟨hγ.intertwine ε, ?_, ?_, hEE⟩
  · simp
  · simp

/-- The transverse permittivity acting on `[-Ey; Ex]`. -/
def epsBlock (t : TensorComponents nx ny) (r : Fin nx) (s : Fin ny) : Matrix (Fin 2) (Fin 2) ℂ := !![t.yy r s, -t.yx r s; -t.xy r s, t.xx r s]

/-- The transverse permeability acting on `[Hx; Hy]`. -/
def muBlock (t : TensorComponents nx ny) (r : Fin nx) (s : Fin ny) : Matrix (Fin 2) (Fin 2) ℂ := !![t.xx r s, t.xy r s; t.yx r s, t.yy r s]

theorem muBlock_rotate (O : Matrix (Fin 2) (Fin 2) ℝ) (t : TensorComponents nx ny) (r : Fin nx) (s : Fin ny) (i j : Fin 2) :
    muBlock (rotateTensor O t) r s i j = (O i 0 * O j 0 : ℂ) * muBlock t r s 0 0 + (O i 0 * O j 1 : ℂ) * muBlock t r s 0 1 +
      (O i 1 * O j 0 : ℂ) * muBlock t r s 1 0 + (O i 1 * O j 1 : ℂ) * muBlock t r s 1 1 := by
  fin_cases i <;> fin_cases j <;> simp [muBlock, rotateTensor]

theorem epsBlock_rotate {O : Matrix (Fin 2) (Fin 2) ℝ} (hO : Oᵀ * O = 1) (t : TensorComponents nx ny) (r : Fin nx) (s : Fin ny) (i j : Fin 2) :
    epsBlock (rotateTensor O t) r s i j = (O i 0 * O j 0 : ℂ) * epsBlock t r s 0 0 + (O i 0 * O j 1 : ℂ) * epsBlock t r s 0 1 +
      (O i 1 * O j 0 : ℂ) * epsBlock t r s 1 0 + (O i 1 * O j 1 : ℂ) * epsBlock t r s 1 1 := by
  obtain ⟨-, -, -, o1, o2, o3, o4, o5⟩ := orthogonal_entries hO
  set δ := O.det
  have o5' : (δ : ℂ) ^ 2 = 1 := by exact_mod_cast o5
  have p11 : (O 1 1 : ℂ) = δ * O 0 0 := by exact_mod_cast o1
  have p10 : (O 1 0 : ℂ) = -(δ * O 0 1) := by exact_mod_cast o2
  fin_cases i <;> fin_cases j <;> simp [epsBlock, rotateTensor, p11, p10] <;> ring_nf <;> simp only [o5'] <;> ring

/-- Real matrices as complex ones. -/
def toC (O : Matrix (Fin 2) (Fin 2) ℝ) : Matrix (Fin 2) (Fin 2) ℂ := O.map Complex.ofReal

theorem toC_apply (O : Matrix (Fin 2) (Fin 2) ℝ) (i j : Fin 2) : toC O i j = (O i j : ℂ) := rfl

theorem toC_mul (A B : Matrix (Fin 2) (Fin 2) ℝ) : toC (A * B) = toC A * toC B := by
  ext i j
  simp [toC, Matrix.mul_apply]

theorem toC_one : toC 1 = 1 := by
  ext i j
  by_cases h : i = j
  · subst h; simp [toC]
  · simp [toC, h]

theorem toC_det (A : Matrix (Fin 2) (Fin 2) ℝ) : (toC A).det = (A.det : ℂ) := by
  simp [det_fin_two, toC]

theorem two_sided {A B : Matrix (Fin 2) (Fin 2) ℝ} {X : Matrix (Fin 2) (Fin 2) ℂ} (i j : Fin 2) :
    (toC A * X * (toC B)ᵀ) i j = (A i 0 * B j 0 : ℂ) * X 0 0 + (A i 0 * B j 1 : ℂ) * X 0 1 + (A i 1 * B j 0 : ℂ) * X 1 0 + (A i 1 * B j 1 : ℂ) * X 1 1 := by
  simp only [Matrix.mul_apply, Fin.sum_univ_two, transpose_apply, toC_apply]
  ring

theorem triple_intertwine {F F' B B' H H' U V : ModeMatrix ι} (h1 : F' * V = U * F) (h2 : B' * V = V * B) (h3 : H' * U = V * H) :
    F' * B' * H' * U = U * (F * B * H) := by
  calc F' * B' * H' * U = F' * B' * (H' * U) := by mat_module
    _ = F' * (B' * V) * H := by rw [h3]; mat_module
    _ = (F' * V) * B * H := by rw [h2]; mat_module
    _ = _ := by rw [h1]; mat_module

theorem rotated_transform (hγ : GridMap C c.expansion c'.expansion γ) {e : Fin 2 → ℝ} (he : ∀ i, e i * e i = 1) (hed : e 0 * e 1 = C.rotation.det)
    {tensor : Fin nx → Fin ny → Matrix (Fin 2) (Fin 2) ℂ} {tensor' : Fin mx → Fin my → Matrix (Fin 2) (Fin 2) ℂ}
    {t00 t01 t10 t11 : Grid nx ny} {t00' t01' t10' t11' : Grid mx my}
    (htensor : ∀ r s, tensor' r s = toC C.rotation * tensor (γ (r, s)).1 (γ (r, s)).2 * (toC C.rotation)ᵀ)
    (ht : ∀ r s, !![t00' r s, t01' r s; t10' r s, t11' r s] = toC C.rotation * !![t00.pull γ r s, t01.pull γ r s; t10.pull γ r s, t11.pull γ r s] * (toC (diagonal e))ᵀ)
    {E : ModeMatrix ι} (h : rotatedFourierMatrix tensor t00 t01 t10 t11 c.expansion = .ok E) :
    ∃ E', rotatedFourierMatrix tensor' t00' t01' t10' t11' c'.expansion = .ok E' ∧ E' * C.R = C.R * E := by
  have hOO : (toC C.rotation)ᵀ * toC C.rotation = 1 := by
    have : (toC C.rotation)ᵀ = toC C.rotationᵀ := rfl
    rw [this, ← toC_mul, C.orthogonal, toC_one]
  have hDD : (toC (diagonal e))ᵀ * toC (diagonal e) = 1 := by
    have : (toC (diagonal e))ᵀ = toC (diagonal e) := by rw [show (toC (diagonal e))ᵀ = toC (diagonal e)ᵀ from rfl, diagonal_transpose]
    rw [this, ← toC_mul, diagonal_mul_diagonal]
    simp only [he]
    rw [show (diagonal fun _ => (1 : ℝ)) = (1 : Matrix (Fin 2) (Fin 2) ℝ) from diagonal_one, toC_one]
  have hD' : (diagonal e)ᵀ * diagonal e = 1 := by
    rw [diagonal_transpose, diagonal_mul_diagonal]
    simp only [he]
    exact diagonal_one
  have hDO : C.rotation.det * (diagonal e).det = 1 := by
    rw [det_diagonal, Fin.prod_univ_two, hed, ← sq]
    exact (orthogonal_entries C.orthogonal).2.2.2.2.2.2.2
  set D := diagonal e with hDdef
  unfold rotatedFourierMatrix rotationMatrices at h ⊢
  simp only [bind_eq_ok, fourierConvolutionMatrix_ok_iff, inv_ok_iff, ok_inj, allOk_eq_ok, Prod.exists, Prod.mk.injEq, solve_eq_ok] at h ⊢
  obtain ⟨_, _, _, ⟨_, ⟨hR, rfl⟩, _, ⟨-, rfl⟩, _, ⟨-, rfl⟩, _, ⟨-, rfl⟩, _, ⟨-, rfl⟩, _, ⟨-, rfl⟩, _, ⟨-, rfl⟩, _, ⟨-, rfl⟩, rfl, rfl, rfl⟩, rot, hrot,
    _, ⟨-, rfl⟩, _, ⟨-, rfl⟩, _, ⟨-, rfl⟩, η, hη, _, ⟨-, rfl⟩, _, ⟨hu, rfl⟩, rfl⟩ := h
  have hR' := hγ.resolves hR
  have hu' : IsUnit (convolution c'.expansion (η.pull γ)).det := by
    rw [det_intertwine C.Q_isUnit (hγ.intertwine η)]; exact hu
  have hDc : (toC D)ᵀ = toC D := by rw [show (toC D)ᵀ = toC Dᵀ from rfl, hDdef, diagonal_transpose]
  have hrotEntry : ∀ (X : Matrix (Fin 2) (Fin 2) ℂ) (i j : Fin 2), (toC D * X * toC D) i j = (e i : ℂ) * X i j * e j := by
    intro X i j
    have : toC D = diagonal fun i => (e i : ℂ) := by
      ext i j
      by_cases h : i = j
      · subst h; simp [toC_apply, hDdef]
      · simp [toC_apply, hDdef, h]
    rw [this, mul_diagonal, diagonal_mul]
  have hec : ∀ i, (e i : ℂ) * e i = 1 := fun i => by exact_mod_cast he i
  have hdetT : ∀ r s, (!![t00' r s, t01' r s; t10' r s, t11' r s] : Matrix (Fin 2) (Fin 2) ℂ).det =
      (!![t00.pull γ r s, t01.pull γ r s; t10.pull γ r s, t11.pull γ r s] : Matrix (Fin 2) (Fin 2) ℂ).det := by
    intro r s
    rw [ht, det_mul, det_mul, det_transpose, toC_det, toC_det]
    have : (C.rotation.det : ℂ) * D.det = 1 := by exact_mod_cast hDO
    linear_combination (!![t00.pull γ r s, t01.pull γ r s; t10.pull γ r s, t11.pull γ r s] : Matrix (Fin 2) (Fin 2) ℂ).det * this
  have hrot' : ∀ p : Fin mx × Fin my, IsUnit (!![t00' p.1 p.2, t01' p.1 p.2; t10' p.1 p.2, t11' p.1 p.2] : Matrix (Fin 2) (Fin 2) ℂ).det ∧
      !![t00' p.1 p.2, t01' p.1 p.2; t10' p.1 p.2, t11' p.1 p.2] * (toC D * rot (γ p) * toC D) =
        tensor' p.1 p.2 * !![t00' p.1 p.2, t01' p.1 p.2; t10' p.1 p.2, t11' p.1 p.2] := by
    intro p
    obtain ⟨g1, g2⟩ := hrot (γ p)
    refine ⟨by rw [hdetT]; exact g1, ?_⟩
    rw [ht, htensor]
    set T : Matrix (Fin 2) (Fin 2) ℂ := !![t00.pull γ p.1 p.2, t01.pull γ p.1 p.2; t10.pull γ p.1 p.2, t11.pull γ p.1 p.2] with hT
    have g2' : T * rot (γ p) = tensor (γ p).1 (γ p).2 * T := g2
    calc toC C.rotation * T * (toC D)ᵀ * (toC D * rot (γ p) * toC D)
        = toC C.rotation * T * ((toC D)ᵀ * toC D) * rot (γ p) * toC D := by mat_module
      _ = toC C.rotation * (T * rot (γ p)) * toC D := by rw [hDD]; mat_module
      _ = toC C.rotation * tensor (γ p).1 (γ p).2 * 1 * T * toC D := by rw [g2']; mat_module
      _ = toC C.rotation * tensor (γ p).1 (γ p).2 * ((toC C.rotation)ᵀ * toC C.rotation) * T * toC D := by rw [hOO]
      _ = _ := by rw [hDc]; mat_module
  have hη' : recipGrid (Matrix.of fun r s => (toC D * rot (γ (r, s)) * toC D) 1 1) = .ok (η.pull γ) := by
    rw [← recipGrid_pull (γ := γ) hη]
    congr 1
    ext r s
    simp only [of_apply, hrotEntry, Grid.pull]
    linear_combination rot (γ (r, s)) 1 1 * hec 1
  refine ⟨_, ⟨_, _, _, ⟨_, ⟨hR', rfl⟩, _, ⟨hR', rfl⟩, _, ⟨hR', rfl⟩, _, ⟨hR', rfl⟩, _, ⟨hR', rfl⟩, _, ⟨hR', rfl⟩, _, ⟨hR', rfl⟩, _, ⟨hR', rfl⟩, rfl, rfl, rfl⟩,
    _, hrot', _, ⟨hR', rfl⟩, _, ⟨hR', rfl⟩, _, ⟨hR', rfl⟩, _, hη', _, ⟨hR', rfl⟩, _, ⟨hu', rfl⟩, rfl⟩, ?_⟩
  -- the three factors
  have f1 := block_transform (Q := C.Q) (A := C.rotation) (B := D) hD'
    (F := fun i j => convolution c.expansion (Matrix.of fun r s => (!![t00 r s, t01 r s; t10 r s, t11 r s] : Matrix (Fin 2) (Fin 2) ℂ) i j))
    (F' := fun i j => convolution c'.expansion (Matrix.of fun r s => (!![t00' r s, t01' r s; t10' r s, t11' r s] : Matrix (Fin 2) (Fin 2) ℂ) i j)) (by
    intro i j
    rw [← convolution_linear, ← hγ.intertwine]
    congr 2
    ext r s
    rw [of_apply, ht, two_sided]
    rfl)
  have f2 := block_transform (Q := C.Q) (A := D) (B := D) hD'
    (F := fun i j => ![![convolution c.expansion (Matrix.of fun r s => rot (r, s) 0 0), convolution c.expansion (Matrix.of fun r s => rot (r, s) 0 1)],
      ![convolution c.expansion (Matrix.of fun r s => rot (r, s) 1 0), (convolution c.expansion η)⁻¹]] i j)
    (F' := fun i j => ![![convolution c'.expansion (Matrix.of fun r s => (toC D * rot (γ (r, s)) * toC D) 0 0),
        convolution c'.expansion (Matrix.of fun r s => (toC D * rot (γ (r, s)) * toC D) 0 1)],
      ![convolution c'.expansion (Matrix.of fun r s => (toC D * rot (γ (r, s)) * toC D) 1 0), (convolution c'.expansion (η.pull γ))⁻¹]] i j) (by
    have hc : ∀ a b : Fin 2, convolution c'.expansion (Matrix.of fun r s => (toC D * rot (γ (r, s)) * toC D) a b) * C.Q =
        C.Q * ((e a * e b : ℂ) • convolution c.expansion (Matrix.of fun r s => rot (r, s) a b)) := by
      intro a b
      have := convolution_linear c.expansion (e a * e b) 0 0 0 (Matrix.of fun r s => rot (r, s) a b) 0 0 0
      simp only [zero_smul, add_zero, zero_mul] at this
      rw [← this, ← hγ.intertwine]
      congr 2
      ext r s
      rw [of_apply, hrotEntry]
      simp only [Grid.pull, of_apply]
      ring
    intro i j
    fin_cases i <;> fin_cases j
    · simpa [hDdef] using hc 0 0
    · simpa [hDdef] using hc 0 1
    · simpa [hDdef] using hc 1 0
    · simpa [hDdef, hec] using inv_intertwine hu hu' (hγ.intertwine η))
  have f3 := block_transform (Q := C.Q) (A := D) (B := C.rotation) C.orthogonal
    (F := fun i j => convolution c.expansion (Matrix.of fun r s =>
      (!![t11 r s / (denomSafe ‖t00 r s * t11 r s - t10 r s * t01 r s‖ : ℂ), -t01 r s / (denomSafe ‖t00 r s * t11 r s - t10 r s * t01 r s‖ : ℂ);
        -t10 r s / (denomSafe ‖t00 r s * t11 r s - t10 r s * t01 r s‖ : ℂ), t00 r s / (denomSafe ‖t00 r s * t11 r s - t10 r s * t01 r s‖ : ℂ)] : Matrix (Fin 2) (Fin 2) ℂ) i j))
    (F' := fun i j => convolution c'.expansion (Matrix.of fun r s =>
      (!![t11' r s / (denomSafe ‖t00' r s * t11' r s - t10' r s * t01' r s‖ : ℂ), -t01' r s / (denomSafe ‖t00' r s * t11' r s - t10' r s * t01' r s‖ : ℂ);
        -t10' r s / (denomSafe ‖t00' r s * t11' r s - t10' r s * t01' r s‖ : ℂ), t00' r s / (denomSafe ‖t00' r s * t11' r s - t10' r s * t01' r s‖ : ℂ)] : Matrix (Fin 2) (Fin 2) ℂ) i j)) (by
    intro i j
    rw [← convolution_linear, ← hγ.intertwine]
    congr 2
    ext r s
    have hdet := hdetT r s
    rw [det_fin_two_of, det_fin_two_of, mul_comm (t01' r s), mul_comm (t01.pull γ r s)] at hdet
    have E := fun i j => congrFun (congrFun (ht r s) i) j
    have E00 := E 0 0
    have E01 := E 0 1
    have E10 := E 1 0
    have E11 := E 1 1
    rw [two_sided] at E00 E01 E10 E11
    simp [hDdef] at E00 E01 E10 E11
    obtain ⟨-, -, -, o1, o2, -, -, o5⟩ := orthogonal_entries C.orthogonal
    rw [← hed] at o1 o2
    have p11 : (C.rotation 1 1 : ℂ) = e 0 * e 1 * C.rotation 0 0 := by exact_mod_cast o1
    have p10 : (C.rotation 1 0 : ℂ) = -(e 0 * e 1 * C.rotation 0 1) := by exact_mod_cast o2
    have k0 := hec 0
    have k1 := hec 1
    simp only [of_apply, Grid.pull, hdet]
    set d : ℂ := (denomSafe ‖t00.pull γ r s * t11.pull γ r s - t10.pull γ r s * t01.pull γ r s‖ : ℂ) with hd
    have hd2 : (denomSafe ‖t00 (γ (r, s)).1 (γ (r, s)).2 * t11 (γ (r, s)).1 (γ (r, s)).2 - t10 (γ (r, s)).1 (γ (r, s)).2 * t01 (γ (r, s)).1 (γ (r, s)).2‖ : ℂ) = d := rfl
    rw [hd2]
    simp only [Grid.pull, of_apply] at E00 E01 E10 E11
    have zero_one : (D 0 1 : ℝ) = 0 := by simp [hDdef]
    have one_zero : (D 1 0 : ℝ) = 0 := by simp [hDdef]
    have zero_zero : (D 0 0 : ℝ) = e 0 := by simp [hDdef]
    have one_one : (D 1 1 : ℝ) = e 1 := by simp [hDdef]
    set x00 := t00 (γ (r, s)).1 (γ (r, s)).2
    set x01 := t01 (γ (r, s)).1 (γ (r, s)).2
    set x10 := t10 (γ (r, s)).1 (γ (r, s)).2
    set x11 := t11 (γ (r, s)).1 (γ (r, s)).2
    fin_cases i <;> fin_cases j <;>
      simp [zero_one, one_zero, zero_zero, one_one, E00, E01, E10, E11, p11, p10]
    · linear_combination (e 0 * (C.rotation 0 0 * x11 - C.rotation 0 1 * x01) / d : ℂ) * k1
    · linear_combination (e 1 * (C.rotation 0 0 * x01 + C.rotation 0 1 * x11) / d : ℂ) * k0
    · linear_combination (e 1 * (C.rotation 0 1 * x00 - C.rotation 0 0 * x10) / d : ℂ) * k0
    · linear_combination -(e 0 * (C.rotation 0 0 * x00 + C.rotation 0 1 * x10) / d : ℂ) * k1)
  exact triple_intertwine f1 f2 f3

theorem epsBlock_pull (r : Fin mx) (s : Fin my) (t : TensorComponents nx ny) : epsBlock (t.pull γ) r s = epsBlock t (γ (r, s)).1 (γ (r, s)).2 := rfl

theorem muBlock_pull (r : Fin mx) (s : Fin my) (t : TensorComponents nx ny) : muBlock (t.pull γ) r s = muBlock t (γ (r, s)).1 (γ (r, s)).2 := rfl

theorem epsBlock_rotate_eq {O : Matrix (Fin 2) (Fin 2) ℝ} (hO : Oᵀ * O = 1) (t : TensorComponents nx ny) (r : Fin nx) (s : Fin ny) :
    epsBlock (rotateTensor O t) r s = toC O * epsBlock t r s * (toC O)ᵀ := by
  ext i j
  rw [two_sided, epsBlock_rotate hO]

theorem muBlock_rotate_eq (O : Matrix (Fin 2) (Fin 2) ℝ) (t : TensorComponents nx ny) (r : Fin nx) (s : Fin ny) :
    muBlock (rotateTensor O t) r s = toC O * muBlock t r s * (toC O)ᵀ := by
  ext i j
  rw [two_sided, muBlock_rotate]

theorem fft_permittivity_transform (hγ : GridMap C c.expansion c'.expansion γ) (ε : TensorComponents nx ny) {E : ModeMatrix ι}
    (h : transversePermittivityFftAnisotropic ε.xx ε.xy ε.yx ε.yy c.expansion = .ok E) :
    let ε' := (rotateTensor C.rotation ε).pull γ
    ∃ E', transversePermittivityFftAnisotropic ε'.xx ε'.xy ε'.yx ε'.yy c'.expansion = .ok E' ∧ E' * C.R = C.R * E := by
  intro ε'
  unfold transversePermittivityFftAnisotropic at h ⊢
  simp only [bind_eq_ok, fourierConvolutionMatrix_ok_iff, ok_inj] at h ⊢
  obtain ⟨_, ⟨hR, rfl⟩, _, ⟨-, rfl⟩, _, ⟨-, rfl⟩, _, ⟨-, rfl⟩, rfl⟩ := h
  have hR' := hγ.resolves hR
  refine ⟨_, ⟨_, ⟨hR', rfl⟩, _, ⟨hR', rfl⟩, _, ⟨hR', rfl⟩, _, ⟨hR', rfl⟩, rfl⟩, ?_⟩
  exact block_transform (Q := C.Q) (A := C.rotation) (B := C.rotation) C.orthogonal
    (F := fun i j => convolution c.expansion (Matrix.of fun r s => epsBlock ε r s i j))
    (F' := fun i j => convolution c'.expansion (Matrix.of fun r s => epsBlock ε' r s i j)) (by
    intro i j
    rw [← convolution_linear, ← hγ.intertwine]
    congr 2
    ext r s
    rw [of_apply, epsBlock_pull, epsBlock_rotate C.orthogonal]
    rfl)

theorem fft_permeability_transform (hγ : GridMap C c.expansion c'.expansion γ) (ε : TensorComponents nx ny) {E : ModeMatrix ι}
    (h : transversePermeabilityFftAnisotropic ε.xx ε.xy ε.yx ε.yy c.expansion = .ok E) :
    let ε' := (rotateTensor C.rotation ε).pull γ
    ∃ E', transversePermeabilityFftAnisotropic ε'.xx ε'.xy ε'.yx ε'.yy c'.expansion = .ok E' ∧ E' * C.R = C.R * E := by
  intro ε'
  unfold transversePermeabilityFftAnisotropic at h ⊢
  simp only [bind_eq_ok, fourierConvolutionMatrix_ok_iff, ok_inj] at h ⊢
  obtain ⟨_, ⟨hR, rfl⟩, _, ⟨-, rfl⟩, _, ⟨-, rfl⟩, _, ⟨-, rfl⟩, rfl⟩ := h
  have hR' := hγ.resolves hR
  refine ⟨_, ⟨_, ⟨hR', rfl⟩, _, ⟨hR', rfl⟩, _, ⟨hR', rfl⟩, _, ⟨hR', rfl⟩, rfl⟩, ?_⟩
  exact block_transform (Q := C.Q) (A := C.rotation) (B := C.rotation) C.orthogonal
    (F := fun i j => convolution c.expansion (Matrix.of fun r s => muBlock ε r s i j))
    (F' := fun i j => convolution c'.expansion (Matrix.of fun r s => muBlock ε' r s i j)) (by
    intro i j
    rw [← convolution_linear, ← hγ.intertwine]
    congr 2
    ext r s
    rw [of_apply, muBlock_pull, muBlock_rotate]
    rfl)

theorem rotation_entries (C : Coordinates ι) : (C.rotation 1 1 : ℂ) = C.rotation.det * C.rotation 0 0 ∧
    (C.rotation 1 0 : ℂ) = -(C.rotation.det * C.rotation 0 1) ∧ (C.rotation.det : ℂ) * C.rotation.det = 1 := by
  obtain ⟨-, -, -, o1, o2, -, -, o5⟩ := orthogonal_entries C.orthogonal
  refine ⟨by exact_mod_cast o1, by exact_mod_cast o2, ?_⟩
  rw [sq] at o5
  exact_mod_cast o5

theorem vector_permittivity_transform (hγ : GridMap C c.expansion c'.expansion γ) (ε : TensorComponents nx ny) {tx ty : Grid nx ny} {E : ModeMatrix ι}
    (h : transversePermittivityVectorAnisotropic ε.xx ε.xy ε.yx ε.yy tx ty c.expansion = .ok E) :
    let ε' := (rotateTensor C.rotation ε).pull γ
    ∃ E', transversePermittivityVectorAnisotropic ε'.xx ε'.xy ε'.yx ε'.yy (Matrix.of fun r s => C.rotation 0 0 * tx.pull γ r s + C.rotation 0 1 * ty.pull γ r s)
        (Matrix.of fun r s => C.rotation 1 0 * tx.pull γ r s + C.rotation 1 1 * ty.pull γ r s) c'.expansion = .ok E' ∧ E' * C.R = C.R * E := by
  intro ε'
  obtain ⟨p11, p10, pd⟩ := rotation_entries C
  refine rotated_transform hγ (e := ![C.rotation.det, 1]) ?_ (by simp) ?_ ?_ h
  · intro i
    fin_cases i
    · simpa [sq] using (orthogonal_entries C.orthogonal).2.2.2.2.2.2.2
    · simp
  · intro r s
    exact (epsBlock_pull r s _).trans (epsBlock_rotate_eq C.orthogonal _ _ _)
  · intro r s
    ext i j
    rw [two_sided]
    fin_cases i <;> fin_cases j <;> simp [p11, p10, Grid.pull]
    · ring
    · linear_combination (-(C.rotation 0 0 : ℂ) * tx (γ (r, s)).1 (γ (r, s)).2 - C.rotation 0 1 * ty (γ (r, s)).1 (γ (r, s)).2) * (-pd)

theorem vector_permeability_transform (hγ : GridMap C c.expansion c'.expansion γ) (ε : TensorComponents nx ny) {tx ty : Grid nx ny} {E : ModeMatrix ι}
    (h : transversePermeabilityVectorAnisotropic ε.xx ε.xy ε.yx ε.yy tx ty c.expansion = .ok E) :
    let ε' := (rotateTensor C.rotation ε).pull γ
    ∃ E', transversePermeabilityVectorAnisotropic ε'.xx ε'.xy ε'.yx ε'.yy (Matrix.of fun r s => C.rotation 0 0 * tx.pull γ r s + C.rotation 0 1 * ty.pull γ r s)
        (Matrix.of fun r s => C.rotation 1 0 * tx.pull γ r s + C.rotation 1 1 * ty.pull γ r s) c'.expansion = .ok E' ∧ E' * C.R = C.R * E := by
  intro ε'
  obtain ⟨p11, p10, pd⟩ := rotation_entries C
  refine rotated_transform hγ (e := ![1, C.rotation.det]) ?_ (by simp) ?_ ?_ h
  · intro i
    fin_cases i
    · simp
    · simpa [sq] using (orthogonal_entries C.orthogonal).2.2.2.2.2.2.2
  · intro r s
    exact (muBlock_pull r s _).trans (muBlock_rotate_eq _ _ _ _)
  · intro r s
    ext i j
    rw [two_sided]
    fin_cases i <;> fin_cases j <;> simp [p11, p10, Grid.pull]
    · ring
    · linear_combination (-(C.rotation 0 0 : ℂ) * (starRingEnd ℂ) (tx (γ (r, s)).1 (γ (r, s)).2) - C.rotation 0 1 * (starRingEnd ℂ) (ty (γ (r, s)).1 (γ (r, s)).2)) * pd

/-- Anisotropic patterns. -/
theorem anisotropic_fourierMap (hγ : GridMap C c.expansion c'.expansion γ) {ε μ : TensorComponents nx ny} {source : Grid nx ny} {f : Formulation nx ny ι}
    {f' : Formulation mx my ι} (hf : FormulationMap C c c' γ source f f') {m : FourierMatrices ι}
    (h : fourierMatricesPatternedAnisotropic c.lattice ε μ c.expansion f source = .ok m) :
    ∃ m', fourierMatricesPatternedAnisotropic c'.lattice ((rotateTensor C.rotation ε).pull γ) ((rotateTensor C.rotation μ).pull γ) c'.expansion f'
      (source.pull γ) = .ok m' ∧ FourierMap C m m' := by
  unfold fourierMatricesPatternedAnisotropic at h ⊢
  simp only [bind_eq_ok, fourierConvolutionMatrix_ok_iff, ok_inj] at h ⊢
  obtain ⟨⟨E, M⟩, hEM, η, hη, _, ⟨hR, rfl⟩, _, ⟨-, rfl⟩, η', hη', _, ⟨-, rfl⟩, _, ⟨-, rfl⟩, rfl⟩ := h
  have hR' := hγ.resolves hR
  obtain ⟨E', M', hEM', hE, hM⟩ : ∃ E' M', transverseMatricesAnisotropic c'.lattice ((rotateTensor C.rotation ε).pull γ) ((rotateTensor C.rotation μ).pull γ)
      c'.expansion (source.pull γ) f' = .ok (E', M') ∧ E' * C.R = C.R * E ∧ M' * C.R = C.R * M := by
    cases f with
    | fft =>
      cases f' with
      | fft =>
        unfold transverseMatricesAnisotropic at hEM ⊢
        simp only [bind_eq_ok, ok_inj, Prod.mk.injEq] at hEM ⊢
        obtain ⟨E, hE, M, hM, rfl, rfl⟩ := hEM
        obtain ⟨E', hE', k1⟩ := fft_permittivity_transform hγ ε hE
        obtain ⟨M', hM', k2⟩ := fft_permeability_transform hγ μ hM
        exact ⟨E', M', ⟨_, hE', _, hM', rfl, rfl⟩, k1, k2⟩
      | vector fn' => exact hf.elim
    | vector fn =>
      cases f' with
      | fft => exact hf.elim
      | vector fn' =>
        unfold transverseMatricesAnisotropic at hEM ⊢
        simp only [bind_eq_ok, ok_inj, Prod.mk.injEq] at hEM ⊢
        obtain ⟨t, ht, E, hE, M, hM, rfl, rfl⟩ := hEM
        obtain ⟨E', hE', k1⟩ := vector_permittivity_transform hγ ε hE
        obtain ⟨M', hM', k2⟩ := vector_permeability_transform hγ μ hM
        obtain ⟨p, hp, hf⟩ := hf
        have hp' := star_mul_self_of_norm hp
        exact ⟨E', M', ⟨_, hf t ht, _, (vectorAnisotropic_phase hp' _ _ _ _ _ _ _).1 hE', _, (vectorAnisotropic_phase hp' _ _ _ _ _ _ _).2 hM', rfl, rfl⟩, k1, k2⟩
  refine ⟨_, ⟨_, hEM', _, recipGrid_pull hη, _, ⟨hR', rfl⟩, _, ⟨hR', rfl⟩, _, recipGrid_pull hη', _, ⟨hR', rfl⟩, _, ⟨hR', rfl⟩, rfl⟩, ?_⟩
  exact ⟨hγ.intertwine ε.zz, hγ.intertwine μ.zz, hM, hE⟩

/-- Uniform anisotropic media. -/
theorem uniformAnisotropic_fourierMap (C : Coordinates ι) {ε μ : TensorComponents 1 1} {m : FourierMatrices ι}
    (h : fourierMatricesUniformAnisotropic ε μ = .ok m) :
    ∃ m', fourierMatricesUniformAnisotropic (rotateTensor C.rotation ε) (rotateTensor C.rotation μ) = .ok m' ∧ FourierMap C m m' := by
  unfold fourierMatricesUniformAnisotropic at h ⊢
  have e1 : (rotateTensor C.rotation ε).zz = ε.zz := rfl
  have e2 : (rotateTensor C.rotation μ).zz = μ.zz := rfl
  rw [e1, e2]
  split_ifs at h with h0
  · rw [ok_inj] at h
    subst h
    simp only [if_neg h0, diag_const, ok_inj]
    refine ⟨_, rfl, ?_, ?_, ?_, ?_⟩
    · mat_module
    · mat_module
    · exact block_transform (Q := C.Q) (A := C.rotation) (B := C.rotation) C.orthogonal
        (F := fun i j => muBlock μ 0 0 i j • 1) (F' := fun i j => muBlock (rotateTensor C.rotation μ) 0 0 i j • 1) (by
        intro i j
        rw [muBlock_rotate]
        mat_module)
    · exact block_transform (Q := C.Q) (A := C.rotation) (B := C.rotation) C.orthogonal
        (F := fun i j => epsBlock ε 0 0 i j • 1) (F' := fun i j => epsBlock (rotateTensor C.rotation ε) 0 0 i j • 1) (by
        intro i j
        rw [epsBlock_rotate C.orthogonal]
        mat_module)

/-- `p'` is the layer `p` in other coordinates. -/
abbrev LayerMedium (C : Coordinates ι) (c c' : Setup ι) : StackLayer ι → StackLayer ι → Prop :=
  LayerImage C.scale C.rotation (fun γ => GridMap C c.expansion c'.expansion γ) c c'

theorem default_source_rotate (C : Coordinates ι) (γ : Fin mx × Fin my → Fin nx × Fin ny) (ε : TensorComponents nx ny) (x : Option (Grid nx ny)) :
    (x.map (Grid.pull γ)).getD (Matrix.of fun r s => (((rotateTensor C.rotation ε).pull γ).xx r s + ((rotateTensor C.rotation ε).pull γ).yy r s) / 2) =
      (x.getD (Matrix.of fun r s => (ε.xx r s + ε.yy r s) / 2)).pull γ := by
  cases x with
  | some x => rfl
  | none =>
    obtain ⟨o1, o2, o3, -⟩ := orthogonal_entries C.orthogonal
    have o1' : (C.rotation 0 0 : ℂ) * C.rotation 0 0 + C.rotation 1 0 * C.rotation 1 0 = 1 := by exact_mod_cast o1
    have o2' : (C.rotation 0 0 : ℂ) * C.rotation 0 1 + C.rotation 1 0 * C.rotation 1 1 = 0 := by exact_mod_cast o2
    have o3' : (C.rotation 0 1 : ℂ) * C.rotation 0 1 + C.rotation 1 1 * C.rotation 1 1 = 1 := by exact_mod_cast o3
    ext r s
    simp only [Option.map_none, Option.getD_none, rotateTensor, TensorComponents.pull, Grid.pull, of_apply]
    linear_combination (ε.xx (γ (r, s)).1 (γ (r, s)).2 / 2) * o1' + ((ε.xy (γ (r, s)).1 (γ (r, s)).2 + ε.yx (γ (r, s)).1 (γ (r, s)).2) / 2) * o2' +
      (ε.yy (γ (r, s)).1 (γ (r, s)).2 / 2) * o3'

theorem rotateTensor_uniform (O : Matrix (Fin 2) (Fin 2) ℝ) (t : TensorComponents 1 1) (h h' : 1 = 1 ∧ 1 = 1) :
    (rotateTensor O t).uniform h = rotateTensor O (t.uniform h') := rfl

variable {eig : Matrix (ι ⊕ ι) (ι ⊕ ι) ℂ → (ι ⊕ ι → ℂ) × Matrix (ι ⊕ ι) (ι ⊕ ι) ℂ}

theorem layerImage_solve (he : IsEig eig) (h : SetupMap C c c') {p p' : StackLayer ι} (hp : LayerMedium C c c' p p') {r : LayerSolveResult ι}
    (hr : p.solve eig c = .ok r) (hφ : IsUnit r.eigenvectors.det) :
    ∃ r', p'.solve eig c' = .ok r' ∧ LayerMap C.R C.scale r r' (r.eigenvectors⁻¹ * C.R⁻¹ * r'.eigenvectors) := by
  cases hp with
  | uniformIsotropic ε f f' d =>
    simp only [StackLayer.solve, eigensolveIsotropicMedia, and_self, dite_true] at hr ⊢
    exact uniform_layerMap h hr
  | uniformAnisotropic ε μ f f' x x' d =>
    simp only [StackLayer.solve, eigensolveGeneralAnisotropicMedia, and_self, dite_true, eigensolveUniformAnisotropic, bind_eq_ok] at hr ⊢
    obtain ⟨m, hm, hr⟩ := hr
    obtain ⟨m', hm', hmm⟩ := uniformAnisotropic_fourierMap C hm
    obtain ⟨r', hr', hl⟩ := numerical_layerMap he h hmm hr hφ
    exact ⟨r', ⟨m', hm', hr'⟩, hl⟩
  | isotropic γ hγ hn hm ε f f' hf d =>
    simp only [StackLayer.solve, eigensolveIsotropicMedia, dif_neg hn, dif_neg hm, eigensolvePatternedIsotropic, bind_eq_ok] at hr ⊢
    obtain ⟨m, hm, hr⟩ := hr
    obtain ⟨m', hm', hmm⟩ := isotropic_fourierMap hγ hf hm
    obtain ⟨r', hr', hl⟩ := numerical_layerMap he h hmm hr hφ
    exact ⟨r', ⟨m', hm', hr'⟩, hl⟩
  | anisotropic γ hγ hn hm ε μ x f f' hf d =>
    simp only [StackLayer.solve, eigensolveGeneralAnisotropicMedia, dif_neg hn, dif_neg hm, eigensolvePatternedAnisotropic, bind_eq_ok] at hr ⊢
    obtain ⟨m, hm, hr⟩ := hr
    obtain ⟨m', hm', hmm⟩ := anisotropic_fourierMap hγ hf hm
    obtain ⟨r', hr', hl⟩ := numerical_layerMap he h hmm hr hφ
    rw [← default_source_rotate C] at hm'
    exact ⟨r', ⟨m', hm', hr'⟩, hl⟩

theorem layerImage_thickness {p p' : StackLayer ι} (hp : LayerMedium C c c' p p') : p.thickness = C.scale * p'.thickness := by
  cases hp <;> rfl

theorem stackSMatrix_independent {l : LayerSolveResult ι} {ls : List (LayerSolveResult ι)} {d : ℝ} {ds : List ℝ} (hlen : ls.length = ds.length)
    {S : ScatteringMatrix ι} (h : stackSMatrix (l :: ls) (d :: ds) = .ok S) (r : LayerSolveResult ι) (hr : r ∈ (l :: ls).dropLast) :
    IsUnit r.eigenvectors.det := by
  rw [stackSMatrix_cons _ _ _ _ hlen] at h
  have hz : (ls.zip ds).map Prod.fst = ls := List.map_fst_zip (by omega)
  cases ls with
  | nil => simp at hr
  | cons l2 ls =>
    have hne : ((l2 :: ls).zip ds) ≠ [] := by
      intro h0
      rw [h0] at hz
      simp at hz
    obtain ⟨k1, k2⟩ := scanLoop_independent _ _ _ h hne
    rw [List.dropLast_cons_of_ne_nil (by simp), List.mem_cons] at hr
    rcases hr with rfl | hr
    · exact k1
    · rw [← hz, ← List.map_dropLast] at hr
      obtain ⟨q, hq, rfl⟩ := List.mem_map.1 hr
      exact k2 q hq

/-- Stacks of layers in other coordinates. -/
theorem stack_covariance (he : IsEig eig) (h : SetupMap C c c') {layers layers' : List (StackLayer ι)} (hl : List.Forall₂ (LayerMedium C c c') layers layers')
    {S : ScatteringMatrix ι} (hlast : ∀ p ∈ layers.getLast?, ∀ r, p.solve eig c = .ok r → IsUnit r.eigenvectors.det)
    (hS : ComputedSMatrix eig c layers S) :
    ∃ S', ComputedSMatrix eig c' layers' S' ∧ SLayerMap C.R C.scale S S' (S.startLayer.eigenvectors⁻¹ * C.R⁻¹ * S'.startLayer.eigenvectors)
      (S.endLayer.eigenvectors⁻¹ * C.R⁻¹ * S'.endLayer.eigenvectors) := by
  obtain ⟨solved, hsolved, hS⟩ := hS
  cases hl with
  | nil =>
    cases hsolved
    exact absurd hS (by simp [stackSMatrix, stackSMatrices])
  | @cons p p' ps ps' hp hps =>
    obtain _ | ⟨hr, hrs⟩ := hsolved
    rename_i r rs
    have hlen : rs.length = (ps.map StackLayer.thickness).length := by rw [List.length_map, hrs.length_eq]
    rw [List.map_cons] at hS
    have hdrop := stackSMatrix_independent hlen hS
    have hz : (rs.zip (ps.map StackLayer.thickness)).map Prod.fst = rs := List.map_fst_zip (by omega)
    rw [stackSMatrix_cons _ _ _ _ hlen] at hS
    obtain ⟨ends1, ends2⟩ := scanLoop_ends _ _ _ hS
    rw [hz] at ends2
    have hall : ∀ x ∈ r :: rs, IsUnit x.eigenvectors.det := by
      have hlast' : ∀ (ps : List (StackLayer ι)) (rs : List (LayerSolveResult ι)), List.Forall₂ (fun p r => p.solve eig c = .ok r) ps rs →
          (∀ p ∈ ps.getLast?, ∀ r, p.solve eig c = .ok r → IsUnit r.eigenvectors.det) → ∀ x ∈ rs.getLast?, IsUnit x.eigenvectors.det := by
        intro ps rs hrs
        induction hrs with
        | nil => simp
        | @cons a b as bs hab habs ih =>
          intro hp x hx
          cases habs with
          | nil =>
            simp only [List.getLast?_singleton, Option.mem_some_iff] at hx
            subst hx
            exact hp a (by simp) _ hab
          | cons h1 h2 =>
            refine ih (fun q hq => hp q ?_) x ?_
            · rw [List.getLast?_cons_cons]; exact hq
            · rw [List.getLast?_cons_cons] at hx; exact hx
      have hl2 := hlast' (p :: ps) (r :: rs) (.cons hr hrs) hlast
      intro x hx
      rw [← List.dropLast_append_getLast? _ (List.getLast?_eq_some_getLast (l := r :: rs) (by simp)), List.mem_append, List.mem_singleton] at hx
      rcases hx with hx | rfl
      · exact hdrop x hx
      · exact hl2 _ (List.getLast?_eq_some_getLast (by simp))
    obtain ⟨r', hr', hmap⟩ := layerImage_solve he h hp hr (hall r (by simp))
    have hrest : ∀ (ps ps' : List (StackLayer ι)) (rs : List (LayerSolveResult ι)), List.Forall₂ (LayerMedium C c c') ps ps' →
        List.Forall₂ (fun p r => p.solve eig c = .ok r) ps rs → (∀ x ∈ rs, IsUnit x.eigenvectors.det) →
        ∃ rs', List.Forall₂ (fun p r => p.solve eig c' = .ok r) ps' rs' ∧
          List.Forall₂ (StackMap C.R C.scale) (rs.zip (ps.map StackLayer.thickness)) (rs'.zip (ps'.map StackLayer.thickness)) := by
      intro ps ps' rs hi
      induction hi generalizing rs with
      | nil =>
        intro hs _
        cases hs
        exact ⟨[], .nil, .nil⟩
      | @cons a b as bs hab _ ih =>
        intro hs hu
        obtain _ | ⟨h1, h2⟩ := hs
        rename_i y ys
        obtain ⟨ys', k1, k2⟩ := ih ys h2 fun x hx => hu x (by simp [hx])
        obtain ⟨y', k3, k4⟩ := layerImage_solve he h hab h1 (hu y (by simp))
        exact ⟨y' :: ys', .cons k3 k1, .cons ⟨⟨_, k4⟩, layerImage_thickness hab⟩ k2⟩
    obtain ⟨rs', hrs', hst⟩ := hrest ps ps' rs hps hrs fun x hx => hall x (by simp [hx])
    obtain ⟨S', Tm, hS', hmap'⟩ := scanLoop_layerMap C.R_isUnit C.scale_pos.ne' hst _ _ _ _ _ (identity_layerMap hmap (layerImage_thickness hp)) hS
    refine ⟨S', ⟨r' :: rs', .cons hr' hrs', ?_⟩, ?_⟩
    · rw [List.map_cons, stackSMatrix_cons _ _ _ _ (by rw [List.length_map, hrs'.length_eq])]
      exact hS'
    · have hunique : ∀ {l l' : LayerSolveResult ι} {T : ModeMatrix ι}, LayerMap C.R C.scale l l' T → IsUnit l.eigenvectors.det →
          T = l.eigenvectors⁻¹ * C.R⁻¹ * l'.eigenvectors := by
        intro l l' T hT hu
        rw [hT.eigenvectors]
        calc T = (l.eigenvectors⁻¹ * l.eigenvectors) * T := by rw [nonsing_inv_mul _ hu, Matrix.one_mul]
          _ = l.eigenvectors⁻¹ * (C.R⁻¹ * C.R) * l.eigenvectors * T := by rw [nonsing_inv_mul _ C.R_isUnit]; mat_module
          _ = _ := by mat_module
      have hend : S.endLayer ∈ r :: rs := by
        rw [ends2]
        cases hrs2 : rs.getLast? with
        | none => simp [identitySMatrix]
        | some x => exact List.mem_cons_of_mem _ (List.mem_of_getLast? hrs2)
      rw [← hunique hmap'.start (by rw [ends1]; exact hall r (by simp)), ← hunique hmap'.finish (hall _ hend)]
      exact hmap'

end Fmmax
