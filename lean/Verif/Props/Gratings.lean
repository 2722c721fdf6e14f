import Verif.Model.VectorFormulation
import Verif.Spec.Gratings
import Verif.Props.TangentField
import Verif.Props.Fmm
import Verif.Proofs.Media

/-!
C94: vector formulations expand products of permittivity and field by Li's factorization rules where the direction of the lines of a
grating is known.
-/

namespace Fmmax

open Matrix Fmmax.Spec

variable {nx ny : ℕ} {ι : Type} [Fintype ι] [DecidableEq ι]

/-! ### Constant tangent fields -/

/-- The block matrix with constant multiples of the identity. -/
def constBlocks (ι : Type) [DecidableEq ι] (P : Matrix (Fin 2) (Fin 2) ℂ) : Matrix (ι ⊕ ι) (ι ⊕ ι) ℂ :=
  Matrix.fromBlocks (P 0 0 • 1) (P 0 1 • 1) (P 1 0 • 1) (P 1 1 • 1)

theorem convolution_const {G : ι → ℤ × ℤ} (hG : Function.Injective G) (hr : Resolves nx ny G) (c : ℂ) :
    convolution G (Matrix.of fun (_ : Fin nx) (_ : Fin ny) => c) = c • 1 := by
  have h := C20_constant G hG hr c
  exact (fourierConvolutionMatrix_ok_iff.1 h).2.symm

/-- The matrix of the vector formulation with a constant tangent field. -/
theorem transversePermittivityVector_const {G : ι → ℤ × ℤ} (hG : Function.Injective G) {eps : Grid nx ny} {tx ty : ℂ}
    {E : Matrix (ι ⊕ ι) (ι ⊕ ι) ℂ} :
    transversePermittivityVector eps (Matrix.of fun _ _ => tx) (Matrix.of fun _ _ => ty) G = .ok E ↔
      Resolves nx ny G ∧ (∀ r s, eps r s ≠ 0) ∧ IsUnit (convolution G (Matrix.of fun r s => 1 / eps r s)).det ∧
      E = Matrix.fromBlocks (convolution G eps) 0 0 (convolution G eps) -
        Matrix.fromBlocks (convolution G eps - (convolution G (Matrix.of fun r s => 1 / eps r s))⁻¹) 0 0
          (convolution G eps - (convolution G (Matrix.of fun r s => 1 / eps r s))⁻¹) *
        constBlocks ι (tangentMatrix tx ty) := by
  unfold transversePermittivityVector
  by_cases hr : Resolves nx ny G
  swap
  · simp [fourierConvolutionMatrix_unresolved hr, hr, bind, Except.bind]
  simp only [bind_eq_ok, fourierConvolutionMatrix_ok_iff, recipGrid_ok_iff, inv_ok_iff, ok_inj, Matrix.of_apply]
  constructor
  · rintro ⟨_, ⟨-, rfl⟩, _, ⟨h0, rfl⟩, _, ⟨-, rfl⟩, _, ⟨hu, rfl⟩, _, ⟨-, rfl⟩, _, ⟨-, rfl⟩, _, ⟨-, rfl⟩, _, ⟨-, rfl⟩, rfl⟩
    refine ⟨hr, h0, hu, ?_⟩
    simp only [convolution_const hG hr]
    rfl
  · rintro ⟨-, h0, hu, rfl⟩
    refine ⟨_, ⟨hr, rfl⟩, _, ⟨h0, rfl⟩, _, ⟨hr, rfl⟩, _, ⟨hu, rfl⟩, _, ⟨hr, rfl⟩, _, ⟨hr, rfl⟩, _, ⟨hr, rfl⟩, _, ⟨hr, rfl⟩, ?_⟩
    simp only [convolution_const hG hr]
    rfl

theorem mulVec_stacked_diag (A : Matrix ι ι ℂ) (d : ℂ × ℂ) (f : ι → ℂ) :
    Matrix.fromBlocks A 0 0 A *ᵥ stacked d f = stacked d (A *ᵥ f) := by
  have e1 : (fun i => -(d.2 * f i)) = (-d.2) • f := by funext i; simp
  have e2 : (fun i => d.1 * f i) = d.1 • f := by funext i; simp
  unfold stacked
  rw [Matrix.fromBlocks_mulVec]
  simp only [Sum.elim_comp_inl, Sum.elim_comp_inr, e1, e2, Matrix.mulVec_smul, Matrix.zero_mulVec, smul_zero, add_zero, zero_add]
  funext k
  rcases k with i | i <;> simp

theorem mulVec_stacked_tangent (P : Matrix (Fin 2) (Fin 2) ℂ) (d : ℂ × ℂ) (f : ι → ℂ) (k : ι ⊕ ι) :
    (constBlocks ι P *ᵥ stacked d f) k =
      Sum.elim (fun i => (P *ᵥ ![-(d.2 * f i), d.1 * f i]) 0) (fun i => (P *ᵥ ![-(d.2 * f i), d.1 * f i]) 1) k := by
  unfold stacked constBlocks
  rw [Matrix.fromBlocks_mulVec]
  simp only [Sum.elim_comp_inl, Sum.elim_comp_inr, Matrix.smul_mulVec, Matrix.one_mulVec]
  rcases k with i | i <;> simp [Matrix.mulVec, dotProduct, Fin.sum_univ_two]

/-- **C94** With a tangent field that is the same everywhere a vector formulation expands products by the factorization rules: by
convolution with the permittivity along the tangent, by the inverse of the convolution with the reciprocal permittivity across
it.  The tangent may be complex. -/
theorem C94_constant_tangent {G : ι → ℤ × ℤ} (hG : Function.Injective G) {eps : Grid nx ny} {l : LatticeVectors}
    {fn : Grid nx ny → (ι → ℤ × ℤ) → LatticeVectors → Res (Grid nx ny × Grid nx ny)} {t : ℂ × ℂ}
    (hfn : fn eps G l = .ok (Matrix.of fun _ _ => t.1, Matrix.of fun _ _ => t.2)) (ht : 1e-8 < ‖t.1‖ ^ 2 + ‖t.2‖ ^ 2)
    {E : Matrix (ι ⊕ ι) (ι ⊕ ι) ℂ} (h : transversePermittivityIsotropic l eps G (.vector fn) = .ok E)
    {n : ℂ × ℂ} (hn : star t.1 * n.1 + star t.2 * n.2 = 0) :
    FactorizationRules E (convolution G eps) (convolution G (Matrix.of fun r s => 1 / eps r s)) t n := by
  unfold transversePermittivityIsotropic at h
  obtain ⟨p, hp, h⟩ := bind_eq_ok.1 h
  obtain rfl := ok_inj.1 (hfn.symm.trans hp)
  obtain ⟨hr, h0, hu, rfl⟩ := (transversePermittivityVector_const hG).1 h
  set A := convolution G eps
  set B := convolution G (Matrix.of fun r s => 1 / eps r s)
  constructor
  · intro f
    have hP : constBlocks ι (tangentMatrix t.1 t.2) *ᵥ stacked t f = 0 := by
      funext k
      rw [mulVec_stacked_tangent]
      have hz : ∀ i, tangentMatrix t.1 t.2 *ᵥ ![-(t.2 * f i), t.1 * f i] = 0 := fun i =>
        (C27_selects_normal_component ht (t.1 * f i) (t.2 * f i)).1.2 (by ring)
      rcases k with i | i <;> simp [hz]
    rw [Matrix.sub_mulVec, ← Matrix.mulVec_mulVec, hP, Matrix.mulVec_zero, sub_zero, mulVec_stacked_diag]
  · rintro _ g rfl
    set f := B *ᵥ g with hf
    have hP : constBlocks ι (tangentMatrix t.1 t.2) *ᵥ stacked n f = stacked n f := by
      funext k
      rw [mulVec_stacked_tangent]
      have hz : ∀ i, tangentMatrix t.1 t.2 *ᵥ ![-(n.2 * f i), n.1 * f i] = ![-(n.2 * f i), n.1 * f i] := fun i =>
        (C27_selects_normal_component ht (n.1 * f i) (n.2 * f i)).2.2 (by linear_combination f i * hn)
      rcases k with i | i <;> simp [hz, stacked]
    rw [Matrix.sub_mulVec, ← Matrix.mulVec_mulVec, hP, mulVec_stacked_diag, mulVec_stacked_diag, Matrix.sub_mulVec, hf,
      Matrix.mulVec_mulVec g B⁻¹, Matrix.nonsing_inv_mul _ hu, Matrix.one_mulVec]
    funext k
    rcases k with i | i <;> simp [stacked] <;> ring

/-- **C94** When the matrix exists: the grid resolves the expansion, the permittivity has no zero and the convolution matrix of its
reciprocal is invertible. -/
theorem C94_succeeds_iff {G : ι → ℤ × ℤ} (hG : Function.Injective G) {eps : Grid nx ny} {l : LatticeVectors}
    {fn : Grid nx ny → (ι → ℤ × ℤ) → LatticeVectors → Res (Grid nx ny × Grid nx ny)} {t : ℂ × ℂ}
    (hfn : fn eps G l = .ok (Matrix.of fun _ _ => t.1, Matrix.of fun _ _ => t.2)) :
    (∃ E, transversePermittivityIsotropic l eps G (.vector fn) = .ok E) ↔
      Resolves nx ny G ∧ (∀ r s, eps r s ≠ 0) ∧ IsUnit (convolution G (Matrix.of fun r s => 1 / eps r s)).det := by
  unfold transversePermittivityIsotropic
  simp only [hfn]
  constructor
  · rintro ⟨E, h⟩
    obtain ⟨p, hp, h⟩ := bind_eq_ok.1 h
    obtain rfl := ok_inj.1 hp
    obtain ⟨hr, h0, hu, -⟩ := (transversePermittivityVector_const hG).1 h
    exact ⟨hr, h0, hu⟩
  · rintro ⟨hr, h0, hu⟩
    exact ⟨_, bind_eq_ok.2 ⟨_, rfl, (transversePermittivityVector_const hG).2 ⟨hr, h0, hu, rfl⟩⟩⟩

omit [DecidableEq ι] in
theorem stacked_decompose {t n : ℂ × ℂ} (h : t.1 * n.2 - t.2 * n.1 ≠ 0) (v : ι ⊕ ι → ℂ) :
    ∃ f g, v = stacked t f + stacked n g := by
  refine ⟨fun i => (n.2 * v (.inr i) + n.1 * v (.inl i)) / (t.1 * n.2 - t.2 * n.1),
    fun i => (-t.2 * v (.inr i) - t.1 * v (.inl i)) / (t.1 * n.2 - t.2 * n.1), ?_⟩
  funext k
  rcases k with i | i
  · simp only [stacked, Pi.add_apply, Sum.elim_inl]
    rw [← neg_add, mul_div_assoc', mul_div_assoc', ← add_div, eq_comm, neg_eq_iff_eq_neg, div_eq_iff h]
    ring
  · simp only [stacked, Pi.add_apply, Sum.elim_inr]
    rw [mul_div_assoc', mul_div_assoc', ← add_div, eq_div_iff h]
    ring

/-- **C94** The rules determine the matrix. -/
theorem C94_determined {E E' : Matrix (ι ⊕ ι) (ι ⊕ ι) ℂ} {eps eta : Matrix ι ι ℂ} {t n : ℂ × ℂ} (hu : IsUnit eta.det)
    (htn : t.1 * n.2 - t.2 * n.1 ≠ 0) (h : FactorizationRules E eps eta t n) (h' : FactorizationRules E' eps eta t n) :
    E = E' := by
  have key : ∀ v, E *ᵥ v = E' *ᵥ v := by
    intro v
    obtain ⟨f, g, rfl⟩ := stacked_decompose htn v
    have hg : eta *ᵥ (eta⁻¹ *ᵥ g) = g := by
      rw [Matrix.mulVec_mulVec, Matrix.mul_nonsing_inv _ hu, Matrix.one_mulVec]
    rw [Matrix.mulVec_add, Matrix.mulVec_add, h.tangential, h'.tangential, h.normal _ _ hg, h'.normal _ _ hg]
  ext i j
  have := congrFun (key (Pi.single j 1)) i
  simpa using this

/-- The matrix of the rules for lines along the second axis. -/
theorem rules_y {eps eta : Matrix ι ι ℂ} (hu : IsUnit eta.det) :
    FactorizationRules (Matrix.fromBlocks eps 0 0 eta⁻¹) eps eta (0, 1) (1, 0) := by
  constructor
  · intro f
    unfold stacked
    rw [Matrix.fromBlocks_mulVec]
    funext k
    rcases k with i | i <;> simp [Matrix.mulVec, dotProduct]
  · rintro _ g rfl
    have hg : eta⁻¹ *ᵥ (eta *ᵥ g) = g := by
      rw [Matrix.mulVec_mulVec, Matrix.nonsing_inv_mul _ hu, Matrix.one_mulVec]
    unfold stacked
    rw [Matrix.fromBlocks_mulVec]
    funext k
    rcases k with i | i
    · simp [Matrix.mulVec, dotProduct]
    · simpa [Function.comp_def] using congrFun hg i

/-- The matrix of the rules for lines along the first axis. -/
theorem rules_x {eps eta : Matrix ι ι ℂ} (hu : IsUnit eta.det) :
    FactorizationRules (Matrix.fromBlocks eta⁻¹ 0 0 eps) eps eta (1, 0) (0, 1) := by
  constructor
  · intro f
    unfold stacked
    rw [Matrix.fromBlocks_mulVec]
    funext k
    rcases k with i | i <;> simp [Matrix.mulVec, dotProduct]
  · rintro _ g rfl
    have hg : eta⁻¹ *ᵥ (eta *ᵥ g) = g := by
      rw [Matrix.mulVec_mulVec, Matrix.nonsing_inv_mul _ hu, Matrix.one_mulVec]
    unfold stacked
    rw [Matrix.fromBlocks_mulVec]
    funext k
    rcases k with i | i
    · have e : (fun i => -(1 * (eta *ᵥ g) i)) = -(eta *ᵥ g) := by funext i; simp
      simp only [Sum.elim_comp_inl, e, Matrix.mulVec_neg, hg]
      simp [Matrix.mulVec, dotProduct]
    · simp [Matrix.mulVec, dotProduct]

/-! ### Named schemes -/

theorem magnitude_real_unit {t : Fin 2 → ℝ} (h : t 0 ^ 2 + t 1 ^ 2 = 1) : magnitude (fun c => (t c : ℂ)) = 1 := by
  unfold magnitude
  simp only [Complex.norm_real, Real.norm_eq_abs, sq_abs, h, Real.sqrt_one]

/-- If the tangent field is a constant real unit vector, every method returns it up to a phase. -/
theorem computeField_const {x : Grid nx ny} {G : ι → ℤ × ℤ} {l : LatticeVectors} {fw sw : ℝ} (hx : 0 < nx) (hy : 0 < ny)
    {d : Fin 2 → ℝ} (hd : d 0 ^ 2 + d 1 ^ 2 = 1)
    (h : ∀ b, ∃ σ : ℝ, (σ = 1 ∨ σ = -1) ∧ computeTangentFieldNoBatch x G l b fw sw 1 = .ok fun _ _ c => ((σ * d c : ℝ) : ℂ))
    (method : VectorMethod) : ∃ c : ℂ, ‖c‖ = 1 ∧ computeField method x G l fw sw = .ok fun _ _ k => c * (d k : ℂ) := by
  classical
  have hreal : ∀ σ : ℝ, σ = 1 ∨ σ = -1 → ‖(σ : ℂ)‖ = 1 := by
    rintro σ (rfl | rfl) <;> simp
  have hmag : ∀ σ : ℝ, σ = 1 ∨ σ = -1 → magnitude (fun c => ((σ * d c : ℝ) : ℂ)) = 1 := by
    rintro σ hσ
    refine magnitude_real_unit ?_
    have : σ ^ 2 = 1 := by rcases hσ with rfl | rfl <;> norm_num
    rw [mul_pow, mul_pow, ← mul_add, hd, this, one_mul]
  obtain ⟨σ, hσ, hb⟩ := h true
  obtain ⟨σ', hσ', hb'⟩ := h false
  cases method
  · exact ⟨σ, hreal σ hσ, by unfold computeField; rw [hb]; simp⟩
  · exact ⟨σ', hreal σ' hσ', by unfold computeField; rw [hb']; simp⟩
  · have hmax : maxFieldMagnitude (fun _ _ c => ((σ' * d c : ℝ) : ℂ) : VectorField nx ny) = .ok 1 := by
      rw [maxFieldMagnitude_eq_ok]
      exact ⟨fun _ _ => (hmag σ' hσ').le, ⟨0, hx⟩, ⟨0, hy⟩, hmag σ' hσ'⟩
    have hnorm : normalize (fun _ _ c => ((σ' * d c : ℝ) : ℂ) : VectorField nx ny) = .ok fun _ _ c => ((σ' * d c : ℝ) : ℂ) := by
      rw [normalize_large hmax (by norm_num)]
      simp
    have hclose : ¬ IsClose (1 : ℝ) 0 := fun h' => absurd ((isClose_zero_iff zero_le_one).1 h') (by norm_num)
    set theta : ℝ := angleSafe (((σ' * d 0 : ℝ) : ℂ) + Complex.I * ((σ' * d 1 : ℝ) : ℂ)) with htheta
    refine ⟨Complex.exp (Complex.I * theta) * σ', ?_, ?_⟩
    · rw [norm_mul, hreal σ' hσ', mul_comm Complex.I, Complex.norm_exp_ofReal_mul_I, one_mul]
    unfold computeField
    simp only [hb', bind, Except.bind]
    unfold normalizeJones
    simp only [hnorm, bind, Except.bind]
    refine congrArg Except.ok ?_
    funext i j k
    have hm1 : fieldMagnitude (fun (_ : Fin nx) (_ : Fin ny) c => ((σ' * d c : ℝ) : ℂ)) i j = 1 := by
      rw [fieldMagnitude_eq]
      exact hmag σ' hσ'
    simp only [hm1, hclose, if_false, Complex.ofReal_one, div_one, mul_one, Real.cos_pi, add_neg_cancel, mul_zero,
      Real.cos_zero, Real.sin_zero, Complex.ofReal_zero, sub_zero, add_zero, ← htheta]
    fin_cases k <;> simp <;> ring
  · refine ⟨σ', hreal σ' hσ', ?_⟩
    unfold computeField
    simp only [hb', bind, Except.bind]
    refine congrArg Except.ok ?_
    funext i j
    rw [normalizeElementwise_large (by rw [hmag σ' hσ']; norm_num), hmag σ' hσ']
    funext k
    simp

omit [DecidableEq ι] in
theorem rules_rescale {E : Matrix (ι ⊕ ι) (ι ⊕ ι) ℂ} {eps eta : Matrix ι ι ℂ} {t n : ℂ × ℂ} {c : ℂ} (hc : c ≠ 0)
    (h : FactorizationRules E eps eta (c * t.1, c * t.2) n) : FactorizationRules E eps eta t n := by
  refine ⟨fun f => ?_, h.normal⟩
  have e : ∀ f : ι → ℂ, stacked t f = stacked (c * t.1, c * t.2) (c⁻¹ • f) := by
    intro f
    funext k
    rcases k with i | i <;> simp [stacked] <;> field_simp
  rw [e, h.tangential, Matrix.mulVec_smul, e]

/-- The rules in a vector formulation for which the tangent field is a constant real unit vector. -/
theorem rules_of_scheme {G : ι → ℤ × ℤ} (hG : Function.Injective G) (hr : Resolves nx ny G) {eps : Grid nx ny} {l : LatticeVectors}
    {d : Fin 2 → ℝ} (hd : d 0 ^ 2 + d 1 ^ 2 = 1) (scheme : String × VectorMethod × ℝ × ℝ)
    (h : ∀ b, ∃ σ : ℝ, (σ = 1 ∨ σ = -1) ∧
      computeTangentFieldNoBatch eps G l b scheme.2.2.1 scheme.2.2.2 1 = .ok fun _ _ c => ((σ * d c : ℝ) : ℂ))
    (h0 : ∀ r s, eps r s ≠ 0) (hu : IsUnit (convolution G (Matrix.of fun r s => 1 / eps r s)).det) :
    ∃ E, transversePermittivityIsotropic l eps G (.ofScheme scheme) = .ok E ∧
      FactorizationRules E (convolution G eps) (convolution G (Matrix.of fun r s => 1 / eps r s))
        ((d 0 : ℂ), (d 1 : ℂ)) ((d 1 : ℂ), -(d 0 : ℂ)) := by
  obtain ⟨hx, hy⟩ := hr.pos
  obtain ⟨c, hc, hf⟩ := computeField_const hx hy hd h scheme.2.1
  have hc0 : c ≠ 0 := by rintro rfl; simp at hc
  have hfn : tangentPair scheme.2.1 scheme.2.2.1 scheme.2.2.2 eps G l =
      .ok (Matrix.of fun _ _ => ((c * d 0, c * d 1) : ℂ × ℂ).1, Matrix.of fun _ _ => ((c * d 0, c * d 1) : ℂ × ℂ).2) := by
    unfold tangentPair
    rw [hf]
    rfl
  obtain ⟨E, hE⟩ := (C94_succeeds_iff hG hfn).2 ⟨hr, h0, hu⟩
  refine ⟨E, hE, rules_rescale (t := ((d 0 : ℂ), (d 1 : ℂ))) hc0 (C94_constant_tangent hG hfn ?_ hE ?_)⟩
  · simp only [norm_mul, hc, one_mul, Complex.norm_real, Real.norm_eq_abs, sq_abs, hd]
    norm_num
  · simp only [star_mul', Complex.star_def, Complex.conj_ofReal]
    ring

/-- The gradient of a pattern of lines along the second axis of a rectangular cell. -/
theorem gradient_linesY [NeZero nx] [NeZero ny] {a b : ℝ} (ha : a ≠ 0) (hb : b ≠ 0) (g : Fin nx → ℝ) (c : ℂ) (φ : ℝ) :
    computeGradient (linesY fun r => c + Complex.exp (φ * Complex.I) * g r : Grid nx ny) ⟨(a, 0), (0, b)⟩ =
      .ok fun i j => ![Complex.exp (φ * Complex.I) * (((Matrix.of fun i (_ : Fin ny) => Real.sqrt |a * b| / a * profileSlope g i) i j : ℝ) * Real.cos 0),
        Complex.exp (φ * Complex.I) * (((Matrix.of fun i (_ : Fin ny) => Real.sqrt |a * b| / a * profileSlope g i) i j : ℝ) * Real.sin 0)] := by
  rw [computeGradient_eq_ok]
  have ha' : (a : ℂ) ≠ 0 := by exact_mod_cast ha
  refine ⟨by unfold Independent; simpa using ⟨ha, hb⟩, fun i j => ⟨?_, ?_⟩⟩
  · simp [linesY, profileSlope]
    field_simp
  · simp [linesY]

/-- The gradient of a pattern of lines along the first axis of a rectangular cell. -/
theorem gradient_linesX [NeZero nx] [NeZero ny] {a b : ℝ} (ha : a ≠ 0) (hb : b ≠ 0) (g : Fin ny → ℝ) (c : ℂ) (φ : ℝ) :
    computeGradient (linesX fun r => c + Complex.exp (φ * Complex.I) * g r : Grid nx ny) ⟨(a, 0), (0, b)⟩ =
      .ok fun i j => ![Complex.exp (φ * Complex.I) *
          (((Matrix.of fun (_ : Fin nx) j => Real.sqrt |a * b| / b * profileSlope g j) i j : ℝ) * Real.cos (Real.pi / 2)),
        Complex.exp (φ * Complex.I) *
          (((Matrix.of fun (_ : Fin nx) j => Real.sqrt |a * b| / b * profileSlope g j) i j : ℝ) * Real.sin (Real.pi / 2))] := by
  rw [computeGradient_eq_ok]
  have hb' : (b : ℂ) ≠ 0 := by exact_mod_cast hb
  rw [Real.cos_pi_div_two, Real.sin_pi_div_two]
  refine ⟨by unfold Independent; simpa using ⟨ha, hb⟩, fun i j => ⟨?_, ?_⟩⟩
  · simp [linesX]
  · simp [linesX, profileSlope]
    field_simp

/-- **C94** Lines along the second axis of a rectangular cell, permittivity `c + exp (i φ) g` with a real profile `g` that the
expansion resolves: every named scheme applies the factorization rules for lines of direction `(sin φ, cos φ)`. -/
theorem C94_phase_y [NeZero nx] [NeZero ny] {G : ι → ℤ × ℤ} (hG : Function.Injective G) (hsym : ∀ i, ∃ j, G j = -G i)
    (hr : Resolves nx ny G) {a b : ℝ} (ha : a ≠ 0) (hb : b ≠ 0) (g : Fin nx → ℝ) (c : ℂ) (φ : ℝ)
    {m : ℕ × ℕ} (hm : doubledMinShape G nx ny = .ok m)
    (hv : Visible G (Matrix.of fun i (_ : Fin ny) => Real.sqrt |a * b| / a * profileSlope g i) m.1 m.2)
    {eps : Grid nx ny} (heps : eps = linesY fun r => c + Complex.exp (φ * Complex.I) * g r)
    (h0 : ∀ r s, eps r s ≠ 0) (hu : IsUnit (convolution G (Matrix.of fun r s => 1 / eps r s)).det)
    (scheme : String × VectorMethod × ℝ × ℝ) :
    ∃ E, transversePermittivityIsotropic ⟨(a, 0), (0, b)⟩ eps G (.ofScheme scheme) = .ok E ∧
      FactorizationRules E (convolution G eps) (convolution G (Matrix.of fun r s => 1 / eps r s))
        (Real.sin φ, Real.cos φ) (Real.cos φ, -Real.sin φ) := by
  obtain ⟨r, s, h1⟩ := hv
  have hg := gradient_linesY (ny := ny) ha hb g c φ
  rw [← heps] at hg
  refine rules_of_scheme hG hr (d := ![Real.sin φ, Real.cos φ]) (Real.sin_sq_add_cos_sq φ) scheme (fun b => ?_) h0 hu
  obtain ⟨σ, hσ, h⟩ := tangentField_phase eps G _ b scheme.2.2.1 scheme.2.2.2 1 hG hsym hr _ 0 φ hg hm r s h1
  refine ⟨σ, hσ, h.trans (congrArg Except.ok ?_)⟩
  funext i j k
  fin_cases k <;> simp

/-- **C94** Lines along the first axis of a rectangular cell: every named scheme applies the factorization rules for lines of
direction `(cos φ, -sin φ)`. -/
theorem C94_phase_x [NeZero nx] [NeZero ny] {G : ι → ℤ × ℤ} (hG : Function.Injective G) (hsym : ∀ i, ∃ j, G j = -G i)
    (hr : Resolves nx ny G) {a b : ℝ} (ha : a ≠ 0) (hb : b ≠ 0) (g : Fin ny → ℝ) (c : ℂ) (φ : ℝ)
    {m : ℕ × ℕ} (hm : doubledMinShape G nx ny = .ok m)
    (hv : Visible G (Matrix.of fun (_ : Fin nx) j => Real.sqrt |a * b| / b * profileSlope g j) m.1 m.2)
    {eps : Grid nx ny} (heps : eps = linesX fun s => c + Complex.exp (φ * Complex.I) * g s)
    (h0 : ∀ r s, eps r s ≠ 0) (hu : IsUnit (convolution G (Matrix.of fun r s => 1 / eps r s)).det)
    (scheme : String × VectorMethod × ℝ × ℝ) :
    ∃ E, transversePermittivityIsotropic ⟨(a, 0), (0, b)⟩ eps G (.ofScheme scheme) = .ok E ∧
      FactorizationRules E (convolution G eps) (convolution G (Matrix.of fun r s => 1 / eps r s))
        (Real.cos φ, -Real.sin φ) (-Real.sin φ, -Real.cos φ) := by
  obtain ⟨r, s, h1⟩ := hv
  have hg := gradient_linesX (nx := nx) ha hb g c φ
  rw [← heps] at hg
  have := rules_of_scheme hG hr (eps := eps) (l := ⟨(a, 0), (0, b)⟩) (d := ![Real.cos φ, -Real.sin φ])
    (by simp) scheme (fun b => ?_) h0 hu
  · simpa using this
  obtain ⟨σ, hσ, h⟩ := tangentField_phase eps G _ b scheme.2.2.1 scheme.2.2.2 1 hG hsym hr _ (Real.pi / 2) φ hg hm r s h1
  refine ⟨σ, hσ, h.trans (congrArg Except.ok ?_)⟩
  have e1 : Real.sin (Real.pi / 2 + φ) = Real.cos φ := by rw [add_comm, Real.sin_add_pi_div_two]
  have e2 : Real.cos (Real.pi / 2 + φ) = -Real.sin φ := by rw [add_comm, Real.cos_add_pi_div_two]
  funext i j k
  rw [e1, e2]
  fin_cases k <;> simp

/-- **C94** Transparent gratings with lines along the second axis (the permittivity is a real profile plus a constant): every named
scheme applies the factorization rules for the direction of the lines. -/
theorem C94_lines_y [NeZero nx] [NeZero ny] {G : ι → ℤ × ℤ} (hG : Function.Injective G) (hsym : ∀ i, ∃ j, G j = -G i)
    (hr : Resolves nx ny G) {a b : ℝ} (ha : a ≠ 0) (hb : b ≠ 0) (g : Fin nx → ℝ) (c : ℂ)
    {m : ℕ × ℕ} (hm : doubledMinShape G nx ny = .ok m)
    (hv : Visible G (Matrix.of fun i (_ : Fin ny) => Real.sqrt |a * b| / a * profileSlope g i) m.1 m.2)
    {eps : Grid nx ny} (heps : eps = linesY fun r => c + g r)
    (h0 : ∀ r s, eps r s ≠ 0) (hu : IsUnit (convolution G (Matrix.of fun r s => 1 / eps r s)).det)
    (scheme : String × VectorMethod × ℝ × ℝ) :
    ∃ E, transversePermittivityIsotropic ⟨(a, 0), (0, b)⟩ eps G (.ofScheme scheme) = .ok E ∧
      FactorizationRules E (convolution G eps) (convolution G (Matrix.of fun r s => 1 / eps r s)) (0, 1) (1, 0) := by
  have := C94_phase_y hG hsym hr ha hb g c 0 hm hv (eps := eps) (by simpa using heps) h0 hu scheme
  simpa using this

/-- **C94** Transparent gratings with lines along the first axis. -/
theorem C94_lines_x [NeZero nx] [NeZero ny] {G : ι → ℤ × ℤ} (hG : Function.Injective G) (hsym : ∀ i, ∃ j, G j = -G i)
    (hr : Resolves nx ny G) {a b : ℝ} (ha : a ≠ 0) (hb : b ≠ 0) (g : Fin ny → ℝ) (c : ℂ)
    {m : ℕ × ℕ} (hm : doubledMinShape G nx ny = .ok m)
    (hv : Visible G (Matrix.of fun (_ : Fin nx) j => Real.sqrt |a * b| / b * profileSlope g j) m.1 m.2)
    {eps : Grid nx ny} (heps : eps = linesX fun s => c + g s)
    (h0 : ∀ r s, eps r s ≠ 0) (hu : IsUnit (convolution G (Matrix.of fun r s => 1 / eps r s)).det)
    (scheme : String × VectorMethod × ℝ × ℝ) :
    ∃ E, transversePermittivityIsotropic ⟨(a, 0), (0, b)⟩ eps G (.ofScheme scheme) = .ok E ∧
      FactorizationRules E (convolution G eps) (convolution G (Matrix.of fun r s => 1 / eps r s)) (1, 0) (0, -1) := by
  have := C94_phase_x hG hsym hr ha hb g c 0 hm hv (eps := eps) (by simpa using heps) h0 hu scheme
  simpa using this

/-- **C94** is false for gratings whose lines differ in absorption only: with lines along the second axis every named scheme applies
the rules for lines along the first axis, that is, each rule to the wrong component. -/
theorem C94_finding_absorption [NeZero nx] [NeZero ny] {G : ι → ℤ × ℤ} (hG : Function.Injective G) (hsym : ∀ i, ∃ j, G j = -G i)
    (hr : Resolves nx ny G) {a b : ℝ} (ha : a ≠ 0) (hb : b ≠ 0) (g : Fin nx → ℝ) (c : ℂ)
    {m : ℕ × ℕ} (hm : doubledMinShape G nx ny = .ok m)
    (hv : Visible G (Matrix.of fun i (_ : Fin ny) => Real.sqrt |a * b| / a * profileSlope g i) m.1 m.2)
    {eps : Grid nx ny} (heps : eps = linesY fun r => c + Complex.I * g r)
    (h0 : ∀ r s, eps r s ≠ 0) (hu : IsUnit (convolution G (Matrix.of fun r s => 1 / eps r s)).det)
    (scheme : String × VectorMethod × ℝ × ℝ) :
    ∃ E, transversePermittivityIsotropic ⟨(a, 0), (0, b)⟩ eps G (.ofScheme scheme) = .ok E ∧
      FactorizationRules E (convolution G eps) (convolution G (Matrix.of fun r s => 1 / eps r s)) (1, 0) (0, -1) := by
  have := C94_phase_y hG hsym hr ha hb g c (Real.pi / 2) hm hv (eps := eps)
    (by rw [heps]; simp [Complex.exp_pi_div_two_mul_I]) h0 hu scheme
  simpa using this

/-! ### Modes of a grating in the classical mount -/

omit [Fintype ι] [DecidableEq ι] in
theorem fromBlocks_sub_blocks (A B C D A' B' C' D' : Matrix ι ι ℂ) :
    Matrix.fromBlocks A B C D - Matrix.fromBlocks A' B' C' D' = Matrix.fromBlocks (A - A') (B - B') (C - C') (D - D') := by
  ext i j
  rcases i with i | i <;> rcases j with j | j <;> rfl

/-- **C94** Modes of a grating with lines along the second axis and no wavevector along the lines: they solve the scalar equations for
the two polarisations.  With the field along the lines, `(ω² ⟦ε⟧ - kx²) a = q² a`; with the field across the lines,
`⟦1/ε⟧ (q² b) = (ω² - kx ⟦ε⟧⁻¹ kx) b`.  Here `a` and `b` are the coefficients of the two components of the magnetic field. -/
theorem C94_modes {eig : Matrix (ι ⊕ ι) (ι ⊕ ι) ℂ → (ι ⊕ ι → ℂ) × Matrix (ι ⊕ ι) (ι ⊕ ι) ℂ} (he : IsEig eig)
    {wavelength : ℝ} {inPlane : ℝ × ℝ} {l : LatticeVectors} {eps : Grid nx ny} {G : ι → ℤ × ℤ} {formulation : Formulation nx ny ι}
    {r : LayerSolveResult ι} (h : eigensolvePatternedIsotropic eig wavelength inPlane l eps G formulation = .ok r)
    {E : Matrix (ι ⊕ ι) (ι ⊕ ι) ℂ} (hE : transversePermittivityIsotropic l eps G formulation = .ok E)
    (hu : IsUnit (convolution G (Matrix.of fun r s => 1 / eps r s)).det)
    (hrules : FactorizationRules E (convolution G eps) (convolution G (Matrix.of fun r s => 1 / eps r s)) (0, 1) (1, 0))
    (hk : ∀ i, (orderWavevector r i).2 = 0) (j : ι ⊕ ι) :
    (∀ i, (2 * Real.pi / wavelength : ℂ) ^ 2 * (convolution G eps *ᵥ fun i => r.eigenvectors (.inl i) j) i -
        ((orderWavevector r i).1 : ℂ) ^ 2 * r.eigenvectors (.inl i) j = r.eigenvalues j ^ 2 * r.eigenvectors (.inl i) j) ∧
    ∃ x, (∀ i, (convolution G eps *ᵥ x) i = ((orderWavevector r i).1 : ℂ) * r.eigenvectors (.inr i) j) ∧
      ∀ i, (convolution G (Matrix.of fun r s => 1 / eps r s) *ᵥ fun i => r.eigenvalues j ^ 2 * r.eigenvectors (.inr i) j) i =
        (2 * Real.pi / wavelength : ℂ) ^ 2 * r.eigenvectors (.inr i) j - ((orderWavevector r i).1 : ℂ) * x i := by
  obtain rfl := C94_determined hu (by simp) hrules (rules_y hu)
  unfold eigensolvePatternedIsotropic at h
  obtain ⟨m, hm, h⟩ := bind_eq_ok.1 h
  unfold fourierMatricesPatternedIsotropic at hm
  simp only [bind_eq_ok, hE, ok_inj, fourierConvolutionMatrix_ok_iff, recipGrid_ok_iff] at hm
  obtain ⟨_, rfl, _, ⟨h0, rfl⟩, _, ⟨hr, rfl⟩, _, ⟨-, rfl⟩, rfl⟩ := hm
  obtain ⟨hw, -, hmode, -⟩ := numericalEigensolve_modes he h
  obtain ⟨k, A, -, -, rfl⟩ := numericalEigensolve_ok_iff.1 h
  set q : ι ⊕ ι → ℂ := fun i => selectEigenvaluesSign (csqrt ((eig A).1 i))
  set V := (eig A).2
  set L : LayerSolveResult ι := solvedLayer wavelength inPlane l _ G q V with hL
  set X := convolution G eps
  set Y := convolution G (Matrix.of fun r s => 1 / eps r s)
  have hz : L.zPermittivityMatrix = X := rfl
  have hzu : IsUnit X.det := hw.2.2
  have hν : L.zPermeabilityMatrix = 1 := by
    show diag (fun _ => (1 : ℂ)) = 1
    rw [diag_eq, Matrix.diagonal_one]
  have hM : L.transversePermeabilityMatrix = 1 := by
    show Matrix.fromBlocks (diag fun _ => (1 : ℂ)) (diag fun _ => 0) (diag fun _ => 0) (diag fun _ => 1) = 1
    simp only [diag_eq, Matrix.diagonal_one, Matrix.diagonal_zero, Matrix.fromBlocks_one]
  have hω : (omega L : ℂ) = 2 * Real.pi / wavelength := by
    show ((2 * Real.pi / wavelength : ℝ) : ℂ) = _
    push_cast
    ring
  set kx : ι → ℂ := fun i => ((orderWavevector L i).1 : ℂ) with hkx
  have hky : (fun i => ((orderWavevector L i).2 : ℂ)) = 0 := by funext i; simp [hk i]
  have hF : magneticToElectric L = Matrix.fromBlocks (((omega L : ℂ) ^ 2) • 1) 0 0
      (((omega L : ℂ) ^ 2) • 1 - diagonal kx * X⁻¹ * diagonal kx) := by
    unfold magneticToElectric
    simp only [hM, hz, hky, Matrix.diagonal_zero', Matrix.zero_mul, Matrix.mul_zero, neg_zero]
    rw [← Matrix.fromBlocks_one, Matrix.fromBlocks_smul, fromBlocks_sub_blocks]
    simp
    rfl
  have hD : divergenceMatrix L * L.transversePermeabilityMatrix = Matrix.fromBlocks (diagonal kx * diagonal kx) 0 0 0 := by
    unfold divergenceMatrix
    simp only [hM, hν, inv_one, Matrix.mul_one, hky, Matrix.diagonal_zero', Matrix.zero_mul, Matrix.mul_zero]
    rfl
  unfold ModeEquation at hmode
  rw [hF, hD, Matrix.fromBlocks_multiply, fromBlocks_sub_blocks] at hmode
  simp only [Matrix.mul_zero, Matrix.zero_mul, add_zero, zero_add, sub_zero, sub_self] at hmode
  have hcol : ∀ k, ((Matrix.fromBlocks (X * ((omega L : ℂ) ^ 2 • 1) - diagonal kx * diagonal kx) 0 0
      (Y⁻¹ * ((omega L : ℂ) ^ 2 • 1 - diagonal kx * X⁻¹ * diagonal kx))) *ᵥ fun k => V k j) k = q j ^ 2 * V k j := by
    intro k
    have := congrFun (congrFun hmode k) j
    rw [Matrix.mul_diagonal] at this
    rw [mul_comm (q j ^ 2)]
    exact this
  have hsplit : (fun k => V k j) = Sum.elim (fun i => V (.inl i) j) (fun i => V (.inr i) j) := by
    funext k; rcases k with i | i <;> rfl
  rw [hsplit, Matrix.fromBlocks_mulVec] at hcol
  simp only [Sum.elim_comp_inl, Sum.elim_comp_inr, Matrix.zero_mulVec, add_zero, zero_add] at hcol
  set a : ι → ℂ := fun i => V (.inl i) j
  set b : ι → ℂ := fun i => V (.inr i) j
  rw [← hω]
  refine ⟨fun i => ?_, X⁻¹ *ᵥ (fun i => kx i * b i), fun i => ?_, fun i => ?_⟩
  · have := hcol (.inl i)
    simp only [Sum.elim_inl, Matrix.sub_mulVec, Pi.sub_apply, Matrix.mul_smul, Matrix.mul_one, Matrix.smul_mulVec, Pi.smul_apply,
      smul_eq_mul, Matrix.diagonal_mul_diagonal, Matrix.mulVec_diagonal] at this
    rw [← pow_two] at this
    exact this
  · rw [Matrix.mulVec_mulVec, Matrix.mul_nonsing_inv _ hzu, Matrix.one_mulVec]
    rfl
  · have hb : (Y⁻¹ * ((omega L : ℂ) ^ 2 • 1 - diagonal kx * X⁻¹ * diagonal kx)) *ᵥ b = fun i => q j ^ 2 * b i := by
      funext i
      exact hcol (.inr i)
    have hb' := congrArg (fun v => Y *ᵥ v) hb
    simp only [Matrix.mulVec_mulVec, ← Matrix.mul_assoc, Matrix.mul_nonsing_inv _ hu, Matrix.one_mul] at hb'
    have := congrFun hb' i
    refine this.symm.trans ?_
    have e : (fun i => kx i * b i) = diagonal kx *ᵥ b := by funext i; rw [Matrix.mulVec_diagonal]
    rw [e, Matrix.mulVec_mulVec, Matrix.sub_mulVec, Pi.sub_apply, Matrix.smul_mulVec, Matrix.one_mulVec, Pi.smul_apply, smul_eq_mul,
      Matrix.mul_assoc, ← Matrix.mulVec_mulVec b (diagonal kx), Matrix.mulVec_diagonal]
    rfl

/-! ### A single order -/

theorem sum_central (n : ℕ) [NeZero n] (f : Fin n → ℂ) : ∑ i, (f (i + 1) - f (i - 1)) / 2 = 0 := by
  have h1 : ∑ i, f (i + 1) = ∑ i, f i := Equiv.sum_comp (Equiv.addRight (1 : Fin n)) f
  have h2 : ∑ i, f (i - 1) = ∑ i, f i := Equiv.sum_comp (Equiv.subRight (1 : Fin n)) f
  rw [← Finset.sum_div, Finset.sum_sub_distrib, h1, h2, sub_self, zero_div]

/-- The gradient has mean zero. -/
theorem gradient_mean [NeZero nx] [NeZero ny] {x : Grid nx ny} {l : LatticeVectors} {g : VectorField nx ny}
    (h : computeGradient x l = .ok g) (c : Fin 2) : ∑ i, ∑ j, g i j c = 0 := by
  obtain ⟨hl, h⟩ := computeGradient_eq_ok.1 h
  have h1 : (l.u.1 : ℂ) * ∑ i, ∑ j, g i j 0 + l.u.2 * ∑ i, ∑ j, g i j 1 = 0 := by
    simp only [Finset.mul_sum, ← Finset.sum_add_distrib]
    simp only [(h _ _).1, ← Finset.mul_sum]
    rw [Finset.sum_comm, Finset.sum_eq_zero fun j _ => sum_central nx fun i => x i j, mul_zero]
  have h2 : (l.v.1 : ℂ) * ∑ i, ∑ j, g i j 0 + l.v.2 * ∑ i, ∑ j, g i j 1 = 0 := by
    simp only [Finset.mul_sum, ← Finset.sum_add_distrib]
    simp only [(h _ _).2, ← Finset.mul_sum]
    simp only [sum_central ny (x _), Finset.sum_const_zero, mul_zero]
  have hd : (l.u.1 * l.v.2 - l.u.2 * l.v.1 : ℂ) ≠ 0 := by
    unfold Independent at hl
    exact_mod_cast hl
  fin_cases c
  · refine (mul_eq_zero.1 (?_ : (l.u.1 * l.v.2 - l.u.2 * l.v.1 : ℂ) * _ = 0)).resolve_left hd
    simp only [Fin.zero_eta]
    linear_combination l.v.2 * h1 - l.u.2 * h2
  · refine (mul_eq_zero.1 (?_ : (l.u.1 * l.v.2 - l.u.2 * l.v.1 : ℂ) * _ = 0)).resolve_left hd
    simp only [Fin.mk_one]
    linear_combination l.u.1 * h2 - l.v.1 * h1

theorem fourierCoefficient_zero (x : Grid nx ny) : fourierCoefficient x 0 = gridMean x := by
  unfold fourierCoefficient gridMean
  simp [planeWave]

/-- With the zero order alone every method returns the second axis as the tangent, whatever the pattern. -/
theorem tangentField_single [NeZero nx] [NeZero ny] {G : ι → ℤ × ℤ} (hG : Function.Injective G) (hG0 : ∀ i, G i = 0)
    (hr : Resolves nx ny G) (x : Grid nx ny) {l : LatticeVectors} (hl : Independent l.u l.v) (b : Bool) (fw sw : ℝ) (n : ℕ) :
    computeTangentFieldNoBatch x G l b fw sw n = .ok fun _ _ c => ((1 * (![0, 1] : Fin 2 → ℝ) c : ℝ) : ℂ) := by
  classical
  obtain ⟨g, hg⟩ := computeGradient_exists x hl
  have hcard : Fintype.card ι ≠ 0 := by
    have := hr.1
    exact Fintype.card_ne_zero
  obtain ⟨m, hm⟩ : ∃ m, doubledMinShape G nx ny = .ok m := by
    unfold doubledMinShape minArrayShapeForExpansion
    rw [if_neg hcard]
    exact ⟨_, rfl⟩
  have hmr := doubledMinShape_resolves hm
  obtain ⟨hmx, hmy⟩ := hmr.pos
  have hband : bandlimitedGradient x G l m.1 m.2 = .ok 0 := by
    rw [bandlimitedGradient_eq hG hg hr hmr]
    refine congrArg Except.ok ?_
    funext r s c
    unfold fourierSeries
    simp only [hG0, fourierCoefficient_zero, gridMean, Matrix.of_apply, gradient_mean hg c, zero_div, zero_mul,
      Finset.sum_const_zero]
    rfl
  have hzero : maxFieldMagnitude (0 : VectorField m.1 m.2) = .ok 0 := by
    rw [maxFieldMagnitude_eq_ok]
    have : magnitude (0 : Fin 2 → ℂ) = 0 := by simp [magnitude]
    exact ⟨fun _ _ => this.le, ⟨0, hmx⟩, ⟨0, hmy⟩, this⟩
  have hfil : filteredGradient x G l m.1 m.2 = .ok 0 := by
    unfold filteredGradient
    rw [hband]
    exact normalize_small hzero (by norm_num)
  have h1d : ∃ P : Prop, is1dField (0 : VectorField m.1 m.2) = .ok (P, 0) ∧ P := by
    have hmax : fieldAtMaxMagnitude (0 : VectorField m.1 m.2) = .ok 0 := by
      unfold fieldAtMaxMagnitude
      cases h : (List.finRange m.1 ×ˢ List.finRange m.2).argmax (fun p => fieldMagnitude (0 : VectorField m.1 m.2) p.1 p.2) with
      | some p => rfl
      | none =>
        rw [List.argmax_eq_none] at h
        have : ((⟨0, hmx⟩, ⟨0, hmy⟩) : Fin m.1 × Fin m.2) ∈ List.finRange m.1 ×ˢ List.finRange m.2 :=
          List.mem_product.2 ⟨List.mem_finRange _, List.mem_finRange _⟩
        rw [h] at this
        simp at this
    have hang : angleSafe ((0 : Fin 2 → ℂ) 0 + Complex.I * (0 : Fin 2 → ℂ) 1) = 0 := by
      unfold angleSafe
      have : IsClose (0 : ℂ) 0 := isClose_zero_complex.2 (by norm_num)
      simp [this]
    unfold is1dField
    rw [hmax]
    refine ⟨_, by simp only [bind, Except.bind, hang]; rfl, Or.inl fun i j => Or.inl ?_⟩
    have : fieldMagnitude (0 : VectorField m.1 m.2) i j = 0 := by simp [fieldMagnitude]
    rw [this, isClose_zero_iff le_rfl]
    norm_num
  obtain ⟨P, hP, hP'⟩ := h1d
  unfold computeTangentFieldNoBatch
  rw [if_neg hcard, hm]
  simp only [bind, Except.bind]
  rw [hfil]
  simp only
  unfold tangentFieldOfGradient
  rw [hP]
  simp only [bind, Except.bind, if_pos hP', Real.sin_zero, Real.cos_zero]
  have hunit : maxFieldMagnitude (fun _ _ => ![((0 : ℝ) : ℂ), ((1 : ℝ) : ℂ)] : VectorField nx ny) = .ok 1 := by
    rw [maxFieldMagnitude_eq_ok]
    have : magnitude ![((0 : ℝ) : ℂ), ((1 : ℝ) : ℂ)] = 1 := by simp [magnitude]
    exact ⟨fun _ _ => this.le, ⟨0, NeZero.pos nx⟩, ⟨0, NeZero.pos ny⟩, this⟩
  rw [normalize_large hunit (by norm_num)]
  refine congrArg Except.ok ?_
  funext i j c
  fin_cases c <;> simp

/-- **C94** is false for expansions with the zero order alone: whatever the pattern, every named scheme applies the rules for lines along
the second axis. -/
theorem C94_finding_single_order [NeZero nx] [NeZero ny] {G : ι → ℤ × ℤ} (hG : Function.Injective G) (hG0 : ∀ i, G i = 0)
    (hr : Resolves nx ny G) {eps : Grid nx ny} {l : LatticeVectors} (hl : Independent l.u l.v)
    (h0 : ∀ r s, eps r s ≠ 0) (hu : IsUnit (convolution G (Matrix.of fun r s => 1 / eps r s)).det)
    (scheme : String × VectorMethod × ℝ × ℝ) :
    ∃ E, transversePermittivityIsotropic l eps G (.ofScheme scheme) = .ok E ∧
      FactorizationRules E (convolution G eps) (convolution G (Matrix.of fun r s => 1 / eps r s)) (0, 1) (1, 0) := by
  have := rules_of_scheme hG hr (eps := eps) (l := l) (d := ![0, 1]) (by simp) scheme
    (fun b => ⟨1, Or.inl rfl, tangentField_single hG hG0 hr eps hl b scheme.2.2.1 scheme.2.2.2 1⟩) h0 hu
  simpa using this

/-- **C94** With the zero order alone and a tangent field along the second axis a patterned layer has the modes of a homogeneous
birefringent medium: the permittivity along the lines and along `z` is the mean of the permittivity, the permittivity across them
the reciprocal of the mean of its reciprocal.  Only the matrix for the reciprocal permittivity along `z`, used for the reported
`Ez`, is another: the mean of the reciprocal permittivity. -/
theorem C94_effective_medium {eig : Matrix (ι ⊕ ι) (ι ⊕ ι) ℂ → (ι ⊕ ι → ℂ) × Matrix (ι ⊕ ι) (ι ⊕ ι) ℂ}
    {G : ι → ℤ × ℤ} (hG : Function.Injective G) (hG0 : ∀ i, G i = 0) {wavelength : ℝ} {inPlane : ℝ × ℝ} {l : LatticeVectors}
    {eps : Grid nx ny} {formulation : Formulation nx ny ι} {E : Matrix (ι ⊕ ι) (ι ⊕ ι) ℂ}
    (hE : transversePermittivityIsotropic l eps G formulation = .ok E)
    (hrules : FactorizationRules E (convolution G eps) (convolution G (Matrix.of fun r s => 1 / eps r s)) (0, 1) (1, 0))
    (h1 : gridMean eps ≠ 0) (h2 : gridMean (Matrix.of fun r s => 1 / eps r s) ≠ 0)
    {r : LayerSolveResult ι} (h : eigensolvePatternedIsotropic eig wavelength inPlane l eps G formulation = .ok r) :
    r.inverseZPermittivityMatrix = gridMean (Matrix.of fun r s => 1 / eps r s) • 1 ∧
    eigensolveUniformAnisotropic eig wavelength inPlane l
      { xx := Matrix.of fun _ _ => (gridMean (Matrix.of fun r s => 1 / eps r s))⁻¹, xy := 0, yx := 0,
        yy := Matrix.of fun _ _ => gridMean eps, zz := Matrix.of fun _ _ => gridMean eps }
      { xx := Matrix.of fun _ _ => 1, xy := 0, yx := 0, yy := Matrix.of fun _ _ => 1, zz := Matrix.of fun _ _ => 1 } G =
      .ok { r with inverseZPermittivityMatrix := (gridMean eps)⁻¹ • 1 } := by
  have hconv : ∀ x : Grid nx ny, convolution G x = gridMean x • 1 := by
    intro x
    ext i j
    have hij : i = j := hG ((hG0 i).trans (hG0 j).symm)
    subst hij
    simp [convolution, fourierCoefficient_zero]
  have hinv : ∀ c : ℂ, c ≠ 0 → (c • (1 : Matrix ι ι ℂ))⁻¹ = c⁻¹ • 1 := by
    intro c hc
    refine Matrix.inv_eq_right_inv ?_
    rw [Matrix.smul_mul, Matrix.one_mul, smul_smul, mul_inv_cancel₀ hc, one_smul]
  have hdet : IsUnit (convolution G (Matrix.of fun r s => 1 / eps r s)).det := by
    rw [hconv, Matrix.det_smul, Matrix.det_one, mul_one, isUnit_iff_ne_zero]
    exact pow_ne_zero _ h2
  obtain rfl := C94_determined hdet (by simp) hrules (rules_y hdet)
  unfold eigensolvePatternedIsotropic at h
  obtain ⟨m, hm, h⟩ := bind_eq_ok.1 h
  unfold fourierMatricesPatternedIsotropic at hm
  simp only [bind_eq_ok, hE, ok_inj, fourierConvolutionMatrix_ok_iff, recipGrid_ok_iff] at hm
  obtain ⟨_, rfl, _, ⟨h0, rfl⟩, _, ⟨hr, rfl⟩, _, ⟨-, rfl⟩, rfl⟩ := hm
  obtain ⟨k, A, hk, hA, rfl⟩ := numericalEigensolve_ok_iff.1 h
  have hdiag : ∀ c : ℂ, diag (fun _ : ι => c) = c • 1 := by
    intro c
    rw [diag_eq, Matrix.smul_one_eq_diagonal]
  refine ⟨hconv _, ?_⟩
  unfold eigensolveUniformAnisotropic fourierMatricesUniformAnisotropic
  rw [if_neg (by simp [h1])]
  simp only [bind, Except.bind]
  rw [numericalEigensolve_ok_iff]
  refine ⟨k, A, hk, ?_, ?_⟩
  · refine Eq.trans ?_ hA
    unfold eigenproblemMatrix
    simp only [Matrix.of_apply, hconv, hinv _ h2, hdiag, Matrix.zero_apply, neg_zero, zero_smul]
  · simp only [solvedLayer, Matrix.of_apply, hconv, hdiag, Matrix.zero_apply, zero_smul, one_div, inv_one]

/-! ### Witnesses -/

/-- A matrix that follows the rules for both directions exists only if the two convolution matrices are inverse to each other. -/
theorem rules_conflict {E : Matrix (ι ⊕ ι) (ι ⊕ ι) ℂ} {eps eta : Matrix ι ι ℂ} {c : ℂ} (hc : c ≠ 0)
    (h : FactorizationRules E eps eta (0, 1) (1, 0)) (h' : FactorizationRules E eps eta (1, 0) (0, c)) : eps * eta = 1 := by
  have key : ∀ g, (eps * eta) *ᵥ g = g := by
    intro g
    have h1 := h.tangential (c • (eta *ᵥ g))
    have h2 := h'.normal _ g rfl
    have e : stacked (0, 1) (c • (eta *ᵥ g)) = stacked (0, c) (eta *ᵥ g) := by
      funext k
      rcases k with i | i <;> simp [stacked]
    rw [e, h2, Matrix.mulVec_smul, Matrix.mulVec_mulVec] at h1
    funext i
    have := congrFun h1 (.inl i)
    simp only [stacked, Sum.elim_inl, one_mul, neg_inj, Pi.smul_apply, smul_eq_mul] at this
    exact (mul_left_cancel₀ hc this).symm
  ext i j
  have := congrFun (key (Pi.single j 1)) i
  simpa [Matrix.one_apply, Pi.single_apply, eq_comm] using this

/-- The slope of the witness gratings. -/
theorem quarterCos_slope (i : Fin 4) : profileSlope quarterCos i = 4 * quarterSin i := by
  unfold profileSlope
  fin_cases i
  · show _ * ((quarterCos 1 - quarterCos 3) / 2) = _
    simp [quarterCos, quarterSin]
  · show _ * ((quarterCos 2 - quarterCos 0) / 2) = _
    simp [quarterCos, quarterSin]
    norm_num
  · show _ * ((quarterCos 3 - quarterCos 1) / 2) = _
    simp [quarterCos, quarterSin]
  · show _ * ((quarterCos 0 - quarterCos 2) / 2) = _
    simp [quarterCos, quarterSin]

theorem quarter_visible : Visible (gratingOrders (1, 0))
    (Matrix.of fun i (_ : Fin 4) => Real.sqrt |(1 : ℝ) * 1| / 1 * profileSlope quarterCos i) 6 2 := by
  obtain ⟨d, -, -, -, -, -, -, h7⟩ := axisGrating_hypotheses
  refine ⟨1, 0, ?_⟩
  have e : (Matrix.of fun i (_ : Fin 4) => Real.sqrt |(1 : ℝ) * 1| / 1 * profileSlope quarterCos i : Matrix (Fin 4) (Fin 4) ℝ) =
      Matrix.of fun i _ => 4 * quarterSin i := by
    ext i j
    simp [quarterCos_slope]
  rw [e]
  exact grating_bandlimited (g := (1, 0)) rfl (by norm_num) (fun i _ => (i : ℕ)) (fun i _ => i) 4
      (by rw [abs_of_pos (by norm_num)]; norm_num)
      (fun i j => by
        rw [← exp_quarter]
        unfold planeWave
        congr 1
        push_cast
        ring) (fun i j => Nat.mod_eq_of_lt i.2) (my := 2)

/-- A convolution matrix is invertible if the function has positive real part. -/
theorem convolution_isUnit {G : ι → ℤ × ℤ} (hG : Function.Injective G) (hr : Resolves nx ny G) {x : Grid nx ny}
    (hx : ∀ r s, 0 < (x r s).re) : IsUnit (convolution G x).det :=
  isUnit_det_of_re_form_pos _ (convolution_form_re_pos x hr hG hx)

/-- The transparent grating of the example: permittivity between 2 and 4. -/
noncomputable def glassGrating : Grid 4 4 := linesY fun r => 3 + (quarterCos r : ℂ)

theorem glassGrating_re (r s : Fin 4) : 0 < (glassGrating r s).re := by
  fin_cases r <;> simp [glassGrating, linesY, quarterCos] <;> norm_num

theorem recip_re_pos {z : ℂ} (hz : 0 < z.re) : 0 < (1 / z).re := by
  rw [one_div, Complex.inv_re]
  exact div_pos hz (Complex.normSq_pos.2 (by rintro rfl; simp at hz))

example (scheme : String × VectorMethod × ℝ × ℝ) :
    ∃ E, transversePermittivityIsotropic ⟨(1, 0), (0, 1)⟩ glassGrating (gratingOrders (1, 0)) (.ofScheme scheme) = .ok E ∧
      FactorizationRules E (convolution (gratingOrders (1, 0)) glassGrating)
        (convolution (gratingOrders (1, 0)) (Matrix.of fun r s => 1 / glassGrating r s)) (0, 1) (1, 0) := by
  obtain ⟨d, h1, h2, h3, h4, h5, h6, h7⟩ := axisGrating_hypotheses
  refine C94_lines_y h1 h2 h3 one_ne_zero one_ne_zero quarterCos 3 h6 quarter_visible rfl ?_ ?_ scheme
  · intro r s h
    change glassGrating r s = 0 at h
    have := glassGrating_re r s
    rw [h] at this
    simp at this
  · exact convolution_isUnit h1 h3 fun r s => recip_re_pos (glassGrating_re r s)

theorem absorbingGrating_re (r s : Fin 4) : 0 < (absorbingGrating r s).re := by
  simp [absorbingGrating]

theorem planeWave_quarter (n : ℤ) (r s : ℕ) : planeWave 4 4 (n, 0) r s = Complex.I ^ (n * r) := by
  have h : Complex.I ^ (n * r) = Complex.exp (Real.pi / 2 * Complex.I) ^ (n * r) := by rw [Complex.exp_pi_div_two_mul_I]
  rw [h, ← Complex.exp_int_mul]
  unfold planeWave
  congr 1
  push_cast
  ring

theorem coefficient_quarter (f : Fin 4 → ℂ) (n : ℤ) : fourierCoefficient (linesY f : Grid 4 4) (n, 0) =
    (f 0 + f 1 * Complex.I ^ (-n) + f 2 * Complex.I ^ (-n * 2) + f 3 * Complex.I ^ (-n * 3)) / 4 := by
  unfold fourierCoefficient
  have h : ∀ r s : Fin 4, (linesY f : Grid 4 4) r s * planeWave 4 4 (-(n, 0)) r s = f r * Complex.I ^ (-n * (r : ℕ)) := by
    intro r s
    have : (-(n, 0) : ℤ × ℤ) = (-n, 0) := by simp
    rw [this, planeWave_quarter]
    rfl
  simp only [h, Finset.sum_const, Finset.card_univ, Fintype.card_fin, nsmul_eq_mul, Fin.sum_univ_four, Fin.val_zero, Fin.val_one,
    Fin.val_two]
  have h3 : ((3 : Fin 4) : ℕ) = 3 := rfl
  rw [h3]
  simp only [Nat.cast_zero, mul_zero, zpow_zero, mul_one, Nat.cast_one, Nat.cast_ofNat]
  ring

theorem absorbing_product : convolution (gratingOrders (1, 0)) absorbingGrating *
    convolution (gratingOrders (1, 0)) (Matrix.of fun r s => 1 / absorbingGrating r s) ≠ 1 := by
  intro h
  have := congrFun (congrFun h 1) 1
  have e1 : absorbingGrating = linesY ![2 + 2 * Complex.I, 2 + Complex.I, 2, 2 + Complex.I] := by
    ext r s
    fin_cases r <;> simp [absorbingGrating, linesY, quarterCos] <;> norm_num
  have e2 : (Matrix.of fun r s => 1 / absorbingGrating r s) =
      linesY ![(1 - Complex.I) / 4, (2 - Complex.I) / 5, 1 / 2, (2 - Complex.I) / 5] := by
    have i1 : (2 + 2 * Complex.I) * ((1 - Complex.I) / 4) = 1 := by linear_combination (-1 / 2 : ℂ) * Complex.I_sq
    have i2 : (2 + Complex.I) * ((2 - Complex.I) / 5) = 1 := by linear_combination (-1 / 5 : ℂ) * Complex.I_sq
    ext r s
    rw [e1]
    fin_cases r
    · simpa [linesY] using inv_eq_of_mul_eq_one_right i1
    · simpa [linesY] using inv_eq_of_mul_eq_one_right i2
    · simp [linesY]
    · simpa [linesY] using inv_eq_of_mul_eq_one_right i2
  rw [e1] at e2
  have g1 : gratingOrders (1, 0) 1 - gratingOrders (1, 0) 0 = (1, 0) := by simp [gratingOrders]
  have g2 : gratingOrders (1, 0) 1 - gratingOrders (1, 0) 1 = (0, 0) := by simp [gratingOrders]; rfl
  have g3 : gratingOrders (1, 0) 1 - gratingOrders (1, 0) 2 = (2, 0) := by simp [gratingOrders]
  have g4 : gratingOrders (1, 0) 0 - gratingOrders (1, 0) 1 = (-1, 0) := by simp [gratingOrders]
  have g5 : gratingOrders (1, 0) 2 - gratingOrders (1, 0) 1 = (-2, 0) := by simp [gratingOrders]
  rw [e1, e2] at this
  simp only [Matrix.mul_apply, convolution, Matrix.of_apply, Fin.sum_univ_three, g1, g2, g3, g4, g5, coefficient_quarter,
    Matrix.one_apply_eq, Matrix.cons_val_zero, Matrix.cons_val_one, Matrix.cons_val] at this
  have z1 : Complex.I ^ (-1 : ℤ) = -Complex.I := by simp
  have z2 : Complex.I ^ (2 : ℤ) = -1 := by rw [show (2 : ℤ) = ((2 : ℕ) : ℤ) by rfl, zpow_natCast, Complex.I_sq]
  have z3 : Complex.I ^ (3 : ℤ) = -Complex.I := by
    rw [show (3 : ℤ) = ((3 : ℕ) : ℤ) by rfl, zpow_natCast, Complex.I_pow_three]
  have z4 : Complex.I ^ (-2 : ℤ) = -1 := by rw [_root_.zpow_neg, z2]; norm_num
  have z5 : Complex.I ^ (-3 : ℤ) = Complex.I := by rw [_root_.zpow_neg, z3]; simp
  have z6 : Complex.I ^ (4 : ℤ) = 1 := by
    rw [show (4 : ℤ) = ((4 : ℕ) : ℤ) by rfl, zpow_natCast, Complex.I_pow_four]
  have z7 : Complex.I ^ (-4 : ℤ) = 1 := by rw [_root_.zpow_neg, z6, inv_one]
  have z8 : Complex.I ^ (6 : ℤ) = -1 := by
    rw [show (6 : ℤ) = 4 + 2 by norm_num, zpow_add₀ Complex.I_ne_zero, z6, z2, one_mul]
  have z9 : Complex.I ^ (-6 : ℤ) = -1 := by rw [_root_.zpow_neg, z8]; norm_num
  norm_num [z1, z2, z3, z4, z5, z6, z7, z8, z9] at this
  have him := congrArg Complex.im this
  simp at him
  norm_num at him

/-- **C94** is false for a grating whose lines differ in absorption: the rules for the direction of its lines fail. -/
theorem C94_false_absorption (scheme : String × VectorMethod × ℝ × ℝ) :
    ∃ E, transversePermittivityIsotropic ⟨(1, 0), (0, 1)⟩ absorbingGrating (gratingOrders (1, 0)) (.ofScheme scheme) = .ok E ∧
      ¬ FactorizationRules E (convolution (gratingOrders (1, 0)) absorbingGrating)
        (convolution (gratingOrders (1, 0)) (Matrix.of fun r s => 1 / absorbingGrating r s)) (0, 1) (1, 0) := by
  obtain ⟨d, h1, h2, h3, h4, h5, h6, h7⟩ := axisGrating_hypotheses
  obtain ⟨E, hE, h⟩ := C94_finding_absorption h1 h2 h3 one_ne_zero one_ne_zero quarterCos (2 + Complex.I) h6 quarter_visible
    (eps := absorbingGrating) (by
      ext r s
      simp [absorbingGrating, linesY]
      ring)
    (fun r s h => by
      have := absorbingGrating_re r s
      rw [h] at this
      simp at this)
    (convolution_isUnit h1 h3 fun r s => recip_re_pos (absorbingGrating_re r s)) scheme
  exact ⟨E, hE, fun h' => absorbing_product (rules_conflict (neg_ne_zero.2 one_ne_zero) h' h)⟩

/-- The grating of the example with one order: lines along the first axis with permittivities 2 and 4. -/
def twoLines : Grid 1 2 := linesX ![2, 4]

/-- **C94** is false with the zero order alone: for lines along the first axis the rules for the direction of the lines fail. -/
theorem C94_false_single_order (scheme : String × VectorMethod × ℝ × ℝ) :
    ∃ E, transversePermittivityIsotropic unitSquare twoLines (fun _ : Unit => (0, 0)) (.ofScheme scheme) = .ok E ∧
      ¬ FactorizationRules E (convolution (fun _ : Unit => (0, 0)) twoLines)
        (convolution (fun _ : Unit => (0, 0)) (Matrix.of fun r s => 1 / twoLines r s)) (1, 0) (0, 1) := by
  have hre : ∀ r s, 0 < (twoLines r s).re := by
    intro r s
    fin_cases s <;> simp [twoLines, linesX]
  have hG : Function.Injective (fun _ : Unit => ((0, 0) : ℤ × ℤ)) := fun _ _ _ => rfl
  have hr : Resolves 1 2 (fun _ : Unit => ((0, 0) : ℤ × ℤ)) := ⟨⟨()⟩, fun _ => by simp⟩
  obtain ⟨E, hE, h⟩ := C94_finding_single_order hG (fun _ => rfl) hr (eps := twoLines) (l := unitSquare)
    (by unfold Independent unitSquare; norm_num)
    (fun r s h => by
      have := hre r s
      rw [h] at this
      simp at this)
    (convolution_isUnit hG hr fun r s => recip_re_pos (hre r s)) scheme
  refine ⟨E, hE, fun h' => ?_⟩
  have := congrFun (congrFun (rules_conflict one_ne_zero h h') ()) ()
  simp [Matrix.mul_apply, convolution, fourierCoefficient, planeWave, twoLines, linesX] at this
  norm_num at this

/-- A layer is solved if its transverse matrix exists and the convolution matrix of the permittivity is invertible. -/
theorem eigensolve_exists {eig : Matrix (ι ⊕ ι) (ι ⊕ ι) ℂ → (ι ⊕ ι → ℂ) × Matrix (ι ⊕ ι) (ι ⊕ ι) ℂ} {wavelength : ℝ} (hw : wavelength ≠ 0)
    (inPlane : ℝ × ℝ) {l : LatticeVectors} (hl : Independent l.u l.v) {eps : Grid nx ny} {G : ι → ℤ × ℤ}
    {formulation : Formulation nx ny ι} {E : Matrix (ι ⊕ ι) (ι ⊕ ι) ℂ}
    (hE : transversePermittivityIsotropic l eps G formulation = .ok E) (hr : Resolves nx ny G) (h0 : ∀ r s, eps r s ≠ 0)
    (hu : IsUnit (convolution G eps).det) :
    ∃ r, eigensolvePatternedIsotropic eig wavelength inPlane l eps G formulation = .ok r ∧
      r.inPlaneWavevector = inPlane ∧ r.primitiveLatticeVectors = l ∧ r.expansion = G := by
  obtain ⟨k, hk⟩ : ∃ k, transverseWavevectors inPlane l G = .ok k := by
    unfold transverseWavevectors
    simp only [bind_eq_ok, reciprocal_eq_ok, ok_inj]
    exact ⟨_, _, ⟨hl, rfl⟩, rfl⟩
  have hM : ∃ m, fourierMatricesPatternedIsotropic l eps G formulation = .ok m ∧ m.zPermittivity = convolution G eps ∧
      m.zPermeability = 1 := by
    unfold fourierMatricesPatternedIsotropic
    simp only [bind_eq_ok, hE, ok_inj, fourierConvolutionMatrix_ok_iff, recipGrid_ok_iff]
    refine ⟨_, ⟨_, rfl, _, ⟨h0, rfl⟩, _, ⟨hr, rfl⟩, _, ⟨hr, rfl⟩, rfl⟩, rfl, ?_⟩
    simp only [diag_eq, Matrix.diagonal_one]
  obtain ⟨m, hm, hz, hν⟩ := hM
  obtain ⟨A, hA⟩ : ∃ A, eigenproblemMatrix wavelength k m = .ok A :=
    ⟨_, (eigenproblemMatrix_ok_iff 0 1 hk).2 ⟨hw, hz ▸ hu, by simp [hν], rfl⟩⟩
  refine ⟨_, bind_eq_ok.2 ⟨m, hm, numericalEigensolve_ok_iff.2 ⟨k, A, hk, hA, rfl⟩⟩, ?_⟩
  exact ⟨rfl, rfl, rfl⟩

/-- The hypotheses of `C94_modes` hold for the transparent grating, illuminated in the plane across its lines. -/
example (scheme : String × VectorMethod × ℝ × ℝ) :
    ∃ eig : Matrix (Fin 3 ⊕ Fin 3) (Fin 3 ⊕ Fin 3) ℂ → (Fin 3 ⊕ Fin 3 → ℂ) × Matrix (Fin 3 ⊕ Fin 3) (Fin 3 ⊕ Fin 3) ℂ, IsEig eig ∧
    ∃ r, eigensolvePatternedIsotropic eig 1 (1, 0) unitSquare glassGrating (gratingOrders (1, 0)) (.ofScheme scheme) = .ok r ∧
      ∀ j, (∀ i, (2 * Real.pi / (1 : ℝ) : ℂ) ^ 2 * (convolution (gratingOrders (1, 0)) glassGrating *ᵥ fun i => r.eigenvectors (.inl i) j) i -
        ((orderWavevector r i).1 : ℂ) ^ 2 * r.eigenvectors (.inl i) j = r.eigenvalues j ^ 2 * r.eigenvectors (.inl i) j) := by
  obtain ⟨eig, he⟩ := exists_isEig (Fin 3 ⊕ Fin 3)
  obtain ⟨d, h1, h2, h3, h4, h5, h6, h7⟩ := axisGrating_hypotheses
  have h0 : ∀ r s, glassGrating r s ≠ 0 := by
    intro r s h
    have := glassGrating_re r s
    rw [h] at this
    simp at this
  have hu := convolution_isUnit h1 h3 fun r s => recip_re_pos (glassGrating_re r s)
  obtain ⟨E, hE, hrules⟩ := C94_lines_y h1 h2 h3 one_ne_zero one_ne_zero quarterCos 3 h6 quarter_visible (eps := glassGrating) rfl h0 hu scheme
  obtain ⟨r, hr, e1, e2, e3⟩ := eigensolve_exists (eig := eig) (wavelength := 1) one_ne_zero (1, 0)
    (by unfold Independent; norm_num) hE h3 h0 (convolution_isUnit h1 h3 glassGrating_re)
  refine ⟨eig, he, r, hr, fun j => (C94_modes he hr hE hu hrules (fun i => ?_) j).1⟩
  unfold orderWavevector
  rw [e1, e2, e3]
  fin_cases i <;> simp [gratingOrders]

/-- The hypotheses of `C94_effective_medium` hold for a pattern of two lines. -/
example : ∃ eig : Matrix (Unit ⊕ Unit) (Unit ⊕ Unit) ℂ → (Unit ⊕ Unit → ℂ) × Matrix (Unit ⊕ Unit) (Unit ⊕ Unit) ℂ, IsEig eig ∧
    ∃ r, eigensolvePatternedIsotropic eig 1 (1, 0) unitSquare twoLines (fun _ : Unit => (0, 0))
        (.ofScheme ("pol", .pol, 0, 2)) = .ok r ∧
      r.inverseZPermittivityMatrix = gridMean (Matrix.of fun r s => 1 / twoLines r s) • 1 := by
  obtain ⟨eig, he⟩ := exists_isEig (Unit ⊕ Unit)
  have hre : ∀ r s, 0 < (twoLines r s).re := by
    intro r s
    fin_cases s <;> simp [twoLines, linesX]
  have h0 : ∀ r s, twoLines r s ≠ 0 := by
    intro r s h
    have := hre r s
    rw [h] at this
    simp at this
  have hG : Function.Injective (fun _ : Unit => ((0, 0) : ℤ × ℤ)) := fun _ _ _ => rfl
  have hr : Resolves 1 2 (fun _ : Unit => ((0, 0) : ℤ × ℤ)) := ⟨⟨()⟩, fun _ => by simp⟩
  have hl : Independent unitSquare.u unitSquare.v := by unfold Independent unitSquare; norm_num
  obtain ⟨E, hE, hrules⟩ := C94_finding_single_order hG (fun _ => rfl) hr hl h0
    (convolution_isUnit hG hr fun r s => recip_re_pos (hre r s)) ("pol", .pol, 0, 2)
  obtain ⟨r, hs, -⟩ := eigensolve_exists (eig := eig) (wavelength := 1) one_ne_zero (1, 0) hl hE hr h0 (convolution_isUnit hG hr hre)
  refine ⟨eig, he, r, hs, (C94_effective_medium hG (fun _ => rfl) hE hrules ?_ ?_ hs).1⟩
  · simp [gridMean, twoLines, linesX]
    norm_num
  · simp [gridMean, twoLines, linesX]
    norm_num

end Fmmax
