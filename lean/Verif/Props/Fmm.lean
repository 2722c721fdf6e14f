import Verif.Proofs.Fmm
import Verif.Props.Fourier
import Mathlib.Analysis.SpecialFunctions.Exp

/-! Property theorems C21 – C24, C26, C27: layer eigensolves and Fourier matrices.

`IsForwardRoot`, `ModeEquation`, `divergenceMatrix` are from `Verif/Spec/Modes.lean`; `WellPosed`, `magneticToElectric` from
`Verif/Spec/Stack.lean`.  `eig` stands for the numerical eigendecomposition: any function satisfying `IsEig`. -/

set_option linter.unusedSectionVars false

namespace Fmmax

open Spec Matrix

variable {nx ny : ℕ} {ι : Type} [Fintype ι] [DecidableEq ι]
variable {eig : Matrix (ι ⊕ ι) (ι ⊕ ι) ℂ → (ι ⊕ ι → ℂ) × Matrix (ι ⊕ ι) (ι ⊕ ι) ℂ}

/-! ### Constant arrays -/

/-- A constant array. -/
def constGrid (nx ny : ℕ) (c : ℂ) : Grid nx ny := Matrix.of fun _ _ => c

theorem constGrid_apply (c : ℂ) (r : Fin nx) (s : Fin ny) : constGrid nx ny c r s = c := rfl

theorem recipGrid_const {c : ℂ} (hc : c ≠ 0) : recipGrid (constGrid nx ny c) = .ok (constGrid nx ny (1 / c)) := by
  unfold recipGrid constGrid
  rw [if_pos (by simpa using fun _ _ => hc)]
  rfl

theorem inv_smul_one {n : Type} [Fintype n] [DecidableEq n] {c : ℂ} (hc : c ≠ 0) :
    inv ((1 / c) • (1 : Matrix n n ℂ)) = .ok (c • 1) := by
  unfold inv
  rw [solve_eq_ok]
  refine ⟨?_, ?_⟩
  · rw [Matrix.det_smul, Matrix.det_one, mul_one, isUnit_iff_ne_zero]
    exact pow_ne_zero _ (one_div_ne_zero hc)
  · rw [Matrix.smul_mul, Matrix.one_mul, smul_smul, one_div, inv_mul_cancel₀ hc, one_smul]

theorem diag_const {n : Type} [DecidableEq n] (c : ℂ) : diag (fun _ : n => c) = c • (1 : Matrix n n ℂ) := by
  rw [diag_eq]; ext i j; by_cases h : i = j <;> simp [h]

/-! ### The uniform isotropic layer -/

theorem transverseWavevectors_exists (inPlane : ℝ × ℝ) (l : LatticeVectors) (G : ι → ℤ × ℤ)
    (hl : l.u.1 * l.v.2 - l.u.2 * l.v.1 ≠ 0) : ∃ k, transverseWavevectors inPlane l G = .ok k := by
  unfold transverseWavevectors
  rw [reciprocal_eq_ok.2 ⟨hl, rfl⟩]
  exact ⟨_, rfl⟩

theorem eigensolveUniformIsotropic_ok_iff {wavelength : ℝ} {inPlane : ℝ × ℝ} {l : LatticeVectors} {ε : ℂ}
    {G : ι → ℤ × ℤ} {r : LayerSolveResult ι} :
    eigensolveUniformIsotropic wavelength inPlane l ε G = .ok r ↔
      ∃ k w, transverseWavevectors inPlane l G = .ok k ∧ angularFrequency wavelength = .ok w ∧ ε ≠ 0 ∧
      r = { wavelength := wavelength, inPlaneWavevector := inPlane, primitiveLatticeVectors := l, expansion := G,
            eigenvalues := fun i => selectEigenvaluesSign (csqrt (ε * (w : ℂ) ^ 2 - ((k (i.elim id id)).1 : ℂ) ^ 2 -
              ((k (i.elim id id)).2 : ℂ) ^ 2)),
            eigenvectors := 1,
            zPermittivityMatrix := ε • 1, inverseZPermittivityMatrix := (1 / ε) • 1,
            zPermeabilityMatrix := 1, inverseZPermeabilityMatrix := 1, transversePermeabilityMatrix := 1 } := by
  unfold eigensolveUniformIsotropic
  simp only [bind_eq_ok]
  constructor
  · rintro ⟨k, hk, w, hw, h⟩
    split_ifs at h with h0
    rw [ok_inj] at h
    refine ⟨k, w, hk, hw, h0, ?_⟩
    rw [← h]
    simp only [diag_const, one_smul]
    congr 1
    funext i
    rcases i with i | i <;> rfl
  · rintro ⟨k, w, hk, hw, h0, h⟩
    refine ⟨k, hk, w, hw, ?_⟩
    rw [if_neg h0, ok_inj, h]
    simp only [diag_const, one_smul]
    congr 1
    funext i
    rcases i with i | i <;> rfl

theorem uniform_modeEquation {wavelength : ℝ} {inPlane : ℝ × ℝ} {l : LatticeVectors} {ε : ℂ} {G : ι → ℤ × ℤ}
    {r : LayerSolveResult ι} (h : eigensolveUniformIsotropic wavelength inPlane l ε G = .ok r) :
    WellPosed r ∧ ModeEquation r (ε • 1) ∧ ∀ i, IsForwardRoot (r.eigenvalues i ^ 2) (r.eigenvalues i) := by
  obtain ⟨k, w, hk, hw, hε, hr⟩ := eigensolveUniformIsotropic_ok_iff.1 h
  obtain ⟨hl, rfl⟩ := angularFrequency_eq_ok.1 hw
  have hkr : cellArea r ≠ 0 ∧ k = orderWavevector r := by
    have e : transverseWavevectors r.inPlaneWavevector r.primitiveLatticeVectors r.expansion = .ok k := by
      rw [hr]; exact hk
    exact transverseWavevectors_layer.1 e
  have hwell : WellPosed r := by
    refine ⟨by rw [hr]; exact hl, hkr.1, ?_⟩
    rw [hr]
    simp only [Matrix.det_smul, Matrix.det_one, mul_one, isUnit_iff_ne_zero]
    exact pow_ne_zero _ hε
  have hfw : ∀ i, IsForwardRoot (ε * (omega r : ℂ) ^ 2 - ((orderWavevector r (i.elim id id)).1 : ℂ) ^ 2 -
      ((orderWavevector r (i.elim id id)).2 : ℂ) ^ 2) (r.eigenvalues i) := by
    intro i
    have e : r.eigenvalues i = selectEigenvaluesSign (csqrt (ε * (omega r : ℂ) ^ 2 -
        ((orderWavevector r (i.elim id id)).1 : ℂ) ^ 2 - ((orderWavevector r (i.elim id id)).2 : ℂ) ^ 2)) := by
      rw [← hkr.2]
      conv_lhs => rw [hr]
      simp only [omega]
      rw [show r.wavelength = wavelength by rw [hr]]
    rw [e]
    exact selectEigenvaluesSign_forward _
  refine ⟨hwell, ?_, fun i => ⟨rfl, (hfw i).2⟩⟩
  unfold ModeEquation
  have e1 : (fun i => r.eigenvalues i ^ 2) = fun i => ε * (omega r : ℂ) ^ 2 -
      ((orderWavevector r (i.elim id id)).1 : ℂ) ^ 2 - ((orderWavevector r (i.elim id id)).2 : ℂ) ^ 2 :=
    funext fun i => (hfw i).1
  have hv : r.eigenvectors = 1 := by rw [hr]
  have hM : r.transversePermeabilityMatrix = 1 := by rw [hr]
  have hz : r.zPermittivityMatrix⁻¹ = ε⁻¹ • 1 := by
    rw [hr]
    refine Matrix.inv_eq_right_inv ?_
    rw [Matrix.smul_mul, Matrix.one_mul, smul_smul, mul_inv_cancel₀ hε, one_smul]
  have hμ : r.zPermeabilityMatrix = 1 := by rw [hr]
  rw [e1, hv, hM, Matrix.mul_one, Matrix.one_mul, Matrix.mul_one]
  unfold magneticToElectric divergenceMatrix
  simp only [hz, hM, hμ, inv_one, Matrix.mul_one, Matrix.mul_smul, Matrix.smul_mul, Matrix.diagonal_mul_diagonal,
    Matrix.one_mul]
  ext i j
  rcases i with i | i <;> rcases j with j | j <;>
    simp only [Matrix.sub_apply, Matrix.smul_apply, Matrix.fromBlocks_apply₁₁, Matrix.fromBlocks_apply₁₂,
      Matrix.fromBlocks_apply₂₁, Matrix.fromBlocks_apply₂₂, Matrix.neg_apply, Matrix.diagonal_apply, Matrix.one_apply,
      smul_eq_mul, Sum.inl.injEq, Sum.inr.injEq, reduceCtorEq, if_false] <;>
    by_cases hij : i = j <;> simp [hij] <;> field_simp <;> ring

/-! ### C21 -/

/-- **C21** The root selected for a squared eigenvalue `w`: its square is `w`, its imaginary part is not negative, and its
real part is not negative when the imaginary part vanishes; there is exactly one such root. -/
theorem C21_selected_root (w q : ℂ) :
    selectEigenvaluesSign (csqrt w) = q ↔ q ^ 2 = w ∧ 0 ≤ q.im ∧ (q.im = 0 → 0 ≤ q.re) := by
  constructor
  · rintro rfl; exact selectEigenvaluesSign_forward w
  · intro h; exact isForwardRoot_unique (selectEigenvaluesSign_forward w) h

/-- **C21** Isotropic eigensolves (uniform or patterned, any formulation): eigenpairs satisfy the mode equation for the
transverse permittivity matrix of the layer, and every eigenvalue is the forward root of its square. -/
theorem C21_isotropic (he : IsEig eig) {wavelength : ℝ} {inPlane : ℝ × ℝ} {l : LatticeVectors} {ε : Grid nx ny}
    {G : ι → ℤ × ℤ} {f : Formulation nx ny ι} {r : LayerSolveResult ι}
    (h : eigensolveIsotropicMedia eig wavelength inPlane l ε G f = .ok r) :
    ((∃ h : nx = 1 ∧ ny = 1, ModeEquation r (ε ⟨0, by omega⟩ ⟨0, by omega⟩ • 1)) ∨
      (¬(nx = 1 ∧ ny = 1) ∧ ∃ m, fourierMatricesPatternedIsotropic l ε G f = .ok m ∧
        ModeEquation r m.transversePermittivity)) ∧
    ∀ i, 0 ≤ (r.eigenvalues i).im ∧ ((r.eigenvalues i).im = 0 → 0 ≤ (r.eigenvalues i).re) := by
  unfold eigensolveIsotropicMedia at h
  split_ifs at h with hn
  · obtain ⟨-, h1, h2⟩ := uniform_modeEquation h
    exact ⟨.inl ⟨hn, h1⟩, fun i => (h2 i).2⟩
  · unfold eigensolvePatternedIsotropic at h
    obtain ⟨m, hm, h⟩ := bind_eq_ok.1 h
    obtain ⟨-, -, h1, h2⟩ := numericalEigensolve_modes he h
    exact ⟨.inr ⟨hn, m, hm, h1⟩, fun i => (h2 i).2⟩

/-- **C21** The same for anisotropic (and magnetic) eigensolves.  If no array is given for the tangent vector field, it is
computed from the mean of `xx` and `yy`. -/
theorem C21_anisotropic (he : IsEig eig) {wavelength : ℝ} {inPlane : ℝ × ℝ} {l : LatticeVectors}
    {ε μ : TensorComponents nx ny} {G : ι → ℤ × ℤ} {f : Formulation nx ny ι} {s : Option (Grid nx ny)}
    {r : LayerSolveResult ι} (h : eigensolveGeneralAnisotropicMedia eig wavelength inPlane l ε μ G f s = .ok r) :
    ((∃ h : nx = 1 ∧ ny = 1, ∃ m, fourierMatricesUniformAnisotropic (ε.uniform h) (μ.uniform h) = .ok m ∧
        ModeEquation r m.transversePermittivity) ∨
      (¬(nx = 1 ∧ ny = 1) ∧ ∃ src m, (∀ x, s = some x → src = x) ∧
        (s = none → ∀ i j, src i j = (ε.xx i j + ε.yy i j) / 2) ∧
        fourierMatricesPatternedAnisotropic l ε μ G f src = .ok m ∧ ModeEquation r m.transversePermittivity)) ∧
    ∀ i, 0 ≤ (r.eigenvalues i).im ∧ ((r.eigenvalues i).im = 0 → 0 ≤ (r.eigenvalues i).re) := by
  unfold eigensolveGeneralAnisotropicMedia at h
  split_ifs at h with hn
  · unfold eigensolveUniformAnisotropic at h
    obtain ⟨m, hm, h⟩ := bind_eq_ok.1 h
    obtain ⟨-, -, h1, h2⟩ := numericalEigensolve_modes he h
    exact ⟨.inl ⟨hn, m, hm, h1⟩, fun i => (h2 i).2⟩
  · unfold eigensolvePatternedAnisotropic at h
    obtain ⟨m, hm, h⟩ := bind_eq_ok.1 h
    obtain ⟨-, -, h1, h2⟩ := numericalEigensolve_modes he h
    refine ⟨.inr ⟨hn, _, m, ?_, ?_, hm, h1⟩, fun i => (h2 i).2⟩
    · rintro x rfl; rfl
    · rintro rfl i j; rfl

/-- **C21** Consequence: the phase factor of a forward mode never grows along `+z`, and strictly decays if the eigenvalue has
an imaginary part. -/
theorem C21_forward_modes_do_not_grow (w : ℂ) (z : ℝ) (hz : 0 < z) :
    ‖Complex.exp (Complex.I * selectEigenvaluesSign (csqrt w) * z)‖ ≤ 1 ∧
    ((selectEigenvaluesSign (csqrt w)).im ≠ 0 → ‖Complex.exp (Complex.I * selectEigenvaluesSign (csqrt w) * z)‖ < 1) := by
  obtain ⟨-, h, -⟩ := selectEigenvaluesSign_forward w
  generalize selectEigenvaluesSign (csqrt w) = q at *
  have e : (Complex.I * q * (z : ℂ)).re = -(q.im * z) := by simp
  rw [Complex.norm_exp, e]
  refine ⟨?_, fun h0 => ?_⟩
  · rw [Real.exp_le_one_iff]
    have := mul_nonneg h hz.le
    linarith
  · rw [Real.exp_lt_one_iff]
    have := mul_pos (lt_of_le_of_ne h (Ne.symm h0)) hz
    linarith

/-- **C21 (finding)** The comment in the code promises eigenvalues with positive imaginary part; for lossless propagating
orders the imaginary part is zero. -/
theorem C21_imaginary_part_may_vanish : (selectEigenvaluesSign (csqrt 4)).im = 0 := by
  rw [(C21_selected_root 4 2).2 ⟨by norm_num, by simp, by simp⟩]
  simp

/-- The FFT-formulation eigensolve succeeds for every permittivity with positive real part. -/
theorem patterned_eigensolve_succeeds (eig : Matrix (ι ⊕ ι) (ι ⊕ ι) ℂ → (ι ⊕ ι → ℂ) × Matrix (ι ⊕ ι) (ι ⊕ ι) ℂ)
    {wavelength : ℝ} (inPlane : ℝ × ℝ) {l : LatticeVectors} {ε : Grid nx ny}
    {G : ι → ℤ × ℤ} (hG : Function.Injective G) (hR : Resolves nx ny G) (hw : wavelength ≠ 0)
    (hl : l.u.1 * l.v.2 - l.u.2 * l.v.1 ≠ 0) (hε : ∀ r s, 0 < (ε r s).re) :
    ∃ r, eigensolvePatternedIsotropic eig wavelength inPlane l ε G .fft = .ok r := by
  obtain ⟨k, hk⟩ := transverseWavevectors_exists inPlane l G hl
  have hr : recipGrid ε = .ok (Matrix.of fun r s => 1 / ε r s) := by
    unfold recipGrid
    rw [if_pos]
    intro r s h0
    have := hε r s
    rw [h0] at this
    simp at this
  have hm : ∃ m, fourierMatricesPatternedIsotropic l ε G .fft = .ok m ∧ IsUnit m.zPermittivity.det ∧
      IsUnit m.zPermeability.det := by
    unfold fourierMatricesPatternedIsotropic transversePermittivityIsotropic transversePermittivityFft
    simp only [fourierConvolutionMatrix_eq _ hR, hr, bind, Except.bind]
    refine ⟨_, rfl, ?_, ?_⟩
    · exact isUnit_det_of_re_form_pos _ (convolution_form_re_pos ε hR hG hε)
    · simp
  obtain ⟨m, hm, h1, h2⟩ := hm
  have hA := (eigenproblemMatrix_ok_iff (m := m) (wavelength := wavelength) 0 0 hk).2 ⟨hw, h1, h2, rfl⟩
  exact ⟨_, bind_eq_ok.2 ⟨m, hm, numericalEigensolve_ok_iff.2 ⟨k, _, hk, hA, rfl⟩⟩⟩

/-- A square lattice for the examples. -/
def unitLattice : LatticeVectors := { u := (1, 0), v := (0, 1) }

example : ∃ (eig : Matrix (Fin 4 ⊕ Fin 4) (Fin 4 ⊕ Fin 4) ℂ → _) (r : LayerSolveResult (Fin 4)), IsEig eig ∧
    eigensolveIsotropicMedia eig 1 (1, 2) unitLattice
      (Matrix.of fun (r : Fin 3) (_ : Fin 5) => (1 + (r : ℕ) + 2 * Complex.I : ℂ)) exampleExpansion .fft = .ok r := by
  obtain ⟨eig, he⟩ := exists_isEig (Fin 4 ⊕ Fin 4)
  obtain ⟨r, hr⟩ := patterned_eigensolve_succeeds eig (wavelength := 1) (1, 2) (l := unitLattice)
    (ε := Matrix.of fun (r : Fin 3) (_ : Fin 5) => (1 + (r : ℕ) + 2 * Complex.I : ℂ)) exampleExpansion_injective
    exampleExpansion_resolved one_ne_zero (by norm_num [unitLattice]) (by intro r s; simp; positivity)
  refine ⟨eig, r, he, ?_⟩
  unfold eigensolveIsotropicMedia
  rw [dif_neg (by norm_num)]
  exact hr

example : selectEigenvaluesSign (csqrt (-4)) = 2 * Complex.I :=
  (C21_selected_root _ _).2 ⟨by rw [mul_pow, Complex.I_sq]; norm_num, by simp, by simp⟩

/-! ### C22 -/

/-- The matrices of a constant isotropic pattern. -/
theorem fourierMatrices_const (l : LatticeVectors) {G : ι → ℤ × ℤ} (hG : Function.Injective G) (hR : Resolves nx ny G)
    {c : ℂ} (hc : c ≠ 0) (f : Formulation nx ny ι)
    (hf : ∀ fn, f = .vector fn → ∃ t, fn (constGrid nx ny c) G l = .ok t) :
    fourierMatricesPatternedIsotropic l (constGrid nx ny c) G f = .ok
      { inverseZPermittivity := (1 / c) • 1, zPermittivity := c • 1, transversePermittivity := c • 1,
        inverseZPermeability := 1, zPermeability := 1, transversePermeability := 1 } := by
  have hconst : ∀ c, fourierConvolutionMatrix (constGrid nx ny c) G = .ok (c • (1 : Matrix ι ι ℂ)) :=
    C20_constant G hG hR
  have h1 : Matrix.fromBlocks (c • (1 : Matrix ι ι ℂ)) 0 0 (c • 1) = c • (1 : Matrix (ι ⊕ ι) (ι ⊕ ι) ℂ) := by
    rw [← Matrix.fromBlocks_one, Matrix.fromBlocks_smul]; simp
  have he : transversePermittivityIsotropic l (constGrid nx ny c) G f = .ok (c • 1) := by
    cases f with
    | fft => simp only [transversePermittivityIsotropic, transversePermittivityFft, hconst, bind, Except.bind, h1]
    | vector fn =>
      obtain ⟨⟨tx, ty⟩, ht⟩ := hf fn rfl
      simp only [transversePermittivityIsotropic, ht, transversePermittivityVector, hconst, bind, Except.bind,
        recipGrid_const hc, inv_smul_one hc, fourierConvolutionMatrix_eq _ hR]
      rw [h1, sub_self, Matrix.fromBlocks_zero, Matrix.zero_mul, sub_zero]
  unfold fourierMatricesPatternedIsotropic
  rw [he]
  simp only [bind, Except.bind, hconst, recipGrid_const hc, diag_const, one_smul, zero_smul, Matrix.fromBlocks_one]

/-- **C22** The eigenvalues and eigenvectors returned analytically for a uniform layer solve the eigenvalue problem which the
numerical path builds for the same layer sampled on any grid, with any formulation. -/
theorem C22_uniform_solves_general_eigenproblem {wavelength : ℝ} {inPlane : ℝ × ℝ} {l : LatticeVectors} {ε : ℂ}
    {G : ι → ℤ × ℤ} (hG : Function.Injective G) (hR : Resolves nx ny G) (f : Formulation nx ny ι)
    (hf : ∀ fn, f = .vector fn → ∃ t, fn (constGrid nx ny ε) G l = .ok t)
    {r : LayerSolveResult ι} (h : eigensolveUniformIsotropic wavelength inPlane l ε G = .ok r) :
    ∃ m k A, fourierMatricesPatternedIsotropic l (constGrid nx ny ε) G f = .ok m ∧
      transverseWavevectors inPlane l G = .ok k ∧ eigenproblemMatrix wavelength k m = .ok A ∧
      A * r.eigenvectors = r.eigenvectors * Matrix.diagonal (fun i => r.eigenvalues i ^ 2) ∧
      IsUnit r.eigenvectors.det := by
  obtain ⟨k, w, hk, hw, hε, hr⟩ := eigensolveUniformIsotropic_ok_iff.1 h
  obtain ⟨hwell, hmode, -⟩ := uniform_modeEquation h
  refine ⟨_, k, _, fourierMatrices_const l hG hR hε f hf, hk,
    (eigenproblemMatrix_ok_iff r.eigenvalues r.eigenvectors hk).2 ⟨(angularFrequency_eq_ok.1 hw).1, ?_, ?_, rfl⟩, ?_, ?_⟩
  · simp only [Matrix.det_smul, Matrix.det_one, mul_one, isUnit_iff_ne_zero]
    exact pow_ne_zero _ hε
  · simp
  · have e : solvedLayer wavelength inPlane l
        { inverseZPermittivity := (1 / ε) • 1, zPermittivity := ε • 1, transversePermittivity := ε • 1,
          inverseZPermeability := 1, zPermeability := 1, transversePermeability := 1 } G r.eigenvalues r.eigenvectors = r := by
      rw [hr]; rfl
    rw [e]
    have := hmode
    unfold ModeEquation at this
    rwa [show r.transversePermeabilityMatrix = 1 by rw [hr]] at this
  · rw [hr]; simp

/-- **C22** The same in terms of the physical eigenvalue equation. -/
theorem C22_uniform_mode_equation {wavelength : ℝ} {inPlane : ℝ × ℝ} {l : LatticeVectors} {ε : ℂ} {G : ι → ℤ × ℤ}
    {r : LayerSolveResult ι} (h : eigensolveUniformIsotropic wavelength inPlane l ε G = .ok r) :
    ModeEquation r (ε • 1) := (uniform_modeEquation h).2.1

/-- **C22** The uniform eigensolve succeeds exactly for nonzero wavelength and permittivity and independent lattice vectors. -/
theorem C22_uniform_succeeds_iff (wavelength : ℝ) (inPlane : ℝ × ℝ) (l : LatticeVectors) (ε : ℂ) (G : ι → ℤ × ℤ) :
    (∃ r, eigensolveUniformIsotropic wavelength inPlane l ε G = .ok r) ↔
      wavelength ≠ 0 ∧ ε ≠ 0 ∧ l.u.1 * l.v.2 - l.u.2 * l.v.1 ≠ 0 := by
  simp only [eigensolveUniformIsotropic_ok_iff, angularFrequency_eq_ok]
  constructor
  · rintro ⟨r, k, w, hk, ⟨hw, -⟩, hε, -⟩
    unfold transverseWavevectors at hk
    obtain ⟨_, hl, -⟩ := bind_eq_ok.1 hk
    exact ⟨hw, hε, (reciprocal_eq_ok.1 hl).1⟩
  · rintro ⟨hw, hε, hl⟩
    obtain ⟨k, hk⟩ := transverseWavevectors_exists inPlane l G hl
    exact ⟨_, k, _, hk, ⟨hw, rfl⟩, hε, rfl⟩

/-- An oblique lattice for the examples. -/
def obliqueLattice : LatticeVectors := { u := (2, 0), v := (1, 3) }

example : ∃ r, eigensolveUniformIsotropic (3 / 2) (1, 2) obliqueLattice (2 + Complex.I) exampleExpansion = .ok r ∧
    ModeEquation r ((2 + Complex.I : ℂ) • 1) := by
  obtain ⟨r, hr⟩ := (C22_uniform_succeeds_iff (3 / 2) (1, 2) obliqueLattice (2 + Complex.I) exampleExpansion).2
    ⟨by norm_num, by intro h; have := congrArg Complex.im h; simp at this, by norm_num [obliqueLattice]⟩
  exact ⟨r, hr, C22_uniform_mode_equation hr⟩

/-! ### C23 -/

/-- **C23** A constant pattern has the Fourier matrices of a uniform layer, in the FFT formulation and in every vector
formulation, whatever the tangent field. -/
theorem C23_constant_pattern_matrices (l : LatticeVectors) {G : ι → ℤ × ℤ} (hG : Function.Injective G)
    (hR : Resolves nx ny G) {c : ℂ} (hc : c ≠ 0) (f : Formulation nx ny ι)
    (hf : ∀ fn, f = .vector fn → ∃ t, fn (constGrid nx ny c) G l = .ok t) :
    ∃ m, fourierMatricesPatternedIsotropic l (constGrid nx ny c) G f = .ok m ∧
      m.zPermittivity = c • 1 ∧ m.inverseZPermittivity = (1 / c) • 1 ∧ m.transversePermittivity = c • 1 ∧
      m.zPermeability = 1 ∧ m.inverseZPermeability = 1 ∧ m.transversePermeability = 1 :=
  ⟨_, fourierMatrices_const l hG hR hc f hf, rfl, rfl, rfl, rfl, rfl, rfl⟩

/-- **C23** Consequently the patterned eigensolve of a constant pattern and the uniform eigensolve return layers which agree
in everything but the order and basis of the modes: the eigenvalues are the same up to a permutation and the eigenvectors
diagonalise the same matrix. -/
theorem C23_constant_pattern_layer (he : IsEig eig) {wavelength : ℝ} {inPlane : ℝ × ℝ} {l : LatticeVectors}
    {G : ι → ℤ × ℤ} (hG : Function.Injective G) (hR : Resolves nx ny G) {c : ℂ} (f : Formulation nx ny ι)
    (hf : ∀ fn, f = .vector fn → ∃ t, fn (constGrid nx ny c) G l = .ok t)
    {u : LayerSolveResult ι} (hu : eigensolveUniformIsotropic wavelength inPlane l c G = .ok u) :
    ∃ p, eigensolvePatternedIsotropic eig wavelength inPlane l (constGrid nx ny c) G f = .ok p ∧
      p.wavelength = u.wavelength ∧ p.inPlaneWavevector = u.inPlaneWavevector ∧
      p.primitiveLatticeVectors = u.primitiveLatticeVectors ∧ p.expansion = u.expansion ∧
      p.zPermittivityMatrix = u.zPermittivityMatrix ∧ p.inverseZPermittivityMatrix = u.inverseZPermittivityMatrix ∧
      p.zPermeabilityMatrix = u.zPermeabilityMatrix ∧ p.inverseZPermeabilityMatrix = u.inverseZPermeabilityMatrix ∧
      p.transversePermeabilityMatrix = u.transversePermeabilityMatrix ∧
      (∃ σ : Equiv.Perm (ι ⊕ ι), p.eigenvalues = u.eigenvalues ∘ σ) ∧
      ModeEquation p (c • 1) ∧ ModeEquation u (c • 1) ∧ IsUnit p.eigenvectors.det := by
  obtain ⟨m, k, A, hm, hk, hA, hAv, hdet⟩ := C22_uniform_solves_general_eigenproblem hG hR f hf hu
  obtain ⟨k', w, -, hw, hε, hr⟩ := eigensolveUniformIsotropic_ok_iff.1 hu
  have hm' := fourierMatrices_const l hG hR hε f hf
  rw [hm, ok_inj] at hm'
  have hp : numericalEigensolve eig wavelength inPlane l m G = .ok (solvedLayer wavelength inPlane l m G
      (fun i => selectEigenvaluesSign (csqrt ((eig A).1 i))) (eig A).2) :=
    numericalEigensolve_ok_iff.2 ⟨k, A, hk, hA, rfl⟩
  have hdet' := he.invertible A _ _ hdet hAv
  refine ⟨solvedLayer wavelength inPlane l m G (fun i => selectEigenvaluesSign (csqrt ((eig A).1 i))) (eig A).2,
    ?_, ?_, ?_, ?_, ?_, ?_, ?_, ?_, ?_, ?_, ?_, ?_, ?_, hdet'⟩
  · unfold eigensolvePatternedIsotropic
    exact bind_eq_ok.2 ⟨m, hm, hp⟩
  any_goals (rw [hr, hm']; rfl)
  · obtain ⟨σ, hσ⟩ := perm_of_similar hdet hdet' hAv (he.eigen A)
    refine ⟨σ, ?_⟩
    funext i
    simp only [solvedLayer, hσ, Function.comp]
    rw [C21_selected_root]
    exact (uniform_modeEquation hu).2.2 (σ i)
  · have := (numericalEigensolve_modes he hp).2.2.1
    rwa [show m.transversePermittivity = c • 1 by rw [hm']] at this
  · exact C22_uniform_mode_equation hu

/-- A tangent field of the examples that varies over the cell. -/
def exampleTangent : Grid 3 5 × Grid 3 5 := (Matrix.of fun r _ => (r : ℕ), Matrix.of fun _ s => (s : ℕ) - 1)

example : ∃ m, fourierMatricesPatternedIsotropic obliqueLattice (constGrid 3 5 (2 + Complex.I)) exampleExpansion
    (.vector fun _ _ _ => .ok exampleTangent) = .ok m ∧
    m.transversePermittivity = (2 + Complex.I : ℂ) • 1 := by
  obtain ⟨m, h, -, -, h1, -⟩ := C23_constant_pattern_matrices obliqueLattice exampleExpansion_injective
    exampleExpansion_resolved (c := 2 + Complex.I) (by intro h; have := congrArg Complex.im h; simp at this)
    (.vector fun _ _ _ => .ok exampleTangent) (by rintro fn h; cases h; exact ⟨_, rfl⟩)
  exact ⟨m, h, h1⟩

example : ∃ (eig : Matrix (Fin 4 ⊕ Fin 4) (Fin 4 ⊕ Fin 4) ℂ → _) (p u : LayerSolveResult (Fin 4)), IsEig eig ∧
    eigensolveUniformIsotropic (3 / 2) (1, 2) obliqueLattice (2 + Complex.I) exampleExpansion = .ok u ∧
    eigensolvePatternedIsotropic eig (3 / 2) (1, 2) obliqueLattice (constGrid 3 5 (2 + Complex.I)) exampleExpansion
      (.vector fun _ _ _ => .ok exampleTangent) = .ok p ∧ ∃ σ : Equiv.Perm (Fin 4 ⊕ Fin 4), p.eigenvalues = u.eigenvalues ∘ σ := by
  obtain ⟨eig, he⟩ := exists_isEig (Fin 4 ⊕ Fin 4)
  obtain ⟨u, hu⟩ := (C22_uniform_succeeds_iff (3 / 2) (1, 2) obliqueLattice (2 + Complex.I) exampleExpansion).2
    ⟨by norm_num, by intro h; have := congrArg Complex.im h; simp at this, by norm_num [obliqueLattice]⟩
  obtain ⟨p, hp, -, -, -, -, -, -, -, -, -, hσ, -⟩ := C23_constant_pattern_layer he exampleExpansion_injective
    exampleExpansion_resolved (.vector fun _ _ _ => .ok exampleTangent) (by rintro fn h; cases h; exact ⟨_, rfl⟩) hu
  exact ⟨eig, p, u, he, hu, hp, hσ⟩

/-! ### C24 -/

/-- The tensor components of a scalar. -/
def scalarTensor (x : Grid nx ny) : TensorComponents nx ny := { xx := x, xy := 0, yx := 0, yy := x, zz := x }

theorem fourierConvolutionMatrix_unresolved {G : ι → ℤ × ℤ} (h : ¬ Resolves nx ny G) (x : Grid nx ny) :
    fourierConvolutionMatrix x G = .error .valueError := by
  unfold fourierConvolutionMatrix
  rw [(validateShape_error_iff (nx := nx) (ny := ny) G .valueError).2 ⟨rfl, h⟩]
  rfl

theorem convolution_zero {G : ι → ℤ × ℤ} (hG : Function.Injective G) (hR : Resolves nx ny G) :
    fourierConvolutionMatrix (0 : Grid nx ny) G = .ok (0 : Matrix ι ι ℂ) := by
  have := C20_constant G hG hR 0
  rw [zero_smul] at this
  exact this

/-- **C24** With permittivity tensor `ε 1` and unit permeability, the anisotropic FFT formulation builds the same matrices as
the isotropic one (or fails in the same way). -/
theorem C24_fft_matrices (l : LatticeVectors) {G : ι → ℤ × ℤ} (hG : Function.Injective G) (ε src : Grid nx ny) :
    fourierMatricesPatternedAnisotropic l (scalarTensor ε) (scalarTensor (constGrid nx ny 1)) G .fft src =
      fourierMatricesPatternedIsotropic l ε G .fft := by
  unfold fourierMatricesPatternedAnisotropic fourierMatricesPatternedIsotropic transverseMatricesAnisotropic
    transversePermittivityIsotropic transversePermittivityFft transversePermittivityFftAnisotropic
    transversePermeabilityFftAnisotropic scalarTensor
  by_cases hR : Resolves nx ny G
  · have hone : fourierConvolutionMatrix (constGrid nx ny 1) G = .ok (1 : Matrix ι ι ℂ) := by
      have := C20_constant G hG hR 1
      rwa [one_smul] at this
    have hε := fourierConvolutionMatrix_eq ε hR
    simp only [neg_zero, convolution_zero hG hR, hone, hε, bind, Except.bind, recipGrid_const one_ne_zero, one_div, inv_one,
      diag_const, one_smul, zero_smul]
  · simp only [fourierConvolutionMatrix_unresolved hR, bind, Except.bind]

/-- **C24** Hence for patterned scalar media the two eigensolve entry points return the same layer. -/
theorem C24_fft_layer {wavelength : ℝ} {inPlane : ℝ × ℝ} {l : LatticeVectors} {G : ι → ℤ × ℤ}
    (hG : Function.Injective G) (ε : Grid nx ny) (hn : ¬ (nx = 1 ∧ ny = 1)) :
    eigensolveAnisotropicMedia eig wavelength inPlane l (scalarTensor ε) G .fft =
      eigensolveIsotropicMedia eig wavelength inPlane l ε G .fft := by
  unfold eigensolveAnisotropicMedia eigensolveGeneralAnisotropicMedia eigensolveIsotropicMedia
    eigensolvePatternedAnisotropic eigensolvePatternedIsotropic
  rw [dif_neg hn, dif_neg hn]
  have := C24_fft_matrices l hG ε (Matrix.of fun r s => ((scalarTensor ε).xx r s + (scalarTensor ε).yy r s) / 2)
  unfold scalarTensor constGrid at this
  unfold scalarTensor
  simp only [Option.getD_none]
  rw [this]

example (eig : Matrix (Fin 4 ⊕ Fin 4) (Fin 4 ⊕ Fin 4) ℂ → _) (ε : Grid 3 5) :
    eigensolveAnisotropicMedia eig (3 / 2) (1, 2) obliqueLattice (scalarTensor ε) exampleExpansion .fft =
      eigensolveIsotropicMedia eig (3 / 2) (1, 2) obliqueLattice ε exampleExpansion .fft :=
  C24_fft_layer exampleExpansion_injective ε (by norm_num)

/-- The matrices of a uniform scalar medium. -/
noncomputable def uniformMatrices (c : ℂ) : FourierMatrices ι :=
  { inverseZPermittivity := (1 / c) • 1, zPermittivity := c • 1, transversePermittivity := c • 1,
    inverseZPermeability := 1, zPermeability := 1, transversePermeability := 1 }

/-- **C24** Uniform scalar media: the anisotropic eigensolve builds the matrices of the uniform isotropic layer, and its
result has the same eigenvalues up to a permutation. -/
theorem C24_uniform (he : IsEig eig) {wavelength : ℝ} {inPlane : ℝ × ℝ} {l : LatticeVectors} {G : ι → ℤ × ℤ} {c : ℂ}
    {f : Formulation 1 1 ι} {u : LayerSolveResult ι}
    (hu : eigensolveIsotropicMedia eig wavelength inPlane l (constGrid 1 1 c) G f = .ok u) :
    ∃ p, eigensolveAnisotropicMedia eig wavelength inPlane l (scalarTensor (constGrid 1 1 c)) G f = .ok p ∧
      p.wavelength = u.wavelength ∧ p.inPlaneWavevector = u.inPlaneWavevector ∧
      p.primitiveLatticeVectors = u.primitiveLatticeVectors ∧ p.expansion = u.expansion ∧
      p.zPermittivityMatrix = u.zPermittivityMatrix ∧ p.inverseZPermittivityMatrix = u.inverseZPermittivityMatrix ∧
      p.zPermeabilityMatrix = u.zPermeabilityMatrix ∧ p.inverseZPermeabilityMatrix = u.inverseZPermeabilityMatrix ∧
      p.transversePermeabilityMatrix = u.transversePermeabilityMatrix ∧
      (∃ σ : Equiv.Perm (ι ⊕ ι), p.eigenvalues = u.eigenvalues ∘ σ) ∧
      ModeEquation p (c • 1) ∧ ModeEquation u (c • 1) ∧ IsUnit p.eigenvectors.det := by
  unfold eigensolveIsotropicMedia at hu
  rw [dif_pos ⟨rfl, rfl⟩] at hu
  replace hu : eigensolveUniformIsotropic wavelength inPlane l c G = .ok u := hu
  obtain ⟨k, w, hk, hw, hε, hr⟩ := eigensolveUniformIsotropic_ok_iff.1 hu
  obtain ⟨hwell, hmode, -⟩ := uniform_modeEquation hu
  have h1 : Matrix.fromBlocks (c • (1 : Matrix ι ι ℂ)) 0 0 (c • 1) = c • (1 : Matrix (ι ⊕ ι) (ι ⊕ ι) ℂ) := by
    rw [← Matrix.fromBlocks_one, Matrix.fromBlocks_smul]; simp
  generalize hm : uniformMatrices (ι := ι) c = m
  have hA := (eigenproblemMatrix_ok_iff (m := m) (wavelength := wavelength) u.eigenvalues u.eigenvectors hk).2
    ⟨(angularFrequency_eq_ok.1 hw).1, by
      rw [← hm]
      simp only [uniformMatrices, Matrix.det_smul, Matrix.det_one, mul_one, isUnit_iff_ne_zero]
      exact pow_ne_zero _ hε, by rw [← hm]; simp [uniformMatrices], rfl⟩
  generalize hAe : (m.transversePermittivity * magneticToElectric (solvedLayer wavelength inPlane l m G u.eigenvalues
    u.eigenvectors) - divergenceMatrix (solvedLayer wavelength inPlane l m G u.eigenvalues u.eigenvectors) *
    m.transversePermeability) = A at hA
  have hs : solvedLayer wavelength inPlane l m G u.eigenvalues u.eigenvectors = u := by
    rw [← hm, hr]; rfl
  have hAv : A * u.eigenvectors = u.eigenvectors * Matrix.diagonal (fun i => u.eigenvalues i ^ 2) := by
    rw [← hAe, hs, ← hm]
    have := hmode
    unfold ModeEquation at this
    rwa [show u.transversePermeabilityMatrix = 1 by rw [hr]] at this
  have hdet : IsUnit u.eigenvectors.det := by rw [hr]; simp
  have hdet' := he.invertible A _ _ hdet hAv
  have hp : numericalEigensolve eig wavelength inPlane l m G = .ok (solvedLayer wavelength inPlane l m G
      (fun i => selectEigenvaluesSign (csqrt ((eig A).1 i))) (eig A).2) :=
    numericalEigensolve_ok_iff.2 ⟨k, A, hk, hA, rfl⟩
  refine ⟨solvedLayer wavelength inPlane l m G (fun i => selectEigenvaluesSign (csqrt ((eig A).1 i))) (eig A).2,
    ?_, ?_, ?_, ?_, ?_, ?_, ?_, ?_, ?_, ?_, ?_, ?_, hmode, hdet'⟩
  · unfold eigensolveAnisotropicMedia eigensolveGeneralAnisotropicMedia eigensolveUniformAnisotropic
    rw [dif_pos ⟨rfl, rfl⟩]
    refine bind_eq_ok.2 ⟨m, ?_, hp⟩
    unfold fourierMatricesUniformAnisotropic scalarTensor TensorComponents.uniform constGrid
    simp only [Matrix.of_apply, one_ne_zero, hε, or_self, if_false, diag_const, Matrix.zero_apply, neg_zero, zero_smul, h1,
      one_smul, Matrix.fromBlocks_one, div_one, ← hm, uniformMatrices]
  any_goals (rw [hr, ← hm]; rfl)
  · obtain ⟨σ, hσ⟩ := perm_of_similar hdet hdet' hAv (he.eigen A)
    refine ⟨σ, ?_⟩
    funext i
    simp only [solvedLayer, hσ, Function.comp]
    rw [C21_selected_root]
    exact (uniform_modeEquation hu).2.2 (σ i)
  · have := (numericalEigensolve_modes he hp).2.2.1
    rwa [show m.transversePermittivity = c • 1 by rw [← hm]; rfl] at this

example : ∃ (eig : Matrix (Fin 4 ⊕ Fin 4) (Fin 4 ⊕ Fin 4) ℂ → _) (p u : LayerSolveResult (Fin 4)), IsEig eig ∧
    eigensolveIsotropicMedia eig (3 / 2) (1, 2) obliqueLattice (constGrid 1 1 (2 + Complex.I)) exampleExpansion .fft = .ok u ∧
    eigensolveAnisotropicMedia eig (3 / 2) (1, 2) obliqueLattice (scalarTensor (constGrid 1 1 (2 + Complex.I)))
      exampleExpansion .fft = .ok p := by
  obtain ⟨eig, he⟩ := exists_isEig (Fin 4 ⊕ Fin 4)
  obtain ⟨u, hu⟩ := (C22_uniform_succeeds_iff (3 / 2) (1, 2) obliqueLattice (2 + Complex.I) exampleExpansion).2
    ⟨by norm_num, by intro h; have := congrArg Complex.im h; simp at this, by norm_num [obliqueLattice]⟩
  have hu' : eigensolveIsotropicMedia eig (3 / 2) (1, 2) obliqueLattice (constGrid 1 1 (2 + Complex.I)) exampleExpansion
      .fft = .ok u := by
    unfold eigensolveIsotropicMedia
    rw [dif_pos ⟨rfl, rfl⟩]
    exact hu
  obtain ⟨p, hp, -⟩ := C24_uniform he hu'
  exact ⟨eig, p, u, he, hu', hp⟩

/-- The matrix of a constant tensor: blocks which are multiples of the identity. -/
def blocks (a b c d : ℂ) : Matrix (ι ⊕ ι) (ι ⊕ ι) ℂ := Matrix.fromBlocks (a • 1) (b • 1) (c • 1) (d • 1)

/-- Multiplication of blocks that are multiples of the identity. -/
theorem fromBlocks_smul_mul (a b c d a' b' c' d' : ℂ) :
    blocks (ι := ι) a b c d * blocks a' b' c' d' =
      blocks (a * a' + b * c') (a * b' + b * d') (c * a' + d * c') (c * b' + d * d') := by
  unfold blocks
  rw [Matrix.fromBlocks_multiply]
  simp only [Matrix.smul_mul, Matrix.mul_smul, Matrix.one_mul, smul_smul, add_smul, Matrix.mul_one]
  simp only [mul_comm]

/-- The constant-field case of the anisotropic vector formulation. -/
theorem rotatedFourierMatrix_const {G : ι → ℤ × ℤ} (hG : Function.Injective G) (hR : Resolves nx ny G)
    {x00 x01 x10 x11 t00 t01 t10 t11 : ℂ} {D : ℝ} (hD : t00 * t11 - t10 * t01 = D) (hpos : 1e-8 < D)
    (hn : -t10 * (x00 * t01 + x01 * t11) + t00 * (x10 * t01 + x11 * t11) ≠ 0) :
    rotatedFourierMatrix (fun _ _ => !![x00, x01; x10, x11]) (constGrid nx ny t00) (constGrid nx ny t01)
      (constGrid nx ny t10) (constGrid nx ny t11) G =
      .ok (blocks x00 x01 x10 x11) := by
  have hD0 : (D : ℂ) ≠ 0 := by
    have : D ≠ 0 := by rintro rfl; norm_num at hpos
    exact_mod_cast this
  have hds : denomSafe ‖t00 * t11 - t10 * t01‖ = D := by
    unfold denomSafe
    have hDpos : 0 < D := lt_trans (by norm_num) hpos
    rw [hD, Complex.norm_real, Real.norm_eq_abs, abs_abs, abs_of_pos hDpos, if_neg (not_le.2 hpos)]
  have hconst : ∀ c, fourierConvolutionMatrix (constGrid nx ny c) G = .ok (c • (1 : Matrix ι ι ℂ)) :=
    C20_constant G hG hR
  have hconst' : ∀ c, fourierConvolutionMatrix (Matrix.of fun (_ : Fin nx) (_ : Fin ny) => c) G =
      .ok (c • (1 : Matrix ι ι ℂ)) := hconst
  generalize hY : (!![x00, x01; x10, x11] * !![t00, t01; t10, t11] : Matrix (Fin 2) (Fin 2) ℂ) = Y
  have hsol : solve !![t00, t01; t10, t11] Y = .ok ((D : ℂ)⁻¹ • (!![t11, -t01; -t10, t00] * Y)) := by
    rw [solve_eq_ok]
    refine ⟨?_, ?_⟩
    · rw [Matrix.det_fin_two_of, isUnit_iff_ne_zero]
      intro h0
      exact hD0 (by rw [← hD, ← h0]; ring)
    · rw [Matrix.mul_smul, ← Matrix.mul_assoc]
      have : (!![t00, t01; t10, t11] * !![t11, -t01; -t10, t00] : Matrix (Fin 2) (Fin 2) ℂ) = (D : ℂ) • 1 := by
        ext i j
        fin_cases i <;> fin_cases j <;> simp [← hD] <;> ring
      rw [this, Matrix.smul_mul, Matrix.one_mul, smul_smul, inv_mul_cancel₀ hD0, one_smul]
  generalize hRt : (D : ℂ)⁻¹ • (!![t11, -t01; -t10, t00] * Y) = Rt at hsol
  have h11 : Rt 1 1 ≠ 0 := by
    rw [← hRt, ← hY]
    simp only [Matrix.smul_apply, smul_eq_mul]
    refine mul_ne_zero (inv_ne_zero hD0) ?_
    simpa [Matrix.mul_apply, Fin.sum_univ_two] using hn
  have hall : allOk (fun p : Fin nx × Fin ny => solve (!![t00, t01; t10, t11] : Matrix (Fin 2) (Fin 2) ℂ) Y) =
      .ok fun _ => Rt := allOk_eq_ok.2 fun _ => hsol
  have hrec : recipGrid (Matrix.of fun (_ : Fin nx) (_ : Fin ny) => Rt 1 1) = .ok (constGrid nx ny (1 / Rt 1 1)) :=
    recipGrid_const h11
  unfold rotatedFourierMatrix rotationMatrices
  simp only [hconst, bind, Except.bind]
  simp only [constGrid, Matrix.of_apply, hds, hconst', hY, hall, hrec]
  simp only [hconst, inv_smul_one h11]
  change Except.ok (blocks _ _ _ _ * blocks _ _ _ _ * blocks _ _ _ _) = _
  rw [fromBlocks_smul_mul, fromBlocks_smul_mul]
  congr 1
  rw [← hRt, ← hY]
  have hDinv : (D : ℂ)⁻¹ * D = 1 := inv_mul_cancel₀ hD0
  congr 1 <;> congr 1 <;>
    simp only [Matrix.smul_apply, Matrix.mul_apply, Fin.sum_univ_two, Matrix.of_apply, Matrix.cons_val', Matrix.cons_val_zero,
      Matrix.cons_val_one, smul_eq_mul, Matrix.cons_val_fin_one] <;> field_simp <;> rw [← hD] <;> ring

/-- **C24** Vector formulation with a constant tangent field (of any non-negligible length): the transverse permittivity matrix
of a constant tensor is exactly that tensor.  `hn` says that the normal-normal component of the tensor is nonzero, as the
inverse rule needs. -/
theorem C24_vector_constant_tangent {G : ι → ℤ × ℤ} (hG : Function.Injective G) (hR : Resolves nx ny G)
    {xx xy yx yy tx ty : ℂ} (ht : 1e-8 < ‖tx‖ ^ 2 + ‖ty‖ ^ 2)
    (hn : xx * star ty * ty - xy * star tx * ty - yx * star ty * tx + yy * star tx * tx ≠ 0) :
    transversePermittivityVectorAnisotropic (constGrid nx ny xx) (constGrid nx ny xy) (constGrid nx ny yx)
      (constGrid nx ny yy) (constGrid nx ny tx) (constGrid nx ny ty) G =
      .ok (Matrix.fromBlocks (yy • (1 : Matrix ι ι ℂ)) (-yx • (1 : Matrix ι ι ℂ)) (-xy • (1 : Matrix ι ι ℂ)) (xx • 1)) := by
  have e1 : ∀ c : ℂ, (Matrix.of fun (r : Fin nx) (s : Fin ny) => star (constGrid nx ny c r s)) = constGrid nx ny (star c) :=
    fun _ => rfl
  have e2 : ∀ c : ℂ, -constGrid nx ny c = constGrid nx ny (-c) := fun _ => rfl
  have e3 : ∀ c : ℂ, (Matrix.of fun (r : Fin nx) (s : Fin ny) => -star (constGrid nx ny c r s)) = constGrid nx ny (-star c) :=
    fun _ => rfl
  unfold transversePermittivityVectorAnisotropic
  simp only [e1, e2, constGrid_apply]
  refine rotatedFourierMatrix_const hG hR (D := ‖tx‖ ^ 2 + ‖ty‖ ^ 2) ?_ ht ?_
  · simp only [Complex.star_def]
    push_cast
    rw [← Complex.mul_conj' tx, ← Complex.mul_conj' ty]
    ring
  · intro h0
    apply hn
    rw [← h0]
    ring

/-- **C24** The same for the transverse permeability matrix. -/
theorem C24_vector_constant_tangent_permeability {G : ι → ℤ × ℤ} (hG : Function.Injective G) (hR : Resolves nx ny G)
    {xx xy yx yy tx ty : ℂ} (ht : 1e-8 < ‖tx‖ ^ 2 + ‖ty‖ ^ 2)
    (hn : xx * star ty * ty - xy * star tx * ty - yx * star ty * tx + yy * star tx * tx ≠ 0) :
    transversePermeabilityVectorAnisotropic (constGrid nx ny xx) (constGrid nx ny xy) (constGrid nx ny yx)
      (constGrid nx ny yy) (constGrid nx ny tx) (constGrid nx ny ty) G =
      .ok (Matrix.fromBlocks (xx • (1 : Matrix ι ι ℂ)) (xy • (1 : Matrix ι ι ℂ)) (yx • (1 : Matrix ι ι ℂ)) (yy • 1)) := by
  have e1 : ∀ c : ℂ, (Matrix.of fun (r : Fin nx) (s : Fin ny) => star (constGrid nx ny c r s)) = constGrid nx ny (star c) :=
    fun _ => rfl
  have e3 : ∀ c : ℂ, (Matrix.of fun (r : Fin nx) (s : Fin ny) => -star (constGrid nx ny c r s)) = constGrid nx ny (-star c) :=
    fun _ => rfl
  unfold transversePermeabilityVectorAnisotropic
  simp only [e1, e3, constGrid_apply]
  refine rotatedFourierMatrix_const hG hR (D := ‖tx‖ ^ 2 + ‖ty‖ ^ 2) ?_ ht ?_
  · simp only [Complex.star_def]
    push_cast
    rw [← Complex.mul_conj' tx, ← Complex.mul_conj' ty]
    ring
  · intro h0
    apply hn
    rw [← h0]
    ring

/-- The convolution matrix for the single order zero is the average over the cell. -/
theorem convolution_single (hx : 0 < nx) (hy : 0 < ny) (x : Grid nx ny) :
    fourierConvolutionMatrix x (fun _ : Fin 1 => ((0 : ℤ), (0 : ℤ))) =
      .ok (((∑ r, ∑ s, x r s) / (nx * ny)) • (1 : Matrix (Fin 1) (Fin 1) ℂ)) := by
  rw [fourierConvolutionMatrix_eq x ⟨⟨0⟩, fun i => by simp; omega⟩]
  congr 1
  ext i j
  simp [fourierCoefficient, planeWave, Subsingleton.elim i j]

/-- **C24 (finding)** The exactness does not extend to tangent fields that vary over the cell, not even for vacuum: with the
order zero only and a tangent field pointing along x in one half and along y in the other half of the cell, the anisotropic
vector formulation turns a permittivity of `1` into `1/2`. -/
theorem C24_varying_tangent_not_exact :
    transversePermittivityVectorAnisotropic (constGrid 2 1 1) (constGrid 2 1 0) (constGrid 2 1 0) (constGrid 2 1 1)
      !![1; 0] !![0; 1] (fun _ : Fin 1 => ((0 : ℤ), (0 : ℤ))) = .ok ((1 / 2 : ℂ) • 1) := by
  have hsolve : ∀ T : Matrix (Fin 2) (Fin 2) ℂ, IsUnit T.det → solve T (!![1, -0; -0, 1] * T) = .ok 1 := by
    intro T hT
    have : (!![1, -0; -0, 1] : Matrix (Fin 2) (Fin 2) ℂ) = 1 := by ext i j; fin_cases i <;> fin_cases j <;> simp
    rw [this, Matrix.one_mul, solve_eq_ok]
    exact ⟨hT, Matrix.mul_one T⟩
  unfold transversePermittivityVectorAnisotropic rotatedFourierMatrix rotationMatrices
  have hall : allOk (fun p : Fin 2 × Fin 1 => solve
      (!![(!![0; 1] : Grid 2 1) p.1 p.2, (Matrix.of fun r s => star ((!![1; 0] : Grid 2 1) r s)) p.1 p.2;
         (-!![1; 0] : Grid 2 1) p.1 p.2, (Matrix.of fun r s => star ((!![0; 1] : Grid 2 1) r s)) p.1 p.2] :
        Matrix (Fin 2) (Fin 2) ℂ)
      (!![constGrid 2 1 1 p.1 p.2, -constGrid 2 1 0 p.1 p.2; -constGrid 2 1 0 p.1 p.2, constGrid 2 1 1 p.1 p.2] *
        (!![(!![0; 1] : Grid 2 1) p.1 p.2, (Matrix.of fun r s => star ((!![1; 0] : Grid 2 1) r s)) p.1 p.2;
         (-!![1; 0] : Grid 2 1) p.1 p.2, (Matrix.of fun r s => star ((!![0; 1] : Grid 2 1) r s)) p.1 p.2] :
        Matrix (Fin 2) (Fin 2) ℂ))) = .ok fun _ => 1 := by
    refine allOk_eq_ok.2 fun p => ?_
    simp only [constGrid_apply]
    refine hsolve _ ?_
    obtain ⟨r, s⟩ := p
    fin_cases r <;> fin_cases s <;> simp [Matrix.det_fin_two]
  have h1 : recipGrid (Matrix.of fun (r : Fin 2) (s : Fin 1) => (1 : Matrix (Fin 2) (Fin 2) ℂ) 1 1) =
      .ok (constGrid 2 1 (1 / 1)) := by
    rw [← recipGrid_const one_ne_zero]
    congr 1
  simp only [convolution_single (nx := 2) (ny := 1) (by norm_num) (by norm_num), bind, Except.bind, hall, h1]
  have h2 : (1 : Matrix (Fin 2) (Fin 2) ℂ) 0 1 = 0 := rfl
  have h3 : (1 : Matrix (Fin 2) (Fin 2) ℂ) 1 0 = 0 := rfl
  have h4 : (1 : Matrix (Fin 2) (Fin 2) ℂ) 0 0 = 1 := rfl
  have h5 : ((∑ r : Fin 2, ∑ s : Fin 1, constGrid 2 1 (1 / 1) r s) / (((2 : ℕ) : ℂ) * ((1 : ℕ) : ℂ))) = 1 / 1 := by
    simp [constGrid]
  rw [h5, inv_smul_one one_ne_zero]
  simp only [h2, h3, h4]
  change Except.ok (blocks _ _ _ _ * blocks _ _ _ _ * blocks _ _ _ _) = _
  rw [fromBlocks_smul_mul, fromBlocks_smul_mul]
  have hd0 : denomSafe 1 = 1 := by unfold denomSafe; rw [if_neg (by norm_num)]
  congr 1
  simp [Fin.sum_univ_two, hd0]
  unfold blocks
  rw [← Matrix.fromBlocks_one, Matrix.fromBlocks_smul]
  norm_num

example : transversePermittivityVectorAnisotropic (constGrid 3 5 2) (constGrid 3 5 Complex.I) (constGrid 3 5 (-Complex.I))
    (constGrid 3 5 3) (constGrid 3 5 1) (constGrid 3 5 2) exampleExpansion =
    .ok (Matrix.fromBlocks ((3 : ℂ) • (1 : Matrix (Fin 4) (Fin 4) ℂ)) (-(-Complex.I) • (1 : Matrix (Fin 4) (Fin 4) ℂ))
      (-Complex.I • (1 : Matrix (Fin 4) (Fin 4) ℂ)) ((2 : ℂ) • 1)) := by
  refine C24_vector_constant_tangent exampleExpansion_injective exampleExpansion_resolved (by norm_num) ?_
  simp
  intro h
  have := congrArg Complex.re h
  norm_num at this

/-! ### C27 -/

/-- The matrix which the tangent terms form in the vector formulation: it acts on `[-Ey; Ex]`. -/
noncomputable def tangentMatrix (tx ty : ℂ) : Matrix (Fin 2) (Fin 2) ℂ :=
  !![(tangentTerms tx ty).yy, (tangentTerms tx ty).yx; (tangentTerms tx ty).xy, (tangentTerms tx ty).xx]

theorem tangentMatrix_eq {tx ty : ℂ} (h : 1e-8 < ‖tx‖ ^ 2 + ‖ty‖ ^ 2) :
    tangentMatrix tx ty = ((‖tx‖ ^ 2 + ‖ty‖ ^ 2 : ℝ) : ℂ)⁻¹ •
      !![star tx * tx, star tx * ty; star ty * tx, star ty * ty] := by
  have hp : 0 < ‖tx‖ ^ 2 + ‖ty‖ ^ 2 := lt_trans (by norm_num) h
  have hd : denomSafe (‖tx‖ ^ 2 + ‖ty‖ ^ 2) = ‖tx‖ ^ 2 + ‖ty‖ ^ 2 := by
    unfold denomSafe
    rw [abs_of_pos hp, if_neg (not_le.2 h)]
  unfold tangentMatrix tangentTerms
  simp only [hd]
  ext i j
  fin_cases i <;> fin_cases j <;> simp [div_eq_inv_mul, ← Complex.conj_mul', mul_comm tx]

theorem norm_sq_cast (tx ty : ℂ) : ((‖tx‖ ^ 2 + ‖ty‖ ^ 2 : ℝ) : ℂ) = star tx * tx + star ty * ty := by
  push_cast
  rw [← Complex.conj_mul', ← Complex.conj_mul']
  rfl

/-- **C27** Where the tangent vector `(tx, ty)` is not negligible the tangent terms form a Hermitian projector of trace one
(hence rank one). -/
theorem C27_projector {tx ty : ℂ} (h : 1e-8 < ‖tx‖ ^ 2 + ‖ty‖ ^ 2) :
    (tangentMatrix tx ty)ᴴ = tangentMatrix tx ty ∧ tangentMatrix tx ty * tangentMatrix tx ty = tangentMatrix tx ty ∧
      (tangentMatrix tx ty).trace = 1 := by
  have hp : ((‖tx‖ ^ 2 + ‖ty‖ ^ 2 : ℝ) : ℂ) ≠ 0 := by
    have : ‖tx‖ ^ 2 + ‖ty‖ ^ 2 ≠ 0 := (lt_trans (by norm_num) h).ne'
    exact_mod_cast this
  rw [tangentMatrix_eq h]
  have hc := norm_sq_cast tx ty
  generalize hD : ((‖tx‖ ^ 2 + ‖ty‖ ^ 2 : ℝ) : ℂ) = D at *
  have hstar : star D = D := by rw [← hD]; exact Complex.conj_ofReal _
  refine ⟨?_, ?_, ?_⟩
  · rw [Matrix.conjTranspose_smul, star_inv₀, hstar]
    congr 1
    ext i j
    fin_cases i <;> fin_cases j <;> simp [mul_comm]
  · rw [Matrix.smul_mul, Matrix.mul_smul, smul_smul]
    have : (!![star tx * tx, star tx * ty; star ty * tx, star ty * ty] *
        !![star tx * tx, star tx * ty; star ty * tx, star ty * ty] : Matrix (Fin 2) (Fin 2) ℂ) =
        D • !![star tx * tx, star tx * ty; star ty * tx, star ty * ty] := by
      rw [hc]
      ext i j
      fin_cases i <;> fin_cases j <;> simp <;> ring
    rw [this, smul_smul, mul_assoc, inv_mul_cancel₀ hp, mul_one]
  · rw [Matrix.trace_smul, Matrix.trace_fin_two]
    simp only [Matrix.of_apply, Matrix.cons_val', Matrix.cons_val_zero, Matrix.cons_val_one, Matrix.cons_val_fin_one, smul_eq_mul]
    rw [← hc, inv_mul_cancel₀ hp]

/-- **C27** What it projects on: applied to `[-Ey; Ex]` it annihilates exactly the fields parallel to the tangent vector and
keeps exactly the fields orthogonal to it. -/
theorem C27_selects_normal_component {tx ty : ℂ} (h : 1e-8 < ‖tx‖ ^ 2 + ‖ty‖ ^ 2) (ex ey : ℂ) :
    (tangentMatrix tx ty *ᵥ ![-ey, ex] = 0 ↔ ex * ty = ey * tx) ∧
    (tangentMatrix tx ty *ᵥ ![-ey, ex] = ![-ey, ex] ↔ star tx * ex + star ty * ey = 0) := by
  have hp' : 0 < ‖tx‖ ^ 2 + ‖ty‖ ^ 2 := lt_trans (by norm_num) h
  have hp : ((‖tx‖ ^ 2 + ‖ty‖ ^ 2 : ℝ) : ℂ) ≠ 0 := by exact_mod_cast hp'.ne'
  have hne : tx ≠ 0 ∨ ty ≠ 0 := by
    by_contra hn
    push Not at hn
    rw [hn.1, hn.2] at hp'
    norm_num at hp'
  rw [tangentMatrix_eq h]
  have hc := norm_sq_cast tx ty
  generalize ((‖tx‖ ^ 2 + ‖ty‖ ^ 2 : ℝ) : ℂ) = D at *
  have hmul : (!![star tx * tx, star tx * ty; star ty * tx, star ty * ty] : Matrix (Fin 2) (Fin 2) ℂ) *ᵥ ![-ey, ex] =
      ![star tx * (ex * ty - ey * tx), star ty * (ex * ty - ey * tx)] := by
    ext i; fin_cases i <;> simp [Matrix.mulVec, dotProduct, Fin.sum_univ_two] <;> ring
  rw [Matrix.smul_mulVec, hmul]
  constructor
  · constructor
    · intro h0
      rw [smul_eq_zero] at h0
      rcases h0 with h0 | h0
      · exact absurd h0 (inv_ne_zero hp)
      · have a := congrFun h0 0
        have b := congrFun h0 1
        simp only [Matrix.cons_val_zero, Matrix.cons_val_one, Pi.zero_apply, mul_eq_zero, star_eq_zero] at a b
        rcases hne with hn | hn
        · exact sub_eq_zero.1 (a.resolve_left hn)
        · exact sub_eq_zero.1 (b.resolve_left hn)
    · intro h0
      rw [h0, sub_self]
      simp
  · have hiff : D⁻¹ • ![star tx * (ex * ty - ey * tx), star ty * (ex * ty - ey * tx)] = ![-ey, ex] ↔
        star tx * (ex * ty - ey * tx) = D * -ey ∧ star ty * (ex * ty - ey * tx) = D * ex := by
      constructor
      · intro h0
        have a := congrFun h0 0
        have b := congrFun h0 1
        simp only [Pi.smul_apply, Matrix.cons_val_zero, Matrix.cons_val_one, smul_eq_mul] at a b
        constructor
        · exact (eq_inv_mul_iff_mul_eq₀ hp).1 a.symm |>.symm
        · exact (eq_inv_mul_iff_mul_eq₀ hp).1 b.symm |>.symm
      · rintro ⟨a, b⟩
        rw [a, b]
        ext i; fin_cases i <;> simp [hp]
    rw [hiff, hc]
    constructor
    · rintro ⟨a, b⟩
      rcases hne with hn | hn
      · refine (mul_eq_zero.1 (?_ : tx * (star tx * ex + star ty * ey) = 0)).resolve_left hn
        linear_combination -b
      · refine (mul_eq_zero.1 (?_ : ty * (star tx * ex + star ty * ey) = 0)).resolve_left hn
        linear_combination a
    · intro h0
      constructor
      · linear_combination ty * h0
      · linear_combination -tx * h0

/-- **C27** The terms do not depend on length and phase of the tangent vector. -/
theorem C27_scale_and_phase_free {tx ty c : ℂ} (h : 1e-8 < ‖tx‖ ^ 2 + ‖ty‖ ^ 2)
    (hc : 1e-8 < ‖c * tx‖ ^ 2 + ‖c * ty‖ ^ 2) : tangentMatrix (c * tx) (c * ty) = tangentMatrix tx ty := by
  have hc0 : c ≠ 0 := by rintro rfl; norm_num at hc
  rw [tangentMatrix_eq h, tangentMatrix_eq hc]
  have e1 : (‖c * tx‖ ^ 2 + ‖c * ty‖ ^ 2 : ℝ) = ‖c‖ ^ 2 * (‖tx‖ ^ 2 + ‖ty‖ ^ 2) := by
    rw [norm_mul, norm_mul]; ring
  have e2 : ((‖c‖ ^ 2 : ℝ) : ℂ) = star c * c := by
    push_cast; rw [← Complex.conj_mul']; rfl
  have h0 : star c * c ≠ 0 := mul_ne_zero (star_ne_zero.2 hc0) hc0
  rw [e1, Complex.ofReal_mul, mul_inv, e2, mul_comm, mul_smul]
  congr 1
  ext i j
  have hs : (starRingEnd ℂ) c ≠ 0 := star_ne_zero.2 hc0
  fin_cases i <;> fin_cases j <;> simp <;> field_simp

/-- **C27** Where it is negligible there is no division by zero, and the terms are themselves negligible. -/
theorem C27_no_division_by_zero (tx ty : ℂ) :
    denomSafe (‖tx‖ ^ 2 + ‖ty‖ ^ 2) ≠ 0 ∧
    (‖tx‖ ^ 2 + ‖ty‖ ^ 2 ≤ 1e-8 → ∀ i j, ‖tangentMatrix tx ty i j‖ ≤ 1e-8) := by
  constructor
  · unfold denomSafe
    split_ifs with h
    · exact one_ne_zero
    · intro h0; rw [h0] at h; norm_num at h
  · intro h
    have hp : 0 ≤ ‖tx‖ ^ 2 + ‖ty‖ ^ 2 := by positivity
    have hd : denomSafe (‖tx‖ ^ 2 + ‖ty‖ ^ 2) = 1 := by
      unfold denomSafe
      rw [abs_of_nonneg hp, if_pos h]
    have h1 := sq_nonneg (‖tx‖ - ‖ty‖)
    have h2 := sq_nonneg ‖tx‖
    have h3 := sq_nonneg ‖ty‖
    have h4 : 0 ≤ ‖tx‖ * ‖ty‖ := by positivity
    intro i j
    unfold tangentMatrix tangentTerms
    simp only [hd]
    fin_cases i <;> fin_cases j <;> simp <;> nlinarith

example : tangentMatrix 3 (4 * Complex.I) * tangentMatrix 3 (4 * Complex.I) = tangentMatrix 3 (4 * Complex.I) :=
  (C27_projector (by norm_num)).2.1

/-! ### C26 -/

/-- **C26** The product of the k matrix and the script-k matrix vanishes in both orders, for all z-permittivity and
z-permeability matrices and wavevectors. -/
theorem C26_k_script_k_products_vanish {zε zμ : Matrix ι ι ℂ} {k : ι → ℝ × ℝ} {K S : Matrix (ι ⊕ ι) (ι ⊕ ι) ℂ}
    (hS : scriptKMatrixPatterned zε k = .ok S) (hK : kMatrixPatterned zμ k = .ok K) : K * S = 0 ∧ S * K = 0 := by
  obtain ⟨-, rfl⟩ := scriptKMatrixPatterned_eq_ok.1 hS
  obtain ⟨-, rfl⟩ := kMatrixPatterned_eq_ok.1 hK
  have hc : (diagonal (kyOf k) : Matrix ι ι ℂ) * diagonal (kxOf k) = diagonal (kxOf k) * diagonal (kyOf k) := by
    simp [mul_comm]
  have hc' : ∀ X : Matrix ι ι ℂ, diagonal (kyOf k) * (diagonal (kxOf k) * X) = diagonal (kxOf k) * (diagonal (kyOf k) * X) := by
    intro X; rw [← Matrix.mul_assoc, hc, Matrix.mul_assoc]
  constructor <;>
  · rw [Matrix.fromBlocks_multiply]
    simp only [Matrix.mul_neg, Matrix.neg_mul, Matrix.mul_assoc, hc', hc]
    rw [← Matrix.fromBlocks_zero]
    congr 1 <;> abel

/-- **C26** Both matrices exist for invertible z matrices. -/
theorem C26_matrices_exist {zε zμ : Matrix ι ι ℂ} (k : ι → ℝ × ℝ) (hε : IsUnit zε.det) (hμ : IsUnit zμ.det) :
    (∃ S, scriptKMatrixPatterned zε k = .ok S) ∧ ∃ K, kMatrixPatterned zμ k = .ok K :=
  ⟨⟨_, scriptKMatrixPatterned_eq_ok.2 ⟨hε, rfl⟩⟩, ⟨_, kMatrixPatterned_eq_ok.2 ⟨hμ, rfl⟩⟩⟩

/-- **C26** For a scalar the patterned script-k matrix is the uniform one. -/
theorem C26_uniform_script_k {ε : ℂ} (hε : ε ≠ 0) (k : ι → ℝ × ℝ) :
    scriptKMatrixPatterned (ε • 1) k = scriptKMatrixUniform ε k := by
  unfold scriptKMatrixUniform
  rw [if_neg hε, scriptKMatrixPatterned_eq_ok]
  refine ⟨?_, ?_⟩
  · simp only [Matrix.det_smul, Matrix.det_one, mul_one, isUnit_iff_ne_zero]
    exact pow_ne_zero _ hε
  · have : (ε • (1 : Matrix ι ι ℂ))⁻¹ = ε⁻¹ • 1 := by
      refine Matrix.inv_eq_right_inv ?_
      rw [Matrix.smul_mul, Matrix.one_mul, smul_smul, mul_inv_cancel₀ hε, one_smul]
    rw [this]
    simp only [Matrix.mul_smul, Matrix.smul_mul, Matrix.mul_one, Matrix.diagonal_mul_diagonal, diag_eq]
    congr 1 <;> ext i j <;> by_cases h : i = j <;> simp [h] <;> ring

example : ∃ S K, scriptKMatrixPatterned !![(2 : ℂ), 1; 1, 3] ![(1, 2), (-1, 4)] = .ok S ∧
    kMatrixPatterned !![(1 : ℂ), Complex.I; 0, 1] ![(1, 2), (-1, 4)] = .ok K ∧ K * S = 0 ∧ S * K = 0 := by
  obtain ⟨⟨S, hS⟩, K, hK⟩ := C26_matrices_exist (zε := !![(2 : ℂ), 1; 1, 3]) (zμ := !![(1 : ℂ), Complex.I; 0, 1])
    ![((1 : ℝ), (2 : ℝ)), (-1, 4)] (by simp [Matrix.det_fin_two]; norm_num) (by simp [Matrix.det_fin_two])
  exact ⟨S, K, hS, hK, C26_k_script_k_products_vanish hS hK⟩

end Fmmax
