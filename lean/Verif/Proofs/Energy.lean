import Verif.Proofs.Fields
import Verif.Proofs.Fft
import Mathlib.Analysis.Calculus.Deriv.Star
import Mathlib.Analysis.Calculus.Deriv.MeanValue
import Mathlib.Analysis.Calculus.Deriv.Mul

/-! Completeness of the modes of a layer and the Poynting theorem. -/

set_option linter.unusedSectionVars false

namespace Fmmax

open Matrix Spec

variable {ι : Type} [Fintype ι] [DecidableEq ι] {β : Type}

/-! ### Poynting theorem -/

theorem hasDerivAt_reFlux {f g : ℝ → ℂ} {f' g' : ℂ} {z : ℝ} (hf : HasDerivAt f f' z) (hg : HasDerivAt g g' z) :
    HasDerivAt (fun z => (star (f z) * g z).re) ((star f' * g z + star (f z) * g').re) z := by
  have h1 : HasDerivAt (fun z => star (f z) * g z) (star f' * g z + star (f z) * g') z := by
    have := hf.star.mul hg
    exact this
  exact (Complex.reCLM.hasFDerivAt (x := star (f z) * g z)).comp_hasDerivAt z h1

theorem lossForm_eq {n : Type} [Fintype n] (A : Matrix n n ℂ) (F : Matrix n β ℂ) (c : β) :
    lossForm A (fun i => F i c) = ∑ i, (star (F i c) * (A * F) i c).im := by
  unfold lossForm
  rw [dotProduct, Complex.im_sum]
  rfl

theorem netFlux_eq (F : Fields (Matrix ι β ℂ)) (c : β) :
    netFlux (tangentialE F) (tangentialH F) c = ∑ i, ((star (-(F.ey i c)) * F.hx i c).re + (star (F.ex i c) * F.hy i c).re) := by
  unfold netFlux
  rw [Fintype.sum_sum_type, Finset.sum_add_distrib]
  rfl

/-- The Poynting theorem for the truncated Maxwell equations. -/
theorem poynting {k : ι → ℝ × ℝ} {ω : ℝ} {E M : ModeMatrix ι} {εz μz : Matrix ι ι ℂ} {F : ℝ → Fields (Matrix ι β ℂ)}
    (m : Maxwell k ω E M εz μz F) (z : ℝ) (c : β) :
    HasDerivAt (fun z => netFlux (tangentialE (F z)) (tangentialH (F z)) c)
      (-ω * (lossForm E (fun i => tangentialE (F z) i c) + lossForm M (fun i => tangentialH (F z) i c) +
        lossForm εz (fun i => (F z).ez i c) + lossForm μz (fun i => (F z).hz i c))) z := by
  simp only [netFlux_eq]
  have h : ∀ i, HasDerivAt (fun z => (star (-((F z).ey i c)) * (F z).hx i c).re + (star ((F z).ex i c) * (F z).hy i c).re)
      _ z := fun i =>
    (hasDerivAt_reFlux (m.faraday_x z i c).fun_neg (m.ampere_y z i c)).add (hasDerivAt_reFlux (m.faraday_y z i c) (m.ampere_x z i c))
  refine (HasDerivAt.fun_sum fun i _ => h i).congr_deriv ?_
  rw [lossForm_eq, lossForm_eq, lossForm_eq, lossForm_eq, Fintype.sum_sum_type, Fintype.sum_sum_type]
  simp only [← Finset.sum_add_distrib, Finset.mul_sum]
  have hE1 : ∀ i, tangentialE (F z) (.inl i) c = -(F z).ey i c := fun _ => rfl
  have hE2 : ∀ i, tangentialE (F z) (.inr i) c = (F z).ex i c := fun _ => rfl
  have hH1 : ∀ i, tangentialH (F z) (.inl i) c = (F z).hx i c := fun _ => rfl
  have hH2 : ∀ i, tangentialH (F z) (.inr i) c = (F z).hy i c := fun _ => rfl
  rw [← sub_eq_zero]
  simp only [← Finset.sum_add_distrib, Finset.mul_sum, ← Finset.sum_sub_distrib]
  refine Finset.sum_eq_zero fun i _ => ?_
  rw [hE1, hE2, hH1, hH2]
  have fz := m.faraday_z z i c
  have az := m.ampere_z z i c
  generalize (E * tangentialE (F z)) (.inl i) c = d1 at *
  generalize (E * tangentialE (F z)) (.inr i) c = d2 at *
  generalize (M * tangentialH (F z)) (.inl i) c = b1 at *
  generalize (M * tangentialH (F z)) (.inr i) c = b2 at *
  generalize (εz * (F z).ez) i c = dz at *
  generalize (μz * (F z).hz) i c = bz at *
  generalize (F z).ex i c = ex at *
  generalize (F z).ey i c = ey at *
  generalize (F z).ez i c = ez at *
  generalize (F z).hx i c = hx at *
  generalize (F z).hy i c = hy at *
  generalize (F z).hz i c = hz at *
  generalize (k i).1 = kx at *
  generalize (k i).2 = ky at *
  have f1 := congrArg Complex.re fz
  have f2 := congrArg Complex.im fz
  have a1 := congrArg Complex.re az
  have a2 := congrArg Complex.im az
  simp only [Complex.star_def, Complex.add_re, Complex.add_im, Complex.sub_re, Complex.sub_im, Complex.mul_re, Complex.mul_im,
    Complex.neg_re, Complex.neg_im, Complex.I_re, Complex.I_im, Complex.ofReal_re, Complex.ofReal_im, Complex.conj_re,
    Complex.conj_im, zero_mul, mul_zero, one_mul, zero_sub, add_zero, zero_add, sub_zero, map_neg, neg_zero] at *
  linear_combination hz.re * f1 + hz.im * f2 - ez.re * a1 - ez.im * a2

/-! ### Lossless and passive matrices -/

theorem lossForm_hermitian {n : Type} [Fintype n] {A : Matrix n n ℂ} (hA : A.IsHermitian) (x : n → ℂ) : lossForm A x = 0 := by
  have h : star (star x ⬝ᵥ A *ᵥ x) = star x ⬝ᵥ A *ᵥ x := by
    rw [← Matrix.star_dotProduct_star, star_star, Matrix.star_mulVec, hA.eq, ← Matrix.dotProduct_mulVec]
  have := congrArg Complex.im h
  rw [Complex.star_def, Complex.conj_im] at this
  unfold lossForm
  linarith

theorem passive_of_hermitian {n : Type} [Fintype n] {A : Matrix n n ℂ} (hA : A.IsHermitian) : Passive A :=
  fun x => (lossForm_hermitian hA x).ge

theorem passive_smul_one {n : Type} [Fintype n] [DecidableEq n] {c : ℂ} (hc : 0 ≤ c.im) : Passive (c • (1 : Matrix n n ℂ)) := by
  intro x
  unfold lossForm
  rw [Matrix.smul_mulVec, Matrix.one_mulVec, dotProduct_smul, smul_eq_mul, dotProduct, Finset.mul_sum, Complex.im_sum]
  refine Finset.sum_nonneg fun i _ => ?_
  rw [Pi.star_apply, Complex.star_def, ← Complex.normSq_eq_conj_mul_self, Complex.im_mul_ofReal]
  exact mul_nonneg hc (Complex.normSq_nonneg _)

/-! ### Completeness of the modes -/

/-- The solution of `f' = i s q f` is an exponential. -/
theorem exp_solution {f : ℝ → ℂ} {q : ℂ} (h : ∀ z, HasDerivAt f (Complex.I * q * f z) z) (z : ℝ) :
    f z = Complex.exp (Complex.I * q * z) * f 0 := by
  have hd : ∀ z : ℝ, HasDerivAt (fun z : ℝ => Complex.exp (-(Complex.I * q) * z) * f z) 0 z := by
    intro z
    have h1 : HasDerivAt (fun z : ℝ => -(Complex.I * q) * (z : ℂ)) (-(Complex.I * q)) z := by
      have := (Complex.ofRealCLM.hasDerivAt (x := z)).const_mul (-(Complex.I * q))
      simpa using this
    refine (h1.cexp.mul (h z)).congr_deriv ?_
    ring
  have hc := is_const_of_deriv_eq_zero (fun z => (hd z).differentiableAt) (fun z => (hd z).deriv) z 0
  simp only [Complex.ofReal_zero, mul_zero, Complex.exp_zero, one_mul] at hc
  rw [← hc, ← mul_assoc, ← Complex.exp_add]
  simp

theorem hasDerivAt_mul_matrix {n m : Type} [Fintype n] (C : Matrix m n ℂ) {f f' : ℝ → Matrix n β ℂ}
    (h : ∀ z i c, HasDerivAt (fun z => f z i c) (f' z i c) z) (z : ℝ) (i : m) (c : β) :
    HasDerivAt (fun z => (C * f z) i c) ((C * f' z) i c) z := by
  simp only [Matrix.mul_apply]
  exact HasDerivAt.fun_sum fun j _ => (h z j c).const_mul _

/-- In a layer with independent modes, none of them with zero eigenvalue, every solution of the first order system is a
superposition of modes. -/
theorem modes_complete {l : LayerSolveResult ι} {E : ModeMatrix ι} (hs : SolvedFor l E) (hv : IsUnit l.eigenvectors.det)
    (hq : ∀ i, l.eigenvalues i ≠ 0) (d : ℝ) {e h : ℝ → Matrix (ι ⊕ ι) β ℂ} (ode : TransverseODE l E e h) :
    ∃! ab : Matrix (ι ⊕ ι) β ℂ × Matrix (ι ⊕ ι) β ℂ, ∀ z, e z = electricAt l d ab.1 ab.2 z ∧ h z = magneticAt l d ab.1 ab.2 z := by
  have hw := omega_ne_zero hs.wellPosed
  set N : ModeMatrix ι := (omega l : ℂ) ^ 2 • E - divergenceMatrix l with hN
  set X := magneticToElectric l with hX
  set φ := l.eigenvectors with hφ
  have hmodes : (E * X - divergenceMatrix l * l.transversePermeabilityMatrix) * φ =
    φ * Matrix.diagonal fun i => l.eigenvalues i ^ 2 := hs.modes
  have hNX : N * X = (omega l : ℂ) ^ 2 • (E * X - divergenceMatrix l * l.transversePermeabilityMatrix) := SolvedFor.product
  -- `N X φ = ω² φ q²`
  have hNXφ : N * X * φ = (omega l : ℂ) ^ 2 • (φ * Matrix.diagonal fun i => l.eigenvalues i ^ 2) := by
    rw [hNX, Matrix.smul_mul, hmodes]
  have hdetNX : IsUnit (N * X).det := by
    have h1 : IsUnit (N * X * φ).det := by
      rw [hNXφ, Matrix.det_smul, Matrix.det_mul, Matrix.det_diagonal, isUnit_iff_ne_zero]
      refine mul_ne_zero (pow_ne_zero _ (pow_ne_zero _ hw)) (mul_ne_zero hv.ne_zero ?_)
      exact Finset.prod_ne_zero_iff.2 fun i _ => pow_ne_zero _ (hq i)
    rw [Matrix.det_mul] at h1
    exact isUnit_of_mul_isUnit_left h1
  have hdetX : IsUnit X.det := by
    rw [Matrix.det_mul] at hdetNX
    exact isUnit_of_mul_isUnit_right hdetNX
  have hdetD : IsUnit (Matrix.diagonal fun i => ((omega l : ℂ) * l.eigenvalues i)⁻¹ : ModeMatrix ι).det := by
    rw [Matrix.det_diagonal, isUnit_iff_ne_zero]
    exact Finset.prod_ne_zero_iff.2 fun i _ => inv_ne_zero (mul_ne_zero hw (hq i))
  have hdetA : IsUnit (electricModes l).det := by
    unfold electricModes
    rw [Matrix.det_mul, Matrix.det_mul]
    exact (hdetX.mul hv).mul hdetD
  -- amplitudes at each depth
  set B : ModeMatrix ι := (electricModes l)⁻¹ with hB
  have hBA : B * electricModes l = 1 := Matrix.nonsing_inv_mul _ hdetA
  have hAB : electricModes l * B = 1 := Matrix.mul_nonsing_inv _ hdetA
  have hφφ : φ⁻¹ * φ = 1 := Matrix.nonsing_inv_mul _ hv
  have hφφ' : φ * φ⁻¹ = 1 := Matrix.mul_nonsing_inv _ hv
  set iQ : ModeMatrix ι := diagonal fun i => Complex.I * l.eigenvalues i with hiQ
  have hcomm : electricModes l * iQ = (Complex.I / (omega l : ℂ)) • (X * φ) := by
    unfold electricModes
    rw [Matrix.mul_assoc, Matrix.diagonal_mul_diagonal]
    have : (fun i => ((omega l : ℂ) * l.eigenvalues i)⁻¹ * (Complex.I * l.eigenvalues i)) =
        fun _ => Complex.I / (omega l : ℂ) := by
      funext i
      have := hq i
      field_simp
    rw [this]
    have e : (diagonal fun _ : ι ⊕ ι => Complex.I / (omega l : ℂ)) = (Complex.I / (omega l : ℂ)) • (1 : ModeMatrix ι) := by
      ext i j; by_cases h : i = j <;> simp [h]
    rw [e, Matrix.mul_smul, Matrix.mul_one]
  have hNA : (Complex.I / (omega l : ℂ)) • (N * electricModes l) = φ * iQ := by
    unfold electricModes
    rw [← Matrix.mul_assoc, ← Matrix.mul_assoc, hNXφ, Matrix.smul_mul, Matrix.mul_assoc, Matrix.diagonal_mul_diagonal, smul_smul,
      ← Matrix.mul_smul, ← Matrix.diagonal_smul]
    congr 2
    funext i
    have := hq i
    simp only [Pi.smul_apply, smul_eq_mul]
    field_simp
  -- `w = f - g`, `y = f + g`
  have hw' : ∀ z i c, HasDerivAt (fun z => (B * e z) i c) ((iQ * (φ⁻¹ * h z)) i c) z := by
    intro z i c
    refine (hasDerivAt_mul_matrix B (f' := fun z => (Complex.I / (omega l : ℂ)) • (X * h z))
      (fun z i c => (ode z i c).1) z i c).congr_deriv ?_
    refine congrFun (congrFun ?_ i) c
    have : h z = φ * (φ⁻¹ * h z) := by rw [← Matrix.mul_assoc, hφφ', Matrix.one_mul]
    conv_lhs => rw [this]
    rw [← Matrix.mul_assoc X, ← Matrix.smul_mul, ← hcomm, ← Matrix.mul_assoc, ← Matrix.mul_assoc B, hBA, Matrix.one_mul]
  have hy' : ∀ z i c, HasDerivAt (fun z => (φ⁻¹ * h z) i c) ((iQ * (B * e z)) i c) z := by
    intro z i c
    refine (hasDerivAt_mul_matrix φ⁻¹ (f' := fun z => (Complex.I / (omega l : ℂ)) • (N * e z))
      (fun z i c => (ode z i c).2) z i c).congr_deriv ?_
    refine congrFun (congrFun ?_ i) c
    have : e z = electricModes l * (B * e z) := by rw [← Matrix.mul_assoc, hAB, Matrix.one_mul]
    conv_lhs => rw [this]
    rw [← Matrix.mul_assoc N, ← Matrix.smul_mul, hNA, ← Matrix.mul_assoc, ← Matrix.mul_assoc φ⁻¹, hφφ, Matrix.one_mul]
  have hf : ∀ z i c, (φ⁻¹ * h z) i c + (B * e z) i c =
      Complex.exp (Complex.I * l.eigenvalues i * z) * ((φ⁻¹ * h 0) i c + (B * e 0) i c) := by
    intro z i c
    refine exp_solution (f := fun z => (φ⁻¹ * h z) i c + (B * e z) i c) (fun z => ?_) z
    refine ((hy' z i c).fun_add (hw' z i c)).congr_deriv ?_
    rw [hiQ, Matrix.diagonal_mul, Matrix.diagonal_mul]
    ring
  have hg : ∀ z i c, (φ⁻¹ * h z) i c - (B * e z) i c =
      Complex.exp (Complex.I * -l.eigenvalues i * z) * ((φ⁻¹ * h 0) i c - (B * e 0) i c) := by
    intro z i c
    refine exp_solution (f := fun z => (φ⁻¹ * h z) i c - (B * e z) i c) (fun z => ?_) z
    refine ((hy' z i c).fun_sub (hw' z i c)).congr_deriv ?_
    rw [hiQ, Matrix.diagonal_mul, Matrix.diagonal_mul]
    ring
  refine ⟨(Matrix.of fun i c => ((φ⁻¹ * h 0) i c + (B * e 0) i c) / 2,
    Matrix.of fun i c => Complex.exp (-(Complex.I * l.eigenvalues i * d)) * ((φ⁻¹ * h 0) i c - (B * e 0) i c) / 2), ?_, ?_⟩
  · intro z
    have key : ∀ i c, (propagator l z * (Matrix.of fun i c => ((φ⁻¹ * h 0) i c + (B * e 0) i c) / 2 : Matrix (ι ⊕ ι) β ℂ)) i c =
          ((φ⁻¹ * h z) i c + (B * e z) i c) / 2 ∧
        (propagator l (d - z) * (Matrix.of fun i c => Complex.exp (-(Complex.I * l.eigenvalues i * d)) *
          ((φ⁻¹ * h 0) i c - (B * e 0) i c) / 2 : Matrix (ι ⊕ ι) β ℂ)) i c = ((φ⁻¹ * h z) i c - (B * e z) i c) / 2 := by
      intro i c
      rw [propagator, propagator, Matrix.diagonal_mul, Matrix.diagonal_mul, hf, hg]
      simp only [Matrix.of_apply]
      constructor
      · ring
      · rw [mul_div_assoc, ← mul_assoc, ← Complex.exp_add, ← mul_div_assoc]
        congr 3
        push_cast
        ring
    unfold electricAt magneticAt
    constructor
    · have : propagator l z * (Matrix.of fun i c => ((φ⁻¹ * h 0) i c + (B * e 0) i c) / 2 : Matrix (ι ⊕ ι) β ℂ) -
          propagator l (d - z) * (Matrix.of fun i c => Complex.exp (-(Complex.I * l.eigenvalues i * d)) *
            ((φ⁻¹ * h 0) i c - (B * e 0) i c) / 2 : Matrix (ι ⊕ ι) β ℂ) = B * e z := by
        ext i c
        rw [Matrix.sub_apply, (key i c).1, (key i c).2]
        ring
      rw [this, ← Matrix.mul_assoc, hAB, Matrix.one_mul]
    · have : propagator l z * (Matrix.of fun i c => ((φ⁻¹ * h 0) i c + (B * e 0) i c) / 2 : Matrix (ι ⊕ ι) β ℂ) +
          propagator l (d - z) * (Matrix.of fun i c => Complex.exp (-(Complex.I * l.eigenvalues i * d)) *
            ((φ⁻¹ * h 0) i c - (B * e 0) i c) / 2 : Matrix (ι ⊕ ι) β ℂ) = φ⁻¹ * h z := by
        ext i c
        rw [Matrix.add_apply, (key i c).1, (key i c).2]
        ring
      rw [this, ← hφ, ← Matrix.mul_assoc, hφφ', Matrix.one_mul]
  · rintro ⟨a, b⟩ hab
    have h0 := hab 0
    have h1 : B * e 0 = propagator l 0 * a - propagator l (d - 0) * b := by
      rw [h0.1, electricAt, ← Matrix.mul_assoc, hBA, Matrix.one_mul]
    have h2 : φ⁻¹ * h 0 = propagator l 0 * a + propagator l (d - 0) * b := by
      rw [h0.2, magneticAt, ← Matrix.mul_assoc, ← hφ, hφφ, Matrix.one_mul]
    refine Prod.ext ?_ ?_
    · ext i c
      simp only [Matrix.of_apply]
      rw [h1, h2, Matrix.add_apply, Matrix.sub_apply]
      simp [propagator, Matrix.diagonal_mul]
    · ext i c
      simp only [Matrix.of_apply]
      rw [h1, h2, Matrix.add_apply, Matrix.sub_apply]
      simp only [propagator, Matrix.diagonal_mul, sub_zero]
      have : Complex.exp (-(Complex.I * l.eigenvalues i * d)) * Complex.exp (Complex.I * l.eigenvalues i * d) = 1 := by
        rw [← Complex.exp_add]; simp
      linear_combination -b i c * this

/-! ### Flux in a stack -/

/-- The fields with given tangential components which satisfy the z components of the Maxwell equations. -/
noncomputable def maxwellFields (l : LayerSolveResult ι) (e h : Matrix (ι ⊕ ι) β ℂ) : Fields (Matrix ι β ℂ) where
  ex := Matrix.of fun i c => e (.inr i) c
  ey := Matrix.of fun i c => -e (.inl i) c
  ez := -((omega l : ℂ)⁻¹ • (l.zPermittivityMatrix⁻¹ * (kxMatrix l * (Matrix.of fun i c => h (.inr i) c) -
    kyMatrix l * Matrix.of fun i c => h (.inl i) c)))
  hx := Matrix.of fun i c => h (.inl i) c
  hy := Matrix.of fun i c => h (.inr i) c
  hz := -((omega l : ℂ)⁻¹ • (l.zPermeabilityMatrix⁻¹ * (kxMatrix l * -(Matrix.of fun i c => -e (.inl i) c) +
    kyMatrix l * Matrix.of fun i c => e (.inr i) c)))

theorem tangentialE_maxwellFields (l : LayerSolveResult ι) (e h : Matrix (ι ⊕ ι) β ℂ) :
    tangentialE (maxwellFields l e h) = e := by
  ext i c
  rcases i with i | i <;> simp [tangentialE, maxwellFields]

theorem tangentialH_maxwellFields (l : LayerSolveResult ι) (e h : Matrix (ι ⊕ ι) β ℂ) :
    tangentialH (maxwellFields l e h) = h := by
  ext i c
  rcases i with i | i <;> simp [tangentialH, maxwellFields]

theorem maxwell_of_ode {l : LayerSolveResult ι} {E : ModeMatrix ι} (hw : WellPosed l) (hμ : IsUnit l.zPermeabilityMatrix.det)
    {e h : ℝ → Matrix (ι ⊕ ι) β ℂ} (ode : TransverseODE l E e h) :
    Maxwell (orderWavevector l) (omega l) E l.transversePermeabilityMatrix l.zPermittivityMatrix l.zPermeabilityMatrix
      (fun z => maxwellFields l (e z) (h z)) := by
  have hne := omega_ne_zero hw
  rw [maxwell_iff hw hμ]
  refine ⟨?_, fun z => ?_, fun z => ?_⟩
  · simp only [tangentialE_maxwellFields, tangentialH_maxwellFields]
    exact ode
  · simp only [maxwellFields]
    rw [smul_neg, neg_neg, smul_smul, mul_inv_cancel₀ hne, one_smul]
  · simp only [maxwellFields]
    rw [smul_neg, neg_neg, smul_smul, mul_inv_cancel₀ hne, one_smul]

/-- Net flux of the amplitudes of a state, at depth `z`. -/
noncomputable def stateFlux (s : LayerState ι β) (c : β) (z : ℝ) : ℝ :=
  netFlux (electricAt s.layer s.thickness s.a s.b z) (magneticAt s.layer s.thickness s.a s.b z) c

theorem stateFlux_hasDerivAt {s : LayerState ι β} {E : ModeMatrix ι} (hs : SolvedFor s.layer E)
    (hq : ∀ i, s.layer.eigenvalues i ≠ 0) (c : β) (z : ℝ) :
    ∃ x y u v, HasDerivAt (stateFlux s c) (-(omega s.layer) * (lossForm E x + lossForm s.layer.transversePermeabilityMatrix y +
      lossForm s.layer.zPermittivityMatrix u + lossForm s.layer.zPermeabilityMatrix v)) z := by
  have h := poynting (maxwell_of_ode hs.wellPosed hs.zPermeability (transverseODE_modes hs hq s.thickness s.a s.b)) z c
  simp only [tangentialE_maxwellFields, tangentialH_maxwellFields] at h
  exact ⟨_, _, _, _, h⟩

theorem stateFlux_const {s : LayerState ι β} (hs : LosslessLayer s.layer) (hq : ∀ i, s.layer.eigenvalues i ≠ 0) (c : β)
    (z z' : ℝ) : stateFlux s c z = stateFlux s c z' := by
  obtain ⟨E, hE, h1, h2, h3, h4⟩ := hs
  have hd : ∀ z, HasDerivAt (stateFlux s c) 0 z := by
    intro z
    obtain ⟨x, y, u, v, h⟩ := stateFlux_hasDerivAt hE hq c z
    refine h.congr_deriv ?_
    rw [lossForm_hermitian h1, lossForm_hermitian h2, lossForm_hermitian h3, lossForm_hermitian h4]
    simp
  exact is_const_of_deriv_eq_zero (fun z => (hd z).differentiableAt) (fun z => (hd z).deriv) z z'

theorem stateFlux_antitone {s : LayerState ι β} (hs : PassiveLayer s.layer) (hq : ∀ i, s.layer.eigenvalues i ≠ 0) (c : β) :
    Antitone (stateFlux s c) := by
  obtain ⟨hl, E, hE, h1, h2, h3, h4⟩ := hs
  have hw : 0 < omega s.layer := by unfold omega; have := Real.pi_pos; positivity
  have hd : ∀ z, ∃ d ≤ 0, HasDerivAt (stateFlux s c) d z := by
    intro z
    obtain ⟨x, y, u, v, h⟩ := stateFlux_hasDerivAt hE hq c z
    refine ⟨_, ?_, h⟩
    have := mul_nonneg hw.le (add_nonneg (add_nonneg (add_nonneg (h1 x) (h2 y)) (h3 u)) (h4 v))
    linarith
  refine antitone_of_deriv_nonpos (fun z => ?_) (fun z => ?_)
  · obtain ⟨d, -, h⟩ := hd z
    exact h.differentiableAt
  · obtain ⟨d, h0, h⟩ := hd z
    rw [h.deriv]
    exact h0

theorem interface_flux {s t : LayerState ι β} (h : Interface s t) (c : β) :
    (∀ i, s.layer.eigenvalues i ≠ 0) ∧ (∀ i, t.layer.eigenvalues i ≠ 0) ∧ stateFlux s c s.thickness = stateFlux t c 0 := by
  obtain ⟨e, h, h1, h2⟩ := h
  obtain ⟨-, q1, e1, e2⟩ := fieldsAt_eq.1 h1
  obtain ⟨-, q2, e3, e4⟩ := fieldsAt_eq.1 h2
  refine ⟨q1, q2, ?_⟩
  unfold stateFlux
  rw [← e1, ← e2, ← e3, ← e4]

theorem stack_flux_const (c : β) : ∀ (st : List (LayerState ι β)), Consistent st → (∀ s ∈ st, LosslessLayer s.layer) →
    ∃ J, ∀ s ∈ st, (∀ i, s.layer.eigenvalues i ≠ 0) → ∀ z, stateFlux s c z = J
  | [], _, _ => ⟨0, by simp⟩
  | [s], _, hL => ⟨stateFlux s c 0, by
      intro t ht hq z
      simp only [List.mem_singleton] at ht
      subst ht
      exact stateFlux_const (hL t (by simp)) hq c _ _⟩
  | s :: t :: rest, hc, hL => by
      rw [Consistent, List.isChain_cons_cons] at hc
      obtain ⟨J, hJ⟩ := stack_flux_const c (t :: rest) hc.2 (fun s hs => hL s (by simp at hs ⊢; tauto))
      obtain ⟨q1, q2, hf⟩ := interface_flux hc.1 c
      refine ⟨J, fun u hu hq z => ?_⟩
      rw [List.mem_cons] at hu
      rcases hu with rfl | hu
      · rw [← hJ t (by simp) q2 0, ← hf]
        exact stateFlux_const (hL u (by simp)) hq c _ _
      · exact hJ u hu hq z

/-- The flux does not increase from `s` to `t`. -/
def FluxLE (c : β) (s t : LayerState ι β) : Prop :=
  0 ≤ t.thickness ∧ ∀ z z', z ≤ s.thickness → 0 ≤ z' → stateFlux t c z' ≤ stateFlux s c z

instance (c : β) : Trans (FluxLE (ι := ι) c) (FluxLE c) (FluxLE c) where
  trans := by
    rintro s t u ⟨h1, h2⟩ ⟨h3, h4⟩
    exact ⟨h3, fun z z' hz hz' => (h4 0 z' h1 hz').trans (h2 z 0 hz le_rfl)⟩

theorem stack_flux_antitone (c : β) {st : List (LayerState ι β)} (hc : Consistent st) (hL : ∀ s ∈ st, PassiveLayer s.layer)
    (ht : ∀ s ∈ st, 0 ≤ s.thickness) : st.Pairwise (FluxLE c) := by
  rw [← List.isChain_iff_pairwise]
  rw [Consistent] at hc
  induction st with
  | nil => exact List.isChain_nil
  | cons s st ih =>
    cases st with
    | nil => exact List.isChain_singleton s
    | cons t rest =>
      rw [List.isChain_cons_cons] at hc ⊢
      refine ⟨?_, ih hc.2 (fun s hs => hL s (List.mem_cons_of_mem _ hs)) (fun s hs => ht s (List.mem_cons_of_mem _ hs))⟩
      obtain ⟨q1, q2, hf⟩ := interface_flux hc.1 c
      refine ⟨ht t (by simp), fun z z' hz hz' => ?_⟩
      calc stateFlux t c z' ≤ stateFlux t c 0 := stateFlux_antitone (hL t (by simp)) q2 c hz'
        _ = stateFlux s c s.thickness := hf.symm
        _ ≤ stateFlux s c z := stateFlux_antitone (hL s (by simp)) q1 c hz

/-! ### Forms of convolution matrices -/

variable {nx ny : ℕ}

/-- The sesquilinear form of a convolution matrix is the average of `x f* g`. -/
theorem convolution_sesquilinear (x : Matrix (Fin nx) (Fin ny) ℂ) (G : ι → ℤ × ℤ) (u y : ι → ℂ) :
    star u ⬝ᵥ (Matrix.of fun i j => fourierCoefficient x (G i - G j)) *ᵥ y =
      (∑ r : Fin nx, ∑ s : Fin ny, star (fourierSeries G u nx ny r s) * x r s * fourierSeries G y nx ny r s) / (nx * ny) := by
  have h1 : (Matrix.of fun i j => fourierCoefficient x (G i - G j)) *ᵥ y = fun i =>
      fourierCoefficient (Matrix.of fun r s => x r s * fourierSeries G y nx ny r s) (G i) := by
    funext i
    rw [fourierCoefficient_mul_series]
    rfl
  rw [h1]
  simp only [dotProduct, fourierCoefficient, Matrix.of_apply, div_eq_mul_inv, Finset.mul_sum, Finset.sum_mul, Pi.star_apply]
  rw [Finset.sum_comm]
  refine Finset.sum_congr rfl fun r _ => ?_
  rw [Finset.sum_comm]
  refine Finset.sum_congr rfl fun s _ => ?_
  have h2 : star (fourierSeries G u nx ny r s) = ∑ i, star (u i) * planeWave nx ny (-G i) r s := by
    simp only [fourierSeries, Matrix.of_apply, star_sum, star_mul', planeWave_neg_conj]
  rw [h2, Finset.sum_mul, Finset.sum_mul, Finset.sum_mul]
  refine Finset.sum_congr rfl fun i _ => ?_
  ring

theorem convolution_passive {x : Matrix (Fin nx) (Fin ny) ℂ} (hx : ∀ r s, 0 ≤ (x r s).im) (G : ι → ℤ × ℤ) :
    Passive (Matrix.of fun i j => fourierCoefficient x (G i - G j)) := by
  intro y
  unfold lossForm
  rw [convolution_form]
  have hN : ((nx : ℂ) * ny) = ((nx * ny : ℝ) : ℂ) := by push_cast; rfl
  rw [hN, Complex.div_ofReal_im]
  refine div_nonneg ?_ (by positivity)
  simp only [Complex.im_sum, Complex.im_mul_ofReal]
  exact Finset.sum_nonneg fun r _ => Finset.sum_nonneg fun s _ => mul_nonneg (hx r s) (Complex.normSq_nonneg _)

theorem fourierCoefficient_conj (x : Matrix (Fin nx) (Fin ny) ℂ) (g : ℤ × ℤ) :
    star (fourierCoefficient x g) = fourierCoefficient (Matrix.of fun r s => star (x r s)) (-g) := by
  unfold fourierCoefficient
  simp only [star_div₀, star_sum, star_mul', Matrix.of_apply, planeWave_neg_conj, star_star, star_natCast]

theorem convolution_conjTranspose (x : Matrix (Fin nx) (Fin ny) ℂ) (G : ι → ℤ × ℤ) :
    (Matrix.of fun i j => fourierCoefficient x (G i - G j))ᴴ =
      Matrix.of fun i j => fourierCoefficient (Matrix.of fun r s => star (x r s)) (G i - G j) := by
  ext i j
  rw [Matrix.conjTranspose_apply, Matrix.of_apply, Matrix.of_apply, fourierCoefficient_conj, neg_sub]

theorem convolution_hermitian {x : Matrix (Fin nx) (Fin ny) ℂ} (hx : ∀ r s, (x r s).im = 0) (G : ι → ℤ × ℤ) :
    (Matrix.of fun i j => fourierCoefficient x (G i - G j)).IsHermitian := by
  unfold Matrix.IsHermitian
  rw [convolution_conjTranspose]
  have : (Matrix.of fun r s => star (x r s)) = x := by
    ext r s
    exact Complex.conj_eq_iff_im.2 (hx r s)
  rw [this]

/-- The loss form of a matrix of blocks is the average over the cell of the pointwise loss forms. -/
theorem convolution_blocks_passive {a b c d : Matrix (Fin nx) (Fin ny) ℂ}
    (h : ∀ r s, Passive !![a r s, b r s; c r s, d r s]) (G : ι → ℤ × ℤ) :
    Passive (Matrix.fromBlocks (Matrix.of fun i j => fourierCoefficient a (G i - G j))
      (Matrix.of fun i j => fourierCoefficient b (G i - G j)) (Matrix.of fun i j => fourierCoefficient c (G i - G j))
      (Matrix.of fun i j => fourierCoefficient d (G i - G j))) := by
  intro y
  obtain ⟨u, v, rfl⟩ : ∃ u v, y = Sum.elim u v := ⟨fun i => y (.inl i), fun i => y (.inr i), by funext i; rcases i <;> rfl⟩
  unfold lossForm
  have hstar : star (Sum.elim u v) = Sum.elim (star u) (star v) := by funext i; rcases i <;> rfl
  rw [Matrix.fromBlocks_mulVec, hstar]
  simp only [Sum.elim_comp_inl, Sum.elim_comp_inr]
  rw [sumElim_dotProduct_sumElim, dotProduct_add, dotProduct_add, convolution_sesquilinear, convolution_sesquilinear,
    convolution_sesquilinear, convolution_sesquilinear, ← add_div, ← add_div, ← add_div]
  have hN : ((nx : ℂ) * ny) = ((nx * ny : ℝ) : ℂ) := by push_cast; rfl
  rw [hN, Complex.div_ofReal_im]
  refine div_nonneg ?_ (by positivity)
  simp only [← Finset.sum_add_distrib, Complex.im_sum]
  refine Finset.sum_nonneg fun r _ => Finset.sum_nonneg fun s _ => ?_
  have := h r s ![fourierSeries G u nx ny r s, fourierSeries G v nx ny r s]
  unfold lossForm at this
  refine this.trans_eq (congrArg Complex.im ?_)
  simp [dotProduct, Fin.sum_univ_two, Matrix.mulVec]
  ring

theorem convolution_blocks_hermitian {a b c d : Matrix (Fin nx) (Fin ny) ℂ}
    (h : ∀ r s, (!![a r s, b r s; c r s, d r s]).IsHermitian) (G : ι → ℤ × ℤ) :
    (Matrix.fromBlocks (Matrix.of fun i j => fourierCoefficient a (G i - G j))
      (Matrix.of fun i j => fourierCoefficient b (G i - G j)) (Matrix.of fun i j => fourierCoefficient c (G i - G j))
      (Matrix.of fun i j => fourierCoefficient d (G i - G j))).IsHermitian := by
  have ha : ∀ r s, star (a r s) = a r s := fun r s => (h r s).apply 0 0
  have hd : ∀ r s, star (d r s) = d r s := fun r s => (h r s).apply 1 1
  have hb : ∀ r s, star (b r s) = c r s := fun r s => (h r s).apply 1 0
  have hc : ∀ r s, star (c r s) = b r s := fun r s => (h r s).apply 0 1
  unfold Matrix.IsHermitian
  rw [Matrix.fromBlocks_conjTranspose]
  simp only [convolution_conjTranspose, ha, hb, hc, hd]
  rfl

end Fmmax
