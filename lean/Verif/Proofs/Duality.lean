import Verif.Spec.Duality
import Verif.Proofs.ReciprocityStack

/-! Electromagnetic duality of layers and stacks. -/

set_option linter.unusedSectionVars false

namespace Fmmax

open Matrix Spec

variable {ι : Type} [Fintype ι] [DecidableEq ι] {nx ny : ℕ} {β : Type}

theorem quarterTurn_sq : (quarterTurn * quarterTurn : ModeMatrix ι) = -1 := by
  unfold quarterTurn
  rw [fromBlocks_multiply, ← fromBlocks_one, fromBlocks_neg]
  congr 1 <;> simp

theorem quarterTurn_isUnit : IsUnit (quarterTurn : ModeMatrix ι).det := by
  have : (quarterTurn : ModeMatrix ι) * -quarterTurn = 1 := by rw [Matrix.mul_neg, quarterTurn_sq, neg_neg]
  exact (Matrix.isUnit_iff_isUnit_det _).1 (IsUnit.of_mul_eq_one _ this)

theorem quarterTurn_cancel {x : Matrix (ι ⊕ ι) β ℂ} : (quarterTurn : ModeMatrix ι) * -((quarterTurn : ModeMatrix ι) * x) = x := by
  rw [Matrix.mul_neg, ← Matrix.mul_assoc, quarterTurn_sq, Matrix.neg_mul, Matrix.one_mul, neg_neg]

theorem electricProfiles_eq (l : LayerSolveResult ι) : electricProfiles l = electricModes l := rfl

/-! ### Layers -/

/-- The media of two layers are dual. -/
structure DualMedium (l l' : LayerSolveResult ι) (E E' : ModeMatrix ι) : Prop where
  wavelength : l'.wavelength = l.wavelength
  wavevector : ∀ i, orderWavevector l' i = orderWavevector l i
  zPermittivity : l'.zPermittivityMatrix = l.zPermeabilityMatrix
  zPermeability : l'.zPermeabilityMatrix = l.zPermittivityMatrix
  permeability : l'.transversePermeabilityMatrix * quarterTurn = quarterTurn * E
  permittivity : E' * quarterTurn = quarterTurn * l.transversePermeabilityMatrix

/-- The modes of two layers are dual. -/
structure DualLayers (l l' : LayerSolveResult ι) : Prop where
  wavelength : l'.wavelength = l.wavelength
  wavevector : ∀ i, orderWavevector l' i = orderWavevector l i
  inverseZPermittivity : l'.inverseZPermittivityMatrix = l.inverseZPermeabilityMatrix
  inverseZPermeability : l'.inverseZPermeabilityMatrix = l.inverseZPermittivityMatrix
  solved : ∃ E, SolvedFor l E
  solved' : ∃ E, SolvedFor l' E
  complete : CompleteModes l
  complete' : CompleteModes l'
  isUnit : IsUnit (dualModes l l').det
  magnetic : l'.eigenvectors = quarterTurn * electricModes l * dualModes l l'
  electric : electricModes l' = quarterTurn * l.eigenvectors * dualModes l l'
  eigenvalues : ∀ i j, dualModes l l' i j ≠ 0 → l'.eigenvalues j = l.eigenvalues i

namespace DualMedium

variable {l l' : LayerSolveResult ι} {E E' : ModeMatrix ι}

theorem omega_eq (h : DualMedium l l' E E') : omega l' = omega l := by unfold omega; rw [h.wavelength]

theorem electric (h : DualMedium l l' E E') : magneticToElectric l' * quarterTurn = quarterTurn * ((omega l : ℂ) ^ 2 • E - divergenceMatrix l) := by
  have key : ∀ k : ι → ℝ × ℝ, k = orderWavevector l → magneticToElectric l' = ((omega l : ℂ) ^ 2) • l'.transversePermeabilityMatrix -
      fromBlocks ((diagonal fun i => ((orderWavevector l i).2 : ℂ)) * l.zPermeabilityMatrix⁻¹ * (diagonal fun i => ((orderWavevector l i).2 : ℂ)))
        (-((diagonal fun i => ((orderWavevector l i).2 : ℂ)) * l.zPermeabilityMatrix⁻¹ * (diagonal fun i => ((orderWavevector l i).1 : ℂ))))
        (-((diagonal fun i => ((orderWavevector l i).1 : ℂ)) * l.zPermeabilityMatrix⁻¹ * (diagonal fun i => ((orderWavevector l i).2 : ℂ))))
        ((diagonal fun i => ((orderWavevector l i).1 : ℂ)) * l.zPermeabilityMatrix⁻¹ * (diagonal fun i => ((orderWavevector l i).1 : ℂ))) := by
    intro k _
    unfold magneticToElectric
    simp only [h.wavevector, h.zPermittivity, h.omega_eq]
  rw [key _ rfl, Matrix.sub_mul, Matrix.smul_mul, h.permeability, Matrix.mul_sub, Matrix.mul_smul]
  congr 1
  unfold divergenceMatrix quarterTurn
  rw [fromBlocks_multiply, fromBlocks_multiply]
  congr 1 <;> simp

theorem divergence (h : DualMedium l l' E E') :
    ((omega l' : ℂ) ^ 2 • E' - divergenceMatrix l') * quarterTurn = quarterTurn * magneticToElectric l := by
  rw [Matrix.sub_mul, Matrix.smul_mul, h.permittivity, h.omega_eq]
  unfold magneticToElectric divergenceMatrix
  simp only [h.wavevector, h.zPermeability]
  rw [Matrix.mul_sub, Matrix.mul_smul]
  congr 1
  unfold quarterTurn
  rw [fromBlocks_multiply, fromBlocks_multiply]
  congr 1 <;> simp

theorem operator (h : DualMedium l l' E E') (hw : WellPosed l) :
    modeOperator l' E' * (quarterTurn * magneticToElectric l) = quarterTurn * magneticToElectric l * modeOperator l E := by
  have hω := omega_ne_zero hw
  have p1 : ((omega l : ℂ) ^ 2 • E - divergenceMatrix l) * magneticToElectric l = (omega l : ℂ) ^ 2 • modeOperator l E := SolvedFor.product
  have p2 : ((omega l' : ℂ) ^ 2 • E' - divergenceMatrix l') * magneticToElectric l' = (omega l' : ℂ) ^ 2 • modeOperator l' E' := SolvedFor.product
  have : (omega l : ℂ) ^ 2 • (modeOperator l' E' * (quarterTurn * magneticToElectric l)) =
      (omega l : ℂ) ^ 2 • (quarterTurn * magneticToElectric l * modeOperator l E) := by
    calc _ = (omega l' : ℂ) ^ 2 • modeOperator l' E' * (quarterTurn * magneticToElectric l) := by rw [h.omega_eq, Matrix.smul_mul]
      _ = ((omega l' : ℂ) ^ 2 • E' - divergenceMatrix l') * (magneticToElectric l' * quarterTurn) * magneticToElectric l := by rw [← p2]; mat_module
      _ = ((omega l' : ℂ) ^ 2 • E' - divergenceMatrix l') * quarterTurn * (((omega l : ℂ) ^ 2 • E - divergenceMatrix l) * magneticToElectric l) := by
        rw [h.electric]; mat_module
      _ = _ := by rw [h.divergence, p1]; mat_module
  exact smul_right_injective _ (pow_ne_zero 2 hω) this

theorem profiles (h : DualMedium l l' E E') (hs : SolvedFor l E) :
    modeOperator l' E' * (quarterTurn * electricModes l) = quarterTurn * electricModes l * diagonal fun i => l.eigenvalues i ^ 2 := by
  have m1 : modeOperator l E * l.eigenvectors = l.eigenvectors * diagonal fun i => l.eigenvalues i ^ 2 := hs.modes
  unfold electricModes
  calc _ = modeOperator l' E' * (quarterTurn * magneticToElectric l) * l.eigenvectors * (diagonal fun i => ((omega l : ℂ) * l.eigenvalues i)⁻¹) := by mat_module
    _ = quarterTurn * magneticToElectric l * (modeOperator l E * l.eigenvectors) * (diagonal fun i => ((omega l : ℂ) * l.eigenvalues i)⁻¹) := by
      rw [h.operator hs.wellPosed]; mat_module
    _ = quarterTurn * magneticToElectric l * l.eigenvectors * ((diagonal fun i => l.eigenvalues i ^ 2) * (diagonal fun i => ((omega l : ℂ) * l.eigenvalues i)⁻¹)) := by
      rw [m1]; mat_module
    _ = quarterTurn * magneticToElectric l * l.eigenvectors * ((diagonal fun i => ((omega l : ℂ) * l.eigenvalues i)⁻¹) * (diagonal fun i => l.eigenvalues i ^ 2)) := by
      rw [diagonal_mul_diagonal, diagonal_mul_diagonal]; congr 3; funext i; ring
    _ = _ := by mat_module

theorem dualLayers (h : DualMedium l l' E E') (hs : SolvedFor l E) (hs' : SolvedFor l' E') (hf : ∀ i, IsForwardRoot (l.eigenvalues i ^ 2) (l.eigenvalues i))
    (hf' : ∀ i, IsForwardRoot (l'.eigenvalues i ^ 2) (l'.eigenvalues i)) (hm : CompleteModes l) (hm' : IsUnit l'.eigenvectors.det)
    (hi : l'.inverseZPermittivityMatrix = l.inverseZPermeabilityMatrix) (hi' : l'.inverseZPermeabilityMatrix = l.inverseZPermittivityMatrix) : DualLayers l l' := by
  have hX : IsUnit (quarterTurn * electricModes l).det := by
    rw [det_mul]
    exact quarterTurn_isUnit.mul (electricModes_isUnit hs hm).2
  have m2 : modeOperator l' E' * l'.eigenvectors = l'.eigenvectors * diagonal fun i => l'.eigenvalues i ^ 2 := hs'.modes
  have mX := h.profiles hs
  set X : ModeMatrix ι := quarterTurn * electricModes l with hXdef
  have hT : dualModes l l' = X⁻¹ * l'.eigenvectors := rfl
  have hmag : l'.eigenvectors = X * dualModes l l' := by rw [hT, mul_nonsing_inv_cancel_left _ _ hX]
  have hTu : IsUnit (dualModes l l').det := by
    rw [hT, det_mul]
    exact (isUnit_nonsing_inv_det _ hX).mul hm'
  have key : (diagonal fun i => l.eigenvalues i ^ 2) * dualModes l l' = dualModes l l' * diagonal fun i => l'.eigenvalues i ^ 2 := by
    have : X * ((diagonal fun i => l.eigenvalues i ^ 2) * dualModes l l') = X * (dualModes l l' * diagonal fun i => l'.eigenvalues i ^ 2) := by
      rw [← Matrix.mul_assoc, ← mX, Matrix.mul_assoc, ← hmag, m2, hmag, Matrix.mul_assoc]
    have := congrArg (fun Y => X⁻¹ * Y) this
    simpa only [nonsing_inv_mul_cancel_left _ _ hX] using this
  have hev : ∀ i j, dualModes l l' i j ≠ 0 → l'.eigenvalues j = l.eigenvalues i := by
    intro i j hij
    have e := congrFun (congrFun key i) j
    rw [diagonal_mul, mul_diagonal] at e
    have e2 : l'.eigenvalues j ^ 2 = l.eigenvalues i ^ 2 := by
      apply mul_left_cancel₀ hij
      rw [← e]; ring
    have f1 := hf' j
    rw [e2] at f1
    exact isForwardRoot_unique f1 (hf i)
  have hq' : ∀ j, l'.eigenvalues j ≠ 0 := by
    intro j h0
    have : ∀ i, dualModes l l' i j = 0 := by
      intro i
      by_contra hij
      exact hm.2 i (by rw [← hev i j hij, h0])
    rw [det_eq_zero_of_column_eq_zero j this] at hTu
    exact not_isUnit_zero hTu
  have hω := omega_ne_zero hs.wellPosed
  have p1 : ((omega l : ℂ) ^ 2 • E - divergenceMatrix l) * magneticToElectric l = (omega l : ℂ) ^ 2 • modeOperator l E := SolvedFor.product
  have m1 : modeOperator l E * l.eigenvectors = l.eigenvectors * diagonal fun i => l.eigenvalues i ^ 2 := hs.modes
  have hN : ((omega l : ℂ) ^ 2 • E - divergenceMatrix l) * electricModes l = l.eigenvectors * diagonal fun i => (omega l : ℂ) * l.eigenvalues i := by
    unfold electricModes
    calc _ = (((omega l : ℂ) ^ 2 • E - divergenceMatrix l) * magneticToElectric l) * l.eigenvectors * (diagonal fun i => ((omega l : ℂ) * l.eigenvalues i)⁻¹) := by mat_module
      _ = (omega l : ℂ) ^ 2 • (l.eigenvectors * ((diagonal fun i => l.eigenvalues i ^ 2) * (diagonal fun i => ((omega l : ℂ) * l.eigenvalues i)⁻¹))) := by
        rw [p1, Matrix.smul_mul, m1]; mat_module
      _ = _ := by
        rw [diagonal_mul_diagonal, ← Matrix.mul_smul, ← diagonal_smul]
        congr 2
        funext i
        have := hm.2 i
        simp only [Pi.smul_apply, smul_eq_mul]
        field_simp
  refine ⟨h.wavelength, h.wavevector, hi, hi', ⟨_, hs⟩, ⟨_, hs'⟩, hm, ⟨hm', hq'⟩, hTu, hmag, ?_, hev⟩
  have hcomm : (diagonal fun i => (omega l : ℂ) * l.eigenvalues i) * dualModes l l' * (diagonal fun i => ((omega l' : ℂ) * l'.eigenvalues i)⁻¹) = dualModes l l' := by
    ext i j
    rw [mul_diagonal, diagonal_mul]
    by_cases hij : dualModes l l' i j = 0
    · rw [hij]; ring
    · rw [hev i j hij, h.omega_eq]
      have := hm.2 i
      field_simp
  calc electricModes l' = magneticToElectric l' * (quarterTurn * electricModes l * dualModes l l') * (diagonal fun i => ((omega l' : ℂ) * l'.eigenvalues i)⁻¹) := by
        rw [← hXdef, ← hmag]
        rfl
    _ = (magneticToElectric l' * quarterTurn) * electricModes l * dualModes l l' * (diagonal fun i => ((omega l' : ℂ) * l'.eigenvalues i)⁻¹) := by mat_module
    _ = quarterTurn * (((omega l : ℂ) ^ 2 • E - divergenceMatrix l) * electricModes l) * dualModes l l' * (diagonal fun i => ((omega l' : ℂ) * l'.eigenvalues i)⁻¹) := by
      rw [h.electric]; mat_module
    _ = quarterTurn * l.eigenvectors * ((diagonal fun i => (omega l : ℂ) * l.eigenvalues i) * dualModes l l' * (diagonal fun i => ((omega l' : ℂ) * l'.eigenvalues i)⁻¹)) := by
      rw [hN]; mat_module
    _ = _ := by rw [hcomm]

end DualMedium

/-! ### Fourier matrices -/

variable {c : Setup ι} {eig : Matrix (ι ⊕ ι) (ι ⊕ ι) ℂ → (ι ⊕ ι → ℂ) × Matrix (ι ⊕ ι) (ι ⊕ ι) ℂ}

/-- The quarter turn as a change of coordinates. -/
noncomputable def turnCoordinates (ι : Type) : Coordinates ι :=
  { scale := 1, scale_pos := one_pos, rotation := !![0, -1; 1, 0], orthogonal := by ext i j; fin_cases i <;> fin_cases j <;> simp [Matrix.mul_apply],
    order := Equiv.refl ι, phase := fun _ => 1, phase_norm := by simp }

theorem turnCoordinates_R : (turnCoordinates ι).R = quarterTurn := by
  have : (turnCoordinates ι).Q = 1 := by
    ext i j
    by_cases h : i = j <;> simp [Coordinates.Q, turnCoordinates, Matrix.one_apply, h]
  unfold Coordinates.R vectorTransform quarterTurn
  rw [this]
  simp [turnCoordinates]

theorem turnCoordinates_grid (G : ι → ℤ × ℤ) : GridMap (turnCoordinates ι) G G (id : Fin nx × Fin ny → Fin nx × Fin ny) :=
  ⟨Function.surjective_id, id, fun x i j => by simp [turnCoordinates, Grid.pull]; rfl⟩

theorem turn_det : (turnCoordinates ι).rotation.det = 1 := by simp [turnCoordinates, det_fin_two]

theorem vector_permittivity_dual {xx xy yx yy tx ty : Grid nx ny} {M : ModeMatrix ι}
    (h : transversePermeabilityVectorAnisotropic xx xy yx yy tx ty c.expansion = .ok M) :
    ∃ E, transversePermittivityVectorAnisotropic xx xy yx yy tx ty c.expansion = .ok E ∧ E * quarterTurn = quarterTurn * M := by
  rw [← turnCoordinates_R]
  refine rotated_transform (c := c) (c' := c) (turnCoordinates_grid c.expansion) (e := fun _ => -1) (by simp) (by rw [turn_det]; norm_num) ?_ ?_ h
  · intro r s
    ext i j
    fin_cases i <;> fin_cases j <;> simp [Matrix.mul_apply, toC_apply, turnCoordinates, Fin.sum_univ_two]
  · intro r s
    ext i j
    fin_cases i <;> fin_cases j <;> simp [Matrix.mul_apply, toC_apply, turnCoordinates, Fin.sum_univ_two, Grid.pull]

theorem vector_permeability_dual {xx xy yx yy tx ty : Grid nx ny} {E : ModeMatrix ι}
    (h : transversePermittivityVectorAnisotropic xx xy yx yy tx ty c.expansion = .ok E) :
    ∃ M, transversePermeabilityVectorAnisotropic xx xy yx yy tx ty c.expansion = .ok M ∧ M * quarterTurn = quarterTurn * E := by
  rw [← turnCoordinates_R]
  refine rotated_transform (c := c) (c' := c) (turnCoordinates_grid c.expansion) (e := fun _ => 1) (by simp) (by rw [turn_det]; norm_num) ?_ ?_ h
  · intro r s
    ext i j
    fin_cases i <;> fin_cases j <;> simp [Matrix.mul_apply, toC_apply, turnCoordinates, Fin.sum_univ_two]
  · intro r s
    ext i j
    fin_cases i <;> fin_cases j <;> simp [Matrix.mul_apply, toC_apply, turnCoordinates, Fin.sum_univ_two, Grid.pull]

theorem convolution_neg (G : ι → ℤ × ℤ) (x : Grid nx ny) : convolution G (-x) = -convolution G x := by
  ext i j
  simp [convolution, fourierCoefficient, neg_div]

theorem fft_permittivity_dual {xx xy yx yy : Grid nx ny} {G : ι → ℤ × ℤ} {M : ModeMatrix ι} (h : transversePermeabilityFftAnisotropic xx xy yx yy G = .ok M) :
    ∃ E, transversePermittivityFftAnisotropic xx xy yx yy G = .ok E ∧ E * quarterTurn = quarterTurn * M := by
  unfold transversePermittivityFftAnisotropic transversePermeabilityFftAnisotropic at *
  simp only [bind_eq_ok, fourierConvolutionMatrix_ok_iff, ok_inj] at h ⊢
  obtain ⟨_, ⟨hR, rfl⟩, _, ⟨-, rfl⟩, _, ⟨-, rfl⟩, _, ⟨-, rfl⟩, rfl⟩ := h
  refine ⟨_, ⟨_, ⟨hR, rfl⟩, _, ⟨hR, rfl⟩, _, ⟨hR, rfl⟩, _, ⟨hR, rfl⟩, rfl⟩, ?_⟩
  unfold quarterTurn
  simp [fromBlocks_multiply, convolution_neg]

theorem fft_permeability_dual {xx xy yx yy : Grid nx ny} {G : ι → ℤ × ℤ} {E : ModeMatrix ι} (h : transversePermittivityFftAnisotropic xx xy yx yy G = .ok E) :
    ∃ M, transversePermeabilityFftAnisotropic xx xy yx yy G = .ok M ∧ M * quarterTurn = quarterTurn * E := by
  unfold transversePermittivityFftAnisotropic transversePermeabilityFftAnisotropic at *
  simp only [bind_eq_ok, fourierConvolutionMatrix_ok_iff, ok_inj] at h ⊢
  obtain ⟨_, ⟨hR, rfl⟩, _, ⟨-, rfl⟩, _, ⟨-, rfl⟩, _, ⟨-, rfl⟩, rfl⟩ := h
  refine ⟨_, ⟨_, ⟨hR, rfl⟩, _, ⟨hR, rfl⟩, _, ⟨hR, rfl⟩, _, ⟨hR, rfl⟩, rfl⟩, ?_⟩
  unfold quarterTurn
  simp [fromBlocks_multiply, convolution_neg]

/-- The Fourier matrices of dual media. -/
structure FourierDual (m m' : FourierMatrices ι) : Prop where
  inverseZPermittivity : m'.inverseZPermittivity = m.inverseZPermeability
  inverseZPermeability : m'.inverseZPermeability = m.inverseZPermittivity
  zPermittivity : m'.zPermittivity = m.zPermeability
  zPermeability : m'.zPermeability = m.zPermittivity
  transversePermeability : m'.transversePermeability * quarterTurn = quarterTurn * m.transversePermittivity
  transversePermittivity : m'.transversePermittivity * quarterTurn = quarterTurn * m.transversePermeability

theorem anisotropic_dual {ε μ : TensorComponents nx ny} {f : Formulation nx ny ι} {x : Grid nx ny} {m : FourierMatrices ι}
    (h : fourierMatricesPatternedAnisotropic c.lattice ε μ c.expansion f x = .ok m) :
    ∃ m', fourierMatricesPatternedAnisotropic c.lattice μ ε c.expansion f x = .ok m' ∧ FourierDual m m' := by
  have key : ∀ e m, transverseMatricesAnisotropic c.lattice ε μ c.expansion x f = .ok (e, m) → ∃ e' m', transverseMatricesAnisotropic c.lattice μ ε c.expansion x f = .ok (e', m') ∧
      m' * quarterTurn = quarterTurn * e ∧ e' * quarterTurn = quarterTurn * m := by
    intro e m h
    cases f with
    | fft =>
      simp only [transverseMatricesAnisotropic, bind_eq_ok, ok_inj, Prod.mk.injEq] at h ⊢
      obtain ⟨_, h1, _, h2, rfl, rfl⟩ := h
      obtain ⟨m', k1, k2⟩ := fft_permeability_dual h1
      obtain ⟨e', k3, k4⟩ := fft_permittivity_dual h2
      exact ⟨e', m', ⟨_, k3, _, k1, rfl, rfl⟩, k2, k4⟩
    | vector fn =>
      simp only [transverseMatricesAnisotropic, bind_eq_ok, ok_inj, Prod.mk.injEq] at h ⊢
      obtain ⟨t, ht, _, h1, _, h2, rfl, rfl⟩ := h
      obtain ⟨m', k1, k2⟩ := vector_permeability_dual h1
      obtain ⟨e', k3, k4⟩ := vector_permittivity_dual h2
      exact ⟨e', m', ⟨t, ht, _, k3, _, k1, rfl, rfl⟩, k2, k4⟩
  unfold fourierMatricesPatternedAnisotropic at h ⊢
  simp only [bind_eq_ok, Prod.exists] at h ⊢
  obtain ⟨e, m0, h0, η, hη, a, ha, b, hb, η', hη', a', ha', b', hb', h⟩ := h
  obtain ⟨e', m', h1, h2, h3⟩ := key _ _ h0
  rw [ok_inj] at h
  subst h
  exact ⟨_, ⟨e', m', h1, η', hη', a', ha', b', hb', η, hη, a, ha, b, hb, rfl⟩, rfl, rfl, rfl, rfl, h2, h3⟩

theorem uniformAnisotropic_dual {ε μ : TensorComponents 1 1} {m : FourierMatrices ι} (h : fourierMatricesUniformAnisotropic ε μ = .ok m) :
    ∃ m', fourierMatricesUniformAnisotropic μ ε = .ok m' ∧ FourierDual m m' := by
  unfold fourierMatricesUniformAnisotropic at h ⊢
  split_ifs at h with h0
  rw [ok_inj] at h
  subst h
  rw [if_neg (by rwa [or_comm])]
  refine ⟨_, rfl, rfl, rfl, rfl, rfl, ?_, ?_⟩ <;> simp [quarterTurn, fromBlocks_multiply, diag_const]

theorem isotropic_fft_dual (hG : Function.Injective c.expansion) {ε : Grid nx ny} {x : Grid nx ny} {m : FourierMatrices ι}
    (h : fourierMatricesPatternedIsotropic c.lattice ε c.expansion .fft = .ok m) :
    ∃ m', fourierMatricesPatternedAnisotropic c.lattice (.scalar (Matrix.of fun _ _ => 1)) (.scalar ε) c.expansion .fft x = .ok m' ∧ FourierDual m m' := by
  unfold fourierMatricesPatternedIsotropic transversePermittivityIsotropic transversePermittivityFft at h
  unfold fourierMatricesPatternedAnisotropic transverseMatricesAnisotropic transversePermittivityFftAnisotropic transversePermeabilityFftAnisotropic
  simp only [bind_eq_ok, fourierConvolutionMatrix_ok_iff, ok_inj, diag_const, one_smul, zero_smul, fromBlocks_one] at h ⊢
  obtain ⟨_, ⟨_, ⟨hR, rfl⟩, rfl⟩, η, hη, _, ⟨-, rfl⟩, _, ⟨-, rfl⟩, rfl⟩ := h
  have h1 : recipGrid (Matrix.of fun _ _ => 1 : Grid nx ny) = .ok (Matrix.of fun _ _ => 1) := by simp [recipGrid]
  have hz : convolution c.expansion (0 : Grid nx ny) = 0 := by ext i j; simp [convolution, fourierCoefficient]
  have ho : convolution c.expansion (Matrix.of fun _ _ => 1 : Grid nx ny) = 1 := by rw [convolution_const_comm hR hG, one_smul]
  refine ⟨_, ⟨_, ⟨_, ⟨_, ⟨hR, rfl⟩, _, ⟨hR, rfl⟩, _, ⟨hR, rfl⟩, _, ⟨hR, rfl⟩, rfl⟩, _, ⟨_, ⟨hR, rfl⟩, _, ⟨hR, rfl⟩, _, ⟨hR, rfl⟩, _, ⟨hR, rfl⟩, rfl⟩, rfl⟩,
    _, h1, _, ⟨hR, rfl⟩, _, ⟨hR, rfl⟩, η, hη, _, ⟨hR, rfl⟩, _, ⟨hR, rfl⟩, rfl⟩, ho, rfl, ho, rfl, ?_, ?_⟩
  · simp [quarterTurn, fromBlocks_multiply, TensorComponents.scalar, hz]
  · simp [quarterTurn, TensorComponents.scalar, hz, ho]

/-! ### Eigensolves -/

/-- The numerical eigensolve of the dual medium. -/
theorem numerical_dual (he : IsEig eig) {r : LayerSolveResult ι} {E : ModeMatrix ι} {m' : FourierMatrices ι} (hs : SolvedFor r E)
    (hf : ∀ i, IsForwardRoot (r.eigenvalues i ^ 2) (r.eigenvalues i)) (hc : CompleteModes r)
    (h1 : r.wavelength = c.wavelength) (h2 : r.inPlaneWavevector = c.inPlaneWavevector) (h3 : r.primitiveLatticeVectors = c.lattice) (h4 : r.expansion = c.expansion)
    (hz : m'.zPermittivity = r.zPermeabilityMatrix) (hz' : m'.zPermeability = r.zPermittivityMatrix)
    (hM : m'.transversePermeability * quarterTurn = quarterTurn * E) (hE : m'.transversePermittivity * quarterTurn = quarterTurn * r.transversePermeabilityMatrix)
    (hi : m'.inverseZPermittivity = r.inverseZPermeabilityMatrix) (hi' : m'.inverseZPermeability = r.inverseZPermittivityMatrix) :
    ∃ r', numericalEigensolve eig c.wavelength c.inPlaneWavevector c.lattice m' c.expansion = .ok r' ∧ DualLayers r r' := by
  have hk := transverseWavevectors_layer.2 ⟨hs.wellPosed.2.1, rfl⟩
  rw [h2, h3, h4] at hk
  have hA' := (eigenproblemMatrix_ok_iff (wavelength := c.wavelength) (m := m') 0 0 hk).2
    ⟨by rw [← h1]; exact hs.wellPosed.1, by rw [hz]; exact hs.zPermeability, by rw [hz']; exact hs.wellPosed.2.2, rfl⟩
  obtain ⟨r', hr'⟩ : ∃ r', numericalEigensolve eig c.wavelength c.inPlaneWavevector c.lattice m' c.expansion = .ok r' :=
    ⟨_, numericalEigensolve_ok_iff.2 ⟨_, _, hk, hA', rfl⟩⟩
  obtain ⟨hs', f1', f2', f3', f4', f5', f6'⟩ := numerical_solvedFor he hr'
  obtain ⟨-, -, -, hf'⟩ := numericalEigensolve_modes he hr'
  obtain ⟨_, _, -, -, er'⟩ := numericalEigensolve_ok_iff.1 hr'
  have med : DualMedium r r' E m'.transversePermittivity := by
    refine ⟨by rw [f1', h1], ?_, by rw [f3', hz], by rw [f4', hz'], by rw [f2', hM], hE⟩
    intro i
    have hk2 := transverseWavevectors_layer.2 ⟨hs'.wellPosed.2.1, rfl⟩
    rw [show r'.inPlaneWavevector = c.inPlaneWavevector by rw [er']; rfl, show r'.primitiveLatticeVectors = c.lattice by rw [er']; rfl,
      show r'.expansion = c.expansion by rw [er']; rfl, hk, ok_inj] at hk2
    exact (congrFun hk2 i).symm
  refine ⟨r', hr', med.dualLayers hs hs' hf hf' hc ?_ (f5'.trans hi) (f6'.trans hi')⟩
  refine numerical_eigenvectors_invertible he hr' (V := quarterTurn * electricModes r) (w := fun i => r.eigenvalues i ^ 2) ?_ (med.profiles hs)
  rw [det_mul]
  exact quarterTurn_isUnit.mul (electricModes_isUnit hs hc).2

theorem numerical_fourier_dual (he : IsEig eig) {r : LayerSolveResult ι} {m m' : FourierMatrices ι} (hm : FourierDual m m')
    (hr : numericalEigensolve eig c.wavelength c.inPlaneWavevector c.lattice m c.expansion = .ok r) (hc : CompleteModes r) :
    ∃ r', numericalEigensolve eig c.wavelength c.inPlaneWavevector c.lattice m' c.expansion = .ok r' ∧ DualLayers r r' := by
  obtain ⟨hs, f1, f2, f3, f4, f5, f6⟩ := numerical_solvedFor he hr
  obtain ⟨-, -, -, hf⟩ := numericalEigensolve_modes he hr
  obtain ⟨_, _, -, -, er⟩ := numericalEigensolve_ok_iff.1 hr
  exact numerical_dual he hs hf hc f1 (by rw [er]; rfl) (by rw [er]; rfl) (by rw [er]; rfl) (by rw [hm.zPermittivity, f4]) (by rw [hm.zPermeability, f3])
    hm.transversePermeability (by rw [hm.transversePermittivity, f2]) (by rw [hm.inverseZPermittivity, f6]) (by rw [hm.inverseZPermeability, f5])

/-- The dual of a layer. -/
theorem layer_dual (he : IsEig eig) (hG : Function.Injective c.expansion) {p : StackLayer ι} (hp : p.Dualizable) {r : LayerSolveResult ι}
    (hr : p.solve eig c = .ok r) (hc : CompleteModes r) : ∃ r', p.dual.solve eig c = .ok r' ∧ DualLayers r r' := by
  obtain ⟨nx, ny, med, d⟩ := p
  by_cases hn : nx = 1 ∧ ny = 1
  · obtain ⟨rfl, rfl⟩ := hn
    cases med with
    | isotropic ε f =>
      simp only [StackLayer.solve, eigensolveIsotropicMedia, and_self, dite_true] at hr
      have hs := uniform_solvedFor hr
      obtain ⟨-, -, hf⟩ := uniform_modeEquation hr
      obtain ⟨k, w, hk, hw, hε, er⟩ := eigensolveUniformIsotropic_ok_iff.1 hr
      obtain ⟨m', hm'⟩ : ∃ m', fourierMatricesUniformAnisotropic (ι := ι) (.scalar (Matrix.of fun _ _ => 1)) (.scalar ε) = .ok m' := by
        unfold fourierMatricesUniformAnisotropic
        rw [if_neg (by rw [not_or]; exact ⟨one_ne_zero, hε⟩)]
        exact ⟨_, rfl⟩
      have hm := hm'
      unfold fourierMatricesUniformAnisotropic at hm
      rw [if_neg (by rw [not_or]; exact ⟨one_ne_zero, hε⟩), ok_inj] at hm
      obtain ⟨r', hr', hl⟩ := numerical_dual he (m' := m') hs hf hc (by rw [er]) (by rw [er]) (by rw [er]) (by rw [er])
        (by rw [er, ← hm]; simp [TensorComponents.scalar]) (by rw [er, ← hm]; simp [diag_const, TensorComponents.scalar])
        (by rw [← hm]; simp [diag_const, TensorComponents.scalar, quarterTurn, fromBlocks_multiply, fromBlocks_smul])
        (by rw [er, ← hm]; simp [diag_const, TensorComponents.scalar, quarterTurn, fromBlocks_multiply])
        (by rw [er, ← hm]; simp [diag_const, TensorComponents.scalar]) (by rw [er, ← hm]; simp [diag_const, TensorComponents.scalar])
      refine ⟨r', ?_, hl⟩
      change eigensolveGeneralAnisotropicMedia eig c.wavelength c.inPlaneWavevector c.lattice (.scalar (Matrix.of fun _ _ => 1)) (.scalar ε) c.expansion f none = .ok r'
      unfold eigensolveGeneralAnisotropicMedia eigensolveUniformAnisotropic
      rw [dif_pos ⟨rfl, rfl⟩]
      exact bind_eq_ok.2 ⟨m', hm', hr'⟩
    | anisotropic ε μ f x =>
      simp only [StackLayer.solve, eigensolveGeneralAnisotropicMedia, and_self, dite_true, eigensolveUniformAnisotropic,
        bind_eq_ok] at hr
      obtain ⟨m, hm, hr⟩ := hr
      obtain ⟨m', hm', hmm⟩ := uniformAnisotropic_dual hm
      obtain ⟨r', hr', hl⟩ := numerical_fourier_dual he hmm hr hc
      refine ⟨r', ?_, hl⟩
      change eigensolveGeneralAnisotropicMedia eig c.wavelength c.inPlaneWavevector c.lattice μ ε c.expansion f _ = .ok r'
      unfold eigensolveGeneralAnisotropicMedia eigensolveUniformAnisotropic
      rw [dif_pos ⟨rfl, rfl⟩]
      exact bind_eq_ok.2 ⟨m', hm', hr'⟩
  · cases med with
    | isotropic ε f =>
      simp only [StackLayer.solve, eigensolveIsotropicMedia, dif_neg hn, eigensolvePatternedIsotropic, bind_eq_ok] at hr
      obtain ⟨m, hm, hr⟩ := hr
      have hf : f = .fft := by
        rcases hp with hp | hp | ⟨_, _, _, _, hp⟩
        · exact absurd hp hn
        · exact hp
        · cases hp
      subst hf
      obtain ⟨m', hm', hmm⟩ := isotropic_fft_dual hG (x := Matrix.of fun r s => ((TensorComponents.scalar (Matrix.of fun _ _ => 1 : Grid nx ny)).xx r s +
        (TensorComponents.scalar (Matrix.of fun _ _ => 1 : Grid nx ny)).yy r s) / 2) hm
      obtain ⟨r', hr', hl⟩ := numerical_fourier_dual he hmm hr hc
      refine ⟨r', ?_, hl⟩
      change eigensolveGeneralAnisotropicMedia eig c.wavelength c.inPlaneWavevector c.lattice (.scalar (Matrix.of fun _ _ => 1)) (.scalar ε) c.expansion .fft none = .ok r'
      unfold eigensolveGeneralAnisotropicMedia eigensolvePatternedAnisotropic
      rw [dif_neg hn]
      exact bind_eq_ok.2 ⟨m', hm', hr'⟩
    | anisotropic ε μ f x =>
      simp only [StackLayer.solve, eigensolveGeneralAnisotropicMedia, dif_neg hn, eigensolvePatternedAnisotropic, bind_eq_ok] at hr
      obtain ⟨m, hm, hr⟩ := hr
      obtain ⟨m', hm', hmm⟩ := anisotropic_dual hm
      obtain ⟨r', hr', hl⟩ := numerical_fourier_dual he hmm hr hc
      refine ⟨r', ?_, hl⟩
      change eigensolveGeneralAnisotropicMedia eig c.wavelength c.inPlaneWavevector c.lattice μ ε c.expansion f (some _) = .ok r'
      unfold eigensolveGeneralAnisotropicMedia eigensolvePatternedAnisotropic
      rw [dif_neg hn]
      exact bind_eq_ok.2 ⟨m', hm', hr'⟩

theorem solve_selfDual (ε : TensorComponents nx ny) (f : Formulation nx ny ι) (x : Option (Grid nx ny)) (d : ℝ) :
    (StackLayer.dual ⟨nx, ny, .anisotropic ε ε f x, d⟩).solve eig c = StackLayer.solve eig c ⟨nx, ny, .anisotropic ε ε f x, d⟩ := by
  by_cases hn : nx = 1 ∧ ny = 1
  · obtain ⟨rfl, rfl⟩ := hn
    rfl
  · simp only [StackLayer.solve, StackLayer.dual, Medium.dual, eigensolveGeneralAnisotropicMedia, Option.getD_some]
    rfl

theorem layer_selfDual (he : IsEig eig) (hG : Function.Injective c.expansion) {p : StackLayer ι} (hp : p.SelfDual) {r : LayerSolveResult ι}
    (hr : p.solve eig c = .ok r) (hc : CompleteModes r) : DualLayers r r := by
  rcases hp with ⟨f, d, rfl⟩ | ⟨ε, f, x, hp⟩
  · simp only [StackLayer.solve, eigensolveIsotropicMedia, and_self, dite_true] at hr
    have hs := uniform_solvedFor hr
    obtain ⟨-, -, hf⟩ := uniform_modeEquation hr
    obtain ⟨k, w, hk, hw, hε, er⟩ := eigensolveUniformIsotropic_ok_iff.1 hr
    have h1 : ((Matrix.of fun _ _ => 1 : Grid 1 1) 0 0 : ℂ) = 1 := rfl
    have med : DualMedium r r (((Matrix.of fun _ _ => 1 : Grid 1 1) 0 0) • 1) (((Matrix.of fun _ _ => 1 : Grid 1 1) 0 0) • 1) := by
      refine ⟨rfl, fun _ => rfl, ?_, ?_, ?_, ?_⟩ <;> rw [er] <;> simp
    exact med.dualLayers hs hs hf hf hc hc.1 (by rw [er]; simp) (by rw [er]; simp)
  · obtain ⟨r', hr', hl⟩ := layer_dual he hG (Or.inr (Or.inr ⟨ε, ε, f, x, hp⟩)) hr hc
    have : p.dual.solve eig c = p.solve eig c := by
      have e : p = ⟨p.nx, p.ny, .anisotropic ε ε f x, p.thickness⟩ := by rw [← hp]
      rw [e]
      exact solve_selfDual ε f x _
    rw [this, hr, ok_inj] at hr'
    rwa [← hr'] at hl

theorem layer_isDual (he : IsEig eig) (hG : Function.Injective c.expansion) {p p' : StackLayer ι} (hp : p.IsDual p') {r : LayerSolveResult ι}
    (hr : p.solve eig c = .ok r) (hc : CompleteModes r) : ∃ r', p'.solve eig c = .ok r' ∧ DualLayers r r' ∧ p'.thickness = p.thickness := by
  rcases hp with ⟨hp, rfl⟩ | ⟨hp, rfl⟩
  · obtain ⟨r', h1, h2⟩ := layer_dual he hG hp hr hc
    exact ⟨r', h1, h2, rfl⟩
  · exact ⟨r, hr, layer_selfDual he hG hp hr hc, rfl⟩

/-! ### Fields -/

namespace DualLayers

variable {l l' : LayerSolveResult ι}

theorem omega_eq (h : DualLayers l l') : omega l' = omega l := by unfold omega; rw [h.wavelength]

theorem propagator_comm (h : DualLayers l l') (z : ℝ) : propagator l z * dualModes l l' = dualModes l l' * propagator l' z := by
  unfold propagator
  ext i j
  rw [diagonal_mul, mul_diagonal]
  by_cases hij : dualModes l l' i j = 0
  · rw [hij]; ring
  · rw [h.eigenvalues i j hij]; ring

theorem propagator_comm_inv (h : DualLayers l l') (z : ℝ) : propagator l' z * (dualModes l l')⁻¹ = (dualModes l l')⁻¹ * propagator l z := by
  have e := congrArg (fun X => (dualModes l l')⁻¹ * X * (dualModes l l')⁻¹) (h.propagator_comm z)
  simp only [Matrix.mul_assoc, mul_nonsing_inv _ h.isUnit, Matrix.mul_one, nonsing_inv_mul_cancel_left _ _ h.isUnit] at e
  exact e.symm

theorem electricAt_eq (h : DualLayers l l') (d z : ℝ) (a b : Matrix (ι ⊕ ι) β ℂ) :
    electricAt l' d ((dualModes l l')⁻¹ * a) (-((dualModes l l')⁻¹ * b)) z = quarterTurn * magneticAt l d a b z := by
  unfold electricAt magneticAt
  rw [h.electric, Matrix.mul_neg, sub_neg_eq_add, ← Matrix.mul_assoc (propagator l' z), ← Matrix.mul_assoc (propagator l' (d - z)), h.propagator_comm_inv,
    h.propagator_comm_inv, Matrix.mul_assoc _ (propagator l z), Matrix.mul_assoc _ (propagator l (d - z)), ← Matrix.mul_add,
    Matrix.mul_assoc (quarterTurn * _), mul_nonsing_inv_cancel_left _ _ h.isUnit, Matrix.mul_assoc]

theorem magneticAt_eq (h : DualLayers l l') (d z : ℝ) (a b : Matrix (ι ⊕ ι) β ℂ) :
    magneticAt l' d ((dualModes l l')⁻¹ * a) (-((dualModes l l')⁻¹ * b)) z = quarterTurn * electricAt l d a b z := by
  unfold electricAt magneticAt
  rw [h.magnetic, Matrix.mul_neg, ← sub_eq_add_neg, ← Matrix.mul_assoc (propagator l' z), ← Matrix.mul_assoc (propagator l' (d - z)), h.propagator_comm_inv,
    h.propagator_comm_inv, Matrix.mul_assoc _ (propagator l z), Matrix.mul_assoc _ (propagator l (d - z)), ← Matrix.mul_sub,
    Matrix.mul_assoc (quarterTurn * _), mul_nonsing_inv_cancel_left _ _ h.isUnit, Matrix.mul_assoc]

/-- Duality is mutual. -/
theorem dualModes_symm (h : DualLayers l l') : dualModes l' l = -(dualModes l l')⁻¹ := by
  have hφ := h.complete.1
  change (quarterTurn * electricModes l')⁻¹ * l.eigenvectors = _
  have e : (quarterTurn : ModeMatrix ι) * electricModes l' = -(l.eigenvectors * dualModes l l') := by
    rw [h.electric, ← Matrix.mul_assoc, ← Matrix.mul_assoc, quarterTurn_sq]
    simp
  rw [e]
  have : (-(l.eigenvectors * dualModes l l'))⁻¹ = -((dualModes l l')⁻¹ * l.eigenvectors⁻¹) := by
    apply inv_eq_right_inv
    rw [Matrix.neg_mul, Matrix.mul_neg, neg_neg, Matrix.mul_assoc, mul_nonsing_inv_cancel_left _ _ h.isUnit, mul_nonsing_inv _ hφ]
  rw [this, Matrix.neg_mul, Matrix.mul_assoc, nonsing_inv_mul _ hφ, Matrix.mul_one]

theorem symm (h : DualLayers l l') : DualLayers l' l := by
  have hT := h.dualModes_symm
  refine ⟨h.wavelength.symm, fun i => (h.wavevector i).symm, h.inverseZPermeability.symm, h.inverseZPermittivity.symm, h.solved', h.solved, h.complete', h.complete, ?_, ?_, ?_, ?_⟩
  · rw [hT, det_neg]
    exact ((isUnit_neg_one).pow _).mul (isUnit_nonsing_inv_det _ h.isUnit)
  · rw [hT, h.electric, ← Matrix.mul_assoc, ← Matrix.mul_assoc, quarterTurn_sq]
    simp [Matrix.mul_assoc, mul_nonsing_inv _ h.isUnit]
  · rw [hT, h.magnetic, ← Matrix.mul_assoc, ← Matrix.mul_assoc, quarterTurn_sq]
    simp [Matrix.mul_assoc, mul_nonsing_inv _ h.isUnit]
  · intro i j hij
    rw [hT, Matrix.neg_apply, neg_ne_zero] at hij
    have e1 : (diagonal fun i => l.eigenvalues i) * dualModes l l' = dualModes l l' * diagonal fun i => l'.eigenvalues i := by
      ext i j
      rw [diagonal_mul, mul_diagonal]
      by_cases hij : dualModes l l' i j = 0
      · rw [hij]; ring
      · rw [h.eigenvalues i j hij]; ring
    have e := congrArg (fun X => (dualModes l l')⁻¹ * X * (dualModes l l')⁻¹) e1
    simp only [Matrix.mul_assoc, mul_nonsing_inv _ h.isUnit, Matrix.mul_one, nonsing_inv_mul_cancel_left _ _ h.isUnit] at e
    have e2 := congrFun (congrFun e i) j
    rw [mul_diagonal, diagonal_mul] at e2
    apply mul_left_cancel₀ hij
    rw [e2]; ring

/-- The fields reported for the dual layer. -/
theorem fieldsOf_eq (h : DualLayers l l') (e m : Matrix (ι ⊕ ι) β ℂ) : fieldsOf l' (quarterTurn * m) (quarterTurn * e) = (fieldsOf l e m).dual := by
  have j1 : ∀ (x : Matrix (ι ⊕ ι) β ℂ) i k, ((quarterTurn : ModeMatrix ι) * x) (.inl i) k = -x (.inr i) k := by
    intro x i k
    simp [quarterTurn, Matrix.mul_apply, Fintype.sum_sum_type, Matrix.one_apply]
  have j2 : ∀ (x : Matrix (ι ⊕ ι) β ℂ) i k, ((quarterTurn : ModeMatrix ι) * x) (.inr i) k = x (.inl i) k := by
    intro x i k
    simp [quarterTurn, Matrix.mul_apply, Fintype.sum_sum_type, Matrix.one_apply]
  unfold fieldsOf Fields.dual
  rw [h.inverseZPermittivity, h.inverseZPermeability, h.omega_eq]
  simp only [j1, j2, h.wavevector, neg_neg, Fields.mk.injEq]
  refine ⟨trivial, trivial, ?_, ?_, ?_, ?_⟩
  · have : (Matrix.of fun i k => Complex.I * ((orderWavevector l i).1 : ℂ) * e (.inl i) k - Complex.I * ((orderWavevector l i).2 : ℂ) * -e (.inr i) k : Matrix ι β ℂ) =
        -(Matrix.of fun i k => Complex.I * ((orderWavevector l i).1 : ℂ) * -e (.inl i) k - Complex.I * ((orderWavevector l i).2 : ℂ) * e (.inr i) k) := by
      ext i k
      simp only [of_apply, Matrix.neg_apply]
      ring
    rw [this, Matrix.neg_mul, Matrix.mul_neg, neg_neg]
  · ext i k; simp
  · ext i k; simp
  · ext i k
    simp only [of_apply, Matrix.neg_apply, Matrix.neg_mul]
    ring

end DualLayers

/-! ### Stacks -/

/-- Corresponding layers of two stacks. -/
def DualPair (p p' : LayerSolveResult ι × ℝ) : Prop := DualLayers p.1 p'.1 ∧ p'.2 = p.2

/-- The state of the dual layer. -/
noncomputable def dualState (l' : LayerSolveResult ι) (s : LayerState ι β) : LayerState ι β :=
  { layer := l', thickness := s.thickness, a := (dualModes s.layer l')⁻¹ * s.a, b := -((dualModes s.layer l')⁻¹ * s.b) }

theorem fieldsAt_dual {s : LayerState ι β} {l' : LayerSolveResult ι} (h : DualLayers s.layer l') {z : ℝ} {e m : Matrix (ι ⊕ ι) β ℂ} (hs : FieldsAt s z e m) :
    FieldsAt (dualState l' s) z (quarterTurn * m) (quarterTurn * e) := by
  obtain ⟨-, -, rfl, rfl⟩ := fieldsAt_eq.1 hs
  obtain ⟨E, hE⟩ := h.solved'
  exact fieldsAt_eq.2 ⟨hE.wellPosed, h.complete'.2, (h.electricAt_eq _ _ _ _).symm, (h.magneticAt_eq _ _ _ _).symm⟩

/-- The states of the dual stack. -/
noncomputable def dualStates (st : List (LayerState ι β)) (layers : List (LayerSolveResult ι × ℝ)) : List (LayerState ι β) :=
  List.zipWith (fun s p => dualState p.1 s) st layers

theorem dualStates_spec : ∀ (st : List (LayerState ι β)) (layers : List (LayerSolveResult ι × ℝ)), List.Forall₂ DualPair (geometry st) layers → Consistent st →
    geometry (dualStates st layers) = layers ∧ Consistent (dualStates st layers) ∧
      List.Forall₂ (fun s t => DualLayers s.layer t.layer ∧ t = dualState t.layer s) st (dualStates st layers)
  | [], [], _, _ => ⟨rfl, .nil, .nil⟩
  | [], _ :: _, h, _ => by simp [geometry] at h
  | _ :: _, [], h, _ => by simp [geometry] at h
  | [s], [p], h, _ => by
    simp only [geometry, List.map_cons, List.map_nil, List.forall₂_cons] at h
    refine ⟨?_, .singleton _, .cons ⟨h.1.1, rfl⟩ .nil⟩
    simp only [dualStates, geometry, dualState, List.zipWith_cons_cons, List.map_cons, List.zipWith_nil_left, List.map_nil]
    rw [Prod.ext (x := (p.1, s.thickness)) (y := p) rfl h.1.2.symm]
  | [s], _ :: _ :: _, h, _ => by simp [geometry] at h
  | _ :: _ :: _, [p], h, _ => by simp [geometry] at h
  | s :: u :: st, p :: q :: layers, h, hc => by
    rw [Consistent, List.isChain_cons_cons] at hc
    obtain ⟨⟨e, m, h1, h2⟩, hc⟩ := hc
    simp only [geometry, List.map_cons] at h
    rw [List.forall₂_cons] at h
    obtain ⟨k, h⟩ := h
    obtain ⟨i1, i2, i3⟩ := dualStates_spec (u :: st) (q :: layers) (by simpa only [geometry, List.map_cons] using h) hc
    rw [List.forall₂_cons] at h
    refine ⟨?_, ?_, .cons ⟨k.1, rfl⟩ i3⟩
    · change (p.1, s.thickness) :: geometry (dualStates (u :: st) (q :: layers)) = _
      rw [i1, Prod.ext (x := (p.1, s.thickness)) (y := p) rfl k.2.symm]
    · change List.IsChain Interface (dualState p.1 s :: dualState q.1 u :: dualStates st layers)
      rw [List.isChain_cons_cons]
      exact ⟨⟨_, _, fieldsAt_dual k.1 h1, fieldsAt_dual h.1.1 h2⟩, i2⟩

theorem noResonance_dual {layers layers' : List (LayerSolveResult ι × ℝ)} (h : List.Forall₂ DualPair layers layers') (hn : NoResonance layers) : NoResonance layers' := by
  intro st first last hg hc hf hl ha hb
  have h' : List.Forall₂ DualPair (geometry st) layers := by
    rw [hg]
    exact (h.imp fun _ _ k => ⟨k.1.symm, k.2.symm⟩ : List.Forall₂ (fun p p' => DualPair p' p) layers layers').flip
  obtain ⟨i1, i2, i3⟩ := dualStates_spec st layers h' hc
  have hne : st ≠ [] := by rintro rfl; simp at hf
  obtain ⟨f', hf'⟩ : ∃ x, (dualStates st layers).head? = some x := by
    cases hd : dualStates st layers with
    | nil => rw [hd] at i3; cases i3; exact absurd rfl hne
    | cons x _ => exact ⟨x, rfl⟩
  obtain ⟨y', hy'⟩ : ∃ x, (dualStates st layers).getLast? = some x := by
    cases hd : dualStates st layers with
    | nil => rw [hd] at hf'; simp at hf'
    | cons x xs => exact ⟨_, List.getLast?_eq_some_getLast (by simp)⟩
  have kf := (forall₂_head i3 _ hf _ hf').2
  have kl := (forall₂_getLast i3 _ hl _ hy').2
  have hz := hn _ _ _ i1 i2 hf' hy' (by rw [kf]; simp [dualState, ha]) (by rw [kl]; simp [dualState, hb])
  intro s hs
  obtain ⟨t, ht, hd, k⟩ := forall₂_mem_right i3.flip _ hs
  obtain ⟨za, zb⟩ := hz t ht
  rw [k] at za zb
  have hu := isUnit_nonsing_inv_det _ hd.isUnit
  constructor
  · have := congrArg (fun X => dualModes s.layer t.layer * X) za
    simpa [dualState, mul_nonsing_inv_cancel_left _ _ hd.isUnit] using this
  · have := congrArg (fun X => dualModes s.layer t.layer * X) zb
    simpa [dualState, mul_nonsing_inv_cancel_left _ _ hd.isUnit] using this

theorem relations_dual {layers layers' : List (LayerSolveResult ι × ℝ)} (h : List.Forall₂ DualPair layers layers') {S S' : ScatteringMatrix ι}
    (hS : IsSMatrix S layers) (hS' : IsSMatrix S' layers') :
    DualSMatrices (dualModes S.startLayer S'.startLayer) (dualModes S.endLayer S'.endLayer) S S' ∧
      DualLayers S.startLayer S'.startLayer ∧ DualLayers S.endLayer S'.endLayer := by
  have hd0 : DualLayers S.startLayer S'.startLayer := (forall₂_head h _ hS.start _ hS'.start).1
  have hdn : DualLayers S.endLayer S'.endLayer := (forall₂_getLast h _ hS.finish _ hS'.finish).1
  refine ⟨?_, hd0, hdn⟩
  set T₀ := dualModes S.startLayer S'.startLayer with hT0
  set Tₙ := dualModes S.endLayer S'.endLayer with hTn
  have key : ∀ a0 bN : ModeMatrix ι, Tₙ⁻¹ * (S.s11 * a0 + S.s12 * bN) = S'.s11 * (T₀⁻¹ * a0) - S'.s12 * (Tₙ⁻¹ * bN) ∧
      -(T₀⁻¹ * (S.s21 * a0 + S.s22 * bN)) = S'.s21 * (T₀⁻¹ * a0) - S'.s22 * (Tₙ⁻¹ * bN) := by
    intro a0 bN
    obtain ⟨st, f, y, hg, hc, hf, hy, hfa, hyb⟩ := hS.complete a0 bN
    obtain ⟨r1, r2⟩ := hS.sound st f y hg hc hf hy
    obtain ⟨i1, i2, i3⟩ := dualStates_spec st layers' (by rw [hg]; exact h) hc
    obtain ⟨f', hf', k1, k2⟩ := geometry_head i1 hS'.start
    obtain ⟨y', hy', k3, k4⟩ := geometry_getLast i1 hS'.finish
    obtain ⟨r1', r2'⟩ := hS'.sound _ f' y' i1 i2 hf' hy'
    obtain ⟨f1, hf1, m1, -⟩ := geometry_head hg hS.start
    obtain ⟨y1, hy1, m3, -⟩ := geometry_getLast hg hS.finish
    rw [hf] at hf1; simp only [Option.some.injEq] at hf1; subst hf1
    rw [hy] at hy1; simp only [Option.some.injEq] at hy1; subst hy1
    have kf := (forall₂_head i3 _ hf _ hf').2
    have kl := (forall₂_getLast i3 _ hy _ hy').2
    rw [k1] at kf
    rw [k3] at kl
    have fa : f'.a = T₀⁻¹ * f.a := by rw [kf, hT0, ← m1]; rfl
    have fb : f'.b = -(T₀⁻¹ * f.b) := by rw [kf, hT0, ← m1]; rfl
    have ya : y'.a = Tₙ⁻¹ * y.a := by rw [kl, hTn, ← m3]; rfl
    have yb : y'.b = -(Tₙ⁻¹ * y.b) := by rw [kl, hTn, ← m3]; rfl
    rw [ya, fa, yb, r1, hfa, hyb, Matrix.mul_neg, ← sub_eq_add_neg] at r1'
    rw [fb, fa, yb, r2, hfa, hyb, Matrix.mul_neg, ← sub_eq_add_neg] at r2'
    exact ⟨r1', r2'⟩
  have u0 : IsUnit T₀.det := hd0.isUnit
  have un : IsUnit Tₙ.det := hdn.isUnit
  obtain ⟨p1, p2⟩ := key T₀ 0
  obtain ⟨p3, p4⟩ := key 0 Tₙ
  simp only [Matrix.mul_zero, add_zero, zero_add, sub_zero, zero_sub, nonsing_inv_mul _ u0, nonsing_inv_mul _ un, Matrix.mul_one] at p1 p2 p3 p4
  refine ⟨?_, ?_, ?_, ?_⟩
  · rw [← p1, mul_nonsing_inv_cancel_left _ _ un]
  · rw [← neg_eq_iff_eq_neg.2 p3, Matrix.mul_neg, mul_nonsing_inv_cancel_left _ _ un]
  · rw [← p2, Matrix.mul_neg, mul_nonsing_inv_cancel_left _ _ u0]
  · rw [← neg_injective p4, mul_nonsing_inv_cancel_left _ _ u0]

/-- The dual stack is solved. -/
theorem layers_dual (he : IsEig eig) (hG : Function.Injective c.expansion) {layers layers' : List (StackLayer ι)} (hd : List.Forall₂ StackLayer.IsDual layers layers')
    {solved : List (LayerSolveResult ι)} (hs : List.Forall₂ (fun p r => p.solve eig c = .ok r) layers solved) (hc : ∀ r ∈ solved, CompleteModes r) :
    ∃ solved', List.Forall₂ (fun p r => p.solve eig c = .ok r) layers' solved' ∧
      List.Forall₂ DualPair (solved.zip (layers.map StackLayer.thickness)) (solved'.zip (layers'.map StackLayer.thickness)) := by
  induction hs generalizing layers' with
  | nil => cases hd; exact ⟨[], .nil, .nil⟩
  | @cons p r ps rs hr hrs ih =>
    cases hd with
    | cons hp hd =>
      obtain ⟨rs', h1, h2⟩ := ih hd (fun r h => hc r (List.mem_cons_of_mem _ h))
      obtain ⟨r', hr', hrec, ht⟩ := layer_isDual he hG hp hr (hc r (by simp))
      exact ⟨r' :: rs', .cons hr' h1, .cons ⟨hrec, ht⟩ h2⟩

/-- Existence of the scattering matrix of the dual stack. -/
theorem stack_dual (he : IsEig eig) (hG : Function.Injective c.expansion) {layers layers' : List (StackLayer ι)} (hd : List.Forall₂ StackLayer.IsDual layers layers')
    (hfirst : ∀ p ∈ layers.head?, ∀ r, p.solve eig c = .ok r → ∀ i, r.eigenvalues i ≠ 0)
    (hlast : ∀ p ∈ layers.getLast?, ∀ r, p.solve eig c = .ok r → IsUnit r.eigenvectors.det)
    {S : ScatteringMatrix ι} (hS : ComputedSMatrix eig c layers S) :
    ∃ S' solved solved', ComputedSMatrix eig c layers' S' ∧
      List.Forall₂ (fun p r => p.solve eig c = .ok r) layers solved ∧
      List.Forall₂ (fun p r => p.solve eig c = .ok r) layers' solved' ∧
      List.Forall₂ DualPair (solved.zip (layers.map StackLayer.thickness)) (solved'.zip (layers'.map StackLayer.thickness)) ∧
      IsSMatrix S (solved.zip (layers.map StackLayer.thickness)) ∧ IsSMatrix S' (solved'.zip (layers'.map StackLayer.thickness)) := by
  obtain ⟨solved, hs, hS⟩ := hS
  have hcm := solved_complete hs hS hfirst hlast
  obtain ⟨solved', hs', hpair⟩ := layers_dual he hG hd hs hcm
  have hlen := hs.length_eq
  have hlen' := hs'.length_eq
  have hlend := hd.length_eq
  have hreg : Regular c.wavelength (solved.zip (layers.map StackLayer.thickness)) := by
    intro q hq
    have hq' := (List.of_mem_zip hq).1
    refine ⟨?_, (hcm _ hq').2⟩
    obtain ⟨p, -, hp⟩ := forall₂_mem_right hs _ hq'
    exact solve_wavelength he hp
  have hpr : ∀ r' ∈ solved', ∃ r ∈ solved, DualLayers r r' := by
    intro r' hr'
    have hz : (solved'.zip (layers'.map StackLayer.thickness)).map Prod.fst = solved' := List.map_fst_zip (by simp; omega)
    rw [← hz] at hr'
    obtain ⟨x, hx, rfl⟩ := List.mem_map.1 hr'
    obtain ⟨y, hy, hr⟩ := forall₂_mem_right hpair _ hx
    exact ⟨y.1, (List.of_mem_zip hy).1, hr.1⟩
  have hw' : ∀ r' ∈ solved', r'.wavelength = c.wavelength := by
    intro r' hr'
    obtain ⟨p, -, hp⟩ := forall₂_mem_right hs' _ hr'
    exact (solve_wavelength he hp)
  have hreg' : Regular c.wavelength (solved'.zip (layers'.map StackLayer.thickness)) := by
    intro q hq
    have hq' := (List.of_mem_zip hq).1
    obtain ⟨r, -, hr⟩ := hpr _ hq'
    exact ⟨hw' _ hq', hr.complete'.2⟩
  obtain ⟨ss, hss, -⟩ := stackSMatrix_eq_ok hS
  obtain ⟨hl1, hpre⟩ := stackSMatrices_spec hreg hss
  have hne : solved' ≠ [] := by
    rintro rfl
    cases layers with
    | nil =>
      cases hs
      exact absurd hS (by simp [stackSMatrix, stackSMatrices])
    | cons _ _ => simp at hlen' hlend; rw [hlen'] at hlend; simp at hlend
  have hex : ∃ S', stackSMatrix solved' (layers'.map StackLayer.thickness) = .ok S' := by
    rw [C81_succeeds_iff (lam := c.wavelength) hne (by simp; omega)
      (fun r hr => ⟨hw' r hr, by obtain ⟨_, -, h⟩ := hpr r hr; exact h.complete'.2⟩) (fun r hr => by
        obtain ⟨_, -, h⟩ := hpr r hr
        obtain ⟨E, hE⟩ := h.solved'
        refine ⟨hE.wellPosed, ?_⟩
        rw [det_mul]
        exact (electricModes_isUnit hE h.complete').1.mul h.complete'.1)]
    intro n hn
    have hn' : n < ss.length := by
      rw [hl1, List.length_zip]
      simp
      omega
    exact noResonance_dual (forall₂_take hpair (n + 1)) (hpre n hn').noResonance
  obtain ⟨S', hS'⟩ := hex
  exact ⟨S', solved, solved', ⟨solved', hs', hS'⟩, hs, hs', hpair, stackSMatrix_spec hreg hS, stackSMatrix_spec hreg' hS'⟩

end Fmmax
