import Verif.Proofs.Media
import Verif.Proofs.Radiation
import Verif.Props.Energy
import Verif.Spec.Reciprocity

/-! The Lorentz form and the scattering matrix of the reciprocal calculation. -/

set_option linter.unusedSectionVars false

namespace Fmmax

open Matrix Spec

variable {ι : Type} [Fintype ι] [DecidableEq ι] {β γ : Type} {nx ny : ℕ}

/-- The layer `l'` is the layer `l` of the reciprocal calculation. -/
structure Reciprocal (l l' : LayerSolveResult ι) : Prop where
  wavelength : l'.wavelength = l.wavelength
  solved : ∃ E, SolvedFor l E
  solved' : ∃ E, SolvedFor l' E
  complete : CompleteModes l
  complete' : CompleteModes l'
  electric : magneticToElectric l' = (magneticToElectric l)ᵀ
  coupled : ∀ i j, (l'.eigenvectorsᵀ * magneticToElectric l * l.eigenvectors) i j ≠ 0 → l'.eigenvalues i = l.eigenvalues j

/-- Functions of the propagation constants commute with the coupling matrix. -/
theorem coupling_diagonal {N : ModeMatrix ι} {q q' : ι ⊕ ι → ℂ} (h : ∀ i j, N i j ≠ 0 → q' i = q j) (f : ℂ → ℂ) :
    diagonal (fun i => f (q' i)) * N = N * diagonal fun j => f (q j) := by
  ext i j
  rw [diagonal_mul, mul_diagonal]
  by_cases h0 : N i j = 0
  · rw [h0, mul_zero, zero_mul]
  · rw [h i j h0, mul_comm]

theorem propagator_transpose (l : LayerSolveResult ι) (z : ℝ) : (propagator l z)ᵀ = propagator l z := diagonal_transpose _

theorem propagator_add (l : LayerSolveResult ι) (z w : ℝ) : propagator l z * propagator l w = propagator l (z + w) := by
  unfold propagator
  rw [diagonal_mul_diagonal]
  congr 1
  funext i
  rw [← Complex.exp_add]
  congr 1
  push_cast
  ring

namespace Reciprocal

variable {l l' : LayerSolveResult ι} (h : Reciprocal l l')

theorem omega_eq (h : Reciprocal l l') : omega l' = omega l := by unfold omega; rw [h.wavelength]

/-- Coupling of the modes, with equal propagation constants. -/
noncomputable def core (l l' : LayerSolveResult ι) : ModeMatrix ι :=
  l'.eigenvectorsᵀ * magneticToElectric l * l.eigenvectors * diagonal fun i => ((omega l : ℂ) * l.eigenvalues i)⁻¹

theorem core_left (h : Reciprocal l l') : core l l' = (diagonal fun i => ((omega l' : ℂ) * l'.eigenvalues i)⁻¹) * (l'.eigenvectorsᵀ * magneticToElectric l * l.eigenvectors) := by
  unfold core
  rw [h.omega_eq]
  exact (coupling_diagonal h.coupled fun q => ((omega l : ℂ) * q)⁻¹).symm

theorem core_propagator (h : Reciprocal l l') (z : ℝ) : propagator l' z * core l l' = core l l' * propagator l z := by
  unfold propagator core
  rw [← Matrix.mul_assoc, coupling_diagonal h.coupled fun q => Complex.exp (Complex.I * q * z), Matrix.mul_assoc _ (diagonal _) (diagonal _),
    Matrix.mul_assoc _ (diagonal _) (diagonal _), diagonal_mul_diagonal, diagonal_mul_diagonal]
  congr 2
  funext i
  exact mul_comm _ _

theorem pairing_eq (l l' : LayerSolveResult ι) (d : ℝ) : pairing l l' d = core l l' * propagator l d := by
  unfold pairing core propagator
  rw [Matrix.mul_assoc _ (diagonal _) (diagonal _), diagonal_mul_diagonal]
  congr 2
  funext i
  rw [div_eq_mul_inv, mul_comm]

theorem pairing_isUnit (h : Reciprocal l l') (d : ℝ) : IsUnit (pairing l l' d).det := by
  obtain ⟨E, hs⟩ := h.solved
  have e1 := (electricModes_isUnit hs h.complete).2
  have hp : IsUnit (propagator l d).det := by
    rw [propagator, det_diagonal, isUnit_iff_ne_zero]
    exact Finset.prod_ne_zero_iff.2 fun i _ => Complex.exp_ne_zero _
  have : pairing l l' d = l'.eigenvectorsᵀ * electricModes l * propagator l d := by
    rw [pairing_eq]
    unfold core electricModes
    mat_module
  rw [this, det_mul, det_mul, det_transpose]
  exact (h.complete'.1.mul e1).mul hp

/-- The Lorentz form within a layer does not depend on the depth. -/
theorem lorentz_eq (h : Reciprocal l l') {d z : ℝ} {a b : Matrix (ι ⊕ ι) β ℂ} {a' b' : Matrix (ι ⊕ ι) γ ℂ} :
    lorentz (electricAt l d a b z) (magneticAt l d a b z) (electricAt l' d a' b' z) (magneticAt l' d a' b' z) =
      (2 : ℂ) • (a'ᵀ * pairing l l' d * b - b'ᵀ * pairing l l' d * a) := by
  set P := core l l' with hP
  have e1 : (electricModes l')ᵀ * l.eigenvectors = P := by
    rw [hP, h.core_left, electricModes, h.electric, transpose_mul, transpose_mul, transpose_transpose, diagonal_transpose]
    mat_module
  have e2 : l'.eigenvectorsᵀ * electricModes l = P := by
    rw [hP]
    unfold core electricModes
    mat_module
  have c1 : propagator l' z * P * propagator l (d - z) = P * propagator l d := by
    rw [h.core_propagator, Matrix.mul_assoc, propagator_add, add_sub_cancel]
  have c2 : propagator l' (d - z) * P * propagator l z = P * propagator l d := by
    rw [h.core_propagator, Matrix.mul_assoc, propagator_add, sub_add_cancel]
  rw [pairing_eq, ← hP]
  unfold lorentz electricAt magneticAt
  simp only [transpose_mul, transpose_sub, transpose_add, propagator_transpose]
  calc _ = (a'ᵀ * propagator l' z - b'ᵀ * propagator l' (d - z)) * ((electricModes l')ᵀ * l.eigenvectors) * (propagator l z * a + propagator l (d - z) * b) -
        (a'ᵀ * propagator l' z + b'ᵀ * propagator l' (d - z)) * (l'.eigenvectorsᵀ * electricModes l) * (propagator l z * a - propagator l (d - z) * b) := by mat_module
    _ = (2 : ℂ) • (a'ᵀ * (propagator l' z * P * propagator l (d - z)) * b - b'ᵀ * (propagator l' (d - z) * P * propagator l z) * a) := by
      rw [e1, e2]; mat_module
    _ = _ := by rw [c1, c2]

end Reciprocal

/-! ### Reciprocal layers from transposed matrices -/

/-- The matrices of the media of two layers are transposed, the wavevectors opposite. -/
structure TransposedMedium (l l' : LayerSolveResult ι) (E E' : ModeMatrix ι) : Prop where
  wavelength : l'.wavelength = l.wavelength
  wavevector : ∀ i, orderWavevector l' i = -orderWavevector l i
  zPermittivity : l'.zPermittivityMatrix = l.zPermittivityMatrixᵀ
  zPermeability : l'.zPermeabilityMatrix = l.zPermeabilityMatrixᵀ
  permeability : l'.transversePermeabilityMatrix = l.transversePermeabilityMatrixᵀ
  permittivity : E' = Eᵀ

namespace TransposedMedium

variable {l l' : LayerSolveResult ι} {E E' : ModeMatrix ι}

theorem electric (h : TransposedMedium l l' E E') : magneticToElectric l' = (magneticToElectric l)ᵀ := by
  have hω : omega l' = omega l := by unfold omega; rw [h.wavelength]
  have n1 : (diagonal fun i => ((orderWavevector l' i).1 : ℂ) : Matrix ι ι ℂ) = -diagonal fun i => ((orderWavevector l i).1 : ℂ) := by
    rw [diagonal_neg]; congr 1; funext i; simp [h.wavevector i]
  have n2 : (diagonal fun i => ((orderWavevector l' i).2 : ℂ) : Matrix ι ι ℂ) = -diagonal fun i => ((orderWavevector l i).2 : ℂ) := by
    rw [diagonal_neg]; congr 1; funext i; simp [h.wavevector i]
  unfold magneticToElectric
  simp only [n1, n2, h.zPermittivity, h.permeability, hω, ← transpose_nonsing_inv, transpose_sub, transpose_smul, fromBlocks_transpose, transpose_mul,
    transpose_neg, diagonal_transpose, Matrix.neg_mul, Matrix.mul_neg, neg_neg, Matrix.mul_assoc]

theorem divergence (h : TransposedMedium l l' E E') : divergenceMatrix l' = (divergenceMatrix l)ᵀ := by
  have n1 : (diagonal fun i => ((orderWavevector l' i).1 : ℂ) : Matrix ι ι ℂ) = -diagonal fun i => ((orderWavevector l i).1 : ℂ) := by
    rw [diagonal_neg]; congr 1; funext i; simp [h.wavevector i]
  have n2 : (diagonal fun i => ((orderWavevector l' i).2 : ℂ) : Matrix ι ι ℂ) = -diagonal fun i => ((orderWavevector l i).2 : ℂ) := by
    rw [diagonal_neg]; congr 1; funext i; simp [h.wavevector i]
  unfold divergenceMatrix
  simp only [n1, n2, h.zPermeability, ← transpose_nonsing_inv, fromBlocks_transpose, transpose_mul, diagonal_transpose, Matrix.neg_mul, Matrix.mul_neg, neg_neg,
    Matrix.mul_assoc]

/-- `Ω A = A'ᵀ Ω` for the mode operators `A`, `A'`. -/
theorem operator (h : TransposedMedium l l' E E') (hw : WellPosed l) :
    magneticToElectric l * modeOperator l E = (modeOperator l' E')ᵀ * magneticToElectric l := by
  have hω := omega_ne_zero hw
  have hω' : omega l' = omega l := by unfold omega; rw [h.wavelength]
  have p1 : ((omega l : ℂ) ^ 2 • E - divergenceMatrix l) * magneticToElectric l = (omega l : ℂ) ^ 2 • modeOperator l E := SolvedFor.product
  have p2 : ((omega l' : ℂ) ^ 2 • E' - divergenceMatrix l') * magneticToElectric l' = (omega l' : ℂ) ^ 2 • modeOperator l' E' := SolvedFor.product
  rw [hω', h.permittivity, h.divergence, h.electric] at p2
  have p3 := congrArg transpose p2
  rw [transpose_mul, transpose_transpose, transpose_sub, transpose_smul, transpose_transpose, transpose_transpose, transpose_smul] at p3
  have : (omega l : ℂ) ^ 2 • (magneticToElectric l * modeOperator l E) = (omega l : ℂ) ^ 2 • ((modeOperator l' E')ᵀ * magneticToElectric l) := by
    rw [← Matrix.mul_smul, ← p1, ← Matrix.smul_mul, h.permittivity, ← p3, Matrix.mul_assoc]
  exact smul_right_injective _ (pow_ne_zero 2 hω) this

theorem reciprocal (h : TransposedMedium l l' E E') (hs : SolvedFor l E) (hs' : SolvedFor l' E') (hf : ∀ i, IsForwardRoot (l.eigenvalues i ^ 2) (l.eigenvalues i))
    (hf' : ∀ i, IsForwardRoot (l'.eigenvalues i ^ 2) (l'.eigenvalues i)) (hm : CompleteModes l) (hm' : IsUnit l'.eigenvectors.det) : Reciprocal l l' := by
  have m1 : modeOperator l E * l.eigenvectors = l.eigenvectors * diagonal fun i => l.eigenvalues i ^ 2 := hs.modes
  have m2 : modeOperator l' E' * l'.eigenvectors = l'.eigenvectors * diagonal fun i => l'.eigenvalues i ^ 2 := hs'.modes
  have hop := h.operator hs.wellPosed
  have hΩ := (electricModes_isUnit hs hm).1
  have m3 : l'.eigenvectorsᵀ * (modeOperator l' E')ᵀ = (diagonal fun i => l'.eigenvalues i ^ 2) * l'.eigenvectorsᵀ := by
    have := congrArg transpose m2
    rwa [transpose_mul, transpose_mul, diagonal_transpose] at this
  refine ⟨h.wavelength, ⟨_, hs⟩, ⟨_, hs'⟩, hm, ⟨hm', ?_⟩, h.electric, ?_⟩
  · have d1 : (modeOperator l' E').det = (modeOperator l E).det := by
      have := congrArg det hop
      rw [det_mul, det_mul, det_transpose, mul_comm] at this
      exact (mul_right_cancel₀ hΩ.ne_zero this).symm
    have d2 : (modeOperator l E).det ≠ 0 := by
      have := congrArg det m1
      rw [det_mul, det_mul, det_diagonal, mul_comm] at this
      rw [mul_left_cancel₀ hm.1.ne_zero this]
      exact Finset.prod_ne_zero_iff.2 fun i _ => pow_ne_zero _ (hm.2 i)
    have d3 : (modeOperator l' E').det = ∏ i, l'.eigenvalues i ^ 2 := by
      have := congrArg det m2
      rw [det_mul, det_mul, det_diagonal, mul_comm] at this
      exact mul_left_cancel₀ hm'.ne_zero this
    rw [← d1, d3] at d2
    intro i hi
    exact Finset.prod_ne_zero_iff.1 d2 i (Finset.mem_univ i) (by rw [hi]; ring)
  · intro i j hij
    have key : (diagonal fun i => l'.eigenvalues i ^ 2) * (l'.eigenvectorsᵀ * magneticToElectric l * l.eigenvectors) =
        (l'.eigenvectorsᵀ * magneticToElectric l * l.eigenvectors) * diagonal fun i => l.eigenvalues i ^ 2 := by
      calc _ = ((diagonal fun i => l'.eigenvalues i ^ 2) * l'.eigenvectorsᵀ) * magneticToElectric l * l.eigenvectors := by mat_module
        _ = l'.eigenvectorsᵀ * ((modeOperator l' E')ᵀ * magneticToElectric l) * l.eigenvectors := by rw [← m3]; mat_module
        _ = l'.eigenvectorsᵀ * magneticToElectric l * (modeOperator l E * l.eigenvectors) := by rw [← hop]; mat_module
        _ = _ := by rw [m1]; mat_module
    have e := congrFun (congrFun key i) j
    rw [diagonal_mul, mul_diagonal] at e
    have e2 : l'.eigenvalues i ^ 2 = l.eigenvalues j ^ 2 := by
      apply mul_right_cancel₀ hij
      rw [e]; ring
    have f1 := hf' i
    rw [e2] at f1
    exact isForwardRoot_unique f1 (hf j)

end TransposedMedium

/-! ### The reversed calculation -/

variable {c : Setup ι}

theorem resolves_reverse {G : ι → ℤ × ℤ} (h : Resolves nx ny G) : Resolves nx ny fun i => -G i :=
  ⟨h.1, fun i => by simpa using h.2 i⟩

theorem convolution_reverse (G : ι → ℤ × ℤ) (x : Grid nx ny) : convolution (fun i => -G i) x = (convolution G x)ᵀ := by
  ext i j
  simp only [convolution, of_apply, transpose_apply]
  congr 1
  abel

theorem transverseWavevectors_reverse {w : ι → ℝ × ℝ} (h : transverseWavevectors c.inPlaneWavevector c.lattice c.expansion = .ok w) :
    transverseWavevectors c.reverse.inPlaneWavevector c.reverse.lattice c.reverse.expansion = .ok fun i => -w i := by
  unfold transverseWavevectors at h ⊢
  simp only [bind_eq_ok, ok_inj] at h ⊢
  obtain ⟨r, hr, rfl⟩ := h
  refine ⟨r, hr, ?_⟩
  funext i
  ext <;> simp [Setup.reverse] <;> ring

theorem orderWavevector_reverse {r r' : LayerSolveResult ι} (ha : cellArea r ≠ 0) (h1 : r.inPlaneWavevector = c.inPlaneWavevector)
    (h1' : r'.inPlaneWavevector = c.reverse.inPlaneWavevector) (h2 : r.primitiveLatticeVectors = c.lattice) (h2' : r'.primitiveLatticeVectors = c.reverse.lattice)
    (h3 : r.expansion = c.expansion) (h3' : r'.expansion = c.reverse.expansion) (i : ι) : orderWavevector r' i = -orderWavevector r i := by
  have hw := transverseWavevectors_layer.2 ⟨ha, rfl⟩
  rw [h1, h2, h3] at hw
  have hw' := transverseWavevectors_reverse hw
  rw [← h1', ← h2', ← h3'] at hw'
  exact (congrFun (transverseWavevectors_layer.1 hw').2 i).symm

/-- The Fourier matrices of two media are transposed. -/
structure FourierTransposed (m m' : FourierMatrices ι) : Prop where
  zPermittivity : m'.zPermittivity = m.zPermittivityᵀ
  zPermeability : m'.zPermeability = m.zPermeabilityᵀ
  transversePermeability : m'.transversePermeability = m.transversePermeabilityᵀ
  transversePermittivity : m'.transversePermittivity = m.transversePermittivityᵀ

variable {eig : Matrix (ι ⊕ ι) (ι ⊕ ι) ℂ → (ι ⊕ ι → ℂ) × Matrix (ι ⊕ ι) (ι ⊕ ι) ℂ}

theorem numerical_reciprocal (he : IsEig eig) {m m' : FourierMatrices ι} (hm : FourierTransposed m m') {r : LayerSolveResult ι}
    (hr : numericalEigensolve eig c.wavelength c.inPlaneWavevector c.lattice m c.expansion = .ok r) (hc : CompleteModes r) :
    ∃ r', numericalEigensolve eig c.reverse.wavelength c.reverse.inPlaneWavevector c.reverse.lattice m' c.reverse.expansion = .ok r' ∧ Reciprocal r r' := by
  obtain ⟨hs, f1, f2, f3, f4, -, -⟩ := numerical_solvedFor he hr
  obtain ⟨-, -, -, hf⟩ := numericalEigensolve_modes he hr
  obtain ⟨k, A, hk, hA, er⟩ := numericalEigensolve_ok_iff.1 hr
  obtain ⟨g1, g2, g3, -⟩ := (eigenproblemMatrix_ok_iff 0 0 hk).1 hA
  have hk' := transverseWavevectors_reverse hk
  have hA' := (eigenproblemMatrix_ok_iff (wavelength := c.reverse.wavelength) (m := m') 0 0 hk').2
    ⟨g1, by rw [hm.zPermittivity, det_transpose]; exact g2, by rw [hm.zPermeability, det_transpose]; exact g3, rfl⟩
  obtain ⟨r', hr'⟩ : ∃ r', numericalEigensolve eig c.reverse.wavelength c.reverse.inPlaneWavevector c.reverse.lattice m' c.reverse.expansion = .ok r' :=
    ⟨_, numericalEigensolve_ok_iff.2 ⟨_, _, hk', hA', rfl⟩⟩
  refine ⟨r', hr', ?_⟩
  obtain ⟨hs', f1', f2', f3', f4', -, -⟩ := numerical_solvedFor he hr'
  obtain ⟨-, -, -, hf'⟩ := numericalEigensolve_modes he hr'
  obtain ⟨_, _, -, -, er'⟩ := numericalEigensolve_ok_iff.1 hr'
  have med : TransposedMedium r r' m.transversePermittivity m'.transversePermittivity := by
    refine ⟨by rw [f1, f1']; rfl, orderWavevector_reverse (c := c) hs.wellPosed.2.1 (by rw [er]; rfl) (by rw [er']; rfl) (by rw [er]; rfl) (by rw [er']; rfl)
      (by rw [er]; rfl) (by rw [er']; rfl), ?_, ?_, ?_, hm.transversePermittivity⟩
    · rw [f3, f3']; exact hm.zPermittivity
    · rw [f4, f4']; exact hm.zPermeability
    · rw [f2, f2']; exact hm.transversePermeability
  refine med.reciprocal hs hs' hf hf' hc ?_
  have hu := (electricModes_isUnit hs hc).1.mul hc.1
  rw [← det_mul] at hu
  have m1 : modeOperator r m.transversePermittivity * r.eigenvectors = r.eigenvectors * diagonal fun i => r.eigenvalues i ^ 2 := hs.modes
  have hop := med.operator hs.wellPosed
  set X := magneticToElectric r * r.eigenvectors with hX
  have hXX : (modeOperator r' m'.transversePermittivity)ᵀ * X = X * diagonal fun i => r.eigenvalues i ^ 2 := by
    rw [hX, ← Matrix.mul_assoc, ← hop, Matrix.mul_assoc, m1, Matrix.mul_assoc]
  clear_value X
  refine numerical_eigenvectors_invertible he hr' (V := (Xᵀ)⁻¹) (w := fun i => r.eigenvalues i ^ 2) ?_ ?_
  · have : IsUnit Xᵀ.det := by rw [det_transpose]; exact hu
    exact isUnit_nonsing_inv_det _ this
  · change modeOperator r' m'.transversePermittivity * (Xᵀ)⁻¹ = _
    have hu' : IsUnit Xᵀ.det := by rw [det_transpose]; exact hu
    have e := congrArg transpose hXX
    rw [transpose_mul, transpose_transpose, transpose_mul, diagonal_transpose] at e
    calc modeOperator r' m'.transversePermittivity * (Xᵀ)⁻¹ = ((Xᵀ)⁻¹ * Xᵀ) * modeOperator r' m'.transversePermittivity * (Xᵀ)⁻¹ := by
          rw [nonsing_inv_mul _ hu', Matrix.one_mul]
      _ = (Xᵀ)⁻¹ * (Xᵀ * modeOperator r' m'.transversePermittivity) * (Xᵀ)⁻¹ := by mat_module
      _ = (Xᵀ)⁻¹ * (diagonal fun i => r.eigenvalues i ^ 2) * (Xᵀ * (Xᵀ)⁻¹) := by rw [e]; mat_module
      _ = _ := by rw [mul_nonsing_inv _ hu', Matrix.mul_one]

theorem uniform_reciprocal {ε : ℂ} {r : LayerSolveResult ι}
    (hr : eigensolveUniformIsotropic c.wavelength c.inPlaneWavevector c.lattice ε c.expansion = .ok r) (hc : CompleteModes r) :
    ∃ r', eigensolveUniformIsotropic c.reverse.wavelength c.reverse.inPlaneWavevector c.reverse.lattice ε c.reverse.expansion = .ok r' ∧ Reciprocal r r' := by
  have hs := uniform_solvedFor hr
  obtain ⟨-, -, hf⟩ := uniform_modeEquation hr
  obtain ⟨k, w, hk, hw, hε, er⟩ := eigensolveUniformIsotropic_ok_iff.1 hr
  have hk' := transverseWavevectors_reverse hk
  obtain ⟨r', hr'⟩ : ∃ r', eigensolveUniformIsotropic c.reverse.wavelength c.reverse.inPlaneWavevector c.reverse.lattice ε c.reverse.expansion = .ok r' :=
    ⟨_, eigensolveUniformIsotropic_ok_iff.2 ⟨_, _, hk', hw, hε, rfl⟩⟩
  refine ⟨r', hr', ?_⟩
  have hs' := uniform_solvedFor hr'
  obtain ⟨-, -, hf'⟩ := uniform_modeEquation hr'
  obtain ⟨_, _, -, -, -, er'⟩ := eigensolveUniformIsotropic_ok_iff.1 hr'
  have med : TransposedMedium r r' (ε • 1) (ε • 1) := by
    refine ⟨by rw [er, er']; rfl, orderWavevector_reverse (c := c) hs.wellPosed.2.1 (by rw [er]) (by rw [er']) (by rw [er]) (by rw [er'])
      (by rw [er]) (by rw [er']), ?_, ?_, ?_, ?_⟩ <;> (try rw [er, er']) <;> simp
  exact med.reciprocal hs hs' hf hf' hc (by rw [er']; simp)

/-! ### Fourier matrices -/

theorem scalar_blocks_transpose (A : Matrix ι ι ℂ) : fromBlocks Aᵀ 0 0 Aᵀ = (fromBlocks A 0 0 A)ᵀ := by rw [fromBlocks_transpose]; simp

theorem isotropic_fft_transposed {ε : Grid nx ny} {m : FourierMatrices ι} (h : fourierMatricesPatternedIsotropic c.lattice ε c.expansion .fft = .ok m) :
    ∃ m', fourierMatricesPatternedIsotropic c.reverse.lattice ε c.reverse.expansion .fft = .ok m' ∧ FourierTransposed m m' := by
  unfold fourierMatricesPatternedIsotropic transversePermittivityIsotropic transversePermittivityFft at h ⊢
  simp only [bind_eq_ok, fourierConvolutionMatrix_ok_iff, ok_inj, diag_const, one_smul, zero_smul, fromBlocks_one] at h ⊢
  obtain ⟨_, ⟨_, ⟨hR, rfl⟩, rfl⟩, η, hη, _, ⟨-, rfl⟩, _, ⟨-, rfl⟩, rfl⟩ := h
  have hR' : Resolves nx ny c.reverse.expansion := resolves_reverse hR
  refine ⟨_, ⟨_, ⟨_, ⟨hR', rfl⟩, rfl⟩, _, hη, _, ⟨hR', rfl⟩, _, ⟨hR', rfl⟩, rfl⟩, ?_, ?_, ?_, ?_⟩
  · exact convolution_reverse _ _
  · simp
  · simp
  · simp only [Setup.reverse, convolution_reverse]
    exact scalar_blocks_transpose _

theorem anisotropic_fft_transposed {ε μ : TensorComponents nx ny} {x x' : Grid nx ny} {m : FourierMatrices ι}
    (h : fourierMatricesPatternedAnisotropic c.lattice ε μ c.expansion .fft x = .ok m) :
    ∃ m', fourierMatricesPatternedAnisotropic c.reverse.lattice ε.transpose μ.transpose c.reverse.expansion .fft x' = .ok m' ∧ FourierTransposed m m' := by
  unfold fourierMatricesPatternedAnisotropic transverseMatricesAnisotropic transversePermittivityFftAnisotropic transversePermeabilityFftAnisotropic at h ⊢
  simp only [bind_eq_ok, fourierConvolutionMatrix_ok_iff, ok_inj] at h ⊢
  obtain ⟨_, ⟨_, ⟨_, ⟨hR, rfl⟩, _, ⟨-, rfl⟩, _, ⟨-, rfl⟩, _, ⟨-, rfl⟩, rfl⟩, _, ⟨_, ⟨-, rfl⟩, _, ⟨-, rfl⟩, _, ⟨-, rfl⟩, _, ⟨-, rfl⟩, rfl⟩, rfl⟩,
    η, hη, _, ⟨-, rfl⟩, _, ⟨-, rfl⟩, η', hη', _, ⟨-, rfl⟩, _, ⟨-, rfl⟩, rfl⟩ := h
  have hR' : Resolves nx ny c.reverse.expansion := resolves_reverse hR
  refine ⟨_, ⟨_, ⟨_, ⟨_, ⟨hR', rfl⟩, _, ⟨hR', rfl⟩, _, ⟨hR', rfl⟩, _, ⟨hR', rfl⟩, rfl⟩, _, ⟨_, ⟨hR', rfl⟩, _, ⟨hR', rfl⟩, _, ⟨hR', rfl⟩, _, ⟨hR', rfl⟩, rfl⟩, rfl⟩,
    η, hη, _, ⟨hR', rfl⟩, _, ⟨hR', rfl⟩, η', hη', _, ⟨hR', rfl⟩, _, ⟨hR', rfl⟩, rfl⟩, ?_, ?_, ?_, ?_⟩
  · exact convolution_reverse _ _
  · exact convolution_reverse _ _
  · simp only [Setup.reverse, convolution_reverse, fromBlocks_transpose, TensorComponents.transpose]
  · simp only [Setup.reverse, convolution_reverse, fromBlocks_transpose, TensorComponents.transpose]

theorem uniformAnisotropic_transposed {ε μ : TensorComponents 1 1} {m : FourierMatrices ι} (h : fourierMatricesUniformAnisotropic ε μ = .ok m) :
    ∃ m', fourierMatricesUniformAnisotropic ε.transpose μ.transpose = .ok m' ∧ FourierTransposed m m' := by
  unfold fourierMatricesUniformAnisotropic at h ⊢
  have e1 : ε.transpose.zz = ε.zz := rfl
  have e2 : μ.transpose.zz = μ.zz := rfl
  rw [e1, e2]
  split_ifs at h with h0
  rw [ok_inj] at h
  subst h
  simp only [if_neg h0, diag_const, ok_inj]
  refine ⟨_, rfl, ?_, ?_, ?_, ?_⟩ <;> simp [fromBlocks_transpose, TensorComponents.transpose]

theorem convolution_const_comm {G : ι → ℤ × ℤ} (hR : Resolves nx ny G) (hG : Function.Injective G) (a : ℂ) :
    convolution G (Matrix.of fun _ _ => a : Grid nx ny) = a • 1 := by
  have := C20_constant G hG hR a
  rw [fourierConvolutionMatrix_ok_iff] at this
  exact this.2.symm

/-- A constant tangent field. -/
theorem isotropic_vector_transposed (hG : Function.Injective c.expansion) {ε : Grid nx ny} {fn : Grid nx ny → (ι → ℤ × ℤ) → LatticeVectors → Res (Grid nx ny × Grid nx ny)}
    {tx ty : ℂ} (ht : fn ε c.expansion c.lattice = .ok (Matrix.of fun _ _ => tx, Matrix.of fun _ _ => ty))
    (ht' : fn ε c.reverse.expansion c.reverse.lattice = .ok (Matrix.of fun _ _ => star tx, Matrix.of fun _ _ => star ty)) {m : FourierMatrices ι}
    (h : fourierMatricesPatternedIsotropic c.lattice ε c.expansion (.vector fn) = .ok m) :
    ∃ m', fourierMatricesPatternedIsotropic c.reverse.lattice ε c.reverse.expansion (.vector fn) = .ok m' ∧ FourierTransposed m m' := by
  unfold fourierMatricesPatternedIsotropic transversePermittivityIsotropic transversePermittivityVector at h ⊢
  simp only [bind_eq_ok, fourierConvolutionMatrix_ok_iff, ok_inj, diag_const, one_smul, zero_smul, fromBlocks_one, inv_ok_iff, ht, ht'] at h ⊢
  obtain ⟨_, ⟨_, rfl, _, ⟨hR, rfl⟩, η, hη, _, ⟨-, rfl⟩, _, ⟨hu, rfl⟩, _, ⟨-, rfl⟩, _, ⟨-, rfl⟩, _, ⟨-, rfl⟩, _, ⟨-, rfl⟩, rfl⟩, η', hη', _, ⟨-, rfl⟩, _, ⟨-, rfl⟩, rfl⟩ := h
  have hR' : Resolves nx ny c.reverse.expansion := resolves_reverse hR
  have hG' : Function.Injective c.reverse.expansion := fun i j hij => hG (neg_injective hij)
  refine ⟨_, ⟨_, ⟨_, rfl, _, ⟨hR', rfl⟩, η, hη, _, ⟨hR', rfl⟩, _, ⟨?_, rfl⟩, _, ⟨hR', rfl⟩, _, ⟨hR', rfl⟩, _, ⟨hR', rfl⟩, _, ⟨hR', rfl⟩, rfl⟩,
    η', hη', _, ⟨hR', rfl⟩, _, ⟨hR', rfl⟩, rfl⟩, ?_, ?_, ?_, ?_⟩
  · simp only [Setup.reverse, convolution_reverse, det_transpose]; exact hu
  · exact convolution_reverse _ _
  · simp
  · simp
  · simp only [of_apply, convolution_const_comm hR hG, convolution_const_comm hR' hG']
    have d1 : tangentTerms (star tx) (star ty) = { yy := (tangentTerms tx ty).yy, yx := (tangentTerms tx ty).xy, xy := (tangentTerms tx ty).yx, xx := (tangentTerms tx ty).xx } := by
      simp [tangentTerms, mul_comm]
    rw [d1]
    simp only [Setup.reverse, convolution_reverse, ← transpose_nonsing_inv, fromBlocks_transpose, transpose_sub, transpose_mul, fromBlocks_multiply]
    simp

/-- Layers of the reciprocal calculation. -/
theorem layer_reciprocal (he : IsEig eig) (hG : Function.Injective c.expansion) {p : StackLayer ι} (hp : p.ConstantTangent c) {r : LayerSolveResult ι}
    (hr : p.solve eig c = .ok r) (hc : CompleteModes r) : ∃ r', p.transpose.solve eig c.reverse = .ok r' ∧ Reciprocal r r' := by
  obtain ⟨nx, ny, med, d⟩ := p
  by_cases hn : nx = 1 ∧ ny = 1
  · obtain ⟨rfl, rfl⟩ := hn
    cases med with
    | isotropic ε f =>
      simp only [StackLayer.solve, eigensolveIsotropicMedia, and_self, dite_true] at hr
      obtain ⟨r', hr', hl⟩ := uniform_reciprocal hr hc
      refine ⟨r', ?_, hl⟩
      change eigensolveIsotropicMedia eig c.reverse.wavelength c.reverse.inPlaneWavevector c.reverse.lattice ε c.reverse.expansion f = .ok r'
      unfold eigensolveIsotropicMedia
      rw [dif_pos ⟨rfl, rfl⟩]
      exact hr'
    | anisotropic ε μ f x =>
      simp only [StackLayer.solve, eigensolveGeneralAnisotropicMedia, and_self, dite_true, eigensolveUniformAnisotropic,
        bind_eq_ok] at hr
      obtain ⟨m, hm, hr⟩ := hr
      obtain ⟨m', hm', hmm⟩ := uniformAnisotropic_transposed hm
      obtain ⟨r', hr', hl⟩ := numerical_reciprocal he hmm hr hc
      refine ⟨r', ?_, hl⟩
      change eigensolveGeneralAnisotropicMedia eig c.reverse.wavelength c.reverse.inPlaneWavevector c.reverse.lattice ε.transpose μ.transpose c.reverse.expansion f x = .ok r'
      unfold eigensolveGeneralAnisotropicMedia eigensolveUniformAnisotropic
      rw [dif_pos ⟨rfl, rfl⟩]
      exact bind_eq_ok.2 ⟨m', hm', hr'⟩
  · cases med with
    | isotropic ε f =>
      simp only [StackLayer.solve, eigensolveIsotropicMedia, dif_neg hn, eigensolvePatternedIsotropic, bind_eq_ok] at hr
      obtain ⟨m, hm, hr⟩ := hr
      have : ∃ m', fourierMatricesPatternedIsotropic c.reverse.lattice ε c.reverse.expansion f = .ok m' ∧ FourierTransposed m m' := by
        rcases hp with hp | hp | hp
        · exact absurd hp hn
        · have : f = .fft := hp
          subst this
          exact isotropic_fft_transposed hm
        · obtain ⟨ε', fn, hf, tx, ty, ht, ht'⟩ := hp
          simp only [Medium.isotropic.injEq] at hf
          obtain ⟨h1, h2⟩ := hf
          rw [← h1] at ht ht'
          rw [h2] at hm ⊢
          exact isotropic_vector_transposed hG ht ht' hm
      obtain ⟨m', hm', hmm⟩ := this
      obtain ⟨r', hr', hl⟩ := numerical_reciprocal he hmm hr hc
      refine ⟨r', ?_, hl⟩
      change eigensolveIsotropicMedia eig c.reverse.wavelength c.reverse.inPlaneWavevector c.reverse.lattice ε c.reverse.expansion f = .ok r'
      unfold eigensolveIsotropicMedia eigensolvePatternedIsotropic
      rw [dif_neg hn]
      exact bind_eq_ok.2 ⟨m', hm', hr'⟩
    | anisotropic ε μ f x =>
      simp only [StackLayer.solve, eigensolveGeneralAnisotropicMedia, dif_neg hn, eigensolvePatternedAnisotropic, bind_eq_ok] at hr
      obtain ⟨m, hm, hr⟩ := hr
      rcases hp with hp | hp | hp
      · exact absurd hp hn
      · have : f = .fft := hp
        subst this
        obtain ⟨m', hm', hmm⟩ := anisotropic_fft_transposed hm
        obtain ⟨r', hr', hl⟩ := numerical_reciprocal he hmm hr hc
        refine ⟨r', ?_, hl⟩
        change eigensolveGeneralAnisotropicMedia eig c.reverse.wavelength c.reverse.inPlaneWavevector c.reverse.lattice ε.transpose μ.transpose c.reverse.expansion .fft x = .ok r'
        unfold eigensolveGeneralAnisotropicMedia eigensolvePatternedAnisotropic
        rw [dif_neg hn]
        exact bind_eq_ok.2 ⟨m', hm', hr'⟩
      · obtain ⟨ε', fn, hf, -⟩ := hp
        cases hf

/-! ### Stacks -/

/-- Corresponding layers of two stacks. -/
def ReciprocalPair (p p' : LayerSolveResult ι × ℝ) : Prop := Reciprocal p.1 p'.1 ∧ p'.2 = p.2

/-- The Lorentz form of two states of a layer. -/
noncomputable def stateLorentz (s : LayerState ι β) (t : LayerState ι γ) : Matrix γ β ℂ :=
  (2 : ℂ) • (t.aᵀ * pairing s.layer t.layer s.thickness * s.b - t.bᵀ * pairing s.layer t.layer s.thickness * s.a)

theorem stateLorentz_eq {s : LayerState ι β} {t : LayerState ι γ} (h : Reciprocal s.layer t.layer) (hd : t.thickness = s.thickness) {z : ℝ}
    {e m : Matrix (ι ⊕ ι) β ℂ} {e' m' : Matrix (ι ⊕ ι) γ ℂ} (hs : FieldsAt s z e m) (ht : FieldsAt t z e' m') : lorentz e m e' m' = stateLorentz s t := by
  obtain ⟨-, -, rfl, rfl⟩ := fieldsAt_eq.1 hs
  obtain ⟨-, -, rfl, rfl⟩ := fieldsAt_eq.1 ht
  rw [hd]
  exact h.lorentz_eq

theorem stateLorentz_const : ∀ (st : List (LayerState ι β)) (st' : List (LayerState ι γ)) (s : LayerState ι β) (t : LayerState ι γ),
    Consistent (s :: st) → Consistent (t :: st') → List.Forall₂ ReciprocalPair (geometry (s :: st)) (geometry (t :: st')) →
    List.Forall₂ (fun u v => stateLorentz u v = stateLorentz s t) (s :: st) (t :: st')
  | [], [], s, t, _, _, _ => .cons rfl .nil
  | [], _ :: _, s, t, _, _, h => by simp [geometry] at h
  | _ :: _, [], s, t, _, _, h => by simp [geometry] at h
  | u :: st, v :: st', s, t, hc, hc', h => by
      rw [Consistent, List.isChain_cons_cons] at hc hc'
      obtain ⟨⟨e, m, h1, h2⟩, hc⟩ := hc
      obtain ⟨⟨e', m', h1', h2'⟩, hc'⟩ := hc'
      simp only [geometry, List.map_cons, List.forall₂_cons] at h
      obtain ⟨⟨k1, d1⟩, ⟨k2, d2⟩, h⟩ := h
      simp only at d1 d2
      have e1 := stateLorentz_eq k1 d1 h1 (by rw [d1] at h1'; exact h1')
      have e2 := stateLorentz_eq k2 d2 h2 h2'
      have ih := stateLorentz_const st st' u v hc hc' (.cons ⟨k2, d2⟩ h)
      rw [← e2, e1] at ih
      exact .cons rfl ih

theorem stateLorentz_ends {st : List (LayerState ι β)} {st' : List (LayerState ι γ)} {first last : LayerState ι β} {first' last' : LayerState ι γ}
    (hc : Consistent st) (hc' : Consistent st') (h : List.Forall₂ ReciprocalPair (geometry st) (geometry st')) (hf : st.head? = some first)
    (hl : st.getLast? = some last) (hf' : st'.head? = some first') (hl' : st'.getLast? = some last') : stateLorentz first first' = stateLorentz last last' := by
  obtain ⟨rest, rfl⟩ : ∃ rest, st = first :: rest := by
    cases st with
    | nil => simp at hf
    | cons a b => simp at hf; exact ⟨b, by rw [hf]⟩
  obtain ⟨rest', rfl⟩ : ∃ rest, st' = first' :: rest := by
    cases st' with
    | nil => simp at hf'
    | cons a b => simp at hf'; exact ⟨b, by rw [hf']⟩
  have key := stateLorentz_const _ _ _ _ hc hc' h
  have : ∀ (l : List (LayerState ι β)) (l' : List (LayerState ι γ)), List.Forall₂ (fun u v => stateLorentz u v = stateLorentz first first') l l' →
      ∀ x ∈ l.getLast?, ∀ y ∈ l'.getLast?, stateLorentz x y = stateLorentz first first' := by
    intro l l' h
    induction h with
    | nil => simp
    | @cons a b as bs hab h ih =>
      cases h with
      | nil => simpa using hab
      | cons h1 h2 =>
        rw [List.getLast?_cons_cons, List.getLast?_cons_cons]
        exact ih
  exact (this _ _ key last hl last' hl').symm

/-- No resonances in the reciprocal stack. -/
theorem noResonance_reciprocal {layers layers' : List (LayerSolveResult ι × ℝ)} (h : List.Forall₂ ReciprocalPair layers layers') {S : ScatteringMatrix ι}
    (hS : IsSMatrix S layers) : NoResonance layers' := by
  intro st first last hg hc hf hl ha hb
  have hstart := hS.start
  have hfinish := hS.finish
  -- the pairing of the outgoing waves with arbitrary incoming ones vanishes
  have hzero : ∀ (a0 bN : Matrix (ι ⊕ ι) (ι ⊕ ι) ℂ), first.bᵀ * pairing S.startLayer first.layer S.startThickness * a0 +
      last.aᵀ * pairing S.endLayer last.layer S.endThickness * bN = 0 := by
    intro a0 bN
    obtain ⟨su, f, y, hgu, hcu, hfu, hyu, hfa, hyb⟩ := hS.complete a0 bN
    obtain ⟨f', hf', k1, k2⟩ := geometry_head hgu hstart
    obtain ⟨y', hy', k3, k4⟩ := geometry_getLast hgu hfinish
    rw [hfu] at hf'; simp only [Option.some.injEq] at hf'; subst hf'
    rw [hyu] at hy'; simp only [Option.some.injEq] at hy'; subst hy'
    have e := stateLorentz_ends hcu hc (by rw [hgu, hg]; exact h) hfu hyu hf hl
    unfold stateLorentz at e
    rw [ha, hb, k1, k2, k3, k4, hfa, hyb] at e
    have e2 := smul_right_injective _ (two_ne_zero (α := ℂ)) e
    simp only [transpose_zero, Matrix.zero_mul, zero_sub, sub_zero] at e2
    rw [← e2, add_neg_cancel]
  have hmem : ∀ {ls ls' : List (LayerSolveResult ι × ℝ)}, List.Forall₂ ReciprocalPair ls ls' → ∀ p' ∈ ls', ∃ p ∈ ls, ReciprocalPair p p' := by
    intro ls ls' h
    induction h with
    | nil => simp
    | cons a _ ih =>
      intro p' hp'
      rcases List.mem_cons.1 hp' with rfl | hp'
      · exact ⟨_, by simp, a⟩
      · obtain ⟨p, hp, hr⟩ := ih p' hp'
        exact ⟨p, by simp [hp], hr⟩
  have hall : ∀ t ∈ st, (∃ E, SolvedFor t.layer E) ∧ CompleteModes t.layer := by
    intro t ht
    have : (t.layer, t.thickness) ∈ layers' := by rw [← hg]; exact List.mem_map.2 ⟨t, ht, rfl⟩
    obtain ⟨p, -, hr, -⟩ := hmem h _ this
    exact ⟨hr.solved', hr.complete'⟩
  have hhead : Reciprocal S.startLayer first.layer := by
    rw [← hg] at h
    cases st with
    | nil => simp at hf
    | cons a b =>
      simp only [List.head?_cons, Option.some.injEq] at hf
      subst hf
      cases h with
      | cons k _ =>
        simp only [List.head?_cons, Option.some.injEq] at hstart
        subst hstart
        exact k.1
  have hb0 : first.b = 0 := by
    have e := hzero 1 0
    rw [Matrix.mul_one, Matrix.mul_zero, add_zero] at e
    have hu := hhead.pairing_isUnit S.startThickness
    have e2 : first.bᵀ = 0 := by
      rw [← Matrix.mul_one first.bᵀ, ← mul_nonsing_inv _ hu, ← Matrix.mul_assoc, e, Matrix.zero_mul]
    rw [← transpose_transpose first.b, e2, transpose_zero]
  obtain ⟨rest, rfl⟩ : ∃ rest, st = first :: rest := by
    cases st with
    | nil => simp at hf
    | cons a b => simp at hf; exact ⟨b, by rw [hf]⟩
  intro s hs
  have := zero_propagates () rest first hc hall (fun i => by rw [ha, hb0]; exact ⟨rfl, rfl⟩) s hs
  refine ⟨?_, ?_⟩ <;> ext i j
  · exact (this i).1
  · exact (this i).2

end Fmmax
