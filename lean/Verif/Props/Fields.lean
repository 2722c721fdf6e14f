import Verif.Proofs.Absorbing
import Verif.Proofs.Interior
import Verif.Proofs.StackLoop
import Verif.Props.Fmm
import Verif.Examples.Stack

/-! Property theorems C25, C39, C40, C41: fields in layers, propagation, interior amplitudes, power.

The specifications are `Maxwell`, `tangentialE`, `tangentialH` from `Verif/Spec/Maxwell.lean`; `FieldsAt`, `Consistent` from
`Verif/Spec/Stack.lean`; `geometry`, `Regular` from `Verif/Spec/SMatrix.lean`. -/

set_option linter.unusedSectionVars false

namespace Fmmax

open Spec Matrix

variable {nx ny : ℕ} {ι : Type} [Fintype ι] [DecidableEq ι] {β : Type}
variable {eig : Matrix (ι ⊕ ι) (ι ⊕ ι) ℂ → (ι ⊕ ι → ℂ) × Matrix (ι ⊕ ι) (ι ⊕ ι) ℂ}

/-! ### C25 -/

/-- What the library reports as the fields at depth `z` of a layer of thickness `d`, from forward amplitudes at the start and
backward amplitudes at the end: `fields_from_wave_amplitudes(*colocate_amplitudes(...))`. -/
noncomputable def reportedFields (l : LayerSolveResult ι) (d : ℝ) (a b : Matrix (ι ⊕ ι) β ℂ) (z : ℝ) :
    Res (Fields (Matrix ι β ℂ)) :=
  let ab := colocateAmplitudes a b (fun _ => z) l d
  fieldsFromWaveAmplitudes ab.1 ab.2 l

theorem reportedFields_eq_ok {l : LayerSolveResult ι} {d : ℝ} {a b : Matrix (ι ⊕ ι) β ℂ} {z : ℝ} {F : Fields (Matrix ι β ℂ)} :
    reportedFields l d a b z = .ok F ↔ WellPosed l ∧ (∀ i, l.eigenvalues i ≠ 0) ∧
      F = fieldsOf l (electricAt l d a b z) (magneticAt l d a b z) := by
  unfold reportedFields colocateAmplitudes
  simp only [propagateAmplitude_const]
  exact fieldsFromWaveAmplitudes_eq_ok

theorem fieldsOf_eq_maxwellFields {l : LayerSolveResult ι} (hε : l.inverseZPermittivityMatrix * l.zPermittivityMatrix = 1)
    (hμ : l.inverseZPermeabilityMatrix * l.zPermeabilityMatrix = 1) (hw : (omega l : ℂ) ≠ 0) (e h : Matrix (ι ⊕ ι) β ℂ) :
    fieldsOf l e h = maxwellFields l e h := by
  have h1 : l.inverseZPermittivityMatrix = l.zPermittivityMatrix⁻¹ := (Matrix.inv_eq_left_inv hε).symm
  have h2 : l.inverseZPermeabilityMatrix = l.zPermeabilityMatrix⁻¹ := (Matrix.inv_eq_left_inv hμ).symm
  unfold fieldsOf maxwellFields
  rw [h1, h2]
  have k1 : (Matrix.of fun i c => Complex.I * (orderWavevector l i).1 * h (.inr i) c -
      Complex.I * (orderWavevector l i).2 * h (.inl i) c : Matrix ι β ℂ) =
      Complex.I • (kxMatrix l * (Matrix.of fun i c => h (.inr i) c) - kyMatrix l * Matrix.of fun i c => h (.inl i) c) := by
    ext i c
    simp only [kxMatrix, kyMatrix, Matrix.of_apply, Matrix.smul_apply, Matrix.sub_apply, Matrix.diagonal_mul, smul_eq_mul]
    ring
  have k2 : (Matrix.of fun i c => Complex.I * (orderWavevector l i).1 * -e (.inl i) c -
      Complex.I * (orderWavevector l i).2 * e (.inr i) c : Matrix ι β ℂ) =
      (-Complex.I) • (kxMatrix l * -(Matrix.of fun i c => -e (.inl i) c) + kyMatrix l * Matrix.of fun i c => e (.inr i) c) := by
    ext i c
    simp only [kxMatrix, kyMatrix, Matrix.of_apply, Matrix.smul_apply, Matrix.add_apply, Matrix.neg_apply, Matrix.diagonal_mul,
      smul_eq_mul]
    ring
  rw [k1, k2]
  congr 1
  · ext i c
    simp only [Matrix.neg_mul, Matrix.mul_smul, Matrix.of_apply, Matrix.neg_apply, Matrix.smul_apply, smul_eq_mul]
    have := Complex.I_ne_zero
    field_simp
  · ext i c
    simp only [Matrix.mul_smul, Matrix.of_apply, Matrix.neg_apply, Matrix.smul_apply, smul_eq_mul]
    have := Complex.I_ne_zero
    field_simp

/-- The common part of the C25 theorems. -/
theorem layer_maxwell {l : LayerSolveResult ι} {E : ModeMatrix ι} (hs : SolvedFor l E) (hq : ∀ i, l.eigenvalues i ≠ 0) (d : ℝ)
    (a b : Matrix (ι ⊕ ι) β ℂ) :
    ∃ F F' : ℝ → Fields (Matrix ι β ℂ), (∀ z, reportedFields l d a b z = .ok (F z)) ∧
      Maxwell (orderWavevector l) (omega l) E l.transversePermeabilityMatrix l.zPermittivityMatrix l.zPermeabilityMatrix F' ∧
      (∀ z, tangentialE (F' z) = tangentialE (F z) ∧ tangentialH (F' z) = tangentialH (F z)) ∧
      (l.inverseZPermittivityMatrix * l.zPermittivityMatrix = 1 → l.inverseZPermeabilityMatrix * l.zPermeabilityMatrix = 1 →
        F' = F) := by
  refine ⟨fun z => fieldsOf l (electricAt l d a b z) (magneticAt l d a b z),
    fun z => maxwellFields l (electricAt l d a b z) (magneticAt l d a b z), ?_, ?_, ?_, ?_⟩
  · exact fun z => reportedFields_eq_ok.2 ⟨hs.wellPosed, hq, rfl⟩
  · exact maxwell_of_ode hs.wellPosed hs.zPermeability (transverseODE_modes hs hq d a b)
  · intro z
    rw [tangentialE_maxwellFields, tangentialH_maxwellFields, tangentialE_fieldsOf, tangentialH_fieldsOf]
    exact ⟨rfl, rfl⟩
  · intro h1 h2
    funext z
    exact (fieldsOf_eq_maxwellFields h1 h2 (omega_ne_zero hs.wellPosed) _ _).symm

theorem uniform_solvedFor {wavelength : ℝ} {inPlane : ℝ × ℝ} {l : LatticeVectors} {ε : ℂ} {G : ι → ℤ × ℤ}
    {r : LayerSolveResult ι} (h : eigensolveUniformIsotropic wavelength inPlane l ε G = .ok r) : SolvedFor r (ε • 1) := by
  obtain ⟨h1, h2, -⟩ := uniform_modeEquation h
  obtain ⟨k, w, -, -, -, hr⟩ := eigensolveUniformIsotropic_ok_iff.1 h
  exact ⟨h1, by rw [hr]; simp, h2⟩

/-- **C25** Uniform isotropic layers: the reported fields, all six components, satisfy the truncated Maxwell equations of a
medium with permittivity `ε` and unit permeability at every depth. -/
theorem C25_uniform {wavelength : ℝ} {inPlane : ℝ × ℝ} {l : LatticeVectors} {ε : ℂ} {G : ι → ℤ × ℤ}
    {r : LayerSolveResult ι} (h : eigensolveUniformIsotropic wavelength inPlane l ε G = .ok r)
    (hq : ∀ i, r.eigenvalues i ≠ 0) (d : ℝ) (a b : Matrix (ι ⊕ ι) β ℂ) :
    ∃ F : ℝ → Fields (Matrix ι β ℂ), (∀ z, reportedFields r d a b z = .ok (F z)) ∧
      Maxwell (orderWavevector r) (2 * Real.pi / wavelength) (ε • 1) 1 (ε • 1) 1 F := by
  obtain ⟨k, w, -, -, hε, hr⟩ := eigensolveUniformIsotropic_ok_iff.1 h
  obtain ⟨F, F', h1, h2, -, h4⟩ := layer_maxwell (uniform_solvedFor h) hq d a b
  have hF : F' = F := by
    refine h4 ?_ ?_
    · rw [hr]; simp [smul_smul, hε]
    · rw [hr]; simp
  subst hF
  refine ⟨F', h1, ?_⟩
  have e1 : r.transversePermeabilityMatrix = 1 := by rw [hr]
  have e2 : r.zPermittivityMatrix = ε • 1 := by rw [hr]
  have e3 : r.zPermeabilityMatrix = 1 := by rw [hr]
  have e4 : omega r = 2 * Real.pi / wavelength := by rw [omega, hr]
  rwa [e1, e2, e3, e4] at h2

theorem numerical_solvedFor (he : IsEig eig) {wavelength : ℝ} {inPlane : ℝ × ℝ} {l : LatticeVectors}
    {m : FourierMatrices ι} {G : ι → ℤ × ℤ} {r : LayerSolveResult ι}
    (h : numericalEigensolve eig wavelength inPlane l m G = .ok r) :
    SolvedFor r m.transversePermittivity ∧ r.wavelength = wavelength ∧ r.transversePermeabilityMatrix = m.transversePermeability ∧
      r.zPermittivityMatrix = m.zPermittivity ∧ r.zPermeabilityMatrix = m.zPermeability ∧
      r.inverseZPermittivityMatrix = m.inverseZPermittivity ∧ r.inverseZPermeabilityMatrix = m.inverseZPermeability := by
  obtain ⟨h1, h2, h3, -⟩ := numericalEigensolve_modes he h
  obtain ⟨k, A, -, -, hr⟩ := numericalEigensolve_ok_iff.1 h
  refine ⟨⟨h1, h2, h3⟩, ?_, ?_, ?_, ?_, ?_, ?_⟩ <;> rw [hr] <;> rfl

/-- **C25** Layers solved numerically from Fourier matrices `m` (patterned isotropic, uniform and patterned anisotropic layers
all end there): the reported tangential fields belong to a solution of the truncated Maxwell equations with these matrices,
with the z components determined by the z-permittivity and z-permeability matrices.  If the inverse z matrices are the
inverses of the z matrices, this solution is the reported field in all six components. -/
theorem C25_numerical (he : IsEig eig) {wavelength : ℝ} {inPlane : ℝ × ℝ} {l : LatticeVectors} {m : FourierMatrices ι}
    {G : ι → ℤ × ℤ} {r : LayerSolveResult ι} (h : numericalEigensolve eig wavelength inPlane l m G = .ok r)
    (hq : ∀ i, r.eigenvalues i ≠ 0) (d : ℝ) (a b : Matrix (ι ⊕ ι) β ℂ) :
    ∃ F F' : ℝ → Fields (Matrix ι β ℂ), (∀ z, reportedFields r d a b z = .ok (F z)) ∧
      Maxwell (orderWavevector r) (2 * Real.pi / wavelength) m.transversePermittivity m.transversePermeability m.zPermittivity
        m.zPermeability F' ∧
      (∀ z, tangentialE (F' z) = tangentialE (F z) ∧ tangentialH (F' z) = tangentialH (F z)) ∧
      (m.inverseZPermittivity * m.zPermittivity = 1 → m.inverseZPermeability * m.zPermeability = 1 → F' = F) := by
  obtain ⟨hs, e1, e2, e3, e4, e5, e6⟩ := numerical_solvedFor he h
  have hl := layer_maxwell hs hq d a b
  rw [e2, e3, e4, e5, e6] at hl
  have : omega r = 2 * Real.pi / wavelength := by rw [omega, e1]
  rwa [this] at hl

/-- The convolution matrices of a layer in the FFT formulation. -/
theorem fft_matrices_eq {l : LatticeVectors} {ε : Grid nx ny} {G : ι → ℤ × ℤ} {m : FourierMatrices ι}
    (hm : fourierMatricesPatternedIsotropic l ε G .fft = .ok m) :
    m.zPermittivity = (Matrix.of fun i j => fourierCoefficient ε (G i - G j)) ∧
      m.transversePermittivity = Matrix.fromBlocks (Matrix.of fun i j => fourierCoefficient ε (G i - G j)) 0 0
        (Matrix.of fun i j => fourierCoefficient ε (G i - G j)) ∧
      m.transversePermeability = 1 ∧ m.zPermeability = 1 ∧ m.inverseZPermeability = 1 := by
  by_cases hR : Resolves nx ny G
  · unfold fourierMatricesPatternedIsotropic transversePermittivityIsotropic transversePermittivityFft at hm
    simp only [fourierConvolutionMatrix_eq _ hR, bind_eq_ok, ok_inj, diag_const, one_smul, zero_smul, Matrix.fromBlocks_one] at hm
    obtain ⟨_, ⟨_, rfl, rfl⟩, _, -, _, -, _, rfl, rfl⟩ := hm
    exact ⟨rfl, rfl, rfl, rfl, rfl⟩
  · unfold fourierMatricesPatternedIsotropic transversePermittivityIsotropic transversePermittivityFft at hm
    simp only [fourierConvolutionMatrix_unresolved hR, bind, Except.bind] at hm
    cases hm

theorem fft_inverseZ_eq {l : LatticeVectors} {ε : Grid nx ny} {G : ι → ℤ × ℤ} {m : FourierMatrices ι}
    (hm : fourierMatricesPatternedIsotropic l ε G .fft = .ok m) :
    m.inverseZPermittivity = Matrix.of fun i j => fourierCoefficient (Matrix.of fun r s => 1 / ε r s) (G i - G j) := by
  by_cases hR : Resolves nx ny G
  · unfold fourierMatricesPatternedIsotropic transversePermittivityIsotropic transversePermittivityFft at hm
    simp only [fourierConvolutionMatrix_eq _ hR, bind_eq_ok, ok_inj, diag_const, one_smul, zero_smul, Matrix.fromBlocks_one] at hm
    obtain ⟨_, -, g, hg, _, rfl, _, -, rfl⟩ := hm
    unfold recipGrid at hg
    split_ifs at hg
    rw [ok_inj] at hg
    subst hg
    rfl
  · unfold fourierMatricesPatternedIsotropic transversePermittivityIsotropic transversePermittivityFft at hm
    simp only [fourierConvolutionMatrix_unresolved hR, bind, Except.bind] at hm
    cases hm

/-- The eigenvectors are independent if the operator of the eigenvalue equation is diagonalisable. -/
theorem numerical_eigenvectors_invertible (he : IsEig eig) {wavelength : ℝ} {inPlane : ℝ × ℝ} {l : LatticeVectors}
    {m : FourierMatrices ι} {G : ι → ℤ × ℤ} {r : LayerSolveResult ι}
    (h : numericalEigensolve eig wavelength inPlane l m G = .ok r) {V : ModeMatrix ι} {w : ι ⊕ ι → ℂ} (hV : IsUnit V.det)
    (hA : (m.transversePermittivity * magneticToElectric r - divergenceMatrix r * r.transversePermeabilityMatrix) * V =
      V * Matrix.diagonal w) : IsUnit r.eigenvectors.det := by
  obtain ⟨k, A, hk, hA', hr⟩ := numericalEigensolve_ok_iff.1 h
  obtain ⟨-, -, -, hA''⟩ := (eigenproblemMatrix_ok_iff r.eigenvalues r.eigenvectors hk).1 hA'
  have e : A = m.transversePermittivity * magneticToElectric r - divergenceMatrix r * r.transversePermeabilityMatrix := by
    rw [hA'', hr]
    rfl
  rw [← e] at hA
  have := he.invertible A V w hV hA
  rw [hr]
  exact this

/-- **C25** Patterned isotropic layers in the FFT formulation, with the matrices spelled out: the reported tangential fields
belong to a solution of the Maxwell equations in which `D = ε E` is truncated by the convolution rule. -/
theorem C25_patterned_fft (he : IsEig eig) {wavelength : ℝ} {inPlane : ℝ × ℝ} {l : LatticeVectors} {ε : Grid nx ny}
    {G : ι → ℤ × ℤ} {r : LayerSolveResult ι} (h : eigensolvePatternedIsotropic eig wavelength inPlane l ε G .fft = .ok r)
    (hq : ∀ i, r.eigenvalues i ≠ 0) (d : ℝ) (a b : Matrix (ι ⊕ ι) β ℂ) :
    let T : Matrix ι ι ℂ := Matrix.of fun i j => fourierCoefficient ε (G i - G j)
    ∃ F F' : ℝ → Fields (Matrix ι β ℂ), (∀ z, reportedFields r d a b z = .ok (F z)) ∧
      Maxwell (orderWavevector r) (2 * Real.pi / wavelength) (Matrix.fromBlocks T 0 0 T) 1 T 1 F' ∧
      (∀ z, tangentialE (F' z) = tangentialE (F z) ∧ tangentialH (F' z) = tangentialH (F z) ∧ (F' z).hz = (F z).hz) := by
  intro T
  unfold eigensolvePatternedIsotropic at h
  obtain ⟨m, hm, h⟩ := bind_eq_ok.1 h
  obtain ⟨e1, e2, e3, e4, e5⟩ := fft_matrices_eq hm
  obtain ⟨hs, f1, f2, f3, f4, -, f6⟩ := numerical_solvedFor he h
  have hw : omega r = 2 * Real.pi / wavelength := by rw [omega, f1]
  refine ⟨fun z => fieldsOf r (electricAt r d a b z) (magneticAt r d a b z),
    fun z => maxwellFields r (electricAt r d a b z) (magneticAt r d a b z), ?_, ?_, ?_⟩
  · exact fun z => reportedFields_eq_ok.2 ⟨hs.wellPosed, hq, rfl⟩
  · have := maxwell_of_ode hs.wellPosed hs.zPermeability (transverseODE_modes hs hq d a b)
    rwa [f2, f3, f4, e1, e2, e3, e4, hw] at this
  · intro z
    rw [tangentialE_maxwellFields, tangentialH_maxwellFields, tangentialE_fieldsOf, tangentialH_fieldsOf]
    refine ⟨rfl, rfl, ?_⟩
    -- only the permeability matters for `hz`
    have := congrArg Fields.hz (fieldsOf_eq_maxwellFields (l := { r with inverseZPermittivityMatrix := 1, zPermittivityMatrix := 1 })
      (by simp) (by simp [f4, f6, e4, e5]) (show (omega r : ℂ) ≠ 0 from omega_ne_zero hs.wellPosed) (electricAt r d a b z) (magneticAt r d a b z))
    exact this.symm

/-- The convolution matrix of a function on the cell: `(i, j)` entry is the Fourier coefficient of order `G i - G j`. -/
noncomputable def convolution (G : ι → ℤ × ℤ) (x : Grid nx ny) : Matrix ι ι ℂ := Matrix.of fun i j => fourierCoefficient x (G i - G j)

/-- The Fourier matrices of anisotropic layers in the FFT formulation.  The permittivity matrix acts on `[-Ey; Ex]`, so that
`-Dy = εyy (-Ey) - εyx Ex` and `Dx = -εxy (-Ey) + εxx Ex`. -/
theorem anisotropic_fft_matrices_eq {l : LatticeVectors} {ε μ : TensorComponents nx ny} {src : Grid nx ny} {G : ι → ℤ × ℤ}
    {m : FourierMatrices ι} (hm : fourierMatricesPatternedAnisotropic l ε μ G .fft src = .ok m) :
    m.transversePermittivity = Matrix.fromBlocks (convolution G ε.yy) (convolution G (-ε.yx)) (convolution G (-ε.xy))
        (convolution G ε.xx) ∧
      m.transversePermeability = Matrix.fromBlocks (convolution G μ.xx) (convolution G μ.xy) (convolution G μ.yx)
        (convolution G μ.yy) ∧
      m.zPermittivity = convolution G ε.zz ∧ m.zPermeability = convolution G μ.zz := by
  by_cases hR : Resolves nx ny G
  · unfold fourierMatricesPatternedAnisotropic transverseMatricesAnisotropic transversePermittivityFftAnisotropic
      transversePermeabilityFftAnisotropic at hm
    simp only [fourierConvolutionMatrix_eq _ hR, bind_eq_ok, ok_inj, exists_eq_left'] at hm
    obtain ⟨_, _, -, _, -, rfl⟩ := hm
    exact ⟨rfl, rfl, rfl, rfl⟩
  · unfold fourierMatricesPatternedAnisotropic transverseMatricesAnisotropic transversePermittivityFftAnisotropic at hm
    simp only [fourierConvolutionMatrix_unresolved hR, bind, Except.bind] at hm
    cases hm

/-- **C25** Patterned anisotropic magnetic layers in the FFT formulation, with the matrices spelled out. -/
theorem C25_anisotropic_fft (he : IsEig eig) {wavelength : ℝ} {inPlane : ℝ × ℝ} {l : LatticeVectors}
    {ε μ : TensorComponents nx ny} {src : Option (Grid nx ny)} {G : ι → ℤ × ℤ} {r : LayerSolveResult ι}
    (hn : ¬(nx = 1 ∧ ny = 1)) (h : eigensolveGeneralAnisotropicMedia eig wavelength inPlane l ε μ G .fft src = .ok r)
    (hq : ∀ i, r.eigenvalues i ≠ 0) (d : ℝ) (a b : Matrix (ι ⊕ ι) β ℂ) :
    ∃ F F' : ℝ → Fields (Matrix ι β ℂ), (∀ z, reportedFields r d a b z = .ok (F z)) ∧
      Maxwell (orderWavevector r) (2 * Real.pi / wavelength)
        (Matrix.fromBlocks (convolution G ε.yy) (convolution G (-ε.yx)) (convolution G (-ε.xy)) (convolution G ε.xx))
        (Matrix.fromBlocks (convolution G μ.xx) (convolution G μ.xy) (convolution G μ.yx) (convolution G μ.yy))
        (convolution G ε.zz) (convolution G μ.zz) F' ∧
      (∀ z, tangentialE (F' z) = tangentialE (F z) ∧ tangentialH (F' z) = tangentialH (F z)) := by
  unfold eigensolveGeneralAnisotropicMedia at h
  rw [dif_neg hn] at h
  unfold eigensolvePatternedAnisotropic at h
  obtain ⟨m, hm, h⟩ := bind_eq_ok.1 h
  obtain ⟨e1, e2, e3, e4⟩ := anisotropic_fft_matrices_eq hm
  obtain ⟨F, F', h1, h2, h3, -⟩ := C25_numerical he h hq d a b
  rw [e1, e2, e3, e4] at h2
  exact ⟨F, F', h1, h2, h3⟩

/-- The matrices of a uniform anisotropic medium. -/
noncomputable def tensorMatrices (ε μ : TensorComponents 1 1) : FourierMatrices ι where
  inverseZPermittivity := (1 / ε.zz 0 0) • 1
  zPermittivity := ε.zz 0 0 • 1
  transversePermittivity := Matrix.fromBlocks (ε.yy 0 0 • 1) (-ε.yx 0 0 • 1) (-ε.xy 0 0 • 1) (ε.xx 0 0 • 1)
  inverseZPermeability := (1 / μ.zz 0 0) • 1
  zPermeability := μ.zz 0 0 • 1
  transversePermeability := Matrix.fromBlocks (μ.xx 0 0 • 1) (μ.xy 0 0 • 1) (μ.yx 0 0 • 1) (μ.yy 0 0 • 1)

theorem uniformAnisotropic_matrices_eq {ε μ : TensorComponents 1 1} {m : FourierMatrices ι}
    (hm : fourierMatricesUniformAnisotropic ε μ = .ok m) : ε.zz 0 0 ≠ 0 ∧ μ.zz 0 0 ≠ 0 ∧ m = tensorMatrices ε μ := by
  unfold fourierMatricesUniformAnisotropic at hm
  by_cases h0 : ε.zz 0 0 = 0 ∨ μ.zz 0 0 = 0
  · rw [if_pos h0] at hm
    cases hm
  · rw [if_neg h0, ok_inj] at hm
    push Not at h0
    refine ⟨h0.1, h0.2, ?_⟩
    rw [← hm]
    simp only [diag_const, tensorMatrices]

/-- **C25** Uniform anisotropic magnetic layers: all six reported components satisfy the Maxwell equations with the given
tensors. -/
theorem C25_anisotropic_uniform (he : IsEig eig) {wavelength : ℝ} {inPlane : ℝ × ℝ} {l : LatticeVectors}
    {ε μ : TensorComponents 1 1} {f : Formulation 1 1 ι} {src : Option (Grid 1 1)} {G : ι → ℤ × ℤ} {r : LayerSolveResult ι}
    (h : eigensolveGeneralAnisotropicMedia eig wavelength inPlane l ε μ G f src = .ok r)
    (hq : ∀ i, r.eigenvalues i ≠ 0) (d : ℝ) (a b : Matrix (ι ⊕ ι) β ℂ) :
    ∃ F : ℝ → Fields (Matrix ι β ℂ), (∀ z, reportedFields r d a b z = .ok (F z)) ∧
      Maxwell (orderWavevector r) (2 * Real.pi / wavelength)
        (Matrix.fromBlocks (ε.yy 0 0 • 1) (-ε.yx 0 0 • 1) (-ε.xy 0 0 • 1) (ε.xx 0 0 • 1))
        (Matrix.fromBlocks (μ.xx 0 0 • 1) (μ.xy 0 0 • 1) (μ.yx 0 0 • 1) (μ.yy 0 0 • 1))
        (ε.zz 0 0 • 1) (μ.zz 0 0 • 1) F := by
  unfold eigensolveGeneralAnisotropicMedia at h
  rw [dif_pos ⟨rfl, rfl⟩] at h
  unfold eigensolveUniformAnisotropic at h
  obtain ⟨m, hm, h⟩ := bind_eq_ok.1 h
  obtain ⟨F, F', h1, h2, h3, h4⟩ := C25_numerical he h hq d a b
  obtain ⟨h5, h6, rfl⟩ := uniformAnisotropic_matrices_eq hm
  have := h4 (by simp [tensorMatrices, smul_smul, h5]) (by simp [tensorMatrices, smul_smul, h6])
  subst this
  exact ⟨F', h1, h2⟩

/-- **C25** Conversely the modes are complete: in a layer whose eigenvectors are independent and whose eigenvalues do not
vanish, every solution of the truncated Maxwell equations is given by exactly one pair of amplitudes. -/
theorem C25_modes_complete {l : LayerSolveResult ι} {E : ModeMatrix ι} (hs : SolvedFor l E) (hv : IsUnit l.eigenvectors.det)
    (hq : ∀ i, l.eigenvalues i ≠ 0) (d : ℝ) {F : ℝ → Fields (Matrix ι β ℂ)}
    (hF : Maxwell (orderWavevector l) (omega l) E l.transversePermeabilityMatrix l.zPermittivityMatrix l.zPermeabilityMatrix F) :
    ∃! ab : Matrix (ι ⊕ ι) β ℂ × Matrix (ι ⊕ ι) β ℂ, ∀ z, ∃ R, reportedFields l d ab.1 ab.2 z = .ok R ∧
      tangentialE R = tangentialE (F z) ∧ tangentialH R = tangentialH (F z) := by
  obtain ⟨ode, -, -⟩ := (maxwell_iff hs.wellPosed hs.zPermeability F).1 hF
  have key : ∀ ab : Matrix (ι ⊕ ι) β ℂ × Matrix (ι ⊕ ι) β ℂ, (∀ z, ∃ R, reportedFields l d ab.1 ab.2 z = .ok R ∧
      tangentialE R = tangentialE (F z) ∧ tangentialH R = tangentialH (F z)) ↔
      ∀ z, tangentialE (F z) = electricAt l d ab.1 ab.2 z ∧ tangentialH (F z) = magneticAt l d ab.1 ab.2 z := by
    intro ab
    refine forall_congr' fun z => ?_
    simp only [reportedFields_eq_ok]
    constructor
    · rintro ⟨R, ⟨-, -, rfl⟩, h1, h2⟩
      rw [tangentialE_fieldsOf] at h1
      rw [tangentialH_fieldsOf] at h2
      exact ⟨h1.symm, h2.symm⟩
    · rintro ⟨h1, h2⟩
      refine ⟨_, ⟨hs.wellPosed, hq, rfl⟩, ?_, ?_⟩
      · rw [tangentialE_fieldsOf, h1]
      · rw [tangentialH_fieldsOf, h2]
  simp only [key]
  exact modes_complete hs hv hq d ode

/-- Absorption keeps the eigenvalues of a uniform layer away from zero. -/
theorem uniform_eigenvalues_ne_zero {wavelength : ℝ} {inPlane : ℝ × ℝ} {l : LatticeVectors} {ε : ℂ} {G : ι → ℤ × ℤ}
    {r : LayerSolveResult ι} (h : eigensolveUniformIsotropic wavelength inPlane l ε G = .ok r) (hε : ε.im ≠ 0) (i : ι ⊕ ι) :
    r.eigenvalues i ≠ 0 := by
  obtain ⟨k, w, -, hw, -, hr⟩ := eigensolveUniformIsotropic_ok_iff.1 h
  obtain ⟨hl, rfl⟩ := angularFrequency_eq_ok.1 hw
  intro h0
  rw [hr] at h0
  have h1 := (selectEigenvaluesSign_forward (ε * ((2 * Real.pi / wavelength : ℝ) : ℂ) ^ 2 - ((k (i.elim id id)).1 : ℂ) ^ 2 -
    ((k (i.elim id id)).2 : ℂ) ^ 2)).1
  simp only at h0
  rw [h0] at h1
  have h2 := congrArg Complex.im h1
  have hpi := Real.pi_ne_zero
  simp only [← Complex.ofReal_pow, Complex.sub_im, Complex.im_mul_ofReal, Complex.ofReal_im, sub_zero] at h2
  have : ε.im * (2 * Real.pi / wavelength) ^ 2 ≠ 0 := by positivity
  exact this (by simpa using h2.symm)

example (a b : Matrix (Fin 4 ⊕ Fin 4) (Fin 2) ℂ) :
    ∃ r, eigensolveUniformIsotropic (3 / 2) (1, 2) obliqueLattice (2 + Complex.I) exampleExpansion = .ok r ∧
      ∃ F : ℝ → Fields (Matrix (Fin 4) (Fin 2) ℂ), (∀ z, reportedFields r 5 a b z = .ok (F z)) ∧
      Maxwell (orderWavevector r) (2 * Real.pi / (3 / 2)) ((2 + Complex.I : ℂ) • 1) 1 ((2 + Complex.I : ℂ) • 1) 1 F := by
  obtain ⟨r, hr⟩ := (C22_uniform_succeeds_iff (3 / 2) (1, 2) obliqueLattice (2 + Complex.I) exampleExpansion).2
    ⟨by norm_num, by intro h; have := congrArg Complex.im h; simp at this, by norm_num [obliqueLattice]⟩
  exact ⟨r, hr, C25_uniform hr (uniform_eigenvalues_ne_zero hr (by simp)) 5 a b⟩

theorem numerical_columns_ne_zero (he : IsEig eig) {wavelength : ℝ} {inPlane : ℝ × ℝ} {l : LatticeVectors}
    {m : FourierMatrices ι} {G : ι → ℤ × ℤ} {r : LayerSolveResult ι}
    (h : numericalEigensolve eig wavelength inPlane l m G = .ok r) (j : ι ⊕ ι) : ∃ i, r.eigenvectors i j ≠ 0 := by
  obtain ⟨k, A, -, -, hr⟩ := numericalEigensolve_ok_iff.1 h
  obtain ⟨i, hi⟩ := he.ne_zero A j
  exact ⟨i, by rw [hr]; exact hi⟩

/-- **C25** In absorbing patterned layers no eigenvalue vanishes, so that nothing has to be assumed about the eigenvalues: for
every pattern whose permittivity has positive imaginary part, the reported fields exist at every depth and belong to a
solution of the Maxwell equations. -/
theorem C25_absorbing_pattern (he : IsEig eig) {wavelength : ℝ} (hl : 0 < wavelength) {inPlane : ℝ × ℝ} {l : LatticeVectors}
    {ε : Grid nx ny} (hε : ∀ r s, 0 < (ε r s).im) {G : ι → ℤ × ℤ} (hG : Function.Injective G) (hR : Resolves nx ny G)
    {r : LayerSolveResult ι} (h : eigensolvePatternedIsotropic eig wavelength inPlane l ε G .fft = .ok r) (d : ℝ)
    (a b : Matrix (ι ⊕ ι) β ℂ) :
    let T : Matrix ι ι ℂ := Matrix.of fun i j => fourierCoefficient ε (G i - G j)
    (∀ i, r.eigenvalues i ≠ 0) ∧
    ∃ F F' : ℝ → Fields (Matrix ι β ℂ), (∀ z, reportedFields r d a b z = .ok (F z)) ∧
      Maxwell (orderWavevector r) (2 * Real.pi / wavelength) (Matrix.fromBlocks T 0 0 T) 1 T 1 F' ∧
      (∀ z, tangentialE (F' z) = tangentialE (F z) ∧ tangentialH (F' z) = tangentialH (F z) ∧ (F' z).hz = (F z).hz) := by
  intro T
  have hq : ∀ i, r.eigenvalues i ≠ 0 := by
    have h' := h
    unfold eigensolvePatternedIsotropic at h'
    obtain ⟨m, hm, h'⟩ := bind_eq_ok.1 h'
    obtain ⟨e1, e2, e3, e4, e5⟩ := fft_matrices_eq hm
    obtain ⟨hs, f1, f2, f3, f4, -, -⟩ := numerical_solvedFor he h'
    have hT := convolution_absorbing hR hG hε
    have hone : Passive (1 : Matrix (ι ⊕ ι) (ι ⊕ ι) ℂ) := passive_of_hermitian Matrix.isHermitian_one
    have hone' : Passive (1 : Matrix ι ι ℂ) := passive_of_hermitian Matrix.isHermitian_one
    intro i
    refine absorbing_eigenvalue_ne_zero hs (by rwa [f1]) ?_ ?_ ?_ ?_ ?_ (numerical_columns_ne_zero he h' i)
    · rw [e2]; exact absorbing_fromBlocks hT hT
    · rw [f3, e1]; exact hT
    · rw [f2, e3]; exact hone
    · rw [f2, e3]; simp
    · rw [f4, e4]; exact hone'
  exact ⟨hq, C25_patterned_fft he h hq d a b⟩

/-- A pattern for the examples: rows of the grid have permittivity `1 + i`, `2 + i`, `3 + i`. -/
def examplePattern : Grid 3 5 := Matrix.of fun r _ => (1 + (r : ℕ) + Complex.I : ℂ)

example (a b : Matrix (Fin 4 ⊕ Fin 4) (Fin 2) ℂ) :
    ∃ (eig : _) (r : LayerSolveResult (Fin 4)), IsEig eig ∧
      eigensolvePatternedIsotropic eig 1 (1, 2) obliqueLattice examplePattern exampleExpansion .fft = .ok r ∧
      ∃ F : ℝ → Fields (Matrix (Fin 4) (Fin 2) ℂ), ∀ z, reportedFields r 5 a b z = .ok (F z) := by
  obtain ⟨eig, he⟩ := exists_isEig (Fin 4 ⊕ Fin 4)
  obtain ⟨r, hr⟩ := patterned_eigensolve_succeeds eig (wavelength := 1) (1, 2) (l := obliqueLattice) (ε := examplePattern)
    exampleExpansion_injective exampleExpansion_resolved one_ne_zero (by norm_num [obliqueLattice])
    (by intro r s; simp [examplePattern]; positivity)
  obtain ⟨-, F, -, hF, -⟩ := C25_absorbing_pattern he one_pos (by intro r s; simp [examplePattern]) exampleExpansion_injective
    exampleExpansion_resolved hr 5 a b
  exact ⟨eig, r, he, hr, F, hF⟩

/-! The z component of the reported electric field of a patterned layer is *not* the one required by the z-permittivity matrix:
fields.py uses the convolution matrix of `1/ε`, which differs from the inverse of the convolution matrix of `ε`. -/

/-- Permittivity `1` on one half of the cell and `3` on the other. -/
def stripes : Grid 2 1 := Matrix.of fun r _ => if r = 0 then 1 else 3

/-- **C25 (finding)** A layer of stripes with permittivity 1 and 3, one Fourier order, oblique incidence: whatever eigensolver is
used, the reported `Ez` of some excitation is different from the `Ez` which satisfies the Maxwell equation
`i kx Hy - i ky Hx = -i ω εz Ez` with the z-permittivity matrix stored in the same layer. -/
theorem C25_finding_reported_ez {eig : Matrix (Fin 1 ⊕ Fin 1) (Fin 1 ⊕ Fin 1) ℂ → (Fin 1 ⊕ Fin 1 → ℂ) ×
    Matrix (Fin 1 ⊕ Fin 1) (Fin 1 ⊕ Fin 1) ℂ} (he : IsEig eig) :
    ∃ r, eigensolvePatternedIsotropic eig (2 * Real.pi) (1, 0) unitLattice stripes (fun _ : Fin 1 => (0, 0)) .fft = .ok r ∧
      (∀ i, r.eigenvalues i ≠ 0) ∧ ∃ (a : Matrix (Fin 1 ⊕ Fin 1) Unit ℂ) (F : Fields (Matrix (Fin 1) Unit ℂ)),
        reportedFields r 1 a 0 0 = .ok F ∧
        Complex.I * (orderWavevector r 0).1 * F.hy 0 () - Complex.I * (orderWavevector r 0).2 * F.hx 0 () ≠
          -(Complex.I * omega r * (r.zPermittivityMatrix * F.ez) 0 ()) := by
  obtain ⟨r, hr⟩ := patterned_eigensolve_succeeds eig (wavelength := 2 * Real.pi) (1, 0) (l := unitLattice) (ε := stripes)
    (G := fun _ : Fin 1 => ((0, 0) : ℤ × ℤ)) (fun _ _ _ => Subsingleton.elim _ _) ⟨⟨0⟩, by simp⟩
    (by have := Real.pi_ne_zero; positivity) (by norm_num [unitLattice])
    (by intro r s; fin_cases r <;> simp [stripes])
  have h := hr
  unfold eigensolvePatternedIsotropic at h
  obtain ⟨m, hm, h⟩ := bind_eq_ok.1 h
  obtain ⟨e1, e2, e3, e4, e5⟩ := fft_matrices_eq hm
  have e6 := fft_inverseZ_eq hm
  have c1 : (Matrix.of fun i j => fourierCoefficient stripes ((fun _ : Fin 1 => ((0, 0) : ℤ × ℤ)) i - (fun _ : Fin 1 => (0, 0)) j)) =
      (2 : ℂ) • (1 : Matrix (Fin 1) (Fin 1) ℂ) := by
    ext i j
    fin_cases i; fin_cases j
    simp [fourierCoefficient, planeWave, stripes, Fin.sum_univ_two]
    norm_num
  have c2 : (Matrix.of fun i j => fourierCoefficient (Matrix.of fun r s => 1 / stripes r s)
      ((fun _ : Fin 1 => ((0, 0) : ℤ × ℤ)) i - (fun _ : Fin 1 => (0, 0)) j)) = (2 / 3 : ℂ) • (1 : Matrix (Fin 1) (Fin 1) ℂ) := by
    ext i j
    fin_cases i; fin_cases j
    simp [fourierCoefficient, planeWave, stripes, Fin.sum_univ_two]
    norm_num
  rw [c1] at e1 e2
  rw [c2] at e6
  obtain ⟨hs, f1, f2, f3, f4, f5, -⟩ := numerical_solvedFor he h
  have hk : ∀ i, orderWavevector r i = (1, 0) := by
    intro i
    obtain ⟨k, A, -, -, rfl⟩ := numericalEigensolve_ok_iff.1 h
    simp [orderWavevector, solvedLayer]
  have hω : omega r = 1 := by
    rw [omega, f1]
    exact div_self (by have := Real.pi_ne_zero; positivity)
  have hA : m.transversePermittivity * magneticToElectric r - divergenceMatrix r * r.transversePermeabilityMatrix = 1 := by
    unfold magneticToElectric divergenceMatrix
    simp only [hk, hω, f2, f3, f4, e1, e2, e3, e4]
    have hinv : ((2 : ℂ) • (1 : Matrix (Fin 1) (Fin 1) ℂ))⁻¹ = (1 / 2 : ℂ) • 1 :=
      Matrix.inv_eq_right_inv (by simp [smul_smul])
    rw [hinv]
    ext i j
    rcases i with i | i <;> rcases j with j | j <;> fin_cases i <;> fin_cases j <;>
      simp [Matrix.mul_apply, Fintype.sum_sum_type] <;> norm_num
  have hv : IsUnit r.eigenvectors.det := by
    refine numerical_eigenvectors_invertible he h (V := 1) (w := 1) (by simp) ?_
    rw [hA]
    simp
  have hq : ∀ i, r.eigenvalues i ≠ 0 := by
    intro j hj
    have hmode := hs.modes
    unfold ModeEquation at hmode
    rw [hA, Matrix.one_mul] at hmode
    obtain ⟨i, hi⟩ := numerical_columns_ne_zero he h j
    have := congrFun (congrFun hmode i) j
    rw [Matrix.mul_diagonal, hj] at this
    simp at this
    exact hi this
  let x : Matrix (Fin 1 ⊕ Fin 1) Unit ℂ := Matrix.of fun i _ => if i = Sum.inr 0 then 1 else 0
  refine ⟨r, hr, hq, r.eigenvectors⁻¹ * x, fieldsOf r (electricAt r 1 (r.eigenvectors⁻¹ * x) 0 0)
    (magneticAt r 1 (r.eigenvectors⁻¹ * x) 0 0), reportedFields_eq_ok.2 ⟨hs.wellPosed, hq, rfl⟩, ?_⟩
  have hmag : magneticAt r 1 (r.eigenvectors⁻¹ * x) 0 0 = x := by
    have hp : propagator r 0 = 1 := by
      unfold propagator
      simp
    unfold magneticAt
    rw [hp, Matrix.one_mul, Matrix.mul_zero, add_zero, ← Matrix.mul_assoc, Matrix.mul_nonsing_inv _ hv, Matrix.one_mul]
  rw [hmag]
  simp only [fieldsOf, hk, hω, f3, f5, e1, e6]
  simp [Matrix.mul_apply, x]
  intro hx
  have := congrArg Complex.im hx
  norm_num at this

/-! ### C39 -/

/-- **C39** Propagation by zero is the identity, propagations compose by adding distances (per column). -/
theorem C39_group_action (l : LayerSolveResult ι) (a : Matrix (ι ⊕ ι) β ℂ) (d₁ d₂ : β → ℝ) :
    propagateAmplitude a 0 l = a ∧
      propagateAmplitude (propagateAmplitude a d₁ l) d₂ l = propagateAmplitude a (d₁ + d₂) l := by
  constructor
  · ext i c; simp [propagateAmplitude]
  · ext i c
    simp only [propagateAmplitude, Matrix.of_apply, Pi.add_apply]
    rw [mul_assoc, ← Complex.exp_add]
    congr 2
    push_cast
    ring

/-- **C39** Consequently propagation can be undone. -/
theorem C39_invertible (l : LayerSolveResult ι) (a : Matrix (ι ⊕ ι) β ℂ) (d : β → ℝ) :
    propagateAmplitude (propagateAmplitude a d l) (-d) l = a := by
  rw [(C39_group_action l a d (-d)).2, add_neg_cancel, (C39_group_action l a d d).1]

/-- **C39** A mode with non-negative imaginary part of its eigenvalue is never amplified over a non-negative distance, and
strictly attenuated over a positive distance if the imaginary part is positive (and the amplitude is not zero). -/
theorem C39_no_amplification (l : LayerSolveResult ι) (a : Matrix (ι ⊕ ι) β ℂ) (d : β → ℝ) (i : ι ⊕ ι) (c : β)
    (hq : 0 ≤ (l.eigenvalues i).im) (hd : 0 ≤ d c) :
    ‖propagateAmplitude a d l i c‖ ≤ ‖a i c‖ ∧
      (0 < (l.eigenvalues i).im → 0 < d c → a i c ≠ 0 → ‖propagateAmplitude a d l i c‖ < ‖a i c‖) := by
  have e : ‖propagateAmplitude a d l i c‖ = ‖a i c‖ * Real.exp (-((l.eigenvalues i).im * d c)) := by
    simp only [propagateAmplitude, Matrix.of_apply, norm_mul, Complex.norm_exp]
    congr 2
    simp
  rw [e]
  constructor
  · refine mul_le_of_le_one_right (norm_nonneg _) (Real.exp_le_one_iff.2 ?_)
    have := mul_nonneg hq hd
    linarith
  · intro h1 h2 h3
    refine mul_lt_of_lt_one_right (norm_pos_iff.2 h3) (Real.exp_lt_one_iff.2 ?_)
    have := mul_pos h1 h2
    linarith

/-- **C39** Every layer returned by the eigensolve entry points has eigenvalues as required there. -/
theorem C39_eigensolve_layers_do_not_amplify (he : IsEig eig) {wavelength : ℝ} {inPlane : ℝ × ℝ} {l : LatticeVectors}
    {ε : Grid nx ny} {G : ι → ℤ × ℤ} {f : Formulation nx ny ι} {r : LayerSolveResult ι}
    (h : eigensolveIsotropicMedia eig wavelength inPlane l ε G f = .ok r) (a : Matrix (ι ⊕ ι) β ℂ) (d : β → ℝ)
    (hd : ∀ c, 0 ≤ d c) (i : ι ⊕ ι) (c : β) : ‖propagateAmplitude a d r i c‖ ≤ ‖a i c‖ :=
  (C39_no_amplification r a d i c ((C21_isotropic he h).2 i).1 (hd c)).1

/-- **C39** Colocated amplitudes: at the start of the layer the forward amplitudes are the given ones, at the end the backward
amplitudes are the given ones. -/
theorem C39_colocate_ends (l : LayerSolveResult ι) (a b : Matrix (ι ⊕ ι) β ℂ) (d : ℝ) :
    (colocateAmplitudes a b (fun _ => 0) l d).1 = a ∧ (colocateAmplitudes a b (fun _ => d) l d).2 = b := by
  constructor
  · exact (C39_group_action l a 0 0).1
  · have : (colocateAmplitudes a b (fun _ => d) l d).2 = propagateAmplitude b 0 l := by
      simp only [colocateAmplitudes, sub_self]
      rfl
    rw [this]
    exact (C39_group_action l b 0 0).1

example (a : Matrix (Fin 1 ⊕ Fin 1) (Fin 2) ℂ) (i) (c) :
    ‖propagateAmplitude a (fun _ => 3) (Examples.exLayer (1 + Complex.I)) i c‖ ≤ ‖a i c‖ :=
  (C39_no_amplification _ a _ i c (by simp [Examples.exLayer]) (by norm_num)).1

/-! ### C40 -/

theorem stackAmplitudesInterior_eq {a0 bN : Matrix (ι ⊕ ι) β ℂ} : ∀ {ps : List (ScatteringMatrix ι × ScatteringMatrix ι)}
    {xs : List (Matrix (ι ⊕ ι) β ℂ × Matrix (ι ⊕ ι) β ℂ)}, ps.length = xs.length →
    (∀ i (h : i < ps.length) (h' : i < xs.length), amplitudesInterior ps[i].1.toBlocks ps[i].2.toBlocks a0 bN = .ok xs[i]) →
    stackAmplitudesInterior a0 bN ps = .ok xs
  | [], [], _, _ => rfl
  | [], _ :: _, h, _ => by simp at h
  | _ :: _, [], h, _ => by simp at h
  | p :: ps, x :: xs, hl, h => by
    have h0 := h 0 (by simp) (by simp)
    have ih := stackAmplitudesInterior_eq (ps := ps) (xs := xs) (by simpa using hl)
      (fun i hi hi' => h (i + 1) (by simpa using hi) (by simpa using hi'))
    obtain ⟨p1, p2⟩ := p
    unfold stackAmplitudesInterior
    simp only [List.getElem_cons_zero] at h0
    rw [h0, ih]
    rfl

/-- **C40** For the matrices returned by `stack_s_matrices_interior`, `stack_amplitudes_interior` returns exactly the amplitudes
of the physically consistent state: any amplitudes with continuous tangential fields at every interface are recovered from
their incoming parts. -/
theorem C40_recovers_consistent_amplitudes {lam : ℝ} {layers : List (LayerSolveResult ι)} {ds : List ℝ}
    {ps : List (ScatteringMatrix ι × ScatteringMatrix ι)} (hr : Regular lam (layers.zip ds))
    (h : stackSMatricesInterior layers ds = .ok ps) {st : List (LayerState ι β)} (hg : geometry st = layers.zip ds)
    (hc : Consistent st) {first last : LayerState ι β} (hf : st.head? = some first) (hl : st.getLast? = some last) :
    stackAmplitudesInterior first.a last.b ps = .ok (st.map fun s => (s.a, s.b)) := by
  obtain ⟨h1, h2⟩ := interior_spec hr h
  have hlen : ps.length = st.length := by rw [h1, ← hg]; simp [geometry]
  have hpos : 0 < st.length := by
    cases st with
    | nil => simp at hf
    | cons s st => simp
  -- the scattering matrix of the whole stack
  have hS : IsSMatrix ps[ps.length - 1].1 (geometry st) := by
    have := (h2 (ps.length - 1) (by omega)).1
    rwa [← hg, List.take_of_length_le (by simp [geometry]; omega)] at this
  refine stackAmplitudesInterior_eq (by simpa using hlen) fun i hi hi' => ?_
  have hi2 : i < st.length := by omega
  obtain ⟨hP, hQ⟩ := h2 i hi
  have hsplit : st = st.take i ++ st[i] :: st.drop (i + 1) := by
    rw [← List.drop_eq_getElem_cons hi2, List.take_append_drop]
  have e1 : geometry (st.take i ++ [st[i]]) = (layers.zip ds).take (i + 1) := by
    rw [List.take_append_getElem, ← hg]
    simp [geometry]
  have e2 : geometry (st[i] :: st.drop (i + 1)) = (layers.zip ds).drop i := by
    rw [← List.drop_eq_getElem_cons hi2, ← hg]
    simp [geometry]
  have := amplitudesInterior_eq (P := ps[i].1) (Q := ps[i].2) (S := ps[ps.length - 1].1) (sa := st.take i) (sb := st.drop (i + 1))
    (t := st[i]) (first := first) (last := last) (by rwa [e1]) (by rwa [e2]) (by rwa [← hsplit]) (by rwa [← hsplit])
    (by rwa [← hsplit]) (by rwa [← hsplit])
  rw [this]
  simp

/-- **C40** For any incoming amplitudes the call succeeds, and the returned amplitudes reproduce the incoming ones and make the
tangential fields continuous at every interface. -/
theorem C40_interior_amplitudes {lam : ℝ} {layers : List (LayerSolveResult ι)} {ds : List ℝ}
    {ps : List (ScatteringMatrix ι × ScatteringMatrix ι)} (hr : Regular lam (layers.zip ds))
    (h : stackSMatricesInterior layers ds = .ok ps) (a0 bN : Matrix (ι ⊕ ι) β ℂ) :
    ∃ (st : List (LayerState ι β)) (first last : LayerState ι β), geometry st = layers.zip ds ∧ Consistent st ∧
      st.head? = some first ∧ st.getLast? = some last ∧ first.a = a0 ∧ last.b = bN ∧
      stackAmplitudesInterior a0 bN ps = .ok (st.map fun s => (s.a, s.b)) := by
  obtain ⟨h1, h2⟩ := interior_spec hr h
  have hpos : 0 < ps.length := by
    unfold stackSMatricesInterior at h
    obtain ⟨before, hb, -⟩ := bind_eq_ok.1 h
    obtain ⟨-, p, rest, hz⟩ := stackSMatrices_length hb
    rw [h1, hz]
    simp
  have hS : IsSMatrix ps[ps.length - 1].1 (layers.zip ds) := by
    have := (h2 (ps.length - 1) (by omega)).1
    rwa [List.take_of_length_le (by omega)] at this
  obtain ⟨st, first, last, hg, hc, hf, hl, rfl, rfl⟩ := hS.complete a0 bN
  exact ⟨st, first, last, hg, hc, hf, hl, rfl, rfl, C40_recovers_consistent_amplitudes hr h hg hc hf hl⟩

/-- **C40** The outgoing amplitudes found this way are those given by the scattering matrix of the stack. -/
theorem C40_agrees_with_s_matrix {lam : ℝ} {layers : List (LayerSolveResult ι)} {ds : List ℝ}
    {ps : List (ScatteringMatrix ι × ScatteringMatrix ι)} {S : ScatteringMatrix ι} (hr : Regular lam (layers.zip ds))
    (h : stackSMatricesInterior layers ds = .ok ps) (hS : stackSMatrix layers ds = .ok S) (a0 bN : Matrix (ι ⊕ ι) β ℂ) :
    ∃ xs x y, stackAmplitudesInterior a0 bN ps = .ok xs ∧ xs.head? = some x ∧ xs.getLast? = some y ∧
      x = (a0, S.s21 * a0 + S.s22 * bN) ∧ y = (S.s11 * a0 + S.s12 * bN, bN) := by
  obtain ⟨st, first, last, hg, hc, hf, hl, rfl, rfl, hx⟩ := C40_interior_amplitudes hr h a0 bN
  obtain ⟨e1, e2⟩ := (stackSMatrix_spec hr hS).sound st first last hg hc hf hl
  refine ⟨_, (first.a, first.b), (last.a, last.b), hx, ?_, ?_, ?_, ?_⟩
  · rw [List.head?_map, hf]; rfl
  · rw [List.getLast?_map, hl]; rfl
  · rw [e2]
  · rw [e1]

/-- The interior matrices of the example stack (a slab in air) exist. -/
theorem exInterior : ∃ ps, stackSMatricesInterior [Examples.exLayer 1, Examples.exLayer 2, Examples.exLayer 1]
    [Real.pi, Real.pi, Real.pi] = .ok ps := by
  obtain ⟨ss, hss, -⟩ := stackSMatrix_eq_ok Examples.exStack3
  refine ⟨ss.zip (ss.reverse.map ScatteringMatrix.reverse), ?_⟩
  unfold stackSMatricesInterior
  exact bind_eq_ok.2 ⟨ss, hss, bind_eq_ok.2 ⟨ss, hss, rfl⟩⟩

theorem exInterior_regular : Regular (2 * Real.pi) ([Examples.exLayer 1, Examples.exLayer 2, Examples.exLayer 1].zip
    [Real.pi, Real.pi, Real.pi]) := Examples.exRegular [1, 2, 1] (by simp) [Real.pi, Real.pi, Real.pi]

example (a0 bN : Matrix (Fin 1 ⊕ Fin 1) (Fin 2) ℂ) : ∃ ps xs,
    stackSMatricesInterior [Examples.exLayer 1, Examples.exLayer 2, Examples.exLayer 1] [Real.pi, Real.pi, Real.pi] = .ok ps ∧
    stackAmplitudesInterior a0 bN ps = .ok xs ∧ xs.length = 3 := by
  obtain ⟨ps, h⟩ := exInterior
  obtain ⟨st, -, -, hg, -, -, -, -, -, hx⟩ := C40_interior_amplitudes exInterior_regular h a0 bN
  refine ⟨ps, _, h, hx, ?_⟩
  have := congrArg List.length hg
  simpa [geometry] using this

/-! ### C41 -/

theorem re_star_mul_comm (x y : ℂ) : (star x * y).re = (star y * x).re := by
  simp [Complex.mul_re]; ring

/-- **C41** `amplitude_poynting_flux`: forward plus backward flux of every order is `Re(conj(E) H)` of the total fields. -/
theorem C41_amplitude_flux {l : LayerSolveResult ι} {a b : Matrix (ι ⊕ ι) β ℂ} {sf sb : Matrix (ι ⊕ ι) β ℝ}
    (h : amplitudePoyntingFlux a b l = .ok (sf, sb)) :
    ∃ F, fieldsFromWaveAmplitudes a b l = .ok F ∧
      ∀ i c, sf i c + sb i c = (star (tangentialE F i c) * tangentialH F i c).re := by
  unfold amplitudePoyntingFlux at h
  simp only [bind_eq_ok, poyntingFluxAMatrix_eq_ok, ok_inj, Prod.mk.injEq] at h
  obtain ⟨A, ⟨hw, hq, rfl⟩, rfl, rfl⟩ := h
  refine ⟨_, fieldsFromWaveAmplitudes_eq_ok.2 ⟨hw, hq, rfl⟩, fun i c => ?_⟩
  rw [tangentialE_fieldsOf, tangentialH_fieldsOf, Matrix.mul_sub, Matrix.mul_add]
  simp only [Matrix.of_apply, Matrix.sub_apply, Matrix.add_apply]
  generalize (electricModes l * a) i c = ae
  generalize (electricModes l * b) i c = be
  generalize (l.eigenvectors * a) i c = ah
  generalize (l.eigenvectors * b) i c = bh
  simp [Complex.mul_re]
  ring

/-- **C41** The split is between the forward and the backward amplitudes: with only forward amplitudes the backward flux of
every order vanishes and the forward flux is that of the fields, and vice versa; and exchanging the amplitudes exchanges and
negates the fluxes. -/
theorem C41_amplitude_split {l : LayerSolveResult ι} {a b : Matrix (ι ⊕ ι) β ℂ} {sf sb : Matrix (ι ⊕ ι) β ℝ}
    (h : amplitudePoyntingFlux a b l = .ok (sf, sb)) :
    (b = 0 → sb = 0) ∧ (a = 0 → sf = 0) ∧ amplitudePoyntingFlux b a l = .ok (-sb, -sf) := by
  unfold amplitudePoyntingFlux at h ⊢
  simp only [bind_eq_ok, poyntingFluxAMatrix_eq_ok, ok_inj, Prod.mk.injEq] at h ⊢
  obtain ⟨A, hA, rfl, rfl⟩ := h
  refine ⟨?_, ?_, A, hA, ?_, ?_⟩
  · rintro rfl
    ext i c
    simp
  · rintro rfl
    ext i c
    simp
  · ext i c
    simp [Complex.mul_re]
    ring
  · ext i c
    simp [Complex.mul_re]
    ring

open Classical in
theorem maskRows_add (p : ι ⊕ ι → Prop) (x : Matrix (ι ⊕ ι) β ℂ) : maskRows p x + maskRows (fun i => ¬p i) x = x := by
  ext i c
  simp only [maskRows, Matrix.add_apply, Matrix.of_apply]
  by_cases hp : p i <;> simp [hp]

/-- The flux is linear in the subset of the amplitudes, and the flux of the full set is that of the total fields. -/
theorem subset_flux (A phi : ModeMatrix ι) (a b a₁ a₂ b₁ b₂ : Matrix (ι ⊕ ι) β ℂ) (ha : a₁ + a₂ = a) (hb : b₁ + b₂ = b) (i c) :
    (poyntingFluxSubset A phi a b a₁ b₁ i c).re + (poyntingFluxSubset A phi a b a₂ b₂ i c).re =
      (star ((A * (a - b)) i c) * (phi * (a + b)) i c).re := by
  have h1 : phi * (a + b) = phi * (a₁ + b₁) + phi * (a₂ + b₂) := by
    rw [← Matrix.mul_add, ← ha, ← hb]
    congr 1
    abel
  have h2 : A * (a - b) = A * (a₁ - b₁) + A * (a₂ - b₂) := by
    rw [← Matrix.mul_add, ← ha, ← hb]
    congr 1
    abel
  simp only [poyntingFluxSubset, Matrix.of_apply]
  have g1 := congrFun (congrFun h1 i) c
  have g2 := congrFun (congrFun h2 i) c
  rw [Matrix.add_apply] at g1 g2
  rw [g1, g2]
  generalize (phi * (a₁ + b₁)) i c = h'
  generalize (phi * (a₂ + b₂)) i c = h''
  generalize (A * (a₁ - b₁)) i c = e'
  generalize (A * (a₂ - b₂)) i c = e''
  simp [Complex.mul_re]
  ring

/-- **C41** The directional split is consistent in the same way. -/
theorem C41_directional_flux {l : LayerSolveResult ι} {a b : Matrix (ι ⊕ ι) β ℂ} {sf sb : Matrix (ι ⊕ ι) β ℝ}
    (h : directionalPoyntingFlux a b l = .ok (sf, sb)) :
    ∃ F, fieldsFromWaveAmplitudes a b l = .ok F ∧
      ∀ i c, sf i c + sb i c = (star (tangentialE F i c) * tangentialH F i c).re := by
  unfold directionalPoyntingFlux at h
  simp only [bind_eq_ok, poyntingFluxAMatrix_eq_ok, ok_inj, Prod.mk.injEq] at h
  obtain ⟨f, -, A, ⟨hw, hq, rfl⟩, rfl, rfl⟩ := h
  refine ⟨_, fieldsFromWaveAmplitudes_eq_ok.2 ⟨hw, hq, rfl⟩, fun i c => ?_⟩
  rw [tangentialE_fieldsOf, tangentialH_fieldsOf]
  simp only [Matrix.of_apply]
  exact subset_flux _ _ _ _ _ _ _ _ (maskRows_add _ _) ((add_comm _ _).trans (maskRows_add _ _)) i c

/-- **C41** The split follows the direction of the flux of the modes, not the sign of the eigenvalue: a forward amplitude of a
mode with positive flux and a backward amplitude of a mode with non-positive flux contribute no backward flux, and vice
versa. -/
theorem C41_directional_pure {l : LayerSolveResult ι} {a b : Matrix (ι ⊕ ι) β ℂ} {sf sb : Matrix (ι ⊕ ι) β ℝ} {f : ι ⊕ ι → ℝ}
    (h : directionalPoyntingFlux a b l = .ok (sf, sb)) (hf : eigenmodePoyntingFlux l = .ok f) :
    ((∀ i c, (f i ≤ 0 → a i c = 0) ∧ (0 < f i → b i c = 0)) → sb = 0) ∧
    ((∀ i c, (0 < f i → a i c = 0) ∧ (f i ≤ 0 → b i c = 0)) → sf = 0) := by
  unfold directionalPoyntingFlux at h
  simp only [hf, bind_eq_ok, poyntingFluxAMatrix_eq_ok, ok_inj, Prod.mk.injEq, exists_eq_left'] at h
  obtain ⟨A, -, rfl, rfl⟩ := h
  constructor
  · intro h0
    have z1 : maskRows (fun i => ¬0 < f i) a = 0 := by
      ext i c
      simp only [maskRows, Matrix.of_apply, Matrix.zero_apply]
      split
      · exact (h0 i c).1 (not_lt.1 ‹_›)
      · rfl
    have z2 : maskRows (fun i => 0 < f i) b = 0 := by
      ext i c
      simp only [maskRows, Matrix.of_apply, Matrix.zero_apply]
      split
      · exact (h0 i c).2 ‹_›
      · rfl
    ext i c
    simp only [z1, z2]
    simp [poyntingFluxSubset]
  · intro h0
    have z1 : maskRows (fun i => 0 < f i) a = 0 := by
      ext i c
      simp only [maskRows, Matrix.of_apply, Matrix.zero_apply]
      split
      · exact (h0 i c).1 ‹_›
      · rfl
    have z2 : maskRows (fun i => ¬0 < f i) b = 0 := by
      ext i c
      simp only [maskRows, Matrix.of_apply, Matrix.zero_apply]
      split
      · exact (h0 i c).2 (not_lt.1 ‹_›)
      · rfl
    ext i c
    simp only [z1, z2]
    simp [poyntingFluxSubset]

/-- **C41** `eigenmode_poynting_flux` of mode `j` is the total forward flux of the one-hot amplitude `j`, whose backward flux is
zero. -/
theorem C41_eigenmode_flux {l : LayerSolveResult ι} {f : ι ⊕ ι → ℝ} (h : eigenmodePoyntingFlux l = .ok f) (j : ι ⊕ ι) :
    ∃ sf sb, amplitudePoyntingFlux (Matrix.of fun i (_ : Unit) => if i = j then 1 else 0) 0 l = .ok (sf, sb) ∧
      f j = ∑ i, sf i () ∧ sb = 0 := by
  unfold eigenmodePoyntingFlux at h
  simp only [bind_eq_ok, poyntingFluxAMatrix_eq_ok, ok_inj] at h
  obtain ⟨A, hA, rfl⟩ := h
  unfold amplitudePoyntingFlux
  simp only [poyntingFluxAMatrix_eq_ok.2 hA, bind, Except.bind]
  refine ⟨_, _, rfl, ?_, ?_⟩
  · refine Finset.sum_congr rfl fun i _ => ?_
    simp [Matrix.mul_apply]
  · ext i c
    simp

/-- **C41** All three functions succeed exactly when the layer is well posed and no eigenvalue vanishes. -/
theorem C41_succeeds_iff (l : LayerSolveResult ι) (a b : Matrix (ι ⊕ ι) β ℂ) :
    ((∃ s, amplitudePoyntingFlux a b l = .ok s) ↔ WellPosed l ∧ ∀ i, l.eigenvalues i ≠ 0) ∧
    ((∃ s, directionalPoyntingFlux a b l = .ok s) ↔ WellPosed l ∧ ∀ i, l.eigenvalues i ≠ 0) ∧
    ((∃ s, eigenmodePoyntingFlux l = .ok s) ↔ WellPosed l ∧ ∀ i, l.eigenvalues i ≠ 0) := by
  unfold directionalPoyntingFlux amplitudePoyntingFlux eigenmodePoyntingFlux
  simp only [bind_eq_ok, poyntingFluxAMatrix_eq_ok, ok_inj]
  refine ⟨?_, ?_, ?_⟩
  · constructor
    · rintro ⟨_, _, ⟨h1, h2, -⟩, -⟩; exact ⟨h1, h2⟩
    · rintro ⟨h1, h2⟩; exact ⟨_, _, ⟨h1, h2, rfl⟩, rfl⟩
  · constructor
    · rintro ⟨_, _, -, _, ⟨h1, h2, -⟩, -⟩; exact ⟨h1, h2⟩
    · rintro ⟨h1, h2⟩; exact ⟨_, _, ⟨_, ⟨h1, h2, rfl⟩, rfl⟩, _, ⟨h1, h2, rfl⟩, rfl⟩
  · constructor
    · rintro ⟨_, _, ⟨h1, h2, -⟩, -⟩; exact ⟨h1, h2⟩
    · rintro ⟨h1, h2⟩; exact ⟨_, _, ⟨h1, h2, rfl⟩, rfl⟩

example (a b : Matrix (Fin 1 ⊕ Fin 1) (Fin 2) ℂ) : ∃ s, amplitudePoyntingFlux a b (Examples.exLayer (2 + Complex.I)) = .ok s :=
  (C41_succeeds_iff _ a b).1.2 ⟨Examples.exLayer_wellPosed (by intro h; have := congrArg Complex.im h; simp at this),
    fun _ h => by have := congrArg Complex.im h; simp [Examples.exLayer] at this⟩

end Fmmax
