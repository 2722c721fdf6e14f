import Verif.Proofs.Symmetry

/-! Layers in other coordinates: from the sampled patterns to the scattering matrix. -/

set_option linter.unusedSectionVars false

namespace Fmmax

open Matrix Spec

variable {ι : Type} [Fintype ι] [DecidableEq ι] {nx ny mx my : ℕ}

/-- A change of coordinates: lengths are divided by `scale`, directions are transformed by `rotation` (which may be a reflection),
order `i` of the new expansion is order `order i` of the old one, with an additional phase factor. -/
structure Coordinates (ι : Type) where
  scale : ℝ
  scale_pos : 0 < scale
  rotation : Matrix (Fin 2) (Fin 2) ℝ
  orthogonal : rotationᵀ * rotation = 1
  order : Equiv.Perm ι
  phase : ι → ℂ
  phase_norm : ∀ i, star (phase i) * phase i = 1

namespace Coordinates

variable (C : Coordinates ι)

/-- The transformation of Fourier coefficients of a scalar. -/
def Q : Matrix ι ι ℂ := Matrix.of fun i j => if C.order i = j then C.phase i else 0

/-- The transformation of Fourier coefficients of a vector. -/
def R : ModeMatrix ι := vectorTransform C.rotation C.Q

theorem Q_isUnit : IsUnit C.Q.det := by
  refine isUnit_det_of_left_inverse (B := C.Qᴴ) ?_
  ext i j
  simp only [Q, Matrix.mul_apply, conjTranspose_apply, of_apply]
  rw [Finset.sum_eq_single (C.order.symm i)]
  · by_cases h : i = j
    · subst h; simpa using C.phase_norm _
    · simp [h]
  · intro k _ hk
    have : C.order k ≠ i := fun h => hk (by rw [← h, Equiv.symm_apply_apply])
    simp [this]
  · simp

theorem R_isUnit : IsUnit C.R.det := (vectorTransform_inv C.orthogonal C.Q_isUnit).1

theorem Q_mul (A : Matrix ι ι ℂ) (i j : ι) : (C.Q * A) i j = C.phase i * A (C.order i) j := by
  simp [Q, Matrix.mul_apply]

theorem mul_Q (A : Matrix ι ι ℂ) (i j : ι) : (A * C.Q) i (C.order j) = A i j * C.phase j := by
  rw [Matrix.mul_apply, Finset.sum_eq_single j]
  · simp [Q]
  · intro k _ hk
    simp [Q, hk]
  · simp

/-- Matrices whose entries correspond are intertwined. -/
theorem intertwine {A B : Matrix ι ι ℂ} (h : ∀ i j, B i j = C.phase i * star (C.phase j) * A (C.order i) (C.order j)) : B * C.Q = C.Q * A := by
  ext i j
  obtain ⟨j, rfl⟩ := C.order.surjective j
  rw [C.mul_Q, C.Q_mul, h]
  linear_combination C.phase i * A (C.order i) (C.order j) * C.phase_norm j

theorem diagonal_intertwine (f : ι → ℂ) : diagonal (fun i => f (C.order i)) * C.Q = C.Q * diagonal f := by
  apply C.intertwine
  intro i j
  by_cases h : i = j
  · subst h
    rw [diagonal_apply_eq, diagonal_apply_eq]
    linear_combination - f (C.order i) * C.phase_norm i
  · rw [diagonal_apply_ne _ h, diagonal_apply_ne _ (fun e => h (C.order.injective e)), mul_zero]

end Coordinates

/-- The circumstances of two calculations correspond. -/
structure SetupMap (C : Coordinates ι) (c c' : Setup ι) : Prop where
  wavelength : c.wavelength = C.scale * c'.wavelength
  wavevectors : ∀ w, transverseWavevectors c.inPlaneWavevector c.lattice c.expansion = .ok w →
    transverseWavevectors c'.inPlaneWavevector c'.lattice c'.expansion = .ok fun i =>
      (C.scale * (C.rotation 0 0 * (w (C.order i)).1 + C.rotation 0 1 * (w (C.order i)).2),
        C.scale * (C.rotation 1 0 * (w (C.order i)).1 + C.rotation 1 1 * (w (C.order i)).2))

/-- The Fourier matrices of two media correspond. -/
structure FourierMap (C : Coordinates ι) (m m' : FourierMatrices ι) : Prop where
  zPermittivity : m'.zPermittivity * C.Q = C.Q * m.zPermittivity
  zPermeability : m'.zPermeability * C.Q = C.Q * m.zPermeability
  transversePermeability : m'.transversePermeability * C.R = C.R * m.transversePermeability
  transversePermittivity : m'.transversePermittivity * C.R = C.R * m.transversePermittivity

theorem diagonal_combination (C : Coordinates ι) (s a b : ℝ) (k : ι → ℝ × ℝ) :
    diagonal (fun i => ((s * (a * (k (C.order i)).1 + b * (k (C.order i)).2) : ℝ) : ℂ)) * C.Q = (s : ℂ) • (C.Q * ((a : ℂ) • diagonal (fun i => ((k i).1 : ℂ)) +
      (b : ℂ) • diagonal (fun i => ((k i).2 : ℂ)))) := by
  rw [C.diagonal_intertwine fun i => ((s * (a * (k i).1 + b * (k i).2) : ℝ) : ℂ), ← Matrix.mul_smul]
  congr 1
  rw [← diagonal_smul, ← diagonal_smul, diagonal_add, ← diagonal_smul]
  congr 1
  funext i
  simp

theorem SetupMap.medium {C : Coordinates ι} {c c' : Setup ι} (h : SetupMap C c c') {r r' : LayerSolveResult ι} {E E' : ModeMatrix ι}
    (h1 : r.wavelength = c.wavelength) (h1' : r'.wavelength = c'.wavelength) (h2 : cellArea r ≠ 0)
    (h3 : r.inPlaneWavevector = c.inPlaneWavevector) (h3' : r'.inPlaneWavevector = c'.inPlaneWavevector)
    (h4 : r.primitiveLatticeVectors = c.lattice) (h4' : r'.primitiveLatticeVectors = c'.lattice)
    (h5 : r.expansion = c.expansion) (h5' : r'.expansion = c'.expansion)
    (zPermittivity : r'.zPermittivityMatrix * C.Q = C.Q * r.zPermittivityMatrix)
    (zPermeability : r'.zPermeabilityMatrix * C.Q = C.Q * r.zPermeabilityMatrix)
    (transversePermeability : r'.transversePermeabilityMatrix * C.R = C.R * r.transversePermeabilityMatrix)
    (transversePermittivity : E' * C.R = C.R * E) : MediumMap C.scale C.rotation C.Q r r' E E' := by
  have hw := transverseWavevectors_layer.2 ⟨h2, rfl⟩
  rw [h3, h4, h5] at hw
  have hw' := h.wavevectors _ hw
  rw [← h3', ← h4', ← h5'] at hw'
  have e := (transverseWavevectors_layer.1 hw').2
  refine ⟨by rw [h1, h1', h.wavelength], ?_, ?_, zPermittivity, zPermeability, transversePermeability, transversePermittivity⟩
  · rw [← e]; exact diagonal_combination C _ _ _ _
  · rw [← e]; exact diagonal_combination C _ _ _ _

variable {eig : Matrix (ι ⊕ ι) (ι ⊕ ι) ℂ → (ι ⊕ ι → ℂ) × Matrix (ι ⊕ ι) (ι ⊕ ι) ℂ}

theorem numerical_layerMap (he : IsEig eig) {C : Coordinates ι} {c c' : Setup ι} (h : SetupMap C c c') {m m' : FourierMatrices ι} (hm : FourierMap C m m')
    {r : LayerSolveResult ι} (hr : numericalEigensolve eig c.wavelength c.inPlaneWavevector c.lattice m c.expansion = .ok r)
    (hφ : IsUnit r.eigenvectors.det) :
    ∃ r', numericalEigensolve eig c'.wavelength c'.inPlaneWavevector c'.lattice m' c'.expansion = .ok r' ∧
      LayerMap C.R C.scale r r' (r.eigenvectors⁻¹ * C.R⁻¹ * r'.eigenvectors) := by
  obtain ⟨hs, f1, f2, f3, f4, -, -⟩ := numerical_solvedFor he hr
  obtain ⟨-, -, -, hf⟩ := numericalEigensolve_modes he hr
  obtain ⟨k, A, hk, hA, er⟩ := numericalEigensolve_ok_iff.1 hr
  obtain ⟨g1, g2, g3, -⟩ := (eigenproblemMatrix_ok_iff 0 0 hk).1 hA
  have hk' := h.wavevectors k hk
  have hl : c'.wavelength ≠ 0 := by
    intro h0
    rw [h.wavelength, h0, mul_zero] at g1
    exact g1 rfl
  have hA' := (eigenproblemMatrix_ok_iff (wavelength := c'.wavelength) (m := m') 0 0 hk').2
    ⟨hl, by rw [det_intertwine C.Q_isUnit hm.zPermittivity]; exact g2, by rw [det_intertwine C.Q_isUnit hm.zPermeability]; exact g3, rfl⟩
  obtain ⟨r', hr'⟩ : ∃ r', numericalEigensolve eig c'.wavelength c'.inPlaneWavevector c'.lattice m' c'.expansion = .ok r' :=
    ⟨_, numericalEigensolve_ok_iff.2 ⟨_, _, hk', hA', rfl⟩⟩
  refine ⟨r', hr', ?_⟩
  obtain ⟨hs', f1', f2', f3', f4', -, -⟩ := numerical_solvedFor he hr'
  obtain ⟨-, -, -, hf'⟩ := numericalEigensolve_modes he hr'
  obtain ⟨_, _, -, -, er'⟩ := numericalEigensolve_ok_iff.1 hr'
  have med : MediumMap C.scale C.rotation C.Q r r' m.transversePermittivity m'.transversePermittivity := by
    refine h.medium f1 f1' hs.wellPosed.2.1 (by rw [er]; rfl) (by rw [er']; rfl) (by rw [er]; rfl) (by rw [er']; rfl)
      (by rw [er]; rfl) (by rw [er']; rfl) ?_ ?_ ?_ hm.transversePermittivity
    · rw [f3, f3']; exact hm.zPermittivity
    · rw [f4, f4']; exact hm.zPermeability
    · rw [f2, f2']; exact hm.transversePermeability
  have hop := med.modeOperator C.scale_pos.ne' C.orthogonal hs.wellPosed.2.2 hs'.wellPosed.2.2 hs.zPermeability hs'.zPermeability
  have hφ' : IsUnit r'.eigenvectors.det := by
    refine numerical_eigenvectors_invertible he hr' (V := C.R * r.eigenvectors) (w := fun i => (C.scale : ℂ) ^ 2 * r.eigenvalues i ^ 2) ?_ ?_
    · rw [det_mul]; exact C.R_isUnit.mul hφ
    · have e1 : modeOperator r m.transversePermittivity * r.eigenvectors = r.eigenvectors * diagonal fun i => r.eigenvalues i ^ 2 := hs.modes
      change modeOperator r' m'.transversePermittivity * (C.R * r.eigenvectors) = _
      rw [← Matrix.mul_assoc, show C.R = vectorTransform C.rotation C.Q from rfl, hop, Matrix.smul_mul, Matrix.mul_assoc, e1]
      rw [show (diagonal fun i => (C.scale : ℂ) ^ 2 * r.eigenvalues i ^ 2) = (C.scale : ℂ) ^ 2 • diagonal fun i => r.eigenvalues i ^ 2 by
        rw [← diagonal_smul]; rfl]
      mat_module
  exact med.layerMap C.scale_pos C.orthogonal C.Q_isUnit hs hs' hf hf' hφ hφ'

theorem uniform_layerMap {C : Coordinates ι} {c c' : Setup ι} (h : SetupMap C c c') {ε : ℂ} {r : LayerSolveResult ι}
    (hr : eigensolveUniformIsotropic c.wavelength c.inPlaneWavevector c.lattice ε c.expansion = .ok r) :
    ∃ r', eigensolveUniformIsotropic c'.wavelength c'.inPlaneWavevector c'.lattice ε c'.expansion = .ok r' ∧
      LayerMap C.R C.scale r r' (r.eigenvectors⁻¹ * C.R⁻¹ * r'.eigenvectors) := by
  have hs := uniform_solvedFor hr
  obtain ⟨-, -, hf⟩ := uniform_modeEquation hr
  obtain ⟨k, w, hk, hw, hε, er⟩ := eigensolveUniformIsotropic_ok_iff.1 hr
  have hk' := h.wavevectors k hk
  have g1 := (angularFrequency_eq_ok.1 hw).1
  have hl : c'.wavelength ≠ 0 := by
    intro h0
    rw [h.wavelength, h0, mul_zero] at g1
    exact g1 rfl
  obtain ⟨r', hr'⟩ : ∃ r', eigensolveUniformIsotropic c'.wavelength c'.inPlaneWavevector c'.lattice ε c'.expansion = .ok r' :=
    ⟨_, eigensolveUniformIsotropic_ok_iff.2 ⟨_, _, hk', angularFrequency_eq_ok.2 ⟨hl, rfl⟩, hε, rfl⟩⟩
  refine ⟨r', hr', ?_⟩
  have hs' := uniform_solvedFor hr'
  obtain ⟨-, -, hf'⟩ := uniform_modeEquation hr'
  obtain ⟨_, _, -, -, -, er'⟩ := eigensolveUniformIsotropic_ok_iff.1 hr'
  have med : MediumMap C.scale C.rotation C.Q r r' (ε • 1) (ε • 1) := by
    refine h.medium (by rw [er]) (by rw [er']) hs.wellPosed.2.1 (by rw [er]) (by rw [er']) (by rw [er]) (by rw [er'])
      (by rw [er]) (by rw [er']) ?_ ?_ ?_ ?_
    · rw [er, er']; mat_module
    · rw [er, er']; mat_module
    · rw [er, er']; mat_module
    · mat_module
  exact med.layerMap C.scale_pos C.orthogonal C.Q_isUnit hs hs' hf hf' (by rw [er]; simp) (by rw [er']; simp)

end Fmmax
