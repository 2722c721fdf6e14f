import Verif.Proofs.ReciprocityStack
import Verif.Spec.TimeReversal

/-! Complex conjugate fields. -/

set_option linter.unusedSectionVars false

namespace Fmmax

open Matrix Spec

variable {ι : Type} [Fintype ι] [DecidableEq ι] {β : Type} {nx ny : ℕ}

/-! ### Conjugate matrices -/

section conj

variable {m n p q : Type}

theorem conj_mul [Fintype n] (A : Matrix m n ℂ) (B : Matrix n p ℂ) : conj (A * B) = conj A * conj B := by
  ext i j
  simp [conj, Matrix.mul_apply]

theorem conj_add (A B : Matrix m n ℂ) : conj (A + B) = conj A + conj B := by
  ext i j
  simp [conj]

theorem conj_sub (A B : Matrix m n ℂ) : conj (A - B) = conj A - conj B := by
  ext i j
  simp [conj]

theorem conj_neg (A : Matrix m n ℂ) : conj (-A) = -conj A := by
  ext i j
  simp [conj]

theorem conj_zero : conj (0 : Matrix m n ℂ) = 0 := by
  ext i j
  simp [conj]

theorem conj_smul (t : ℂ) (A : Matrix m n ℂ) : conj (t • A) = star t • conj A := by
  ext i j
  simp [conj]

theorem conj_diagonal [DecidableEq n] (v : n → ℂ) : conj (diagonal v) = diagonal fun i => star (v i) := by
  ext i j
  by_cases h : i = j <;> simp [conj, Matrix.diagonal_apply, h]

theorem conj_one [DecidableEq n] : conj (1 : Matrix n n ℂ) = 1 := by
  rw [← diagonal_one, conj_diagonal]
  simp

theorem conj_conj (A : Matrix m n ℂ) : conj (conj A) = A := by
  ext i j
  simp [conj]

theorem conj_eq (A : Matrix m n ℂ) : conj A = Aᴴᵀ := rfl

theorem conj_fromBlocks (A : Matrix m p ℂ) (B : Matrix m q ℂ) (C : Matrix n p ℂ) (D : Matrix n q ℂ) :
    conj (fromBlocks A B C D) = fromBlocks (conj A) (conj B) (conj C) (conj D) := by
  ext i j
  rcases i with i | i <;> rcases j with j | j <;> rfl

theorem conj_inv [Fintype n] [DecidableEq n] (A : Matrix n n ℂ) : conj A⁻¹ = (conj A)⁻¹ := by
  rw [conj_eq, conj_eq, conjTranspose_nonsing_inv, transpose_nonsing_inv]

theorem conj_det [Fintype n] [DecidableEq n] (A : Matrix n n ℂ) : (conj A).det = star A.det := by
  rw [conj_eq, det_transpose, det_conjTranspose]

theorem conj_isUnit [Fintype n] [DecidableEq n] {A : Matrix n n ℂ} (h : IsUnit A.det) : IsUnit (conj A).det := by
  rw [conj_det]
  exact h.star

theorem conj_injective : Function.Injective (conj : Matrix m n ℂ → Matrix m n ℂ) := fun A B h => by
  rw [← conj_conj A, h, conj_conj]

end conj

/-! ### Time reversed layers -/

/-- The forward root of the conjugate square. -/
noncomputable def conjRoot (q : ℂ) : ℂ := if q.im = 0 then q else -star q

theorem isForwardRoot_conj {w q : ℂ} (h : IsForwardRoot w q) : IsForwardRoot (star w) (conjRoot q) := by
  obtain ⟨rfl, h2, h3⟩ := h
  unfold conjRoot
  split_ifs with h0
  · refine ⟨?_, h2, h3⟩
    have : star q = q := Complex.conj_eq_iff_im.2 h0
    rw [star_pow, this]
  · refine ⟨by rw [neg_sq, star_pow], by simpa using h2, fun h => absurd ?_ h0⟩
    simpa using h

theorem conjRoot_ne_zero {q : ℂ} (h : q ≠ 0) : conjRoot q ≠ 0 := by
  unfold conjRoot
  split_ifs <;> simpa using h

/-- The layer `l'` is the layer `l` of the time reversed calculation; the columns of `N` describe the conjugates of the modes of `l` by modes of `l'`. -/
structure TimeReversed (l l' : LayerSolveResult ι) (N : ModeMatrix ι) : Prop where
  wavelength : l'.wavelength = l.wavelength
  wellPosed : WellPosed l'
  nonzero : ∀ i, l'.eigenvalues i ≠ 0
  electric : magneticToElectric l' = conj (magneticToElectric l)
  modes : l'.eigenvectors * N = conj l.eigenvectors
  coupled : ∀ i j, N i j ≠ 0 → l'.eigenvalues i = conjRoot (l.eigenvalues j)

namespace TimeReversed

variable {l l' : LayerSolveResult ι} {N : ModeMatrix ι}

/-- Functions of the propagation constants pass through `N`. -/
theorem diagonal_comm (h : TimeReversed l l' N) (f : ℂ → ℂ) :
    (diagonal fun i => f (l'.eigenvalues i)) * N = N * diagonal fun i => f (conjRoot (l.eigenvalues i)) := by
  ext i j
  rw [diagonal_mul, mul_diagonal]
  by_cases hN : N i j = 0
  · rw [hN]; simp
  · rw [h.coupled i j hN, mul_comm]

theorem propagator_comm (h : TimeReversed l l' N) (z : ℝ) :
    propagator l' z * N = N * diagonal fun i => Complex.exp (Complex.I * conjRoot (l.eigenvalues i) * z) :=
  h.diagonal_comm fun q => Complex.exp (Complex.I * q * z)

theorem forward (l : LayerSolveResult ι) (d z : ℝ) (a b : Matrix (ι ⊕ ι) β ℂ) :
    (diagonal fun i => Complex.exp (Complex.I * conjRoot (l.eigenvalues i) * z)) * reversedForward l d a b =
      Matrix.of fun i c => if (l.eigenvalues i).im = 0 then star ((propagator l (d - z) * b) i c) else star ((propagator l z * a) i c) := by
  ext i c
  unfold propagator
  rw [diagonal_mul, of_apply, diagonal_mul, diagonal_mul]
  unfold reversedForward conjRoot
  rw [of_apply]
  split_ifs with h
  · have hq : star (l.eigenvalues i) = l.eigenvalues i := Complex.conj_eq_iff_im.2 h
    rw [star_mul', star_mul', ← mul_assoc]
    congr 1
    change _ * (starRingEnd ℂ) _ = (starRingEnd ℂ) _
    rw [← Complex.exp_conj, ← Complex.exp_conj, ← Complex.exp_add]
    congr 1
    simp only [map_mul, Complex.conj_I, Complex.conj_ofReal]
    change _ + -Complex.I * star (l.eigenvalues i) * _ = -Complex.I * star (l.eigenvalues i) * _
    rw [hq]
    push_cast
    ring
  · rw [star_mul']
    congr 1
    change _ = (starRingEnd ℂ) _
    rw [← Complex.exp_conj]
    congr 1
    simp only [map_mul, Complex.conj_I, Complex.conj_ofReal]
    change _ = -Complex.I * star (l.eigenvalues i) * _
    ring

theorem backward (l : LayerSolveResult ι) (d z : ℝ) (a b : Matrix (ι ⊕ ι) β ℂ) :
    (diagonal fun i => Complex.exp (Complex.I * conjRoot (l.eigenvalues i) * (d - z : ℝ))) * reversedBackward l d a b =
      Matrix.of fun i c => if (l.eigenvalues i).im = 0 then star ((propagator l z * a) i c) else star ((propagator l (d - z) * b) i c) := by
  have := forward l d (d - z) b a
  rwa [sub_sub_cancel] at this

/-- The conjugate fields. -/
theorem fields (h : TimeReversed l l' N) (d : ℝ) (a b : Matrix (ι ⊕ ι) β ℂ) (z : ℝ) :
    electricAt l' d (-(N * reversedForward l d a b)) (-(N * reversedBackward l d a b)) z = conj (electricAt l d a b z) ∧
    magneticAt l' d (-(N * reversedForward l d a b)) (-(N * reversedBackward l d a b)) z = -conj (magneticAt l d a b z) := by
  have f1 : propagator l' z * (N * reversedForward l d a b) =
      N * Matrix.of fun i c => if (l.eigenvalues i).im = 0 then star ((propagator l (d - z) * b) i c) else star ((propagator l z * a) i c) := by
    rw [← Matrix.mul_assoc, h.propagator_comm, Matrix.mul_assoc, forward]
  have f2 : propagator l' (d - z) * (N * reversedBackward l d a b) =
      N * Matrix.of fun i c => if (l.eigenvalues i).im = 0 then star ((propagator l z * a) i c) else star ((propagator l (d - z) * b) i c) := by
    rw [← Matrix.mul_assoc, h.propagator_comm, Matrix.mul_assoc, backward]
  have hω : omega l' = omega l := by unfold omega; rw [h.wavelength]
  unfold electricAt magneticAt electricModes
  rw [Matrix.mul_neg, Matrix.mul_neg, f1, f2]
  set F := propagator l z * a
  set G := propagator l (d - z) * b
  constructor
  · have e1 : (diagonal fun i => ((omega l' : ℂ) * l'.eigenvalues i)⁻¹) * N = N * diagonal fun i => ((omega l : ℂ) * conjRoot (l.eigenvalues i))⁻¹ := by
      rw [hω]
      exact h.diagonal_comm fun q => ((omega l : ℂ) * q)⁻¹
    rw [sub_neg_eq_add, neg_add_eq_sub, ← Matrix.mul_sub, Matrix.mul_assoc, ← Matrix.mul_assoc (diagonal _), e1, h.electric, conj_mul, conj_mul, conj_mul,
      ← h.modes, conj_diagonal]
    simp only [Matrix.mul_assoc]
    congr 3
    ext i c
    rw [diagonal_mul, diagonal_mul, Matrix.sub_apply, of_apply, of_apply, conj_sub, Matrix.sub_apply]
    unfold conjRoot conj
    rw [of_apply, of_apply]
    split_ifs with h0
    · have hq : star (l.eigenvalues i) = l.eigenvalues i := Complex.conj_eq_iff_im.2 h0
      rw [star_inv₀, star_mul', hq]
      simp
    · rw [star_inv₀, star_mul', mul_neg, inv_neg]
      simp only [RCLike.star_def, Complex.conj_ofReal]
      ring
  · rw [← neg_add, ← Matrix.mul_add, Matrix.mul_neg, ← Matrix.mul_assoc, h.modes, conj_mul]
    congr 2
    ext i c
    rw [Matrix.add_apply, of_apply, of_apply, conj_add, Matrix.add_apply]
    unfold conj
    rw [of_apply, of_apply]
    split_ifs <;> ring

end TimeReversed

/-! ### Time reversed layers from conjugate matrices -/

/-- The matrices of the media of two layers are conjugate, the wavevectors opposite. -/
structure ConjugateMedium (l l' : LayerSolveResult ι) (E E' : ModeMatrix ι) : Prop where
  wavelength : l'.wavelength = l.wavelength
  wavevector : ∀ i, orderWavevector l' i = -orderWavevector l i
  zPermittivity : l'.zPermittivityMatrix = conj l.zPermittivityMatrix
  zPermeability : l'.zPermeabilityMatrix = conj l.zPermeabilityMatrix
  permeability : l'.transversePermeabilityMatrix = conj l.transversePermeabilityMatrix
  permittivity : E' = conj E

namespace ConjugateMedium

variable {l l' : LayerSolveResult ι} {E E' : ModeMatrix ι}

theorem diagonals (h : ConjugateMedium l l' E E') :
    (diagonal fun i => ((orderWavevector l' i).1 : ℂ) : Matrix ι ι ℂ) = -conj (diagonal fun i => ((orderWavevector l i).1 : ℂ)) ∧
    (diagonal fun i => ((orderWavevector l' i).2 : ℂ) : Matrix ι ι ℂ) = -conj (diagonal fun i => ((orderWavevector l i).2 : ℂ)) := by
  constructor <;>
  · rw [conj_diagonal, diagonal_neg]
    congr 1
    funext i
    simp [h.wavevector i]

theorem electric (h : ConjugateMedium l l' E E') : magneticToElectric l' = conj (magneticToElectric l) := by
  have hω : omega l' = omega l := by unfold omega; rw [h.wavelength]
  obtain ⟨n1, n2⟩ := h.diagonals
  unfold magneticToElectric
  simp only [n1, n2, h.zPermittivity, h.permeability, hω, conj_sub, conj_smul, conj_fromBlocks, conj_mul, conj_neg, conj_inv, Matrix.neg_mul, Matrix.mul_neg,
    neg_neg, star_pow]
  simp only [RCLike.star_def, Complex.conj_ofReal]

theorem divergence (h : ConjugateMedium l l' E E') : divergenceMatrix l' = conj (divergenceMatrix l) := by
  obtain ⟨n1, n2⟩ := h.diagonals
  unfold divergenceMatrix
  simp only [n1, n2, h.zPermeability, conj_fromBlocks, conj_mul, conj_inv, Matrix.neg_mul, Matrix.mul_neg, neg_neg]

theorem operator (h : ConjugateMedium l l' E E') : modeOperator l' E' = conj (modeOperator l E) := by
  unfold modeOperator
  rw [h.electric, h.divergence, h.permittivity, h.permeability, conj_sub, conj_mul, conj_mul]

/-- The conjugate modes solve the conjugate mode equation. -/
theorem conj_modes (h : ConjugateMedium l l' E E') (hs : SolvedFor l E) :
    modeOperator l' E' * conj l.eigenvectors = conj l.eigenvectors * diagonal fun i => star (l.eigenvalues i ^ 2) := by
  have m1 : modeOperator l E * l.eigenvectors = l.eigenvectors * diagonal fun i => l.eigenvalues i ^ 2 := hs.modes
  rw [h.operator, ← conj_mul, m1, conj_mul, conj_diagonal]

theorem timeReversed (h : ConjugateMedium l l' E E') (hs : SolvedFor l E) (hs' : SolvedFor l' E') (hf : ∀ i, IsForwardRoot (l.eigenvalues i ^ 2) (l.eigenvalues i))
    (hf' : ∀ i, IsForwardRoot (l'.eigenvalues i ^ 2) (l'.eigenvalues i)) (hm : CompleteModes l) (hm' : IsUnit l'.eigenvectors.det) :
    CompleteModes l' ∧ TimeReversed l l' (l'.eigenvectors⁻¹ * conj l.eigenvectors) := by
  have m1 := h.conj_modes hs
  have m2 : modeOperator l' E' * l'.eigenvectors = l'.eigenvectors * diagonal fun i => l'.eigenvalues i ^ 2 := hs'.modes
  have hnz : ∀ i, l'.eigenvalues i ≠ 0 := by
    have hdet : (modeOperator l' E').det = ∏ i, l'.eigenvalues i ^ 2 := by
      have := congrArg det m2
      rw [det_mul, det_mul, det_diagonal, mul_comm] at this
      exact mul_left_cancel₀ hm'.ne_zero this
    have hdet' : (modeOperator l' E').det ≠ 0 := by
      have := congrArg det m1
      rw [det_mul, det_mul, det_diagonal, mul_comm] at this
      rw [mul_left_cancel₀ (conj_isUnit hm.1).ne_zero this]
      exact Finset.prod_ne_zero_iff.2 fun i _ => star_ne_zero.2 (pow_ne_zero _ (hm.2 i))
    rw [hdet] at hdet'
    intro i hi
    exact Finset.prod_ne_zero_iff.1 hdet' i (Finset.mem_univ i) (by rw [hi]; ring)
  refine ⟨⟨hm', hnz⟩, h.wavelength, hs'.wellPosed, hnz, h.electric, ?_, ?_⟩
  · rw [← Matrix.mul_assoc, mul_nonsing_inv _ hm', Matrix.one_mul]
  · intro i j hij
    have hi1 : l'.eigenvectors⁻¹ * l'.eigenvectors = 1 := nonsing_inv_mul _ hm'
    have hi2 : l'.eigenvectors * l'.eigenvectors⁻¹ = 1 := mul_nonsing_inv _ hm'
    have key : (diagonal fun i => l'.eigenvalues i ^ 2) * (l'.eigenvectors⁻¹ * conj l.eigenvectors) =
        (l'.eigenvectors⁻¹ * conj l.eigenvectors) * diagonal fun i => star (l.eigenvalues i ^ 2) := by
      calc _ = l'.eigenvectors⁻¹ * (l'.eigenvectors * diagonal fun i => l'.eigenvalues i ^ 2) * (l'.eigenvectors⁻¹ * conj l.eigenvectors) := by
            rw [← Matrix.mul_assoc l'.eigenvectors⁻¹ l'.eigenvectors, hi1, Matrix.one_mul]
        _ = l'.eigenvectors⁻¹ * modeOperator l' E' * (l'.eigenvectors * l'.eigenvectors⁻¹) * conj l.eigenvectors := by rw [← m2]; simp only [Matrix.mul_assoc]
        _ = _ := by rw [hi2, Matrix.mul_one, Matrix.mul_assoc, m1, Matrix.mul_assoc]
    have e := congrFun (congrFun key i) j
    rw [diagonal_mul, mul_diagonal] at e
    have e2 : l'.eigenvalues i ^ 2 = star (l.eigenvalues j ^ 2) := by
      apply mul_right_cancel₀ hij
      rw [e, mul_comm]
    have f1 := hf' i
    rw [e2] at f1
    exact isForwardRoot_unique f1 (isForwardRoot_conj (hf j))

end ConjugateMedium

variable {c : Setup ι}

theorem convolution_conj (G : ι → ℤ × ℤ) (x : Grid nx ny) : convolution (fun i => -G i) (conj x) = conj (convolution G x) := by
  rw [convolution_reverse, conj_eq (convolution G x)]
  exact congrArg transpose (convolution_conjTranspose x G).symm

/-- The Fourier matrices of two media are conjugate. -/
structure FourierConjugate (m m' : FourierMatrices ι) : Prop where
  zPermittivity : m'.zPermittivity = conj m.zPermittivity
  zPermeability : m'.zPermeability = conj m.zPermeability
  transversePermeability : m'.transversePermeability = conj m.transversePermeability
  transversePermittivity : m'.transversePermittivity = conj m.transversePermittivity

variable {eig : Matrix (ι ⊕ ι) (ι ⊕ ι) ℂ → (ι ⊕ ι → ℂ) × Matrix (ι ⊕ ι) (ι ⊕ ι) ℂ}

/-- A layer solved for the time reversed calculation. -/
def TimeReversedLayer (r r' : LayerSolveResult ι) : Prop := CompleteModes r' ∧ TimeReversed r r' (r'.eigenvectors⁻¹ * conj r.eigenvectors)

theorem numerical_timeReversed (he : IsEig eig) {m m' : FourierMatrices ι} (hm : FourierConjugate m m') {r : LayerSolveResult ι}
    (hr : numericalEigensolve eig c.wavelength c.inPlaneWavevector c.lattice m c.expansion = .ok r) (hc : CompleteModes r) :
    ∃ r', numericalEigensolve eig c.reverse.wavelength c.reverse.inPlaneWavevector c.reverse.lattice m' c.reverse.expansion = .ok r' ∧ TimeReversedLayer r r' := by
  obtain ⟨hs, f1, f2, f3, f4, -, -⟩ := numerical_solvedFor he hr
  obtain ⟨-, -, -, hf⟩ := numericalEigensolve_modes he hr
  obtain ⟨k, A, hk, hA, er⟩ := numericalEigensolve_ok_iff.1 hr
  obtain ⟨g1, g2, g3, -⟩ := (eigenproblemMatrix_ok_iff 0 0 hk).1 hA
  have hk' := transverseWavevectors_reverse hk
  have hA' := (eigenproblemMatrix_ok_iff (wavelength := c.reverse.wavelength) (m := m') 0 0 hk').2
    ⟨g1, by rw [hm.zPermittivity]; exact conj_isUnit g2, by rw [hm.zPermeability]; exact conj_isUnit g3, rfl⟩
  obtain ⟨r', hr'⟩ : ∃ r', numericalEigensolve eig c.reverse.wavelength c.reverse.inPlaneWavevector c.reverse.lattice m' c.reverse.expansion = .ok r' :=
    ⟨_, numericalEigensolve_ok_iff.2 ⟨_, _, hk', hA', rfl⟩⟩
  refine ⟨r', hr', ?_⟩
  obtain ⟨hs', f1', f2', f3', f4', -, -⟩ := numerical_solvedFor he hr'
  obtain ⟨-, -, -, hf'⟩ := numericalEigensolve_modes he hr'
  obtain ⟨_, _, -, -, er'⟩ := numericalEigensolve_ok_iff.1 hr'
  have med : ConjugateMedium r r' m.transversePermittivity m'.transversePermittivity := by
    refine ⟨by rw [f1, f1']; rfl, orderWavevector_reverse (c := c) hs.wellPosed.2.1 (by rw [er]; rfl) (by rw [er']; rfl) (by rw [er]; rfl) (by rw [er']; rfl)
      (by rw [er]; rfl) (by rw [er']; rfl), ?_, ?_, ?_, hm.transversePermittivity⟩
    · rw [f3, f3']; exact hm.zPermittivity
    · rw [f4, f4']; exact hm.zPermeability
    · rw [f2, f2']; exact hm.transversePermeability
  exact med.timeReversed hs hs' hf hf' hc (numerical_eigenvectors_invertible he hr' (conj_isUnit hc.1) (med.conj_modes hs))

theorem uniform_timeReversed {ε : ℂ} {r : LayerSolveResult ι}
    (hr : eigensolveUniformIsotropic c.wavelength c.inPlaneWavevector c.lattice ε c.expansion = .ok r) (hc : CompleteModes r) :
    ∃ r', eigensolveUniformIsotropic c.reverse.wavelength c.reverse.inPlaneWavevector c.reverse.lattice (star ε) c.reverse.expansion = .ok r' ∧
      TimeReversedLayer r r' := by
  have hs := uniform_solvedFor hr
  obtain ⟨-, -, hf⟩ := uniform_modeEquation hr
  obtain ⟨k, w, hk, hw, hε, er⟩ := eigensolveUniformIsotropic_ok_iff.1 hr
  have hk' := transverseWavevectors_reverse hk
  obtain ⟨r', hr'⟩ : ∃ r', eigensolveUniformIsotropic c.reverse.wavelength c.reverse.inPlaneWavevector c.reverse.lattice (star ε) c.reverse.expansion = .ok r' :=
    ⟨_, eigensolveUniformIsotropic_ok_iff.2 ⟨_, _, hk', hw, star_ne_zero.2 hε, rfl⟩⟩
  refine ⟨r', hr', ?_⟩
  have hs' := uniform_solvedFor hr'
  obtain ⟨-, -, hf'⟩ := uniform_modeEquation hr'
  obtain ⟨_, _, -, -, -, er'⟩ := eigensolveUniformIsotropic_ok_iff.1 hr'
  have med : ConjugateMedium r r' (ε • 1) (star ε • 1) := by
    refine ⟨by rw [er, er']; rfl, orderWavevector_reverse (c := c) hs.wellPosed.2.1 (by rw [er]) (by rw [er']) (by rw [er]) (by rw [er'])
      (by rw [er]) (by rw [er']), ?_, ?_, ?_, ?_⟩ <;> (try rw [er, er']) <;> simp [conj_smul, conj_one]
  exact med.timeReversed hs hs' hf hf' hc (by rw [er']; simp)

/-! ### Fourier matrices -/

theorem recipGrid_conj {x y : Grid nx ny} (h : recipGrid x = .ok y) : recipGrid (conj x) = .ok (conj y) := by
  obtain ⟨h1, rfl⟩ := recipGrid_ok_iff.1 h
  refine recipGrid_ok_iff.2 ⟨fun r s => star_ne_zero.2 (h1 r s), ?_⟩
  ext r s
  simp [conj]

theorem isotropic_fft_conj {ε : Grid nx ny} {m : FourierMatrices ι} (h : fourierMatricesPatternedIsotropic c.lattice ε c.expansion .fft = .ok m) :
    ∃ m', fourierMatricesPatternedIsotropic c.reverse.lattice (conj ε) c.reverse.expansion .fft = .ok m' ∧ FourierConjugate m m' := by
  unfold fourierMatricesPatternedIsotropic transversePermittivityIsotropic transversePermittivityFft at h ⊢
  simp only [bind_eq_ok, fourierConvolutionMatrix_ok_iff, ok_inj, diag_const, one_smul, zero_smul, fromBlocks_one] at h ⊢
  obtain ⟨_, ⟨_, ⟨hR, rfl⟩, rfl⟩, η, hη, _, ⟨-, rfl⟩, _, ⟨-, rfl⟩, rfl⟩ := h
  have hR' : Resolves nx ny c.reverse.expansion := resolves_reverse hR
  refine ⟨_, ⟨_, ⟨_, ⟨hR', rfl⟩, rfl⟩, _, recipGrid_conj hη, _, ⟨hR', rfl⟩, _, ⟨hR', rfl⟩, rfl⟩, ?_, ?_, ?_, ?_⟩
  · exact convolution_conj _ _
  · simp [conj_one]
  · simp [conj_one]
  · simp only [Setup.reverse, convolution_conj, conj_fromBlocks, conj_zero]

theorem anisotropic_fft_conj {ε μ : TensorComponents nx ny} {x x' : Grid nx ny} {m : FourierMatrices ι}
    (h : fourierMatricesPatternedAnisotropic c.lattice ε μ c.expansion .fft x = .ok m) :
    ∃ m', fourierMatricesPatternedAnisotropic c.reverse.lattice (conjTensor ε) (conjTensor μ) c.reverse.expansion .fft x' = .ok m' ∧ FourierConjugate m m' := by
  unfold fourierMatricesPatternedAnisotropic transverseMatricesAnisotropic transversePermittivityFftAnisotropic transversePermeabilityFftAnisotropic at h ⊢
  simp only [bind_eq_ok, fourierConvolutionMatrix_ok_iff, ok_inj] at h ⊢
  obtain ⟨_, ⟨_, ⟨_, ⟨hR, rfl⟩, _, ⟨-, rfl⟩, _, ⟨-, rfl⟩, _, ⟨-, rfl⟩, rfl⟩, _, ⟨_, ⟨-, rfl⟩, _, ⟨-, rfl⟩, _, ⟨-, rfl⟩, _, ⟨-, rfl⟩, rfl⟩, rfl⟩,
    η, hη, _, ⟨-, rfl⟩, _, ⟨-, rfl⟩, η', hη', _, ⟨-, rfl⟩, _, ⟨-, rfl⟩, rfl⟩ := h
  have hR' : Resolves nx ny c.reverse.expansion := resolves_reverse hR
  refine ⟨_, ⟨_, ⟨_, ⟨_, ⟨hR', rfl⟩, _, ⟨hR', rfl⟩, _, ⟨hR', rfl⟩, _, ⟨hR', rfl⟩, rfl⟩, _, ⟨_, ⟨hR', rfl⟩, _, ⟨hR', rfl⟩, _, ⟨hR', rfl⟩, _, ⟨hR', rfl⟩, rfl⟩, rfl⟩,
    _, recipGrid_conj hη, _, ⟨hR', rfl⟩, _, ⟨hR', rfl⟩, _, recipGrid_conj hη', _, ⟨hR', rfl⟩, _, ⟨hR', rfl⟩, rfl⟩, ?_, ?_, ?_, ?_⟩
  · exact convolution_conj _ _
  · exact convolution_conj _ _
  · simp only [Setup.reverse, convolution_conj, conj_fromBlocks, conjTensor]
  · simp only [Setup.reverse, ← conj_neg, convolution_conj, conj_fromBlocks, conjTensor]

theorem uniformAnisotropic_conj {ε μ : TensorComponents 1 1} {m : FourierMatrices ι} (h : fourierMatricesUniformAnisotropic ε μ = .ok m) :
    ∃ m', fourierMatricesUniformAnisotropic (conjTensor ε) (conjTensor μ) = .ok m' ∧ FourierConjugate m m' := by
  unfold fourierMatricesUniformAnisotropic at h ⊢
  split_ifs at h with h0
  have h0' : ¬((conjTensor ε).zz 0 0 = 0 ∨ (conjTensor μ).zz 0 0 = 0) := by
    simpa [conjTensor, conj] using h0
  rw [ok_inj] at h
  subst h
  simp only [if_neg h0', diag_const, ok_inj]
  refine ⟨_, rfl, ?_, ?_, ?_, ?_⟩ <;> simp only [conj_fromBlocks, conj_smul, conj_one, star_neg] <;> rfl

theorem tangentTerms_conj (tx ty : ℂ) : (tangentTerms (star tx) (star ty)).yy = star (tangentTerms tx ty).yy ∧
    (tangentTerms (star tx) (star ty)).yx = star (tangentTerms tx ty).yx ∧ (tangentTerms (star tx) (star ty)).xy = star (tangentTerms tx ty).xy ∧
    (tangentTerms (star tx) (star ty)).xx = star (tangentTerms tx ty).xx := by
  simp [tangentTerms]

theorem isotropic_vector_conj {ε : Grid nx ny} {fn : Grid nx ny → (ι → ℤ × ℤ) → LatticeVectors → Res (Grid nx ny × Grid nx ny)}
    (ht : ∀ tx ty, fn ε c.expansion c.lattice = .ok (tx, ty) →
      ∃ z : ℂ, ‖z‖ = 1 ∧ fn (conj ε) c.reverse.expansion c.reverse.lattice = .ok (z • conj tx, z • conj ty)) {m : FourierMatrices ι}
    (h : fourierMatricesPatternedIsotropic c.lattice ε c.expansion (.vector fn) = .ok m) :
    ∃ m', fourierMatricesPatternedIsotropic c.reverse.lattice (conj ε) c.reverse.expansion (.vector fn) = .ok m' ∧ FourierConjugate m m' := by
  unfold fourierMatricesPatternedIsotropic transversePermittivityIsotropic transversePermittivityVector at h ⊢
  simp only [bind_eq_ok, fourierConvolutionMatrix_ok_iff, ok_inj, diag_const, one_smul, zero_smul, fromBlocks_one, inv_ok_iff] at h ⊢
  obtain ⟨_, ⟨⟨tx, ty⟩, htt, _, ⟨hR, rfl⟩, η, hη, _, ⟨-, rfl⟩, _, ⟨hu, rfl⟩, _, ⟨-, rfl⟩, _, ⟨-, rfl⟩, _, ⟨-, rfl⟩, _, ⟨-, rfl⟩, rfl⟩, η', hη', _, ⟨-, rfl⟩, _,
    ⟨-, rfl⟩, rfl⟩ := h
  have hR' : Resolves nx ny c.reverse.expansion := resolves_reverse hR
  obtain ⟨z, hz, ht⟩ := ht _ _ htt
  have hz : star z * z = 1 := by rw [Complex.star_def, Complex.conj_mul', hz]; norm_num
  have t1 : ∀ (f : TangentTerms → ℂ), (∀ x y, f (tangentTerms (star x) (star y)) = star (f (tangentTerms x y))) →
      convolution c.reverse.expansion (Matrix.of fun r s => f (tangentTerms ((z • conj tx) r s) ((z • conj ty) r s)) : Grid nx ny) =
        conj (convolution c.expansion (Matrix.of fun r s => f (tangentTerms (tx r s) (ty r s)) : Grid nx ny)) := by
    intro f hf
    rw [← convolution_conj]
    change convolution (fun i => -c.expansion i) _ = _
    congr 1
    ext r s
    simp only [Matrix.of_apply, Matrix.smul_apply, smul_eq_mul]
    rw [tangentTerms_phase hz]
    exact hf _ _
  refine ⟨_, ⟨_, ⟨_, ht, _, ⟨hR', rfl⟩, _, recipGrid_conj hη, _, ⟨hR', rfl⟩, _, ⟨?_, rfl⟩, _, ⟨hR', rfl⟩, _, ⟨hR', rfl⟩, _, ⟨hR', rfl⟩, _, ⟨hR', rfl⟩, rfl⟩,
    _, recipGrid_conj hη', _, ⟨hR', rfl⟩, _, ⟨hR', rfl⟩, rfl⟩, ?_, ?_, ?_, ?_⟩
  · simp only [Setup.reverse, convolution_conj]; exact conj_isUnit hu
  · exact convolution_conj _ _
  · simp [conj_one]
  · simp [conj_one]
  · dsimp only
    rw [t1 TangentTerms.yy fun x y => (tangentTerms_conj x y).1, t1 TangentTerms.yx fun x y => (tangentTerms_conj x y).2.1,
      t1 TangentTerms.xy fun x y => (tangentTerms_conj x y).2.2.1, t1 TangentTerms.xx fun x y => (tangentTerms_conj x y).2.2.2]
    simp only [Setup.reverse, convolution_conj, conj_fromBlocks, conj_sub, conj_mul, conj_zero, conj_inv]

/-- Layers of the time reversed calculation. -/
theorem layer_timeReversed (he : IsEig eig) {p : StackLayer ι} (hp : p.ConjugateTangent c) {r : LayerSolveResult ι}
    (hr : p.solve eig c = .ok r) (hc : CompleteModes r) : ∃ r', p.conj.solve eig c.reverse = .ok r' ∧ TimeReversedLayer r r' := by
  obtain ⟨nx, ny, med, d⟩ := p
  by_cases hn : nx = 1 ∧ ny = 1
  · obtain ⟨rfl, rfl⟩ := hn
    cases med with
    | isotropic ε f =>
      simp only [StackLayer.solve, eigensolveIsotropicMedia, and_self, dite_true] at hr
      obtain ⟨r', hr', hl⟩ := uniform_timeReversed hr hc
      refine ⟨r', ?_, hl⟩
      change eigensolveIsotropicMedia eig c.reverse.wavelength c.reverse.inPlaneWavevector c.reverse.lattice (conj ε) c.reverse.expansion f = .ok r'
      unfold eigensolveIsotropicMedia
      rw [dif_pos ⟨rfl, rfl⟩]
      exact hr'
    | anisotropic ε μ f x =>
      simp only [StackLayer.solve, eigensolveGeneralAnisotropicMedia, and_self, dite_true, eigensolveUniformAnisotropic,
        bind_eq_ok] at hr
      obtain ⟨m, hm, hr⟩ := hr
      obtain ⟨m', hm', hmm⟩ := uniformAnisotropic_conj hm
      obtain ⟨r', hr', hl⟩ := numerical_timeReversed he hmm hr hc
      refine ⟨r', ?_, hl⟩
      change eigensolveGeneralAnisotropicMedia eig c.reverse.wavelength c.reverse.inPlaneWavevector c.reverse.lattice (conjTensor ε) (conjTensor μ) c.reverse.expansion f
        (x.map conj) = .ok r'
      unfold eigensolveGeneralAnisotropicMedia eigensolveUniformAnisotropic
      rw [dif_pos ⟨rfl, rfl⟩]
      exact bind_eq_ok.2 ⟨m', hm', hr'⟩
  · cases med with
    | isotropic ε f =>
      simp only [StackLayer.solve, eigensolveIsotropicMedia, dif_neg hn, eigensolvePatternedIsotropic, bind_eq_ok] at hr
      obtain ⟨m, hm, hr⟩ := hr
      have : ∃ m', fourierMatricesPatternedIsotropic c.reverse.lattice (conj ε) c.reverse.expansion f = .ok m' ∧ FourierConjugate m m' := by
        rcases hp with hp | hp | hp
        · exact absurd hp hn
        · have : f = .fft := hp
          subst this
          exact isotropic_fft_conj hm
        · obtain ⟨ε', fn, hf, ht⟩ := hp
          simp only [Medium.isotropic.injEq] at hf
          obtain ⟨h1, h2⟩ := hf
          rw [← h1] at ht
          rw [h2] at hm ⊢
          exact isotropic_vector_conj ht hm
      obtain ⟨m', hm', hmm⟩ := this
      obtain ⟨r', hr', hl⟩ := numerical_timeReversed he hmm hr hc
      refine ⟨r', ?_, hl⟩
      change eigensolveIsotropicMedia eig c.reverse.wavelength c.reverse.inPlaneWavevector c.reverse.lattice (conj ε) c.reverse.expansion f = .ok r'
      unfold eigensolveIsotropicMedia eigensolvePatternedIsotropic
      rw [dif_neg hn]
      exact bind_eq_ok.2 ⟨m', hm', hr'⟩
    | anisotropic ε μ f x =>
      simp only [StackLayer.solve, eigensolveGeneralAnisotropicMedia, dif_neg hn, eigensolvePatternedAnisotropic, bind_eq_ok] at hr
      obtain ⟨m, hm, hr⟩ := hr
      rcases hp with hp | hp | hp
      · exact absurd hp hn
      · have : f = .fft := hp
        subst this
        obtain ⟨m', hm', hmm⟩ := anisotropic_fft_conj hm
        obtain ⟨r', hr', hl⟩ := numerical_timeReversed he hmm hr hc
        refine ⟨r', ?_, hl⟩
        change eigensolveGeneralAnisotropicMedia eig c.reverse.wavelength c.reverse.inPlaneWavevector c.reverse.lattice (conjTensor ε) (conjTensor μ)
          c.reverse.expansion .fft (x.map conj) = .ok r'
        unfold eigensolveGeneralAnisotropicMedia eigensolvePatternedAnisotropic
        rw [dif_neg hn]
        exact bind_eq_ok.2 ⟨m', hm', hr'⟩
      · obtain ⟨ε', fn, hf, -⟩ := hp
        cases hf

/-! ### Stacks -/

theorem layers_timeReversed (he : IsEig eig) {layers : List (StackLayer ι)} {solved : List (LayerSolveResult ι)}
    (hs : List.Forall₂ (fun p r => p.solve eig c = .ok r) layers solved) (hp : ∀ p ∈ layers, p.ConjugateTangent c) (hc : ∀ r ∈ solved, CompleteModes r) :
    ∃ solved', List.Forall₂ (fun p r => p.solve eig c.reverse = .ok r) (layers.map StackLayer.conj) solved' ∧
      List.Forall₂ TimeReversedLayer solved solved' := by
  induction hs with
  | nil => exact ⟨[], .nil, .nil⟩
  | @cons p r ps rs hr hrs ih =>
    obtain ⟨rs', h1, h2⟩ := ih (fun p h => hp p (List.mem_cons_of_mem _ h)) (fun r h => hc r (List.mem_cons_of_mem _ h))
    obtain ⟨r', hr', hrec⟩ := layer_timeReversed he (hp p (by simp)) hr (hc r (by simp))
    exact ⟨r' :: rs', .cons hr' h1, .cons hrec h2⟩

/-- The time reversed waves in the layer `r'`. -/
noncomputable def reversedState (s : LayerState ι β) (r' : LayerSolveResult ι) : LayerState ι β :=
  { layer := r', thickness := s.thickness, a := -(r'.eigenvectors⁻¹ * conj s.layer.eigenvectors * reversedForward s.layer s.thickness s.a s.b),
    b := -(r'.eigenvectors⁻¹ * conj s.layer.eigenvectors * reversedBackward s.layer s.thickness s.a s.b) }

theorem reversedState_fields {s : LayerState ι β} {r' : LayerSolveResult ι} (h : TimeReversedLayer s.layer r') {z : ℝ} {e m : Matrix (ι ⊕ ι) β ℂ}
    (hf : FieldsAt s z e m) : FieldsAt (reversedState s r') z (conj e) (-conj m) := by
  obtain ⟨-, -, rfl, rfl⟩ := fieldsAt_eq.1 hf
  obtain ⟨h1, h2⟩ := h.2.fields s.thickness s.a s.b z
  exact fieldsAt_eq.2 ⟨h.2.wellPosed, h.2.nonzero, h1.symm, h2.symm⟩

/-- Conjugate states of a stack. -/
noncomputable def reversedStates (st : List (LayerState ι β)) (solved' : List (LayerSolveResult ι)) : List (LayerState ι β) := List.zipWith reversedState st solved'

theorem reversedStates_consistent : ∀ (st : List (LayerState ι β)) (solved' : List (LayerSolveResult ι)), Consistent st →
    List.Forall₂ (fun s r' => TimeReversedLayer s.layer r') st solved' → Consistent (reversedStates st solved')
  | [], _, _, _ => by simp [Consistent, reversedStates]
  | [s], [r], _, _ => by simp [Consistent, reversedStates]
  | s :: t :: st, [], _, h => by cases h
  | s :: t :: st, [r], _, h => by cases h with | cons _ h => cases h
  | [s], r :: r2 :: rs, _, h => by cases h with | cons _ h => cases h
  | [s], [], _, h => by cases h
  | s :: t :: st, r :: r2 :: rs, hc, h => by
    rw [Consistent, List.isChain_cons_cons] at hc
    obtain ⟨⟨e, m, h1, h2⟩, hc⟩ := hc
    obtain ⟨k1, h⟩ := List.forall₂_cons.1 h
    have k2 := (List.forall₂_cons.1 h).1
    have ih := reversedStates_consistent (t :: st) (r2 :: rs) hc h
    change List.IsChain Interface (reversedState s r :: reversedState t r2 :: reversedStates st rs)
    rw [List.isChain_cons_cons]
    exact ⟨⟨_, _, reversedState_fields k1 h1, reversedState_fields k2 h2⟩, ih⟩

/-! ### Reversing twice -/

theorem conjRoot_conjRoot (q : ℂ) : conjRoot (conjRoot q) = q := by
  unfold conjRoot
  split_ifs with h1 h2
  · rfl
  · simp at h2
    exact absurd h2 h1
  · simp

theorem TimeReversedLayer.symm {r r' : LayerSolveResult ι} (h : TimeReversedLayer r r') (hw : WellPosed r) (hc : CompleteModes r) : TimeReversedLayer r' r := by
  have hu := h.1.1
  have hv := conj_isUnit hc.1
  set N := r'.eigenvectors⁻¹ * conj r.eigenvectors with hN
  have hNu : IsUnit N.det := by
    rw [hN, det_mul]
    exact (isUnit_nonsing_inv_det _ hu).mul hv
  have hinv : N⁻¹ = (conj r.eigenvectors)⁻¹ * r'.eigenvectors := by
    rw [hN, Matrix.mul_inv_rev, nonsing_inv_nonsing_inv _ hu]
  have hconj : r.eigenvectors⁻¹ * conj r'.eigenvectors = conj N⁻¹ := by
    rw [hinv, conj_mul, conj_inv, conj_conj]
  refine ⟨hc, ?_⟩
  refine ⟨h.2.wavelength.symm, hw, hc.2, ?_, ?_, ?_⟩
  · rw [h.2.electric, conj_conj]
  · rw [← Matrix.mul_assoc, mul_nonsing_inv _ hc.1, Matrix.one_mul]
  · intro i j hij
    rw [hconj] at hij
    have hij' : N⁻¹ i j ≠ 0 := fun h0 => hij (by simp [conj, h0])
    have e := h.2.diagonal_comm id
    have e2 : N⁻¹ * (diagonal fun i => r'.eigenvalues i) = (diagonal fun i => conjRoot (r.eigenvalues i)) * N⁻¹ := by
      calc N⁻¹ * (diagonal fun i => r'.eigenvalues i) = N⁻¹ * ((diagonal fun i => id (r'.eigenvalues i)) * N) * N⁻¹ := by
            rw [Matrix.mul_assoc, Matrix.mul_assoc, mul_nonsing_inv _ hNu, Matrix.mul_one]
            rfl
        _ = _ := by
            rw [e, ← Matrix.mul_assoc, nonsing_inv_mul _ hNu, Matrix.one_mul]
            rfl
    have e3 := congrFun (congrFun e2 i) j
    rw [mul_diagonal, diagonal_mul, mul_comm] at e3
    rw [mul_right_cancel₀ hij' e3, conjRoot_conjRoot]

theorem reversedStates_geometry : ∀ (st : List (LayerState ι β)) (solved' : List (LayerSolveResult ι)), st.length = solved'.length →
    geometry (reversedStates st solved') = solved'.zip (st.map LayerState.thickness)
  | [], [], _ => rfl
  | s :: st, r :: rs, h => by
    have ih := reversedStates_geometry st rs (by simpa using h)
    change (r, s.thickness) :: geometry (reversedStates st rs) = (r, s.thickness) :: rs.zip (st.map LayerState.thickness)
    rw [ih]
  | [], _ :: _, h => by simp at h
  | _ :: _, [], h => by simp at h

theorem geometry_zip {st : List (LayerState ι β)} {rs : List (LayerSolveResult ι)} {ds : List ℝ} (hl : rs.length = ds.length) (h : geometry st = rs.zip ds) :
    st.map LayerState.layer = rs ∧ st.map LayerState.thickness = ds := by
  constructor
  · have := congrArg (List.map Prod.fst) h
    rw [List.map_fst_zip (by omega)] at this
    rw [← this]
    simp [geometry]
  · have := congrArg (List.map Prod.snd) h
    rw [List.map_snd_zip (by omega)] at this
    rw [← this]
    simp [geometry]

/-- The conjugates of consistent waves of a stack are consistent waves of the time reversed stack. -/
theorem states_timeReversed {rs rs' : List (LayerSolveResult ι)} {ds : List ℝ} (hl : rs.length = ds.length) (h : List.Forall₂ TimeReversedLayer rs rs')
    {st : List (LayerState ι β)} (hg : geometry st = rs.zip ds) (hc : Consistent st) :
    geometry (reversedStates st rs') = rs'.zip ds ∧ Consistent (reversedStates st rs') ∧ List.Forall₂ (fun s r' => TimeReversedLayer s.layer r') st rs' := by
  obtain ⟨h1, h2⟩ := geometry_zip hl hg
  have h3 : List.Forall₂ (fun s r' => TimeReversedLayer s.layer r') st rs' := by
    rw [← h1, List.forall₂_map_left_iff] at h
    exact h
  refine ⟨?_, reversedStates_consistent _ _ hc h3, h3⟩
  rw [reversedStates_geometry _ _ h3.length_eq, h2]

theorem reversedStates_head {st : List (LayerState ι β)} {rs' : List (LayerSolveResult ι)} {s : LayerState ι β} {r' : LayerSolveResult ι} (h1 : st.head? = some s)
    (h2 : rs'.head? = some r') : (reversedStates st rs').head? = some (reversedState s r') := by
  cases st <;> cases rs' <;> simp_all [reversedStates]

theorem reversedStates_getLast : ∀ {st : List (LayerState ι β)} {rs' : List (LayerSolveResult ι)} {s : LayerState ι β} {r' : LayerSolveResult ι},
    st.length = rs'.length → st.getLast? = some s → rs'.getLast? = some r' → (reversedStates st rs').getLast? = some (reversedState s r')
  | [], _, _, _, _, h, _ => by simp at h
  | _ :: _, [], _, _, h, _, _ => by simp at h
  | [s], [r], _, _, _, h1, h2 => by simp_all [reversedStates]
  | [s], r :: r2 :: rs, _, _, h, _, _ => by simp at h
  | s :: t :: st, [r], _, _, h, _, _ => by simp at h
  | s :: t :: st, r :: r2 :: rs, x, y, h, h1, h2 => by
    rw [List.getLast?_cons_cons] at h1 h2
    have := reversedStates_getLast (st := t :: st) (rs' := r2 :: rs) (by simpa using h) h1 h2
    change (reversedState s r :: reversedState t r2 :: reversedStates st rs).getLast? = _
    rw [List.getLast?_cons_cons]
    exact this

theorem zip_head {rs : List (LayerSolveResult ι)} {ds : List ℝ} {l : LayerSolveResult ι} {d : ℝ} (h : (rs.zip ds).head? = some (l, d)) : rs.head? = some l := by
  cases rs <;> cases ds <;> simp_all

theorem zip_getLast : ∀ {rs : List (LayerSolveResult ι)} {ds : List ℝ} {l : LayerSolveResult ι} {d : ℝ}, rs.length = ds.length →
    (rs.zip ds).getLast? = some (l, d) → rs.getLast? = some l
  | [], _, _, _, _, h => by simp at h
  | _ :: _, [], _, _, h, _ => by simp at h
  | [r], [d], _, _, _, h => by simp_all
  | [r], d :: d2 :: ds, _, _, h, _ => by simp at h
  | r :: r2 :: rs, [d], _, _, h, _ => by simp at h
  | r :: r2 :: rs, d :: d2 :: ds, l, e, h, h1 => by
    rw [List.getLast?_cons_cons]
    rw [List.zip_cons_cons, List.zip_cons_cons, List.getLast?_cons_cons, ← List.zip_cons_cons] at h1
    exact zip_getLast (by simpa using h) h1

/-- The scattering matrices of a stack and of the time reversed one. -/
theorem relations_timeReversed {rs rs' : List (LayerSolveResult ι)} {ds : List ℝ} (hl : rs.length = ds.length) (h : List.Forall₂ TimeReversedLayer rs rs')
    {S S' : ScatteringMatrix ι} (hS : IsSMatrix S (rs.zip ds)) (hS' : IsSMatrix S' (rs'.zip ds)) :
    TimeReversedSMatrices (S'.startLayer.eigenvectors⁻¹ * conj S.startLayer.eigenvectors) (S'.endLayer.eigenvectors⁻¹ * conj S.endLayer.eigenvectors) S S' := by
  intro β a0 bN aN b0 ha hb
  have hl' : rs'.length = ds.length := by rw [← h.length_eq, hl]
  obtain ⟨st, f, y, hg, hc, hf, hy, hfa, hyb⟩ := hS.complete a0 bN
  obtain ⟨r1, r2⟩ := hS.sound st f y hg hc hf hy
  obtain ⟨f1, hf1, k1, k2⟩ := geometry_head hg hS.start
  obtain ⟨y1, hy1, k3, k4⟩ := geometry_getLast hg hS.finish
  rw [hf] at hf1; simp only [Option.some.injEq] at hf1; subst hf1
  rw [hy] at hy1; simp only [Option.some.injEq] at hy1; subst hy1
  obtain ⟨g1, g2, g3⟩ := states_timeReversed hl h hg hc
  have e1 := reversedStates_head hf (zip_head hS'.start)
  have e2 := reversedStates_getLast g3.length_eq hy (zip_getLast hl' hS'.finish)
  obtain ⟨q1, q2⟩ := hS'.sound _ _ _ g1 g2 e1 e2
  rw [hfa, hyb, ← ha] at r1
  rw [hfa, hyb, ← hb] at r2
  simp only [reversedState, k1, k2, k3, k4, r1, r2, hfa, hyb, Matrix.mul_neg, ← neg_add, neg_inj] at q1 q2
  exact ⟨q1, q2⟩

/-- A stack whose modes all decay has a time reversed scattering matrix. -/
theorem noResonance_timeReversed {rs rs' : List (LayerSolveResult ι)} {ds : List ℝ} (hl : rs.length = ds.length) (h : List.Forall₂ TimeReversedLayer rs rs')
    (hw : ∀ r ∈ rs, WellPosed r) (hc : ∀ r ∈ rs, CompleteModes r) (hq : ∀ r ∈ rs, ∀ i, (r.eigenvalues i).im ≠ 0) {S : ScatteringMatrix ι} (hS : IsSMatrix S (rs.zip ds)) :
    NoResonance (rs'.zip ds) := by
  intro st first last hg hst hf hla ha hb
  have hl' : rs'.length = ds.length := by rw [← h.length_eq, hl]
  have hsymm : List.Forall₂ TimeReversedLayer rs' rs := by
    clear hS hl hl' hg hst
    induction h with
    | nil => exact .nil
    | cons a _ ih =>
      exact .cons (a.symm (hw _ (by simp)) (hc _ (by simp))) (ih (fun r hr => hw r (List.mem_cons_of_mem _ hr)) (fun r hr => hc r (List.mem_cons_of_mem _ hr))
        fun r hr => hq r (List.mem_cons_of_mem _ hr))
  have hq' : ∀ r' ∈ rs', ∀ i, (r'.eigenvalues i).im ≠ 0 := by
    intro r' hr' i hi
    obtain ⟨r, hr, ht⟩ := forall₂_mem_right h _ hr'
    have hne : ∃ j, (r'.eigenvectors⁻¹ * conj r.eigenvectors) i j ≠ 0 := by
      by_contra hcon
      push Not at hcon
      have hu : IsUnit (r'.eigenvectors⁻¹ * conj r.eigenvectors).det := by
        rw [det_mul]
        exact (isUnit_nonsing_inv_det _ ht.1.1).mul (conj_isUnit (hc r hr).1)
      exact hu.ne_zero (det_eq_zero_of_row_eq_zero i hcon)
    obtain ⟨j, hj⟩ := hne
    have := ht.2.coupled i j hj
    rw [this] at hi
    unfold conjRoot at hi
    rw [if_neg (hq r hr j)] at hi
    simp at hi
    exact hq r hr j hi
  obtain ⟨g1, g2, g3⟩ := states_timeReversed hl' hsymm hg hst
  obtain ⟨m1, -⟩ := geometry_zip hl' hg
  have hq'' : ∀ s ∈ st, ∀ i, (s.layer.eigenvalues i).im ≠ 0 := fun s hs => hq' _ (by rw [← m1]; exact List.mem_map_of_mem hs)
  have e1 := reversedStates_head hf (zip_head hS.start)
  have e2 := reversedStates_getLast g3.length_eq hla (zip_getLast hl hS.finish)
  have hfst := hq'' first (List.mem_of_head? hf)
  have hlst := hq'' last (List.mem_of_getLast? hla)
  have fw : ∀ (s : LayerState ι Unit), (∀ i, (s.layer.eigenvalues i).im ≠ 0) → reversedForward s.layer s.thickness s.a s.b = conj s.a ∧
      reversedBackward s.layer s.thickness s.a s.b = conj s.b := by
    intro s hs
    constructor <;> ext i j <;> simp [reversedForward, reversedBackward, conj, hs i]
  have z1 : (reversedState first S.startLayer).a = 0 := by
    unfold reversedState
    rw [(fw first hfst).1, ha, conj_zero, Matrix.mul_zero, neg_zero]
  have z2 : (reversedState last S.endLayer).b = 0 := by
    unfold reversedState
    rw [(fw last hlst).2, hb, conj_zero, Matrix.mul_zero, neg_zero]
  have hzero := hS.noResonance _ _ _ g1 g2 e1 e2 z1 z2
  have hfinal : ∀ (st : List (LayerState ι Unit)) (rs : List (LayerSolveResult ι)), List.Forall₂ (fun s r' => TimeReversedLayer s.layer r') st rs →
      (∀ r ∈ rs, CompleteModes r) → (∀ s ∈ st, ∀ i, (s.layer.eigenvalues i).im ≠ 0) → (∀ s ∈ st, IsUnit s.layer.eigenvectors.det) →
      (∀ s ∈ reversedStates st rs, s.a = 0 ∧ s.b = 0) → ∀ s ∈ st, s.a = 0 ∧ s.b = 0 := by
    intro st rs h
    induction h with
    | nil => simp
    | @cons s r st rs hsr _ ih =>
      intro hc hq hu hz x hx
      have hz' : ∀ s' ∈ reversedState s r :: reversedStates st rs, s'.a = 0 ∧ s'.b = 0 := hz
      rcases List.mem_cons.1 hx with rfl | hx
      · obtain ⟨za, zb⟩ := hz' (reversedState x r) List.mem_cons_self
        have hN : IsUnit (r.eigenvectors⁻¹ * conj x.layer.eigenvectors).det := by
          rw [det_mul]
          exact (isUnit_nonsing_inv_det _ hsr.1.1).mul (conj_isUnit (hu x (by simp)))
        have hcancel : ∀ X : Matrix (ι ⊕ ι) Unit ℂ, r.eigenvectors⁻¹ * conj x.layer.eigenvectors * conj X = 0 → X = 0 := by
          intro X hX
          have : conj X = 0 := by
            rw [← Matrix.one_mul (conj X), ← nonsing_inv_mul _ hN, Matrix.mul_assoc, hX, Matrix.mul_zero]
          rw [← conj_conj X, this, conj_zero]
        unfold reversedState at za zb
        rw [(fw x (hq x (by simp))).1, neg_eq_zero] at za
        rw [(fw x (hq x (by simp))).2, neg_eq_zero] at zb
        exact ⟨hcancel _ za, hcancel _ zb⟩
      · exact ih (fun r hr => hc r (List.mem_cons_of_mem _ hr)) (fun s hs => hq s (List.mem_cons_of_mem _ hs)) (fun s hs => hu s (List.mem_cons_of_mem _ hs))
          (fun s hs => hz' s (List.mem_cons_of_mem _ hs)) x hx
  refine hfinal st rs g3 hc hq'' ?_ hzero
  intro s hs
  have : s.layer ∈ rs' := by rw [← m1]; exact List.mem_map_of_mem hs
  obtain ⟨r, -, ht⟩ := forall₂_mem_right h _ this
  exact ht.1.1

end Fmmax
