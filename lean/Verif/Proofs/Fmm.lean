import Verif.Spec.Modes
import Verif.Model.Fmm
import Verif.Proofs.Layer
import Verif.Proofs.Fft
import Mathlib.LinearAlgebra.Matrix.Charpoly.Basic
import Mathlib.LinearAlgebra.Matrix.Charpoly.Coeff
import Mathlib.LinearAlgebra.Eigenspace.Triangularizable
import Mathlib.LinearAlgebra.Eigenspace.Matrix
import Mathlib.Analysis.Complex.Polynomial.Basic

/-! Lemmas about layer eigensolves. -/

set_option linter.unusedSectionVars false

namespace Fmmax

open Matrix Spec

variable {ι : Type} [Fintype ι] [DecidableEq ι] {nx ny : ℕ}

/-! ### Branch of the square root -/

theorem csqrt_sq (z : ℂ) : csqrt z ^ 2 = z := by
  unfold csqrt
  have := Complex.cpow_nat_inv_pow z (n := 2) two_ne_zero
  simpa [one_div] using this

theorem csqrt_re_nonneg (z : ℂ) : 0 ≤ (csqrt z).re := by
  unfold csqrt
  by_cases hz : z = 0
  · simp [hz]
  have harg : Complex.arg z / 2 ∈ Set.Icc (-(Real.pi / 2)) (Real.pi / 2) := by
    have h1 := Complex.neg_pi_lt_arg z
    have h2 := Complex.arg_le_pi z
    constructor <;> linarith
  rw [Complex.cpow_def_of_ne_zero hz]
  have e : Complex.log z * (1 / 2) = ((Real.log ‖z‖ / 2 : ℝ) : ℂ) + ((Complex.arg z / 2 : ℝ) : ℂ) * Complex.I := by
    unfold Complex.log; push_cast; ring
  rw [e, Complex.exp_add, ← Complex.ofReal_exp, Complex.re_ofReal_mul, Complex.exp_ofReal_mul_I_re]
  exact mul_nonneg (Real.exp_nonneg _) (Real.cos_nonneg_of_mem_Icc harg)

theorem selectEigenvaluesSign_forward (w : ℂ) : IsForwardRoot w (selectEigenvaluesSign (csqrt w)) := by
  unfold selectEigenvaluesSign IsForwardRoot
  split_ifs with h
  · refine ⟨by rw [neg_sq, csqrt_sq], ?_, ?_⟩
    · rw [Complex.neg_im]; linarith
    · intro h0; rw [Complex.neg_im] at h0; linarith
  · exact ⟨csqrt_sq w, not_lt.1 h, fun _ => csqrt_re_nonneg w⟩

theorem isForwardRoot_unique {w q q' : ℂ} (h : IsForwardRoot w q) (h' : IsForwardRoot w q') : q = q' := by
  have hs : q ^ 2 = q' ^ 2 := h.1.trans h'.1.symm
  rcases sq_eq_sq_iff_eq_or_eq_neg.1 hs with h1 | h1
  · exact h1
  · have him : q.im = 0 := by
      have a := h.2.1
      have b := h'.2.1
      rw [h1, Complex.neg_im] at a
      rw [h1, Complex.neg_im]
      linarith
    have him' : q'.im = 0 := by rw [h1, Complex.neg_im] at him; linarith
    have hre := h.2.2 him
    have hre' := h'.2.2 him'
    rw [h1, Complex.neg_re] at hre
    have : q'.re = 0 := by linarith
    have e : q' = 0 := Complex.ext this him'
    rw [h1, e, neg_zero]

/-! ### The matrices of the numerical eigensolve -/

theorem kMatrixPatterned_eq_ok {z : Matrix ι ι ℂ} {k : ι → ℝ × ℝ} {X : Matrix (ι ⊕ ι) (ι ⊕ ι) ℂ} :
    kMatrixPatterned z k = .ok X ↔ IsUnit z.det ∧ X = Matrix.fromBlocks
      (diagonal (kxOf k) * z⁻¹ * diagonal (kxOf k)) (diagonal (kxOf k) * z⁻¹ * diagonal (kyOf k))
      (diagonal (kyOf k) * z⁻¹ * diagonal (kxOf k)) (diagonal (kyOf k) * z⁻¹ * diagonal (kyOf k)) := by
  unfold kMatrixPatterned
  by_cases hu : IsUnit z.det
  · simp only [solve_of_isUnit _ hu, bind_eq_ok, ok_inj, exists_eq_left', rowScale_eq, diag_eq, hu, true_and,
      Matrix.mul_assoc]
    exact eq_comm
  · simp only [bind_eq_ok, solve_eq_ok, hu, false_and, exists_false]

variable {eig : Matrix (ι ⊕ ι) (ι ⊕ ι) ℂ → (ι ⊕ ι → ℂ) × Matrix (ι ⊕ ι) (ι ⊕ ι) ℂ}

/-- The layer record assembled by the numerical eigensolve. -/
noncomputable def solvedLayer (wavelength : ℝ) (inPlane : ℝ × ℝ) (l : LatticeVectors) (m : FourierMatrices ι)
    (G : ι → ℤ × ℤ) (q : ι ⊕ ι → ℂ) (v : Matrix (ι ⊕ ι) (ι ⊕ ι) ℂ) : LayerSolveResult ι :=
  { wavelength := wavelength, inPlaneWavevector := inPlane, primitiveLatticeVectors := l, expansion := G,
    eigenvalues := q, eigenvectors := v,
    zPermittivityMatrix := m.zPermittivity, inverseZPermittivityMatrix := m.inverseZPermittivity,
    zPermeabilityMatrix := m.zPermeability, inverseZPermeabilityMatrix := m.inverseZPermeability,
    transversePermeabilityMatrix := m.transversePermeability }

theorem eigenproblemMatrix_ok_iff {wavelength : ℝ} {inPlane : ℝ × ℝ} {l : LatticeVectors} {m : FourierMatrices ι}
    {G : ι → ℤ × ℤ} {k : ι → ℝ × ℝ} {A : Matrix (ι ⊕ ι) (ι ⊕ ι) ℂ} (q : ι ⊕ ι → ℂ) (v : Matrix (ι ⊕ ι) (ι ⊕ ι) ℂ)
    (hk : transverseWavevectors inPlane l G = .ok k) :
    eigenproblemMatrix wavelength k m = .ok A ↔
      wavelength ≠ 0 ∧ IsUnit m.zPermittivity.det ∧ IsUnit m.zPermeability.det ∧
      A = m.transversePermittivity * magneticToElectric (solvedLayer wavelength inPlane l m G q v) -
        divergenceMatrix (solvedLayer wavelength inPlane l m G q v) * m.transversePermeability := by
  have hk' : k = orderWavevector (solvedLayer wavelength inPlane l m G q v) :=
    (transverseWavevectors_layer (l := solvedLayer wavelength inPlane l m G q v).1 hk).2
  subst hk'
  unfold eigenproblemMatrix omegaScriptKMatrixPatterned
  simp only [bind_eq_ok, kMatrixPatterned_eq_ok, scriptKMatrixPatterned_eq_ok, angularFrequency_eq_ok, ok_inj]
  constructor
  · rintro ⟨K, ⟨h1, rfl⟩, S, ⟨T, ⟨h2, rfl⟩, w, ⟨h3, rfl⟩, rfl⟩, rfl⟩
    exact ⟨h3, h2, h1, rfl⟩
  · rintro ⟨h3, h2, h1, rfl⟩
    exact ⟨_, ⟨h1, rfl⟩, _, ⟨_, ⟨h2, rfl⟩, _, ⟨h3, rfl⟩, rfl⟩, rfl⟩

/-- The numerical eigensolve: when it succeeds and what it returns. -/
theorem numericalEigensolve_ok_iff {wavelength : ℝ} {inPlane : ℝ × ℝ} {l : LatticeVectors} {m : FourierMatrices ι}
    {G : ι → ℤ × ℤ} {r : LayerSolveResult ι} :
    numericalEigensolve eig wavelength inPlane l m G = .ok r ↔
      ∃ k A, transverseWavevectors inPlane l G = .ok k ∧ eigenproblemMatrix wavelength k m = .ok A ∧
        r = solvedLayer wavelength inPlane l m G (fun i => selectEigenvaluesSign (csqrt ((eig A).1 i))) (eig A).2 := by
  unfold numericalEigensolve
  simp only [bind_eq_ok, ok_inj]
  constructor
  · rintro ⟨k, hk, A, hA, rfl⟩; exact ⟨k, A, hk, hA, rfl⟩
  · rintro ⟨k, A, hk, hA, rfl⟩; exact ⟨k, hk, A, hA, rfl⟩

/-- A layer returned by the numerical eigensolve satisfies the mode equation with forward roots. -/
theorem numericalEigensolve_modes (he : IsEig eig) {wavelength : ℝ} {inPlane : ℝ × ℝ} {l : LatticeVectors}
    {m : FourierMatrices ι} {G : ι → ℤ × ℤ} {r : LayerSolveResult ι}
    (h : numericalEigensolve eig wavelength inPlane l m G = .ok r) :
    WellPosed r ∧ IsUnit r.zPermeabilityMatrix.det ∧ ModeEquation r m.transversePermittivity ∧
      ∀ i, IsForwardRoot (r.eigenvalues i ^ 2) (r.eigenvalues i) := by
  obtain ⟨k, A, hk, hA, rfl⟩ := numericalEigensolve_ok_iff.1 h
  obtain ⟨h1, h2, h3, hA'⟩ :=
    (eigenproblemMatrix_ok_iff (fun i => selectEigenvaluesSign (csqrt ((eig A).1 i))) (eig A).2 hk).1 hA
  refine ⟨⟨h1, ?_, h2⟩, h3, ?_, ?_⟩
  · exact (transverseWavevectors_layer (l := solvedLayer wavelength inPlane l m G _ _).1 hk).1
  · unfold ModeEquation
    have e : (fun i => (solvedLayer wavelength inPlane l m G
        (fun i => selectEigenvaluesSign (csqrt ((eig A).1 i))) (eig A).2).eigenvalues i ^ 2) = (eig A).1 := by
      funext i
      exact (selectEigenvaluesSign_forward _).1
    rw [e]
    exact (congrArg (· * (eig A).2) hA'.symm).trans (he.eigen A)
  · intro i
    have := selectEigenvaluesSign_forward ((eig A).1 i)
    exact ⟨rfl, this.2⟩

/-! ### Spectra of similar diagonal matrices -/

theorem exists_perm_of_map_eq {n α : Type} [Fintype n] [DecidableEq n] {d e : n → α}
    (h : Finset.univ.val.map d = Finset.univ.val.map e) : ∃ σ : Equiv.Perm n, e = d ∘ σ := by
  classical
  have hc : ∀ c, Nonempty ({i // e i = c} ≃ {i // d i = c}) := by
    intro c
    rw [← Fintype.card_eq]
    have := congrArg (Multiset.count c) h
    rw [Multiset.count_map, Multiset.count_map, ← Finset.filter_val, ← Finset.filter_val, Finset.card_val,
      Finset.card_val] at this
    rw [Fintype.card_subtype, Fintype.card_subtype]
    simpa [eq_comm] using this.symm
  refine ⟨Equiv.ofFiberEquiv fun c => (hc c).some, ?_⟩
  funext i
  exact (Equiv.ofFiberEquiv_map (fun c => (hc c).some) i).symm

theorem perm_of_similar {n : Type} [Fintype n] [DecidableEq n] {A V W : Matrix n n ℂ} {d e : n → ℂ}
    (hV : IsUnit V.det) (hW : IsUnit W.det) (h1 : A * V = V * diagonal d) (h2 : A * W = W * diagonal e) :
    ∃ σ : Equiv.Perm n, e = d ∘ σ := by
  have key : ∀ {V : Matrix n n ℂ} {d : n → ℂ}, IsUnit V.det → A * V = V * diagonal d →
      A.charpoly = (diagonal d).charpoly := by
    intro V d hV h
    have hA : A = V * diagonal d * V⁻¹ := by
      rw [← h, Matrix.mul_assoc, Matrix.mul_nonsing_inv _ hV, Matrix.mul_one]
    have := Matrix.charpoly_units_conj ((Matrix.isUnit_iff_isUnit_det V).2 hV).unit (diagonal d)
    rw [hA, ← this]
    rfl
  have hc := (key hV h1).symm.trans (key hW h2)
  rw [charpoly_diagonal, charpoly_diagonal] at hc
  have hr := congrArg Polynomial.roots hc
  have hroots : ∀ d : n → ℂ, (∏ i, (Polynomial.X - Polynomial.C (d i))).roots = Finset.univ.val.map d := by
    intro d
    have := Polynomial.roots_multiset_prod_X_sub_C (Finset.univ.val.map d)
    rw [Multiset.map_map] at this
    exact this
  rw [hroots, hroots] at hr
  exact exists_perm_of_map_eq hr

/-! ### Existence of eigendecompositions -/

/-- An eigendecomposition routine as required exists. -/
theorem exists_isEig (n : Type) [Fintype n] [DecidableEq n] :
    ∃ eig : Matrix n n ℂ → (n → ℂ) × Matrix n n ℂ, IsEig eig := by
  classical
  have key : ∀ A : Matrix n n ℂ, ∃ p : (n → ℂ) × Matrix n n ℂ, A * p.2 = p.2 * Matrix.diagonal p.1 ∧
      (∀ j, ∃ i, p.2 i j ≠ 0) ∧
      ((∃ (V : Matrix n n ℂ) (w : n → ℂ), IsUnit V.det ∧ A * V = V * Matrix.diagonal w) → IsUnit p.2.det) := by
    intro A
    by_cases h : ∃ (V : Matrix n n ℂ) (w : n → ℂ), IsUnit V.det ∧ A * V = V * Matrix.diagonal w
    · obtain ⟨V, w, hV, hA⟩ := h
      refine ⟨(w, V), hA, ?_, fun _ => hV⟩
      intro j
      by_contra hn
      push Not at hn
      exact hV.ne_zero (Matrix.det_eq_zero_of_column_eq_zero j hn)
    · rcases isEmpty_or_nonempty n with hn | hn
      · exact ⟨(0, 0), by ext i; exact hn.elim i, fun j => hn.elim j, fun h' => absurd h' h⟩
      · obtain ⟨c, hc⟩ := Module.End.exists_eigenvalue (K := ℂ) (Matrix.toLin' A)
        obtain ⟨v, hv⟩ := hc.exists_hasEigenvector
        have hv1 : A *ᵥ v = c • v := by
          have := hv.apply_eq_smul
          rwa [Matrix.toLin'_apply] at this
        refine ⟨(fun _ => c, Matrix.of fun i _ => v i), ?_, ?_, fun h' => absurd h' h⟩
        · ext i j
          rw [Matrix.mul_diagonal]
          have := congrFun hv1 i
          simp only [Matrix.mulVec, dotProduct, Pi.smul_apply, smul_eq_mul] at this
          rw [Matrix.mul_apply]
          simp only [Matrix.of_apply]
          rw [this, mul_comm]
        · intro j
          obtain ⟨i, hi⟩ := Function.ne_iff.1 hv.2
          exact ⟨i, hi⟩
  choose eig h1 h2 h3 using key
  exact ⟨eig, h1, h2, fun A V w hV hA => h3 A ⟨V, w, hV, hA⟩⟩

end Fmmax
