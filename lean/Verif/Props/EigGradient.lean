import Verif.Spec.EigGradient
import Verif.Props.Utils
import Verif.Props.SmoothMedium

/-!
C118: what the backward rule of the eigendecomposition computes for losses that do not depend on the choice of eigenvectors.
-/

namespace Fmmax

open Matrix Spec Topology

variable {n : Type} [Fintype n] [DecidableEq n]

/-! ### Derivatives of matrices -/

theorem pairing_eq_trace (g d : Matrix n n ℂ) : gradientPairing g d = (trace (gᵀ * d)).re := by
  unfold gradientPairing
  congr 1
  rw [Finset.sum_comm]
  simp [trace, Matrix.mul_apply]

theorem hasDerivAt_mul_entry {A B : ℝ → Matrix n n ℂ} {dA dB : Matrix n n ℂ} (hA : ∀ i j, HasDerivAt (fun t => A t i j) (dA i j) 0)
    (hB : ∀ i j, HasDerivAt (fun t => B t i j) (dB i j) 0) (i j : n) :
    HasDerivAt (fun t => (A t * B t) i j) ((dA * B 0 + A 0 * dB) i j) 0 := by
  simp only [mul_apply, Matrix.add_apply, ← Finset.sum_add_distrib]
  exact HasDerivAt.fun_sum fun k _ => (hA i k).fun_mul (hB k j)

theorem Spec.SmoothMat.hasDerivAt {A : ℝ → Matrix n n ℂ} (hA : SmoothMat 1 0 A) :
    ∃ dA : Matrix n n ℂ, ∀ i j, HasDerivAt (fun t => A t i j) (dA i j) 0 :=
  ⟨Matrix.of fun i j => deriv (fun t => A t i j) 0, fun i j => ((hA i j).differentiableAt one_ne_zero).hasDerivAt⟩

theorem hasDerivAt_inv_entry {V : ℝ → Matrix n n ℂ} {dV : Matrix n n ℂ} (hs : SmoothMat 1 0 V) (hV : ∀ i j, HasDerivAt (fun t => V t i j) (dV i j) 0)
    (hu : IsUnit (V 0).det) (i j : n) : HasDerivAt (fun t => (V t)⁻¹ i j) ((-((V 0)⁻¹ * dV * (V 0)⁻¹)) i j) 0 := by
  obtain ⟨dW, hW⟩ := (hs.inv hu.ne_zero).hasDerivAt
  have hone : ∀ᶠ t in 𝓝 (0 : ℝ), V t * (V t)⁻¹ = 1 := by
    filter_upwards [hs.det.continuousAt.eventually_ne hu.ne_zero] with t ht
    exact mul_nonsing_inv _ (isUnit_iff_ne_zero.2 ht)
  have h : dV * (V 0)⁻¹ + V 0 * dW = 0 := by
    ext a b
    have h1 := hasDerivAt_mul_entry hV hW a b
    have h2 : HasDerivAt (fun t => (V t * (V t)⁻¹) a b) 0 0 :=
      (hasDerivAt_const (0 : ℝ) ((1 : Matrix n n ℂ) a b)).congr_of_eventuallyEq (hone.mono fun t ht => congrFun (congrFun ht a) b)
    exact h1.unique h2
  have e : dW = -((V 0)⁻¹ * dV * (V 0)⁻¹) := by
    have := congrArg (fun X => (V 0)⁻¹ * X) h
    simp only [Matrix.mul_add, Matrix.mul_zero, nonsing_inv_mul_cancel_left _ _ hu] at this
    rw [← Matrix.mul_assoc] at this
    exact eq_neg_of_add_eq_zero_right this
  rw [← e]
  exact hW i j

theorem hasDerivAt_root {W : ℝ → ℂ} {dW : ℂ} (hs : ContDiffAt ℝ 1 W 0) (hW : HasDerivAt W dW 0)
    (hq : 0 < (selectEigenvaluesSign (csqrt (W 0))).im) :
    HasDerivAt (fun t => selectEigenvaluesSign (csqrt (W t))) (dW / (2 * selectEigenvaluesSign (csqrt (W 0)))) 0 := by
  have hq0 : selectEigenvaluesSign (csqrt (W 0)) ≠ 0 := fun h => by
    rw [h] at hq
    simp at hq
  have hc := contDiffAt_forward hs (fun h => hq0 (by
    have := (selectEigenvaluesSign_forward (W 0)).1
    rw [h] at this
    exact pow_eq_zero_iff two_ne_zero |>.1 (by rw [h]; exact this))) fun h => absurd h hq.ne'
  have hd := (hc.differentiableAt one_ne_zero).hasDerivAt
  have h1 := hd.fun_mul hd
  have h2 : (fun t => selectEigenvaluesSign (csqrt (W t)) * selectEigenvaluesSign (csqrt (W t))) = W := by
    funext t
    rw [← pow_two]
    exact (selectEigenvaluesSign_forward (W t)).1
  rw [h2] at h1
  have h3 := h1.unique hW
  have e : dW / (2 * selectEigenvaluesSign (csqrt (W 0))) = deriv (fun t => selectEigenvaluesSign (csqrt (W t))) 0 := by
    rw [← h3]
    field_simp
    ring
  rw [e]
  exact hd

/-- The differential of the propagation matrix, as automatic differentiation finds it. -/
theorem hasDerivAt_propagationMatrix {l : n → ℂ} {V : Matrix n n ℂ} (hu : IsUnit V.det) (hq : ∀ i, 0 < (forwardRoots l i).im)
    (dl : n → ℂ) (dV : Matrix n n ℂ) (i j : n) :
    HasDerivAt (fun t : ℝ => propagationMatrix (fun i => l i + t * dl i) (V + (t : ℂ) • dV) i j)
      ((dV * diagonal (forwardRoots l) * V⁻¹ + V * diagonal (fun i => dl i / (2 * forwardRoots l i)) * V⁻¹ -
        propagationMatrix l V * dV * V⁻¹) i j) 0 := by
  have hid : ContDiffAt ℝ 1 (fun t : ℝ => (t : ℂ)) 0 := contDiffAt_ofReal contDiffAt_id
  have hdid : HasDerivAt (fun t : ℝ => (t : ℂ)) 1 0 := (hasDerivAt_id (0 : ℝ)).ofReal_comp
  have hsV : SmoothMat 1 0 fun t : ℝ => V + (t : ℂ) • dV := fun a b => contDiffAt_const.add (hid.mul contDiffAt_const)
  have hdV : ∀ a b, HasDerivAt (fun t : ℝ => (V + (t : ℂ) • dV) a b) (dV a b) 0 := fun a b => by
    simpa using (hdid.mul_const (dV a b)).const_add (V a b)
  have e0 : V + ((0 : ℝ) : ℂ) • dV = V := by simp
  have hinv := hasDerivAt_inv_entry hsV hdV (by rw [e0]; exact hu)
  have hroot : ∀ a b, HasDerivAt (fun t : ℝ => diagonal (forwardRoots fun i => l i + t * dl i) a b)
      (diagonal (fun i => dl i / (2 * forwardRoots l i)) a b) 0 := by
    intro a b
    by_cases hab : a = b
    · subst hab
      simp only [diagonal_apply_eq]
      have := hasDerivAt_root (W := fun t : ℝ => l a + t * dl a) (dW := dl a) (contDiffAt_const.add (hid.mul contDiffAt_const))
        (by simpa using (hdid.mul_const (dl a)).const_add (l a)) (by simpa [forwardRoots] using hq a)
      simpa [forwardRoots] using this
    · simp only [diagonal_apply_ne _ hab]
      exact hasDerivAt_const _ _
  have := hasDerivAt_mul_entry (hasDerivAt_mul_entry hdV hroot) hinv i j
  simp only [Complex.ofReal_zero, zero_mul, add_zero, zero_smul] at this
  refine Eq.subst (motive := fun d => HasDerivAt _ d 0) (congrFun (congrFun ?_ i) j) this
  simp only [Matrix.add_mul, propagationMatrix, Matrix.mul_neg, Matrix.mul_assoc, sub_eq_add_neg]
  rfl

/-- The chain rule. -/
theorem IsModeGradient.pairing_eq {L : Matrix n n ℂ → ℝ} {l : n → ℂ} {V gX gV : Matrix n n ℂ} {gl : n → ℂ} (hu : IsUnit V.det)
    (hq : ∀ i, 0 < (forwardRoots l i).im) (hL : IsGradient L (propagationMatrix l V) gX)
    (hg : IsModeGradient (fun l V => L (propagationMatrix l V)) l V gl gV) (dl : n → ℂ) (dV : Matrix n n ℂ) :
    (∑ j, gl j * dl j).re + gradientPairing gV dV = gradientPairing gX (dV * diagonal (forwardRoots l) * V⁻¹ +
      V * diagonal (fun i => dl i / (2 * forwardRoots l i)) * V⁻¹ - propagationMatrix l V * dV * V⁻¹) := by
  refine (hg dl dV).unique (hL _ _ ?_ (hasDerivAt_propagationMatrix hu hq dl dV))
  simp

/-- Any loss that is a differentiable function of the propagation matrix has gradients with respect to the modes. -/
theorem exists_modeGradient {L : Matrix n n ℂ → ℝ} {l : n → ℂ} {V gX : Matrix n n ℂ} (hu : IsUnit V.det)
    (hq : ∀ i, 0 < (forwardRoots l i).im) (hL : IsGradient L (propagationMatrix l V) gX) :
    ∃ gl gV, IsModeGradient (fun l V => L (propagationMatrix l V)) l V gl gV := by
  refine ⟨fun j => (V⁻¹ * gXᵀ * V) j j / (2 * forwardRoots l j),
    (diagonal (forwardRoots l) * V⁻¹ * gXᵀ - V⁻¹ * gXᵀ * propagationMatrix l V)ᵀ, fun dl dV => ?_⟩
  convert hL _ _ (by simp) (hasDerivAt_propagationMatrix hu hq dl dV) using 1
  rw [pairing_eq_trace, pairing_eq_trace, transpose_transpose, ← Complex.add_re]
  congr 1
  have e1 : ∑ j, (V⁻¹ * gXᵀ * V) j j / (2 * forwardRoots l j) * dl j =
      trace (gXᵀ * (V * diagonal (fun i => dl i / (2 * forwardRoots l i)) * V⁻¹)) := by
    rw [← Matrix.mul_assoc, trace_mul_comm, ← Matrix.mul_assoc, ← Matrix.mul_assoc]
    simp only [trace, diag_apply, mul_diagonal]
    exact Finset.sum_congr rfl fun j _ => by ring
  have e2 : trace ((diagonal (forwardRoots l) * V⁻¹ * gXᵀ - V⁻¹ * gXᵀ * propagationMatrix l V) * dV) =
      trace (gXᵀ * (dV * diagonal (forwardRoots l) * V⁻¹ - propagationMatrix l V * dV * V⁻¹)) := by
    rw [Matrix.sub_mul, Matrix.mul_sub, trace_sub, trace_sub]
    congr 1
    · rw [Matrix.mul_assoc, Matrix.mul_assoc, trace_mul_comm, Matrix.mul_assoc, trace_mul_comm, Matrix.mul_assoc,
        Matrix.mul_assoc, Matrix.mul_assoc]
    · rw [Matrix.mul_assoc, Matrix.mul_assoc, trace_mul_comm, Matrix.mul_assoc]
  rw [e1, e2, ← trace_add, ← Matrix.mul_add]
  congr 2
  abel


/-! ### The backward rule -/

/-- The factors by which the broadening `ε` reduces contributions of pairs of modes. -/
noncomputable def broadeningWeight (ε : ℝ) (l : n → ℂ) (i j : n) : ℂ :=
  if i = j then 1 else ((‖l j - l i‖ ^ 2 / (‖l j - l i‖ ^ 2 + ε) : ℝ) : ℂ)

theorem forwardRoots_sq (l : n → ℂ) (i : n) : forwardRoots l i ^ 2 = l i := (selectEigenvaluesSign_forward (l i)).1

theorem forwardRoots_add_ne_zero {l : n → ℂ} (hq : ∀ i, 0 < (forwardRoots l i).im) (i j : n) :
    forwardRoots l i + forwardRoots l j ≠ 0 := by
  intro h
  have := add_pos (hq i) (hq j)
  rw [← Complex.add_im, h] at this
  simp at this

/-- **C118** For losses that depend on the modes through the propagation matrix only, the gradient that the backward rule computes
pairs with a change `dA` of the matrix as the gradient of the loss with the change of the propagation matrix in first-order
perturbation theory, in which the contribution of each pair of modes is multiplied with `δ² / (δ² + ε)`. -/
theorem C118_computed_gradient {epsRelative : ℝ} {L : Matrix n n ℂ → ℝ} {l : n → ℂ} {V gX gV gA : Matrix n n ℂ} {gl : n → ℂ}
    (hq : ∀ i, 0 < (forwardRoots l i).im) (hL : IsGradient L (propagationMatrix l V) gX)
    (hg : IsModeGradient (fun l V => L (propagationMatrix l V)) l V gl gV) (h : eigBwd epsRelative l V gl gV = .ok gA)
    (dA : Matrix n n ℂ) :
    gradientPairing gA dA = gradientPairing gX (V * Matrix.of (fun i j => broadeningWeight (eigEps epsRelative l) l i j *
      ((V⁻¹ * dA * V) i j / (forwardRoots l i + forwardRoots l j))) * V⁻¹) := by
  have hu : IsUnit V.det := (C70_finite epsRelative l V gl gV).1 ⟨gA, h⟩
  have key := C70_regularised h dA
  dsimp only at key
  set M := V⁻¹ * dA * V with hM
  set F : Matrix n n ℂ := Matrix.of fun i j => if i = j then 0 else star (l j - l i) / ((‖l j - l i‖ ^ 2 + eigEps epsRelative l : ℝ) : ℂ) * M i j with hF
  set D : n → ℂ := fun j => (((Vᴴ * (V * F)) j j).re : ℂ) with hD
  have e1 : (∑ i, ∑ j, gV i j * ((V * F) i j - V i j * (((Vᴴ * (V * F)) j j).re : ℂ))).re = gradientPairing gV (V * F - V * diagonal D) := by
    unfold gradientPairing
    simp only [Matrix.sub_apply, mul_diagonal, hD]
  rw [e1, IsModeGradient.pairing_eq hu hq hL hg] at key
  change gradientPairing gA dA = _ at key
  rw [key]
  congr 1
  have hi : V⁻¹ * V = 1 := nonsing_inv_mul _ hu
  have c1 : V * diagonal D * diagonal (forwardRoots l) * V⁻¹ = propagationMatrix l V * (V * diagonal D) * V⁻¹ := by
    unfold propagationMatrix
    calc V * diagonal D * diagonal (forwardRoots l) * V⁻¹ = V * (diagonal D * diagonal (forwardRoots l)) * V⁻¹ := by
          rw [Matrix.mul_assoc V]
      _ = V * (diagonal (forwardRoots l) * diagonal D) * V⁻¹ := by
          rw [diagonal_mul_diagonal, diagonal_mul_diagonal]
          simp only [mul_comm]
      _ = V * diagonal (forwardRoots l) * (V⁻¹ * V) * diagonal D * V⁻¹ := by
          rw [hi, Matrix.mul_one]
          simp only [Matrix.mul_assoc]
      _ = _ := by simp only [Matrix.mul_assoc]
  have c2 : propagationMatrix l V * (V * F) * V⁻¹ = V * (diagonal (forwardRoots l) * F) * V⁻¹ := by
    unfold propagationMatrix
    calc _ = V * diagonal (forwardRoots l) * (V⁻¹ * V) * F * V⁻¹ := by simp only [Matrix.mul_assoc]
      _ = _ := by rw [hi, Matrix.mul_one, Matrix.mul_assoc V]
  have c3 : (V * F - V * diagonal D) * diagonal (forwardRoots l) * V⁻¹ +
      V * diagonal (fun i => M i i / (2 * forwardRoots l i)) * V⁻¹ - propagationMatrix l V * (V * F - V * diagonal D) * V⁻¹ =
      V * (F * diagonal (forwardRoots l) - diagonal (forwardRoots l) * F + diagonal fun i => M i i / (2 * forwardRoots l i)) * V⁻¹ := by
    rw [Matrix.sub_mul, Matrix.sub_mul, Matrix.mul_sub, Matrix.sub_mul, c1, c2]
    simp only [Matrix.mul_add, Matrix.mul_sub, Matrix.add_mul, Matrix.sub_mul, Matrix.mul_assoc]
    abel
  rw [c3]
  congr 2
  ext i j
  simp only [Matrix.add_apply, Matrix.sub_apply, mul_diagonal, diagonal_mul, Matrix.of_apply, hF, broadeningWeight]
  by_cases hij : i = j
  · subst hij
    simp only [if_true, zero_mul, mul_zero, sub_zero, zero_add, diagonal_apply_eq, one_mul, ← two_mul]
  · simp only [if_neg hij, diagonal_apply_ne _ hij, add_zero]
    have hs := forwardRoots_add_ne_zero hq i j
    have hδ : l j - l i = (forwardRoots l j - forwardRoots l i) * (forwardRoots l i + forwardRoots l j) := by
      rw [← forwardRoots_sq l i, ← forwardRoots_sq l j]
      ring
    have hn : star (l j - l i) * (l j - l i) = ((‖l j - l i‖ ^ 2 : ℝ) : ℂ) := by
      rw [Complex.star_def, ← Complex.normSq_eq_conj_mul_self, Complex.normSq_eq_norm_sq]
    rw [Complex.ofReal_div, ← hn]
    have hε : ((‖l j - l i‖ ^ 2 + eigEps epsRelative l : ℝ) : ℂ) ≠ 0 := by
      have := C70_denominators epsRelative l i j
      simp only [deltaEig, Matrix.of_apply] at this
      exact_mod_cast this.ne'
    generalize ((‖l j - l i‖ ^ 2 + eigEps epsRelative l : ℝ) : ℂ) = N at hε ⊢
    rw [show star (l j - l i) * (l j - l i) = star (l j - l i) * ((forwardRoots l j - forwardRoots l i) * (forwardRoots l i + forwardRoots l j))
      by rw [← hδ]]
    field_simp

/-- **C118** The true derivative of the propagation matrix, whatever eigenvectors and whichever order of eigenvalues are found. -/
theorem C118_true_derivative {A : ℝ → Matrix n n ℂ} {dA : Matrix n n ℂ} (hs : SmoothMat 1 0 A)
    (hA : ∀ i j, HasDerivAt (fun t => A t i j) (dA i j) 0) {l : ℝ → n → ℂ} {V : ℝ → Matrix n n ℂ}
    (hV : ∀ᶠ t in 𝓝 (0 : ℝ), IsUnit (V t).det ∧ A t * V t = V t * diagonal (l t)) (hq : ∀ i, 0 < (forwardRoots (l 0) i).im) (i j : n) :
    HasDerivAt (fun t => propagationMatrix (l t) (V t) i j) ((V 0 * Matrix.of (fun i j =>
      ((V 0)⁻¹ * dA * V 0) i j / (forwardRoots (l 0) i + forwardRoots (l 0) j)) * (V 0)⁻¹) i j) 0 := by
  have hu : IsUnit (V 0).det := hV.self_of_nhds.1
  have hconj : ∀ t, IsUnit (V t).det → A t * V t = V t * diagonal (l t) → A t = V t * diagonal (l t) * (V t)⁻¹ := by
    intro t h1 h2
    rw [← h2, Matrix.mul_assoc, mul_nonsing_inv _ h1, Matrix.mul_one]
  have hU : IsOpen {w : ℂ | -w ∈ Complex.slitPlane} := Complex.isOpen_slitPlane.preimage continuous_neg
  have hroots : ∀ᶠ t in 𝓝 (0 : ℝ), ∀ i, 0 < (-Complex.I * forwardRoots (l t) i).re := by
    have hs0 : spectrum ℂ (A 0) ⊆ {w : ℂ | -w ∈ Complex.slitPlane} := by
      rw [hconj 0 hu hV.self_of_nhds.2, spectrum_conj_diagonal hu]
      rintro _ ⟨i, rfl⟩
      have := neg_sq_mem_slitPlane (hq i)
      rwa [forwardRoots_sq] at this
    filter_upwards [hs.eventually_spectrum hU hs0, hV] with t h1 h2 i
    rw [hconj t h2.1 h2.2, spectrum_conj_diagonal h2.1] at h1
    have := forward_im_pos (h1 ⟨i, rfl⟩)
    simpa [forwardRoots] using this
  obtain ⟨X, hX, hXe⟩ := hs.sqrt (φ := V) (q := fun t => forwardRoots (l t)) hu hroots (hV.mono fun t ht => by
    simp only [forwardRoots_sq]
    exact ht.2)
  obtain ⟨dX, hdX⟩ := hX.hasDerivAt
  have hXV : ∀ᶠ t in 𝓝 (0 : ℝ), X t = propagationMatrix (l t) (V t) := by
    filter_upwards [hXe, hV] with t h1 h2
    exact h1 h2.1
  have hX0 := hXV.self_of_nhds
  have hXX : ∀ᶠ t in 𝓝 (0 : ℝ), X t * X t = A t := by
    filter_upwards [hXV, hV] with t h1 h2
    rw [h1, hconj t h2.1 h2.2]
    unfold propagationMatrix
    calc _ = V t * diagonal (forwardRoots (l t)) * ((V t)⁻¹ * V t) * diagonal (forwardRoots (l t)) * (V t)⁻¹ := by simp only [Matrix.mul_assoc]
      _ = V t * (diagonal (forwardRoots (l t)) * diagonal (forwardRoots (l t))) * (V t)⁻¹ := by
        rw [nonsing_inv_mul _ h2.1, Matrix.mul_one, Matrix.mul_assoc (V t)]
      _ = _ := by
        rw [diagonal_mul_diagonal]
        simp only [← pow_two, forwardRoots_sq]
  have hsyl : dX * X 0 + X 0 * dX = dA := by
    ext a b
    refine (hasDerivAt_mul_entry hdX hdX a b).unique ((hA a b).congr_of_eventuallyEq (hXX.mono fun t ht => ?_))
    exact congrFun (congrFun ht a) b
  have hdXe : dX = V 0 * Matrix.of (fun i j => ((V 0)⁻¹ * dA * V 0) i j / (forwardRoots (l 0) i + forwardRoots (l 0) j)) * (V 0)⁻¹ := by
    have hY : (V 0)⁻¹ * dX * V 0 = Matrix.of fun i j => ((V 0)⁻¹ * dA * V 0) i j / (forwardRoots (l 0) i + forwardRoots (l 0) j) := by
      ext a b
      have e : ((V 0)⁻¹ * dX * V 0) * diagonal (forwardRoots (l 0)) + diagonal (forwardRoots (l 0)) * ((V 0)⁻¹ * dX * V 0) =
          (V 0)⁻¹ * dA * V 0 := by
        rw [← hsyl, hX0]
        unfold propagationMatrix
        have hi : (V 0)⁻¹ * V 0 = 1 := nonsing_inv_mul _ hu
        simp only [Matrix.mul_add, Matrix.add_mul]
        congr 1
        · calc _ = (V 0)⁻¹ * dX * V 0 * diagonal (forwardRoots (l 0)) * ((V 0)⁻¹ * V 0) := by rw [hi, Matrix.mul_one]
            _ = _ := by simp only [Matrix.mul_assoc]
        · calc _ = ((V 0)⁻¹ * V 0) * diagonal (forwardRoots (l 0)) * ((V 0)⁻¹ * dX * V 0) := by rw [hi, Matrix.one_mul]
            _ = _ := by simp only [Matrix.mul_assoc]
      have e' := congrFun (congrFun e a) b
      rw [Matrix.add_apply, mul_diagonal, diagonal_mul] at e'
      rw [Matrix.of_apply, ← e', eq_div_iff (forwardRoots_add_ne_zero hq a b)]
      ring
    rw [← hY]
    calc dX = (V 0 * (V 0)⁻¹) * dX * (V 0 * (V 0)⁻¹) := by rw [mul_nonsing_inv _ hu, Matrix.one_mul, Matrix.mul_one]
      _ = _ := by simp only [Matrix.mul_assoc]
  rw [← hdXe]
  exact (hdX i j).congr_of_eventuallyEq (hXV.mono fun t ht => (congrFun (congrFun ht i) j).symm)

/-- **C118** The error of the computed gradient: each pair of different modes contributes with the relative error `ε / (δ² + ε)`. -/
theorem C118_gradient_error {epsRelative : ℝ} {L : Matrix n n ℂ → ℝ} {A : ℝ → Matrix n n ℂ} {dA : Matrix n n ℂ} (hs : SmoothMat 1 0 A)
    (hA : ∀ i j, HasDerivAt (fun t => A t i j) (dA i j) 0) {l : ℝ → n → ℂ} {V : ℝ → Matrix n n ℂ}
    (hV : ∀ᶠ t in 𝓝 (0 : ℝ), IsUnit (V t).det ∧ A t * V t = V t * diagonal (l t)) (hq : ∀ i, 0 < (forwardRoots (l 0) i).im)
    {gX gV gA : Matrix n n ℂ} {gl : n → ℂ} (hL : IsGradient L (propagationMatrix (l 0) (V 0)) gX)
    (hg : IsModeGradient (fun l V => L (propagationMatrix l V)) (l 0) (V 0) gl gV) (h : eigBwd epsRelative (l 0) (V 0) gl gV = .ok gA) :
    HasDerivAt (fun t => L (propagationMatrix (l t) (V t))) (gradientPairing gA dA + gradientPairing gX (V 0 * Matrix.of (fun i j =>
      if i = j then 0 else ((eigEps epsRelative (l 0) / (‖l 0 j - l 0 i‖ ^ 2 + eigEps epsRelative (l 0)) : ℝ) : ℂ) *
        (((V 0)⁻¹ * dA * V 0) i j / (forwardRoots (l 0) i + forwardRoots (l 0) j))) * (V 0)⁻¹)) 0 := by
  convert hL _ _ rfl (C118_true_derivative hs hA hV hq) using 1
  rw [C118_computed_gradient hq hL hg h, pairing_eq_trace, pairing_eq_trace, pairing_eq_trace, ← Complex.add_re, ← trace_add,
    ← Matrix.mul_add, ← Matrix.add_mul, ← Matrix.mul_add]
  congr 6
  ext i j
  simp only [Matrix.add_apply, Matrix.of_apply, broadeningWeight]
  split_ifs with hij
  · ring
  · rw [← add_mul, ← Complex.ofReal_add, ← add_div, div_self, Complex.ofReal_one, one_mul]
    have := C70_denominators epsRelative (l 0) i j
    simp only [deltaEig, Matrix.of_apply] at this
    exact this.ne'

/-- The coupling of the modes `i` and `j`. -/
noncomputable def coupling (V : Matrix n n ℂ) (i j : n) : Matrix n n ℂ := V * (single i j 1 + single j i 1) * V⁻¹

/-- A loss that measures the entry `(i, j)` of the propagation matrix in the basis `V`. -/
noncomputable def entryLoss (V : Matrix n n ℂ) (i j : n) (c : ℂ) (X : Matrix n n ℂ) : ℝ := (c * (V⁻¹ * X * V) i j).re

theorem isGradient_entryLoss (V : Matrix n n ℂ) (i j : n) (c : ℂ) (X : Matrix n n ℂ) :
    IsGradient (entryLoss V i j c) X (Matrix.of fun a b => c * (V⁻¹ i a * V b j)) := by
  intro Y dY _ hY
  have e : ∀ Z : Matrix n n ℂ, c * (V⁻¹ * Z * V) i j = ∑ a, ∑ b, c * (V⁻¹ i a * V b j) * Z a b := by
    intro Z
    rw [Matrix.mul_apply, Finset.mul_sum, Finset.sum_comm]
    refine Finset.sum_congr rfl fun b _ => ?_
    rw [Matrix.mul_apply, Finset.sum_mul, Finset.mul_sum]
    exact Finset.sum_congr rfl fun a _ => by ring
  unfold entryLoss gradientPairing
  simp only [e, Matrix.of_apply]
  have h : HasDerivAt (fun t => ∑ a, ∑ b, c * (V⁻¹ i a * V b j) * Y t a b) (∑ a, ∑ b, c * (V⁻¹ i a * V b j) * dY a b) 0 :=
    HasDerivAt.fun_sum fun a _ => HasDerivAt.fun_sum fun b _ => (hY a b).const_mul _
  exact Complex.reCLM.hasFDerivAt.comp_hasDerivAt (0 : ℝ) h

theorem pairing_entryLoss (V : Matrix n n ℂ) (i j : n) (c : ℂ) (Z : Matrix n n ℂ) :
    gradientPairing (Matrix.of fun a b => c * (V⁻¹ i a * V b j)) Z = (c * (V⁻¹ * Z * V) i j).re := by
  unfold gradientPairing
  congr 1
  rw [Matrix.mul_apply, Finset.mul_sum, Finset.sum_comm]
  refine Finset.sum_congr rfl fun b _ => ?_
  rw [Matrix.mul_apply, Finset.sum_mul, Finset.mul_sum]
  exact Finset.sum_congr rfl fun a _ => by rw [Matrix.of_apply]; ring

theorem coupling_conj {V : Matrix n n ℂ} (hu : IsUnit V.det) (i j : n) : V⁻¹ * coupling V i j * V = single i j 1 + single j i 1 := by
  have hi : V⁻¹ * V = 1 := nonsing_inv_mul _ hu
  unfold coupling
  calc _ = (V⁻¹ * V) * (single i j 1 + single j i 1) * (V⁻¹ * V) := by simp only [Matrix.mul_assoc]
    _ = _ := by rw [hi, Matrix.one_mul, Matrix.mul_one]

/-- **C118** If two modes are degenerate then the computed gradient takes no account of their coupling: for every loss it pairs to zero
with the change of the matrix that couples them, although there are losses whose derivative is one. -/
theorem C118_finding_degenerate_modes (epsRelative : ℝ) {l : n → ℂ} {V : Matrix n n ℂ} (hu : IsUnit V.det) {i j : n} (hij : i ≠ j)
    (hl : l i = l j) (hq : ∀ i, 0 < (forwardRoots l i).im) :
    (∀ L gX gl gV gA, IsGradient L (propagationMatrix l V) gX → IsModeGradient (fun l V => L (propagationMatrix l V)) l V gl gV →
      eigBwd epsRelative l V gl gV = .ok gA → gradientPairing gA (coupling V i j) = 0) ∧
    ∃ L gX gl gV gA, IsGradient L (propagationMatrix l V) gX ∧ IsModeGradient (fun l V => L (propagationMatrix l V)) l V gl gV ∧
      eigBwd epsRelative l V gl gV = .ok gA ∧ ∀ (lt : ℝ → n → ℂ) (Vt : ℝ → Matrix n n ℂ), lt 0 = l → Vt 0 = V →
        (∀ᶠ t : ℝ in 𝓝 0, IsUnit (Vt t).det ∧
          (V * diagonal l * V⁻¹ + (t : ℂ) • coupling V i j) * Vt t = Vt t * diagonal (lt t)) →
        HasDerivAt (fun t => L (propagationMatrix (lt t) (Vt t))) 1 0 := by
  have hi : V⁻¹ * V = 1 := nonsing_inv_mul _ hu
  have hji : j ≠ i := hij.symm
  constructor
  · intro L gX gl gV gA h1 h2 h3
    rw [C118_computed_gradient hq h1 h2 h3, coupling_conj hu]
    have e : (Matrix.of fun a b => broadeningWeight (eigEps epsRelative l) l a b * ((single i j 1 + single j i 1 : Matrix n n ℂ) a b /
        (forwardRoots l a + forwardRoots l b))) = 0 := by
      ext a b
      simp only [Matrix.of_apply, Matrix.add_apply, single_apply, Matrix.zero_apply, broadeningWeight]
      by_cases h1 : i = a ∧ j = b
      · obtain ⟨rfl, rfl⟩ := h1
        simp [hij, hl]
      · by_cases h2 : j = a ∧ i = b
        · obtain ⟨rfl, rfl⟩ := h2
          simp [hji, hl]
        · simp [h1, h2]
    rw [e]
    simp [gradientPairing]
  · have hL := isGradient_entryLoss V i j (2 * forwardRoots l i) (propagationMatrix l V)
    obtain ⟨gl, gV, hg⟩ := exists_modeGradient hu hq hL
    obtain ⟨gA, hA⟩ := (C70_finite epsRelative l V gl gV).2 hu
    refine ⟨_, _, gl, gV, gA, hL, hg, hA, ?_⟩
    rintro lt Vt rfl rfl hV
    have hid : ContDiffAt ℝ 1 (fun t : ℝ => (t : ℂ)) 0 := contDiffAt_ofReal contDiffAt_id
    have hdid : HasDerivAt (fun t : ℝ => (t : ℂ)) 1 0 := (hasDerivAt_id (0 : ℝ)).ofReal_comp
    have := hL _ _ rfl (C118_true_derivative (dA := coupling (Vt 0) i j) (fun a b => contDiffAt_const.add (hid.mul contDiffAt_const)) (fun a b => by
      simpa using (hdid.mul_const (coupling (Vt 0) i j a b)).const_add ((Vt 0 * diagonal (lt 0) * (Vt 0)⁻¹) a b)) hV hq)
    rw [coupling_conj hu, pairing_entryLoss] at this
    refine Eq.subst (motive := fun d => HasDerivAt _ d 0) ?_ this
    have hq0 : forwardRoots (lt 0) i ≠ 0 := fun h => by
      have := hq i
      rw [h] at this
      simp at this
    have hqj : forwardRoots (lt 0) j = forwardRoots (lt 0) i := by
      unfold forwardRoots
      rw [hl]
    have e : ∀ W : Matrix n n ℂ, (Vt 0)⁻¹ * (Vt 0 * W * (Vt 0)⁻¹) * Vt 0 = W := by
      intro W
      calc _ = ((Vt 0)⁻¹ * Vt 0) * W * ((Vt 0)⁻¹ * Vt 0) := by simp only [Matrix.mul_assoc]
        _ = _ := by rw [hi, Matrix.one_mul, Matrix.mul_one]
    rw [e]
    simp only [Matrix.of_apply, Matrix.add_apply, single_apply, and_self, if_true, hji, hij, false_and, if_false, add_zero, hqj]
    rw [← two_mul, mul_div_assoc', mul_one, div_self (mul_ne_zero two_ne_zero hq0), Complex.one_re]

/-- Another basis of eigenvectors for two degenerate modes. -/
noncomputable def hadamard : Matrix (Fin 2) (Fin 2) ℂ := ((Real.sqrt (1 / 2) : ℝ) : ℂ) • !![1, 1; 1, -1]

theorem hadamard_mul : hadamard * hadamard = 1 := by
  have h : (((Real.sqrt (1 / 2) : ℝ) : ℂ)) * ((Real.sqrt (1 / 2) : ℝ) : ℂ) = 1 / 2 := by
    rw [← Complex.ofReal_mul, Real.mul_self_sqrt (by norm_num)]
    norm_num
  unfold hadamard
  rw [Matrix.smul_mul, Matrix.mul_smul, smul_smul, h]
  ext a b
  fin_cases a <;> fin_cases b <;> simp [Matrix.mul_apply] <;> norm_num

/-- **C118** For degenerate modes the computed gradient depends on the eigenvectors that the eigensolver happens to choose: two
decompositions of the same matrix, the same loss and the same change of the matrix give `0` and `1`. -/
theorem C118_finding_choice_of_eigenvectors (epsRelative : ℝ) {w : ℂ} (hq : 0 < (selectEigenvaluesSign (csqrt w)).im) :
    ∃ (L : Matrix (Fin 2) (Fin 2) ℂ → ℝ) (dA V V' : Matrix (Fin 2) (Fin 2) ℂ), IsUnit V.det ∧ IsUnit V'.det ∧
      (w • (1 : Matrix (Fin 2) (Fin 2) ℂ)) * V = V * diagonal (fun _ => w) ∧
      (w • (1 : Matrix (Fin 2) (Fin 2) ℂ)) * V' = V' * diagonal (fun _ => w) ∧
      propagationMatrix (fun _ => w) V = propagationMatrix (fun _ => w) V' ∧
      (∃ gX, IsGradient L (propagationMatrix (fun _ => w) V) gX) ∧
      ∀ gl gV gA gl' gV' gA', IsModeGradient (fun l V => L (propagationMatrix l V)) (fun _ => w) V gl gV →
        IsModeGradient (fun l V => L (propagationMatrix l V)) (fun _ => w) V' gl' gV' →
        eigBwd epsRelative (fun _ => w) V gl gV = .ok gA → eigBwd epsRelative (fun _ => w) V' gl' gV' = .ok gA' →
        gradientPairing gA dA = 0 ∧ gradientPairing gA' dA = 1 := by
  have hHu : IsUnit hadamard.det := by
    have := congrArg Matrix.det hadamard_mul
    rw [det_mul, det_one] at this
    exact IsUnit.of_mul_eq_one _ this
  have hHi : hadamard⁻¹ = hadamard := Matrix.inv_eq_left_inv hadamard_mul
  have h1u : IsUnit (1 : Matrix (Fin 2) (Fin 2) ℂ).det := by simp
  have hd : diagonal (fun _ : Fin 2 => w) = w • (1 : Matrix (Fin 2) (Fin 2) ℂ) := by
    ext a b
    fin_cases a <;> fin_cases b <;> simp
  have hroot : diagonal (forwardRoots fun _ : Fin 2 => w) = selectEigenvaluesSign (csqrt w) • (1 : Matrix (Fin 2) (Fin 2) ℂ) := by
    ext a b
    fin_cases a <;> fin_cases b <;> simp [forwardRoots]
  have hP : ∀ V : Matrix (Fin 2) (Fin 2) ℂ, IsUnit V.det → propagationMatrix (fun _ => w) V = selectEigenvaluesSign (csqrt w) • 1 := by
    intro V hV
    rw [propagationMatrix, hroot, Matrix.mul_smul, Matrix.mul_one, Matrix.smul_mul, mul_nonsing_inv _ hV]
  have hq' : ∀ i, 0 < (forwardRoots (fun _ : Fin 2 => w) i).im := fun _ => hq
  have hq0 : selectEigenvaluesSign (csqrt w) ≠ 0 := fun h => by
    rw [h] at hq
    simp at hq
  set L := entryLoss (1 : Matrix (Fin 2) (Fin 2) ℂ) 0 1 (2 * selectEigenvaluesSign (csqrt w)) with hLdef
  have hL := isGradient_entryLoss (1 : Matrix (Fin 2) (Fin 2) ℂ) 0 1 (2 * selectEigenvaluesSign (csqrt w))
    (selectEigenvaluesSign (csqrt w) • 1)
  refine ⟨L, coupling 1 0 1, 1, hadamard, h1u, hHu, by rw [hd]; simp, by rw [hd]; simp, by rw [hP _ h1u, hP _ hHu],
    ⟨_, by rw [hP _ h1u]; exact hL⟩, ?_⟩
  intro gl gV gA gl' gV' gA' h1 h2 h3 h4
  constructor
  · exact (C118_finding_degenerate_modes epsRelative h1u (i := 0) (j := 1) (by decide) rfl hq').1 L _ gl gV gA (by rw [hP _ h1u]; exact hL) h1 h3
  · rw [C118_computed_gradient hq' (by rw [hP _ hHu]; exact hL) h2 h4]
    rw [pairing_entryLoss]
    have e : hadamard⁻¹ * coupling 1 0 1 * hadamard = !![1, 0; 0, -1] := by
      have hh : (((Real.sqrt (1 / 2) : ℝ) : ℂ)) * ((Real.sqrt (1 / 2) : ℝ) : ℂ) = 1 / 2 := by
        rw [← Complex.ofReal_mul, Real.mul_self_sqrt (by norm_num)]
        norm_num
      have hc : coupling (1 : Matrix (Fin 2) (Fin 2) ℂ) 0 1 = !![0, 1; 1, 0] := by
        unfold coupling
        rw [Matrix.one_mul, inv_one, Matrix.mul_one]
        ext a b
        fin_cases a <;> fin_cases b <;> simp [single_apply]
      rw [hHi, hc]
      unfold hadamard
      rw [Matrix.smul_mul, Matrix.smul_mul, Matrix.mul_smul, smul_smul, hh]
      ext a b
      fin_cases a <;> fin_cases b <;> simp [Matrix.mul_apply] <;> norm_num
    rw [e, hHi]
    have e2 : (Matrix.of fun i j : Fin 2 => broadeningWeight (eigEps epsRelative fun _ : Fin 2 => w) (fun _ => w) i j *
        ((!![1, 0; 0, -1] : Matrix (Fin 2) (Fin 2) ℂ) i j / (forwardRoots (fun _ : Fin 2 => w) i + forwardRoots (fun _ : Fin 2 => w) j))) =
        (1 / (2 * selectEigenvaluesSign (csqrt w))) • !![1, 0; 0, -1] := by
      ext a b
      fin_cases a <;> fin_cases b <;> simp [broadeningWeight, forwardRoots, ← two_mul] <;> field_simp
    rw [e2, Matrix.mul_smul, Matrix.smul_mul]
    have hh : (((Real.sqrt (1 / 2) : ℝ) : ℂ)) * ((Real.sqrt (1 / 2) : ℝ) : ℂ) = 1 / 2 := by
      rw [← Complex.ofReal_mul, Real.mul_self_sqrt (by norm_num)]
      norm_num
    have e3 : hadamard * !![1, 0; 0, -1] * hadamard = !![0, 1; 1, 0] := by
      unfold hadamard
      rw [Matrix.smul_mul, Matrix.smul_mul, Matrix.mul_smul, smul_smul, hh]
      ext a b
      fin_cases a <;> fin_cases b <;> simp [Matrix.mul_apply] <;> norm_num
    rw [e3, inv_one, Matrix.one_mul, Matrix.mul_one]
    have e4 : 2 * selectEigenvaluesSign (csqrt w) * (1 / (2 * selectEigenvaluesSign (csqrt w)) * 1) = 1 := by field_simp
    have e5 : ((1 / (2 * selectEigenvaluesSign (csqrt w))) • (!![0, 1; 1, 0] : Matrix (Fin 2) (Fin 2) ℂ)) 0 1 =
      1 / (2 * selectEigenvaluesSign (csqrt w)) * 1 := rfl
    rw [e5, e4, Complex.one_re]

/-- The eigenvalue `-1` of two evanescent waves. -/
theorem example_root : selectEigenvaluesSign (csqrt (-1)) = Complex.I :=
  isForwardRoot_unique (selectEigenvaluesSign_forward (-1)) ⟨by simp, by simp, by simp⟩

/-- Curves of eigenvectors and eigenvalues as `C118_finding_degenerate_modes` requires: two evanescent waves that a change of the
matrix couples.  The eigenvectors jump at `t = 0`. -/
example : ∃ (l : Fin 2 → ℂ) (V : Matrix (Fin 2) (Fin 2) ℂ) (lt : ℝ → Fin 2 → ℂ) (Vt : ℝ → Matrix (Fin 2) (Fin 2) ℂ), IsUnit V.det ∧ l 0 = l 1 ∧
    (∀ i, 0 < (forwardRoots l i).im) ∧ lt 0 = l ∧ Vt 0 = V ∧ (∀ᶠ t : ℝ in 𝓝 0, IsUnit (Vt t).det ∧
      (V * diagonal l * V⁻¹ + (t : ℂ) • coupling V 0 1) * Vt t = Vt t * diagonal (lt t)) := by
  classical
  refine ⟨fun _ => -1, 1, fun t => if t = 0 then fun _ => -1 else ![-1 + t, -1 - t], fun t => if t = 0 then 1 else hadamard, by simp, rfl,
    fun i => ?_, if_pos rfl, if_pos rfl, Filter.Eventually.of_forall fun t => ?_⟩
  · rw [forwardRoots, example_root]
    simp
  · have hHu : IsUnit hadamard.det := by
      have := congrArg Matrix.det hadamard_mul
      rw [det_mul, det_one] at this
      exact IsUnit.of_mul_eq_one _ this
    have hc : coupling (1 : Matrix (Fin 2) (Fin 2) ℂ) 0 1 = !![0, 1; 1, 0] := by
      unfold coupling
      rw [Matrix.one_mul, inv_one, Matrix.mul_one]
      ext a b
      fin_cases a <;> fin_cases b <;> simp [single_apply]
    by_cases ht : t = 0
    · subst ht
      simp
    · simp only [if_neg ht]
      refine ⟨hHu, ?_⟩
      rw [hc, inv_one, Matrix.one_mul, Matrix.mul_one]
      unfold hadamard
      rw [Matrix.mul_smul, Matrix.smul_mul]
      congr 1
      ext a b
      fin_cases a <;> fin_cases b <;> simp [Matrix.mul_apply] <;> ring

/-- Two modes of different decay constants meet the hypotheses of `C118_gradient_error`. -/
example : ∃ (L : Matrix (Fin 2) (Fin 2) ℂ → ℝ) (A : ℝ → Matrix (Fin 2) (Fin 2) ℂ) (dA V gX gV gA : Matrix (Fin 2) (Fin 2) ℂ) (l gl : Fin 2 → ℂ),
    SmoothMat 1 0 A ∧ (∀ i j, HasDerivAt (fun t => A t i j) (dA i j) 0) ∧ (∀ᶠ t : ℝ in 𝓝 0, IsUnit V.det ∧ A t * V = V * diagonal fun i => l i + t) ∧
    (∀ i, 0 < (forwardRoots l i).im) ∧ IsGradient L (propagationMatrix l V) gX ∧
    IsModeGradient (fun l V => L (propagationMatrix l V)) l V gl gV ∧ eigBwd 0 l V gl gV = .ok gA := by
  have h1u : IsUnit (1 : Matrix (Fin 2) (Fin 2) ℂ).det := by simp
  have hq : ∀ i, 0 < (forwardRoots (![-1, -4] : Fin 2 → ℂ) i).im := by
    intro i
    fin_cases i
    · change 0 < (selectEigenvaluesSign (csqrt (-1))).im
      rw [example_root]
      simp
    · change 0 < (selectEigenvaluesSign (csqrt (-4))).im
      rw [isForwardRoot_unique (selectEigenvaluesSign_forward (-4)) (q' := 2 * Complex.I)
        ⟨by rw [mul_pow, Complex.I_sq]; norm_num, by simp, by simp⟩]
      simp
  have hL := isGradient_entryLoss (1 : Matrix (Fin 2) (Fin 2) ℂ) 0 1 1 (propagationMatrix ![-1, -4] 1)
  obtain ⟨gl, gV, hg⟩ := exists_modeGradient h1u hq hL
  obtain ⟨gA, hA⟩ := (C70_finite 0 ![-1, -4] 1 gl gV).2 h1u
  have hdid : HasDerivAt (fun t : ℝ => (t : ℂ)) 1 0 := (hasDerivAt_id (0 : ℝ)).ofReal_comp
  have hid : ContDiffAt ℝ 1 (fun t : ℝ => (t : ℂ)) 0 := contDiffAt_ofReal contDiffAt_id
  refine ⟨_, fun t => diagonal fun i => (![-1, -4] : Fin 2 → ℂ) i + t, 1, 1, _, gV, gA, ![-1, -4], gl, SmoothMat.diagonal fun i => contDiffAt_const.add hid, ?_,
    Filter.Eventually.of_forall fun t => ⟨h1u, by rw [Matrix.one_mul, Matrix.mul_one]⟩, hq, hL, hg, hA⟩
  intro i j
  by_cases hij : i = j
  · subst hij
    simp only [diagonal_apply_eq, Matrix.one_apply_eq]
    exact hdid.const_add _
  · simp only [diagonal_apply_ne _ hij, Matrix.one_apply_ne hij]
    exact hasDerivAt_const _ _

end Fmmax
