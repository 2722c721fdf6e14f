import Verif.Model.Utils
import Verif.Proofs.Fmm
import Mathlib.Analysis.Calculus.Deriv.Mul
import Mathlib.Analysis.Calculus.Deriv.Add
import Mathlib.Analysis.Calculus.Deriv.Star
import Mathlib.Analysis.SpecialFunctions.Complex.Log
import Mathlib.Analysis.SpecialFunctions.Trigonometric.Deriv

/-! Property theorems C69, C70: permittivity interpolation and eigendecomposition gradients. -/

set_option linter.unusedSectionVars false

namespace Fmmax

open Matrix

/-! ### C69 -/

/-- The principal square root lies in the right half plane or on the positive imaginary axis. -/
theorem csqrt_half_plane {z : ℂ} (hz : z ≠ 0) : 0 < (csqrt z).re ∨ ((csqrt z).re = 0 ∧ 0 < (csqrt z).im) := by
  unfold csqrt
  rw [Complex.cpow_def_of_ne_zero hz]
  have him : (Complex.log z * (1 / 2 : ℂ)).im = z.arg / 2 := by
    rw [show (1 / 2 : ℂ) = ((1 / 2 : ℝ) : ℂ) by push_cast; rfl, Complex.im_mul_ofReal, Complex.log_im]; ring
  rw [Complex.exp_re, Complex.exp_im, him]
  have h1 := Complex.neg_pi_lt_arg z
  have h2 := Complex.arg_le_pi z
  rcases h2.lt_or_eq with h | h
  · left
    exact mul_pos (Real.exp_pos _) (Real.cos_pos_of_mem_Ioo ⟨by linarith, by linarith⟩)
  · right
    rw [h, Real.cos_pi_div_two, Real.sin_pi_div_two, mul_zero, mul_one]
    exact ⟨rfl, Real.exp_pos _⟩

/-- C69: at density one and zero the given permittivities are returned. -/
theorem C69_endpoints (solid void : ℂ) :
    interpolatePermittivity solid void 1 = solid ∧ interpolatePermittivity solid void 0 = void := by
  have h : ∀ z : ℂ, ((csqrt z).re + Complex.I * (csqrt z).im : ℂ) = csqrt z := by
    intro z; rw [mul_comm]; exact Complex.re_add_im _
  constructor
  · unfold interpolatePermittivity
    norm_num
    rw [h, csqrt_sq]
  · unfold interpolatePermittivity
    norm_num
    rw [h, csqrt_sq]

/-- C69: between two nonzero permittivities the interpolation never passes through zero. -/
theorem C69_nonzero {solid void : ℂ} (hs : solid ≠ 0) (hv : void ≠ 0) {d : ℝ} (h0 : 0 ≤ d) (h1 : d ≤ 1) :
    interpolatePermittivity solid void d ≠ 0 := by
  unfold interpolatePermittivity
  simp only
  refine pow_ne_zero 2 ?_
  intro h
  have hre := congrArg Complex.re h
  have him := congrArg Complex.im h
  rw [mul_comm Complex.I] at hre him
  rw [Complex.add_re, Complex.re_ofReal_mul, Complex.I_re, Complex.ofReal_re] at hre
  rw [Complex.add_im, Complex.im_ofReal_mul, Complex.I_im, Complex.ofReal_im] at him
  simp only [mul_zero, mul_one, add_zero, zero_add, Complex.zero_re, Complex.zero_im] at hre him
  rcases h0.eq_or_lt with rfl | h0
  · rcases csqrt_half_plane hv with a | ⟨a, b⟩ <;> linarith
  · rcases h1.eq_or_lt with rfl | h1
    · rcases csqrt_half_plane hs with a | ⟨a, b⟩ <;> linarith
    · have h2 : 0 < 1 - d := by linarith
      rcases csqrt_half_plane hs with a | ⟨a, b⟩ <;> rcases csqrt_half_plane hv with c | ⟨c, e⟩
      · nlinarith [mul_pos h0 a, mul_pos h2 c]
      · rw [c] at hre; nlinarith [mul_pos h0 a]
      · rw [a] at hre; nlinarith [mul_pos h2 c]
      · nlinarith [mul_pos h0 b, mul_pos h2 e]

/-- The principal square root of a number in the closed upper half plane has non-negative parts. -/
theorem csqrt_quadrant {z : ℂ} (hz : 0 ≤ z.im) : 0 ≤ (csqrt z).re ∧ 0 ≤ (csqrt z).im := by
  by_cases h0 : z = 0
  · subst h0; simp [csqrt]
  have hre : 0 ≤ (csqrt z).re := by rcases csqrt_half_plane h0 with h | ⟨h, -⟩ <;> linarith
  refine ⟨hre, ?_⟩
  have h := congrArg Complex.im (csqrt_sq z)
  rw [sq, Complex.mul_im] at h
  rcases csqrt_half_plane h0 with g | ⟨-, g⟩
  · by_contra hn
    push Not at hn
    nlinarith [mul_neg_of_pos_of_neg g hn]
  · exact g.le

/-- C69: interpolating between passive materials gives a passive material. -/
theorem C69_passive {solid void : ℂ} (hs : 0 ≤ solid.im) (hv : 0 ≤ void.im) {d : ℝ} (h0 : 0 ≤ d) (h1 : d ≤ 1) :
    0 ≤ (interpolatePermittivity solid void d).im := by
  obtain ⟨a, b⟩ := csqrt_quadrant hs
  obtain ⟨c, e⟩ := csqrt_quadrant hv
  unfold interpolatePermittivity
  simp only
  rw [mul_comm Complex.I, sq, Complex.mul_im,
    Complex.add_re, Complex.re_ofReal_mul, Complex.I_re, Complex.ofReal_re,
    Complex.add_im, Complex.im_ofReal_mul, Complex.I_im, Complex.ofReal_im]
  have h2 : 0 ≤ 1 - d := by linarith
  have p1 : 0 ≤ d * (csqrt solid).re + (1 - d) * (csqrt void).re := by positivity
  have p2 : 0 ≤ d * (csqrt solid).im + (1 - d) * (csqrt void).im := by positivity
  nlinarith [mul_nonneg p1 p2]

/-- A metal and a dielectric whose linear interpolation crosses zero. -/
example : ((1 / 2 : ℝ) : ℂ) * (-4) + (1 - (1 / 2 : ℝ) : ℂ) * 4 = 0 ∧ interpolatePermittivity (-4) 4 (1 / 2) ≠ 0 :=
  ⟨by push_cast; ring, C69_nonzero (by norm_num) (by norm_num) (by norm_num) (by norm_num)⟩

/-! ### C70 -/

variable {n : Type} [Fintype n] [DecidableEq n]

/-- C70: no denominator of the backward rule vanishes, whatever the eigenvalues. -/
theorem C70_denominators (epsRelative : ℝ) (eigenvalues : n → ℂ) (i j : n) :
    0 < ‖deltaEig eigenvalues i j‖ ^ 2 + eigEps epsRelative eigenvalues := by
  have : 0 < eigEps epsRelative eigenvalues := lt_max_of_lt_right (by norm_num [eigEpsMinimum])
  positivity

/-- C70: the backward rule is finite exactly when the eigenvectors are linearly independent, in particular also for degenerate
eigenvalues. -/
theorem C70_finite (epsRelative : ℝ) (l : n → ℂ) (V : Matrix n n ℂ) (gl : n → ℂ) (gV : Matrix n n ℂ) :
    (∃ g, eigBwd epsRelative l V gl gV = .ok g) ↔ IsUnit V.det := by
  unfold eigBwd eigBwdWith
  have hd : IsUnit (Vᴴ).det ↔ IsUnit V.det := by
    rw [det_conjTranspose]
    exact isUnit_star
  constructor
  · rintro ⟨g, h⟩
    obtain ⟨y, hy, -⟩ := bind_eq_ok.1 h
    rw [← hd]
    exact (solve_eq_ok.1 hy).1
  · intro h
    simp only
    rw [solve_of_isUnit _ (hd.2 h)]
    exact ⟨_, rfl⟩

theorem fBroadened_zero {l : n → ℂ} (h : Function.Injective l) (i j : n) :
    fBroadened 0 l i j = if i = j then 0 else 1 / (l j - l i) := by
  unfold fBroadened deltaEig
  simp only [of_apply]
  split_ifs with hij
  · rfl
  · have hne : l j - l i ≠ 0 := sub_ne_zero.2 fun e => hij (h e).symm
    rw [add_zero, ← Complex.normSq_eq_norm_sq, Complex.star_def, Complex.normSq_eq_conj_mul_self]
    have hc : (starRingEnd ℂ) (l j - l i) ≠ 0 := by rwa [← Complex.star_def, star_ne_zero]
    rw [div_eq_div_iff (mul_ne_zero hc hne) hne]
    ring

/-- The linear algebra of the adjoint: `W` the transformed perturbation, `C` the transformed change of eigenvectors. -/
theorem eig_adjoint_core {l dl : n → ℂ} (hinj : Function.Injective l) {W C N Y X : Matrix n n ℂ} {gl : n → ℂ}
    (hW : ∀ i j, W i j = C i j * (l j - l i) + if i = j then dl i else 0)
    (hN : ∀ j, N j j = 1) (hNC : ∀ j, ((N * C) j j).re = 0) (hherm : ∀ i j, star (N i j) = N j i)
    (hg : ∀ j, (Y j j).im = 0 ∨ (C j j).im = 0)
    (hX : ∀ i j, X i j = (if i = j then star (gl i) else 0) + star (fBroadened 0 l i j) * Y i j
      - star (fBroadened 0 l i j) * N i j * ((Y j j).re : ℂ)) :
    (∑ j, ∑ i, star (X i j) * W i j).re = (∑ j, gl j * dl j + ∑ j, ∑ i, star (Y i j) * C i j).re := by
  rw [← Finset.sum_add_distrib, Complex.re_sum, Complex.re_sum]
  refine Finset.sum_congr rfl fun j _ => ?_
  have hcell : ∀ i, star (X i j) * W i j = (star (Y i j) - N j i * ((Y j j).re : ℂ)) * C i j +
      if i = j then gl j * dl j - (star (Y j j) - ((Y j j).re : ℂ)) * C j j else 0 := by
    intro i
    rw [hX, hW, fBroadened_zero hinj]
    by_cases hij : i = j
    · subst hij
      simp only [if_true, star_zero, zero_mul, add_zero, sub_zero, star_star, sub_self, mul_zero, zero_add, hN, one_mul]
      ring
    · simp only [if_neg hij, zero_add, add_zero]
      have hne : l j - l i ≠ 0 := sub_ne_zero.2 fun e => hij (hinj e).symm
      have hr : star ((Y j j).re : ℂ) = ((Y j j).re : ℂ) := Complex.conj_ofReal _
      rw [star_sub, star_mul', star_mul', star_mul', star_star, hherm, hr]
      field_simp
  rw [Finset.sum_congr rfl fun i _ => hcell i, Finset.sum_add_distrib, Finset.sum_ite_eq' Finset.univ j, if_pos (Finset.mem_univ j)]
  have hsum : ∑ i, (star (Y i j) - N j i * ((Y j j).re : ℂ)) * C i j =
      ∑ i, star (Y i j) * C i j - ((Y j j).re : ℂ) * (N * C) j j := by
    rw [mul_apply, Finset.mul_sum, ← Finset.sum_sub_distrib]
    exact Finset.sum_congr rfl fun i _ => by ring
  rw [hsum]
  have hz : ((star (Y j j) - ((Y j j).re : ℂ)) * C j j).re = 0 := by
    rw [Complex.mul_re]
    simp only [Complex.sub_re, Complex.sub_im, Complex.star_def, Complex.conj_re, Complex.conj_im, Complex.ofReal_re,
      Complex.ofReal_im]
    rcases hg j with h | h <;> rw [h] <;> ring
  have hz2 : (((Y j j).re : ℂ) * (N * C) j j).re = 0 := by rw [Complex.re_ofReal_mul, hNC, mul_zero]
  simp only [Complex.add_re, Complex.sub_re] at *
  linarith

/-- C70: for every differentiable family of matrices with simple eigenvalues and normalised eigenvectors, the backward rule with
vanishing broadening is the adjoint of the derivative of eigenvalues and eigenvectors.  The phase of each eigenvector is not
determined by the matrix: either the phase does not rotate, or the loss does not depend on it. -/
theorem C70_adjoint {A V : ℝ → Matrix n n ℂ} {l : ℝ → n → ℂ} {dA dV : Matrix n n ℂ} {dl : n → ℂ}
    (hA : ∀ i j, HasDerivAt (fun t => A t i j) (dA i j) 0) (hV : ∀ i j, HasDerivAt (fun t => V t i j) (dV i j) 0)
    (hl : ∀ i, HasDerivAt (fun t => l t i) (dl i) 0)
    (heig : ∀ᶠ t in nhds 0, A t * V t = V t * diagonal (l t)) (hnorm : ∀ᶠ t in nhds 0, ∀ j, ∑ i, ‖V t i j‖ ^ 2 = 1)
    (hdet : IsUnit (V 0).det) (hinj : Function.Injective (l 0)) (gl : n → ℂ) (gV : Matrix n n ℂ)
    (hg : ∀ j, (((V 0)ᴴ * gV.map star) j j).im = 0 ∨ (((V 0)⁻¹ * dV) j j).im = 0)
    {gA : Matrix n n ℂ} (h : eigBwdWith (fBroadened 0 (l 0)) (V 0) gl gV = .ok gA) :
    (∑ i, ∑ j, gA i j * dA i j).re = (∑ j, gl j * dl j + ∑ i, ∑ j, gV i j * dV i j).re := by
  -- the differentiated eigenvalue equation
  have hd : dA * V 0 + A 0 * dV = dV * diagonal (l 0) + V 0 * diagonal dl := by
    ext i j
    have e1 : HasDerivAt (fun t => (A t * V t) i j) ((dA * V 0 + A 0 * dV) i j) 0 := by
      simp only [mul_apply, Matrix.add_apply, ← Finset.sum_add_distrib]
      exact HasDerivAt.fun_sum fun k _ => (hA i k).fun_mul (hV k j)
    have e2 : HasDerivAt (fun t => (V t * diagonal (l t)) i j) ((dV * diagonal (l 0) + V 0 * diagonal dl) i j) 0 := by
      simp only [mul_diagonal, Matrix.add_apply]
      exact (hV i j).fun_mul (hl j)
    have e3 : (fun t => (V t * diagonal (l t)) i j) =ᶠ[nhds 0] fun t => (A t * V t) i j :=
      heig.mono fun t ht => (congrFun (congrFun ht i) j).symm
    exact (e1.congr_of_eventuallyEq e3).unique e2
  have hN : ∀ᶠ t in nhds 0, ∀ j, ((V t)ᴴ * V t) j j = 1 := by
    refine hnorm.mono fun t ht j => ?_
    rw [mul_apply]
    rw [← Complex.ofReal_one, ← ht j]
    push_cast
    refine Finset.sum_congr rfl fun i _ => ?_
    rw [conjTranspose_apply, Complex.star_def, ← Complex.normSq_eq_conj_mul_self, Complex.normSq_eq_norm_sq]
    push_cast; rfl
  have hNd : ∀ j, (((V 0)ᴴ * dV) j j).re = 0 := by
    intro j
    have e1 : HasDerivAt (fun t => ((V t)ᴴ * V t) j j) ((dVᴴ * V 0 + (V 0)ᴴ * dV) j j) 0 := by
      simp only [mul_apply, Matrix.add_apply, ← Finset.sum_add_distrib, conjTranspose_apply]
      exact HasDerivAt.fun_sum fun k _ => ((hV k j).star).fun_mul (hV k j)
    have e2 : (fun _ => (1 : ℂ)) =ᶠ[nhds 0] fun t => ((V t)ᴴ * V t) j j := hN.mono fun t ht => (ht j).symm
    have e3 := (e1.congr_of_eventuallyEq e2).unique (hasDerivAt_const (0 : ℝ) (1 : ℂ))
    have e4 : (dVᴴ * V 0) j j = star (((V 0)ᴴ * dV) j j) := by
      rw [← conjTranspose_apply, conjTranspose_mul, conjTranspose_conjTranspose]
    rw [Matrix.add_apply, e4] at e3
    have := congrArg Complex.re e3
    simp at this
    linarith
  set V₀ := V 0 with hV₀
  have hinv : V₀⁻¹ * V₀ = 1 := nonsing_inv_mul _ hdet
  have hinv' : V₀ * V₀⁻¹ = 1 := mul_nonsing_inv _ hdet
  set W := V₀⁻¹ * dA * V₀ with hWdef
  set C := V₀⁻¹ * dV with hCdef
  have hVC : V₀ * C = dV := by rw [hCdef, ← Matrix.mul_assoc, hinv', Matrix.one_mul]
  have hWmat : W = C * diagonal (l 0) - diagonal (l 0) * C + diagonal dl := by
    have e : dA * V₀ = dV * diagonal (l 0) + V₀ * diagonal dl - A 0 * dV := by rw [← hd]; abel
    have e2 : V₀⁻¹ * (A 0 * dV) = diagonal (l 0) * C := by
      rw [← hVC, ← Matrix.mul_assoc (A 0), heig.self_of_nhds, Matrix.mul_assoc, ← Matrix.mul_assoc, hinv, Matrix.one_mul]
    rw [hWdef, Matrix.mul_assoc, e, Matrix.mul_sub, Matrix.mul_add, e2, ← Matrix.mul_assoc, ← Matrix.mul_assoc, hinv, Matrix.one_mul]
    rw [hCdef]; abel
  -- the result of the backward rule
  unfold eigBwdWith at h
  obtain ⟨g, hg1, hg2⟩ := bind_eq_ok.1 h
  rw [ok_inj] at hg2
  obtain ⟨hu, hg1⟩ := solve_eq_ok.1 hg1
  set Y := V₀ᴴ * gV.map star with hY
  set X := diag (fun i => star (gl i)) + (fBroadened 0 (l 0)).map star ⊙ Y - ((fBroadened 0 (l 0)).map star ⊙ (V₀ᴴ * V₀)) *
        Matrix.of (fun i j => if i = j then ((Y i j).re : ℂ) else 0) with hXdef
  have hgA : gAᵀ = V₀ * Xᴴ * V₀⁻¹ := by
    rw [← hg2]
    show gᴴ = _
    have hg3 : g = V₀ᴴ⁻¹ * (X * V₀ᴴ) := by
      rw [← hg1, ← Matrix.mul_assoc, nonsing_inv_mul _ hu, Matrix.one_mul]
    rw [hg3, conjTranspose_mul, conjTranspose_mul, conjTranspose_nonsing_inv, conjTranspose_conjTranspose]
  have hL : ∑ i, ∑ j, gA i j * dA i j = ∑ j, ∑ i, star (X i j) * W i j := by
    have t1 : ∑ i, ∑ j, gA i j * dA i j = (gAᵀ * dA).trace := by
      rw [Matrix.trace, Finset.sum_comm]
      refine Finset.sum_congr rfl fun j _ => ?_
      rw [diag_apply, mul_apply]; rfl
    have t2 : ∑ j, ∑ i, star (X i j) * W i j = (Xᴴ * W).trace := by
      rw [Matrix.trace]
      refine Finset.sum_congr rfl fun j _ => ?_
      rw [diag_apply, mul_apply]; rfl
    rw [t1, t2, hgA, hWdef, Matrix.mul_assoc, Matrix.mul_assoc, trace_mul_comm V₀, Matrix.mul_assoc, Matrix.mul_assoc]
  have hR : ∑ i, ∑ j, gV i j * dV i j = ∑ j, ∑ i, star (Y i j) * C i j := by
    have t1 : ∑ i, ∑ j, gV i j * dV i j = (gVᵀ * dV).trace := by
      rw [Matrix.trace, Finset.sum_comm]
      refine Finset.sum_congr rfl fun j _ => ?_
      rw [diag_apply, mul_apply]; rfl
    have t2 : ∑ j, ∑ i, star (Y i j) * C i j = (Yᴴ * C).trace := by
      rw [Matrix.trace]
      refine Finset.sum_congr rfl fun j _ => ?_
      rw [diag_apply, mul_apply]; rfl
    have t3 : (gV.map star)ᴴ = gVᵀ := by ext a b; simp
    rw [t1, t2, hY, conjTranspose_mul, conjTranspose_conjTranspose, t3, Matrix.mul_assoc, hVC]
  rw [hL, hR]
  refine eig_adjoint_core (N := V₀ᴴ * V₀) hinj ?_ hN.self_of_nhds ?_ ?_ hg ?_
  · intro i j
    rw [hWmat, Matrix.add_apply, Matrix.sub_apply, mul_diagonal, diagonal_mul, diagonal_apply]
    ring
  · intro j
    rw [Matrix.mul_assoc, hVC]
    exact hNd j
  · intro i j
    rw [← conjTranspose_apply, conjTranspose_mul, conjTranspose_conjTranspose]
  · intro i j
    rw [hXdef, Matrix.sub_apply, Matrix.add_apply, mul_apply]
    simp only [hadamard_apply, map_apply, of_apply, diag]
    rw [Finset.sum_eq_single j]
    · rw [if_pos rfl]
    · intro b _ hb
      rw [if_neg hb, mul_zero]
    · simp

/-- C70: the backward rule as computed, for every matrix with independent eigenvectors, also with degenerate eigenvalues: it is the adjoint of first order
perturbation theory in which the inverse `1 / d` of every difference `d` of eigenvalues is replaced by `d* / (|d|² + ε)`, the change
of each eigenvector being reduced by its component which would change the norm. -/
theorem C70_regularised {epsRelative : ℝ} {l : n → ℂ} {V gV gA : Matrix n n ℂ} {gl : n → ℂ} (h : eigBwd epsRelative l V gl gV = .ok gA) (dA : Matrix n n ℂ) :
    let M := V⁻¹ * dA * V
    let U := V * Matrix.of fun i j => if i = j then 0 else star (l j - l i) / ((‖l j - l i‖ ^ 2 + eigEps epsRelative l : ℝ) : ℂ) * M i j
    (∑ i, ∑ j, gA i j * dA i j).re =
      (∑ j, gl j * M j j).re + (∑ i, ∑ j, gV i j * (U i j - V i j * (((Vᴴ * U) j j).re : ℂ))).re := by
  intro M U
  have hdet : IsUnit V.det := (C70_finite epsRelative l V gl gV).1 ⟨gA, h⟩
  have hinv' : V * V⁻¹ = 1 := mul_nonsing_inv _ hdet
  set f : Matrix n n ℂ := fBroadened (eigEps epsRelative l) l with hf
  set F : Matrix n n ℂ := Matrix.of fun i j => if i = j then 0 else star (l j - l i) / ((‖l j - l i‖ ^ 2 + eigEps epsRelative l : ℝ) : ℂ) * M i j with hF
  have hfF : ∀ i j, f i j * M i j = F i j := by
    intro i j
    rw [hf, hF]
    unfold fBroadened deltaEig
    simp only [of_apply]
    split_ifs <;> simp
  unfold eigBwd eigBwdWith at h
  obtain ⟨g, hg1, hg2⟩ := bind_eq_ok.1 h
  rw [ok_inj] at hg2
  obtain ⟨hu, hg1⟩ := solve_eq_ok.1 hg1
  rw [← hf] at hg1
  set Y := Vᴴ * gV.map star with hY
  set X := diag (fun i => star (gl i)) + f.map star ⊙ Y - (f.map star ⊙ (Vᴴ * V)) *
        Matrix.of (fun i j => if i = j then ((Y i j).re : ℂ) else 0) with hXdef
  have hgA : gAᵀ = V * Xᴴ * V⁻¹ := by
    rw [← hg2]
    show gᴴ = _
    have hg3 : g = Vᴴ⁻¹ * (X * Vᴴ) := by
      rw [← hg1, ← Matrix.mul_assoc, nonsing_inv_mul _ hu, Matrix.one_mul]
    rw [hg3, conjTranspose_mul, conjTranspose_mul, conjTranspose_nonsing_inv, conjTranspose_conjTranspose]
  have tr : ∀ P Q : Matrix n n ℂ, ∑ i, ∑ j, P i j * Q i j = (Pᵀ * Q).trace := by
    intro P Q
    rw [Matrix.trace, Finset.sum_comm]
    refine Finset.sum_congr rfl fun j _ => ?_
    rw [diag_apply, mul_apply]; rfl
  have trH : ∀ P Q : Matrix n n ℂ, (Pᴴ * Q).trace = ∑ j, ∑ i, star (P i j) * Q i j := by
    intro P Q
    rw [Matrix.trace]
    refine Finset.sum_congr rfl fun j _ => ?_
    rw [diag_apply, mul_apply]; rfl
  have hL : ∑ i, ∑ j, gA i j * dA i j = ∑ j, ∑ i, star (X i j) * M i j := by
    rw [tr, ← trH, hgA, Matrix.mul_assoc, Matrix.mul_assoc, trace_mul_comm V, Matrix.mul_assoc, Matrix.mul_assoc]
    show _ = (Xᴴ * (V⁻¹ * dA * V)).trace
    rw [Matrix.mul_assoc V⁻¹]
  have hX : ∀ i j, X i j = (if i = j then star (gl i) else 0) + star (f i j) * Y i j - star (f i j) * (Vᴴ * V) i j * ((Y j j).re : ℂ) := by
    intro i j
    rw [hXdef, Matrix.sub_apply, Matrix.add_apply, mul_apply]
    simp only [hadamard_apply, map_apply, of_apply, diag]
    rw [Finset.sum_eq_single j]
    · rw [if_pos rfl]
    · intro b _ hb
      rw [if_neg hb, mul_zero]
    · simp
  have hherm : ∀ i j, star ((Vᴴ * V) i j) = (Vᴴ * V) j i := by
    intro i j
    rw [← conjTranspose_apply, conjTranspose_mul, conjTranspose_conjTranspose]
  have hcell : ∀ i j, star (X i j) * M i j = (if i = j then gl i * M i j else 0) + star (Y i j) * F i j - (Vᴴ * V) j i * F i j * ((Y j j).re : ℂ) := by
    intro i j
    rw [hX, ← hfF, star_sub, star_add, star_mul', star_mul', star_mul', star_star, hherm, show star ((Y j j).re : ℂ) = ((Y j j).re : ℂ) from Complex.conj_ofReal _]
    split_ifs <;> simp <;> ring
  have hU : ∑ j, ∑ i, star (Y i j) * F i j = ∑ i, ∑ j, gV i j * U i j := by
    have t3 : (gV.map star)ᴴ = gVᵀ := by ext a b; simp
    rw [tr, ← trH, hY, conjTranspose_mul, conjTranspose_conjTranspose, t3, Matrix.mul_assoc]
  have hNU : ∀ j, ∑ i, (Vᴴ * V) j i * F i j * ((Y j j).re : ℂ) = (Vᴴ * U) j j * ((Y j j).re : ℂ) := by
    intro j
    rw [← Finset.sum_mul, ← mul_apply, Matrix.mul_assoc]
  have hYj : ∀ j, (Y j j).re = (∑ i, gV i j * V i j).re := by
    intro j
    rw [hY, mul_apply, Complex.re_sum, Complex.re_sum]
    refine Finset.sum_congr rfl fun i _ => ?_
    simp only [conjTranspose_apply, map_apply, Complex.star_def, Complex.mul_re, Complex.conj_re, Complex.conj_im]
    ring
  have hright : (∑ i, ∑ j, gV i j * (U i j - V i j * (((Vᴴ * U) j j).re : ℂ))).re =
      (∑ i, ∑ j, gV i j * U i j).re - ∑ j, ((Vᴴ * U) j j).re * (Y j j).re := by
    have : ∑ i, ∑ j, gV i j * (U i j - V i j * (((Vᴴ * U) j j).re : ℂ)) =
        ∑ i, ∑ j, gV i j * U i j - ∑ j, (((Vᴴ * U) j j).re : ℂ) * ∑ i, gV i j * V i j := by
      rw [eq_sub_iff_add_eq]
      simp only [Finset.mul_sum]
      rw [Finset.sum_comm (s := Finset.univ) (t := Finset.univ) (f := fun j i => (((Vᴴ * U) j j).re : ℂ) * (gV i j * V i j)), ← Finset.sum_add_distrib]
      refine Finset.sum_congr rfl fun i _ => ?_
      rw [← Finset.sum_add_distrib]
      exact Finset.sum_congr rfl fun j _ => by ring
    rw [this, Complex.sub_re]
    congr 1
    rw [Complex.re_sum]
    refine Finset.sum_congr rfl fun j _ => ?_
    rw [Complex.re_ofReal_mul, hYj]
  rw [hright, hL, ← hU]
  simp only [hcell, Finset.sum_sub_distrib, Finset.sum_add_distrib, Finset.sum_ite_eq', Finset.mem_univ, if_true, hNU]
  rw [Complex.sub_re, Complex.add_re, Complex.re_sum (Finset.univ) (fun j => (Vᴴ * U) j j * ((Y j j).re : ℂ))]
  simp only [Complex.re_mul_ofReal]
  ring

/-- C70: the error made by the broadening. -/
theorem C70_broadening_error {l : n → ℂ} (hinj : Function.Injective l) {eps : ℝ} (he : 0 ≤ eps) {i j : n} (hij : i ≠ j) :
    ‖fBroadened eps l i j - fBroadened 0 l i j‖ = eps / (‖l j - l i‖ * (‖l j - l i‖ ^ 2 + eps)) := by
  have hne : l j - l i ≠ 0 := sub_ne_zero.2 fun e => hij (hinj e).symm
  rw [fBroadened_zero hinj, if_neg hij]
  unfold fBroadened deltaEig
  simp only [of_apply, if_neg hij]
  have hp : 0 < ‖l j - l i‖ := norm_pos_iff.2 hne
  have hd : ((‖l j - l i‖ ^ 2 + eps : ℝ) : ℂ) ≠ 0 := by
    rw [Complex.ofReal_ne_zero]; positivity
  have hn : star (l j - l i) * (l j - l i) = ((‖l j - l i‖ ^ 2 : ℝ) : ℂ) := by
    rw [Complex.star_def, ← Complex.normSq_eq_conj_mul_self, Complex.normSq_eq_norm_sq]
  have e : star (l j - l i) / ((‖l j - l i‖ ^ 2 + eps : ℝ) : ℂ) - 1 / (l j - l i) =
      -(eps : ℂ) / (((‖l j - l i‖ ^ 2 + eps : ℝ) : ℂ) * (l j - l i)) := by
    rw [div_sub_div _ _ hd hne, hn]
    congr 1
    push_cast
    ring
  rw [e, norm_div, norm_neg, norm_mul, Complex.norm_real, Complex.norm_real, Real.norm_of_nonneg he,
    Real.norm_of_nonneg (by positivity)]
  ring

/-- C70: the broadening follows the scale of the matrix, as long as it is not at its minimum. -/
theorem C70_scaling {l : n → ℂ} {epsRelative c : ℝ} (hc : 0 < c)
    (h1 : eigEpsMinimum ≤ epsRelative *
      ((Finset.univ : Finset (n × n)).sup fun p => ‖deltaEig l p.1 p.2‖₊ ^ 2 : NNReal))
    (h2 : eigEpsMinimum ≤ c ^ 2 * (epsRelative *
      ((Finset.univ : Finset (n × n)).sup fun p => ‖deltaEig l p.1 p.2‖₊ ^ 2 : NNReal))) (i j : n) :
    fBroadened (eigEps epsRelative fun k => (c : ℂ) * l k) (fun k => (c : ℂ) * l k) i j =
      (1 / c : ℂ) * fBroadened (eigEps epsRelative l) l i j := by
  have hd : ∀ i j, deltaEig (fun k => (c : ℂ) * l k) i j = (c : ℂ) * deltaEig l i j := by
    intro i j; simp only [deltaEig, of_apply]; ring
  have hs : ((Finset.univ : Finset (n × n)).sup fun p => ‖deltaEig (fun k => (c : ℂ) * l k) p.1 p.2‖₊ ^ 2 : NNReal) =
      Real.toNNReal c ^ 2 * ((Finset.univ : Finset (n × n)).sup fun p => ‖deltaEig l p.1 p.2‖₊ ^ 2) := by
    rw [NNReal.mul_finset_sup]
    refine Finset.sup_congr rfl fun p _ => ?_
    rw [hd, nnnorm_mul, mul_pow]
    congr 2
    ext
    rw [coe_nnnorm, Complex.norm_real, Real.norm_of_nonneg hc.le, Real.coe_toNNReal _ hc.le]
  have he : eigEps epsRelative (fun k => (c : ℂ) * l k) = c ^ 2 * eigEps epsRelative l := by
    unfold eigEps
    simp only
    rw [hs]
    push_cast
    rw [Real.coe_toNNReal _ hc.le, max_eq_left h1, max_eq_left]
    · ring
    · calc _ ≤ _ := h2
        _ = _ := by ring
  rw [he]
  unfold fBroadened
  simp only [of_apply, hd]
  split_ifs with hij
  · simp
  · have hpos := C70_denominators epsRelative l i j
    have hc' : (c : ℂ) ≠ 0 := by exact_mod_cast hc.ne'
    rw [norm_mul, Complex.norm_real, Real.norm_of_nonneg hc.le, star_mul', Complex.star_def, Complex.conj_ofReal,
      show (c * ‖deltaEig l i j‖) ^ 2 + c ^ 2 * eigEps epsRelative l = c ^ 2 * (‖deltaEig l i j‖ ^ 2 + eigEps epsRelative l) by ring]
    have hz : ((‖deltaEig l i j‖ ^ 2 + eigEps epsRelative l : ℝ) : ℂ) ≠ 0 := by exact_mod_cast hpos.ne'
    rw [Complex.ofReal_mul]
    push_cast at hz ⊢
    field_simp

/-- C70: a matrix with a degenerate eigenvalue. -/
example : ∃ gA, eigBwd (n := Fin 2) 1e-12 (fun _ => 3) 1 (fun _ => 1) (Matrix.of fun _ _ => Complex.I) = .ok gA :=
  (C70_finite _ _ _ _ _).2 (by simp)

/-- A rotating family of matrices with eigenvalues 1 and 2. -/
example : ∃ (A V : ℝ → Matrix (Fin 2) (Fin 2) ℂ) (l : ℝ → Fin 2 → ℂ) (dA dV : Matrix (Fin 2) (Fin 2) ℂ),
    (∀ i j, HasDerivAt (fun t => A t i j) (dA i j) 0) ∧ (∀ i j, HasDerivAt (fun t => V t i j) (dV i j) 0) ∧
    (∀ i, HasDerivAt (fun t => l t i) 0 0) ∧ (∀ t, A t * V t = V t * diagonal (l t)) ∧
    (∀ t j, ∑ i, ‖V t i j‖ ^ 2 = 1) ∧ IsUnit (V 0).det ∧ Function.Injective (l 0) ∧ dV ≠ 0 ∧
    (∀ j, (((V 0)⁻¹ * dV) j j).im = 0) := by
  have hc : HasDerivAt (fun t : ℝ => Complex.cos t) 0 0 := by
    have := (Complex.hasDerivAt_cos (0 : ℝ)).comp_ofReal
    simpa using this
  have hs : HasDerivAt (fun t : ℝ => Complex.sin t) 1 0 := by
    have := (Complex.hasDerivAt_sin (0 : ℝ)).comp_ofReal
    simpa using this
  have hV0 : (!![Complex.cos (0 : ℝ), -Complex.sin (0 : ℝ); Complex.sin (0 : ℝ), Complex.cos (0 : ℝ)] : Matrix _ _ ℂ) = 1 := by
    ext i j; fin_cases i <;> fin_cases j <;> simp
  refine ⟨fun t => !![Complex.cos t ^ 2 + 2 * Complex.sin t ^ 2, -(Complex.cos t * Complex.sin t);
      -(Complex.cos t * Complex.sin t), Complex.sin t ^ 2 + 2 * Complex.cos t ^ 2],
    fun t => !![Complex.cos t, -Complex.sin t; Complex.sin t, Complex.cos t], fun _ => ![1, 2],
    !![0, -1; -1, 0], !![0, -1; 1, 0], ?_, ?_, ?_, ?_, ?_, ?_, ?_, ?_, ?_⟩
  · intro i j
    fin_cases i <;> fin_cases j
    · simpa using (hc.fun_pow 2).fun_add ((hs.fun_pow 2).const_mul 2)
    · simpa using (hc.fun_mul hs).fun_neg
    · simpa using (hc.fun_mul hs).fun_neg
    · simpa using (hs.fun_pow 2).fun_add ((hc.fun_pow 2).const_mul 2)
  · intro i j
    fin_cases i <;> fin_cases j
    · simpa using hc
    · simpa using hs.fun_neg
    · simpa using hs
    · simpa using hc
  · intro i
    exact hasDerivAt_const _ _
  · intro t
    have h := Complex.sin_sq_add_cos_sq (t : ℂ)
    ext i j
    fin_cases i <;> fin_cases j <;> simp [Matrix.mul_apply, Fin.sum_univ_two, Matrix.diagonal]
    · linear_combination Complex.cos t * h
    · linear_combination (-2 * Complex.sin t) * h
    · linear_combination Complex.sin t * h
    · linear_combination (2 * Complex.cos t) * h
  · intro t j
    have h := Real.sin_sq_add_cos_sq t
    fin_cases j
    · simp [Fin.sum_univ_two, ← Complex.ofReal_cos, ← Complex.ofReal_sin]
    · simp [Fin.sum_univ_two, ← Complex.ofReal_cos, ← Complex.ofReal_sin]
  · simp only [hV0, det_one, isUnit_one]
  · intro a b h
    fin_cases a <;> fin_cases b <;> simp at h ⊢
  · intro h
    have := congrFun (congrFun h 1) 0
    simp at this
  · intro j
    simp only [hV0, inv_one, Matrix.one_mul]
    fin_cases j <;> simp

end Fmmax
