import Verif.Model.Vector
import Verif.Proofs.Basic
import Mathlib.Analysis.Calculus.Deriv.Add
import Mathlib.Analysis.Calculus.Deriv.Mul
import Mathlib.Analysis.Calculus.Deriv.Pow
import Mathlib.Data.Fintype.Sum
import Mathlib.LinearAlgebra.Matrix.ToLinearEquiv
import Mathlib.LinearAlgebra.Matrix.ToLin

/-! Derivatives and minimisers of weighted sums of squares of complex linear forms. -/

namespace Fmmax

open Matrix

variable {κ : Type} [Fintype κ] [DecidableEq κ]

/-- A function is a weighted sum of squared deviations of linear forms; the second function is the same sum without the
constant parts of the deviations. -/
def IsLeastSquares (f f0 : (κ → ℂ) → ℝ) : Prop :=
  ∃ (K : Type) (_ : Fintype K) (w : K → ℝ) (L : Matrix K κ ℂ) (t : K → ℂ), (∀ k, 0 ≤ w k) ∧
    (∀ z, f z = ∑ k, w k * ‖(L *ᵥ z) k - t k‖ ^ 2) ∧ ∀ z, f0 z = ∑ k, w k * ‖(L *ᵥ z) k‖ ^ 2

omit [DecidableEq κ] in
theorem IsLeastSquares.add {f f0 g g0 : (κ → ℂ) → ℝ} (hf : IsLeastSquares f f0) (hg : IsLeastSquares g g0) :
    IsLeastSquares (fun z => f z + g z) (fun z => f0 z + g0 z) := by
  obtain ⟨K, _, w, L, t, hw, h, h0⟩ := hf
  obtain ⟨K', _, w', L', t', hw', h', h0'⟩ := hg
  refine ⟨K ⊕ K', inferInstance, Sum.elim w w', Matrix.of (Sum.elim L L'), Sum.elim t t', ?_, fun z => ?_, fun z => ?_⟩
  · rintro (k | k)
    · exact hw k
    · exact hw' k
  · simp only [h, h', Fintype.sum_sum_type]; rfl
  · simp only [h0, h0', Fintype.sum_sum_type]; rfl

omit [DecidableEq κ] in
theorem IsLeastSquares.smul {f f0 : (κ → ℂ) → ℝ} (hf : IsLeastSquares f f0) {c : ℝ} (hc : 0 ≤ c) :
    IsLeastSquares (fun z => c * f z) (fun z => c * f0 z) := by
  obtain ⟨K, _, w, L, t, hw, h, h0⟩ := hf
  refine ⟨K, inferInstance, fun k => c * w k, L, t, fun k => mul_nonneg hc (hw k), fun z => ?_, fun z => ?_⟩
  · simp only [h, Finset.mul_sum, mul_assoc]
  · simp only [h0, Finset.mul_sum, mul_assoc]

/-- A weighted sum of squares of functions that are linear up to constants. -/
theorem IsLeastSquares.of_linear {K : Type} [Fintype K] (w : K → ℝ) (hw : ∀ k, 0 ≤ w k) (φ : (κ → ℂ) →ₗ[ℂ] (K → ℂ))
    (t : K → ℂ) : IsLeastSquares (fun z => ∑ k, w k * ‖φ z k - t k‖ ^ 2) (fun z => ∑ k, w k * ‖φ z k‖ ^ 2) := by
  refine ⟨K, inferInstance, w, LinearMap.toMatrix' φ, t, hw, fun z => ?_, fun z => ?_⟩ <;>
  · simp only [LinearMap.toMatrix'_mulVec]

theorem star_real (r : ℝ) : star (r : ℂ) = r := by rw [Complex.star_def, Complex.conj_ofReal]

theorem star_I : star Complex.I = -Complex.I := by rw [Complex.star_def, Complex.conj_I]

theorem normSq_expand (a b : ℂ) (s : ℝ) :
    ‖a + s * b‖ ^ 2 = ‖a‖ ^ 2 + s * (2 * (star a * b).re) + s ^ 2 * ‖b‖ ^ 2 := by
  have q : ∀ z : ℂ, ‖z‖ ^ 2 = z.re ^ 2 + z.im ^ 2 := fun z => by
    rw [← Complex.normSq_eq_norm_sq, Complex.normSq_apply]; ring
  simp only [q, Complex.add_re, Complex.add_im, Complex.mul_re, Complex.mul_im, Complex.ofReal_re, Complex.ofReal_im,
    Complex.star_def, Complex.conj_re, Complex.conj_im]
  ring

theorem deriv_quadratic (a b c : ℝ) : deriv (fun s : ℝ => a + s * b + s ^ 2 * c) 0 = b := by
  have h1 : HasDerivAt (fun s : ℝ => a + s * b + s ^ 2 * c) (0 + 1 * b + (2 * (0 : ℝ) ^ 1 * 1) * c) 0 := by
    have := (((hasDerivAt_const (0 : ℝ) a).fun_add ((hasDerivAt_id (0 : ℝ)).mul_const b)).fun_add
      (((hasDerivAt_id (0 : ℝ)).fun_pow 2).mul_const c))
    simpa using this
  rw [h1.deriv]; ring

section
variable {K : Type} [Fintype K] (w : K → ℝ) (L : Matrix K κ ℂ) (t : K → ℂ)

omit [Fintype K] in
theorem mulVec_add_single (z : κ → ℂ) (j : κ) (c : ℂ) (k : K) : (L *ᵥ (z + Pi.single j c)) k = (L *ᵥ z) k + c * L k j := by
  rw [Matrix.mulVec_add, Pi.add_apply]
  congr 1
  rw [Matrix.mulVec_single]
  simp [mul_comm]

theorem jaxGrad_leastSquares (z : κ → ℂ) (j : κ) :
    jaxGrad (fun z => ∑ k, w k * ‖(L *ᵥ z) k - t k‖ ^ 2) z j =
      2 * ∑ k, (w k : ℂ) * (star ((L *ᵥ z) k - t k) * L k j) := by
  have key : ∀ c : ℂ, deriv (fun s : ℝ => ∑ k, w k * ‖(L *ᵥ (z + Pi.single j (c * s))) k - t k‖ ^ 2) 0 =
      2 * ∑ k, w k * (star ((L *ᵥ z) k - t k) * (c * L k j)).re := by
    intro c
    have e : (fun s : ℝ => ∑ k, w k * ‖(L *ᵥ (z + Pi.single j (c * s))) k - t k‖ ^ 2) = fun s : ℝ =>
        (∑ k, w k * ‖(L *ᵥ z) k - t k‖ ^ 2) + s * (2 * ∑ k, w k * (star ((L *ᵥ z) k - t k) * (c * L k j)).re) +
          s ^ 2 * ∑ k, w k * ‖c * L k j‖ ^ 2 := by
      funext s
      rw [Finset.mul_sum, Finset.mul_sum, Finset.mul_sum, ← Finset.sum_add_distrib, ← Finset.sum_add_distrib]
      refine Finset.sum_congr rfl fun k _ => ?_
      rw [mulVec_add_single, show (L *ᵥ z) k + c * s * L k j - t k = ((L *ᵥ z) k - t k) + s * (c * L k j) by ring,
        normSq_expand]
      ring
    rw [e, deriv_quadratic]
  unfold jaxGrad
  have h1 := key 1
  have h2 := key Complex.I
  simp only [one_mul] at h1
  rw [h1, h2]
  push_cast
  rw [← mul_assoc, mul_comm Complex.I 2, mul_assoc, ← mul_sub, Finset.mul_sum, ← Finset.sum_sub_distrib]
  congr 1
  refine Finset.sum_congr rfl fun k _ => ?_
  rw [show star ((L *ᵥ z) k - t k) * (Complex.I * L k j) = Complex.I * (star ((L *ᵥ z) k - t k) * L k j) by ring,
    Complex.I_mul_re]
  generalize star ((L *ᵥ z) k - t k) * L k j = q
  conv_rhs => rw [← Complex.re_add_im q]
  push_cast
  ring

theorem jaxGrad_jac_leastSquares (z : κ → ℂ) (a b : κ) :
    jaxGrad (fun z => (2 * ∑ k, (w k : ℂ) * (star ((L *ᵥ z) k - t k) * L k a)).re) z b =
      2 * ∑ k, (w k : ℂ) * (star (L k a) * L k b) := by
  have key : ∀ c : ℂ, deriv (fun s : ℝ =>
      (2 * ∑ k, (w k : ℂ) * (star ((L *ᵥ (z + Pi.single b (c * s))) k - t k) * L k a)).re) 0 =
      (2 * ∑ k, (w k : ℂ) * (star (c * L k b) * L k a)).re := by
    intro c
    have e : (fun s : ℝ => (2 * ∑ k, (w k : ℂ) * (star ((L *ᵥ (z + Pi.single b (c * s))) k - t k) * L k a)).re) =
        fun s : ℝ => (2 * ∑ k, (w k : ℂ) * (star ((L *ᵥ z) k - t k) * L k a)).re +
          s * (2 * ∑ k, (w k : ℂ) * (star (c * L k b) * L k a)).re + s ^ 2 * 0 := by
      funext s
      rw [mul_zero, add_zero, ← Complex.re_ofReal_mul, ← Complex.add_re]
      congr 1
      rw [mul_left_comm, ← mul_add]
      congr 1
      rw [Finset.mul_sum, ← Finset.sum_add_distrib]
      refine Finset.sum_congr rfl fun k _ => ?_
      rw [mulVec_add_single]
      simp only [star_sub, star_add, star_mul', Complex.star_def, Complex.conj_ofReal]
      ring
    rw [e, deriv_quadratic]
  unfold jaxGrad
  have h1 := key 1
  have h2 := key Complex.I
  simp only [one_mul] at h1
  rw [h1, h2]
  have h3 : ∀ k, (w k : ℂ) * (star (Complex.I * L k b) * L k a) = -Complex.I * ((w k : ℂ) * (star (L k b) * L k a)) := by
    intro k
    rw [star_mul', star_I]; ring
  simp only [h3]
  rw [← Finset.mul_sum]
  have h4 : 2 * ∑ k, (w k : ℂ) * (star (L k a) * L k b) = star (2 * ∑ k, (w k : ℂ) * (star (L k b) * L k a)) := by
    rw [star_mul', star_sum]
    congr 1
    · simp
    · refine Finset.sum_congr rfl fun k _ => ?_
      simp only [star_mul', Complex.star_def, Complex.conj_ofReal, Complex.conj_conj]
      ring
  rw [h4, show (2 : ℂ) * (-Complex.I * ∑ k, (w k : ℂ) * (star (L k b) * L k a)) =
    -(Complex.I * (2 * ∑ k, (w k : ℂ) * (star (L k b) * L k a))) by ring, Complex.neg_re, Complex.I_mul_re, neg_neg]
  generalize 2 * ∑ k, (w k : ℂ) * (star (L k b) * L k a) = q
  apply Complex.ext <;> simp

end

/-- The Newton step of a least squares function: if the linear system has a solution it is the unique minimiser. -/
theorem leastSquares_newton {f f0 : (κ → ℂ) → ℝ} (hf : IsLeastSquares f f0) (z : κ → ℂ) (s : Matrix κ Unit ℂ)
    (hs : solve (Matrix.of fun a b => jaxGrad (fun w => (jaxGrad f w a).re) z b)
      (Matrix.of fun k (_ : Unit) => star (jaxGrad f z k)) = .ok s) (y : κ → ℂ) :
    f y = f (fun k => z k - s k ()) + f0 (fun k => y k - (z k - s k ())) ∧
      (f0 (fun k => y k - (z k - s k ())) = 0 → y = fun k => z k - s k ()) := by
  obtain ⟨K, _, w, L, t, hw, h, h0⟩ := hf
  obtain rfl : f = fun z => ∑ k, w k * ‖(L *ᵥ z) k - t k‖ ^ 2 := funext h
  obtain rfl : f0 = fun z => ∑ k, w k * ‖(L *ᵥ z) k‖ ^ 2 := funext h0
  simp only [jaxGrad_leastSquares, jaxGrad_jac_leastSquares] at hs
  obtain ⟨hu, hs⟩ := solve_eq_ok.1 hs
  set x : κ → ℂ := fun k => z k - s k () with hx
  -- normal equations
  have hn : ∀ a, ∑ k, (w k : ℂ) * (star (L k a) * ((L *ᵥ x) k - t k)) = 0 := by
    intro a
    have ha := congrFun (congrFun hs a) ()
    simp only [Matrix.mul_apply, Matrix.of_apply] at ha
    have e1 : ∑ b, (2 * ∑ k, (w k : ℂ) * (star (L k a) * L k b)) * s b () =
        2 * ∑ k, (w k : ℂ) * (star (L k a) * (L *ᵥ fun b => s b ()) k) := by
      simp only [Matrix.mulVec, dotProduct, Finset.mul_sum, Finset.sum_mul]
      rw [Finset.sum_comm]
      refine Finset.sum_congr rfl fun k _ => Finset.sum_congr rfl fun b _ => ?_
      ring
    have e2 : star (2 * ∑ k, (w k : ℂ) * (star ((L *ᵥ z) k - t k) * L k a)) =
        2 * ∑ k, (w k : ℂ) * (star (L k a) * ((L *ᵥ z) k - t k)) := by
      rw [star_mul', star_sum]
      congr 1
      · simp
      · refine Finset.sum_congr rfl fun k _ => ?_
        rw [star_mul', star_mul', star_star, star_real]
        ring
    rw [e1, e2] at ha
    have ha := mul_left_cancel₀ two_ne_zero ha
    have hLx : ∀ k, (L *ᵥ x) k = (L *ᵥ z) k - (L *ᵥ fun b => s b ()) k := by
      intro k
      have : x = z - fun b => s b () := rfl
      rw [this, Matrix.mulVec_sub, Pi.sub_apply]
    calc ∑ k, (w k : ℂ) * (star (L k a) * ((L *ᵥ x) k - t k))
        = ∑ k, (w k : ℂ) * (star (L k a) * ((L *ᵥ z) k - t k)) -
            ∑ k, (w k : ℂ) * (star (L k a) * (L *ᵥ fun b => s b ()) k) := by
          rw [← Finset.sum_sub_distrib]
          refine Finset.sum_congr rfl fun k _ => ?_
          rw [hLx]; ring
      _ = 0 := by rw [ha, sub_self]
  have hyx : ∀ k, (L *ᵥ y) k = (L *ᵥ x) k + (L *ᵥ fun k => y k - x k) k := by
    intro k
    have : (fun k => y k - x k) = y - x := rfl
    rw [this, Matrix.mulVec_sub, Pi.sub_apply]; ring
  have hcross : ∑ k, w k * (star ((L *ᵥ x) k - t k) * (L *ᵥ fun k => y k - x k) k).re = 0 := by
    have : ∑ k, (w k : ℂ) * (star ((L *ᵥ x) k - t k) * (L *ᵥ fun k => y k - x k) k) = 0 := by
      have e : ∀ k, (w k : ℂ) * (star ((L *ᵥ x) k - t k) * (L *ᵥ fun k => y k - x k) k) =
          ∑ a, star ((w k : ℂ) * (star (L k a) * ((L *ᵥ x) k - t k))) * (y a - x a) := by
        intro k
        have hd : (L *ᵥ fun k => y k - x k) k = ∑ a, L k a * (y a - x a) := rfl
        rw [hd, Finset.mul_sum, Finset.mul_sum]
        refine Finset.sum_congr rfl fun a _ => ?_
        rw [star_mul', star_mul', star_star, star_real]
        ring
      simp only [e]
      rw [Finset.sum_comm]
      refine Finset.sum_eq_zero fun a _ => ?_
      rw [← Finset.sum_mul, ← star_sum, hn a, star_zero, zero_mul]
    have h2 := congrArg Complex.re this
    rw [Complex.re_sum] at h2
    simpa only [Complex.re_ofReal_mul, Complex.zero_re] using h2
  constructor
  · simp only
    rw [← Finset.sum_add_distrib]
    have e : ∀ k, w k * ‖(L *ᵥ y) k - t k‖ ^ 2 = w k * ‖(L *ᵥ x) k - t k‖ ^ 2 + w k * ‖(L *ᵥ fun k => y k - x k) k‖ ^ 2 +
        2 * (w k * (star ((L *ᵥ x) k - t k) * (L *ᵥ fun k => y k - x k) k).re) := by
      intro k
      have := normSq_expand ((L *ᵥ x) k - t k) ((L *ᵥ fun k => y k - x k) k) 1
      rw [hyx, show (L *ᵥ x) k + (L *ᵥ fun k => y k - x k) k - t k =
        (L *ᵥ x) k - t k + (1 : ℝ) * (L *ᵥ fun k => y k - x k) k by push_cast; ring, this]
      ring
    simp only [e]
    rw [Finset.sum_add_distrib, ← Finset.mul_sum, hcross, mul_zero, add_zero]
  · simp only
    intro hz
    have hz' : ∀ k, (w k : ℂ) * (L *ᵥ fun k => y k - x k) k = 0 := by
      intro k
      have := (Finset.sum_eq_zero_iff_of_nonneg (fun k _ => mul_nonneg (hw k) (sq_nonneg _))).1 hz k (Finset.mem_univ k)
      rcases mul_eq_zero.1 this with h | h
      · rw [h]; simp
      · rw [norm_eq_zero.1 (pow_eq_zero_iff (two_ne_zero)|>.1 h), mul_zero]
    have hH : (Matrix.of fun a b => 2 * ∑ k, (w k : ℂ) * (star (L k a) * L k b)) *ᵥ (fun k => y k - x k) = 0 := by
      funext a
      simp only [Matrix.mulVec, dotProduct, Matrix.of_apply, Pi.zero_apply]
      have e1 : ∑ b, (2 * ∑ k, (w k : ℂ) * (star (L k a) * L k b)) * (y b - x b) =
          2 * ∑ k, star (L k a) * ((w k : ℂ) * (L *ᵥ fun k => y k - x k) k) := by
        simp only [Matrix.mulVec, dotProduct, Finset.mul_sum, Finset.sum_mul]
        rw [Finset.sum_comm]
        refine Finset.sum_congr rfl fun k _ => Finset.sum_congr rfl fun b _ => ?_
        ring
      rw [e1]
      simp [hz']
    have := Matrix.eq_zero_of_mulVec_eq_zero (isUnit_iff_ne_zero.1 hu) hH
    funext k
    exact sub_eq_zero.1 (congrFun this k)

/-- Whether the Newton step can be carried out does not depend on the starting point. -/
theorem leastSquares_solvable_of {f f0 : (κ → ℂ) → ℝ} (hf : IsLeastSquares f f0) (z y : κ → ℂ)
    (h : ∃ s, solve (Matrix.of fun a b => jaxGrad (fun w => (jaxGrad f w a).re) z b)
      (Matrix.of fun k (_ : Unit) => star (jaxGrad f z k)) = .ok s) :
    ∃ s, solve (Matrix.of fun a b => jaxGrad (fun w => (jaxGrad f w a).re) y b)
      (Matrix.of fun k (_ : Unit) => star (jaxGrad f y k)) = .ok s := by
  obtain ⟨K, _, w, L, t, hw, h', -⟩ := hf
  obtain rfl : f = fun z => ∑ k, w k * ‖(L *ᵥ z) k - t k‖ ^ 2 := funext h'
  simp only [jaxGrad_leastSquares, jaxGrad_jac_leastSquares] at h ⊢
  obtain ⟨s, hs⟩ := h
  exact ⟨_, solve_of_isUnit _ (solve_eq_ok.1 hs).1⟩

/-- The Newton step can be carried out if the homogeneous part is positive definite. -/
theorem leastSquares_solvable {f f0 : (κ → ℂ) → ℝ} (hf : IsLeastSquares f f0) (hpos : ∀ y, f0 y = 0 → y = 0)
    (z : κ → ℂ) : ∃ s, solve (Matrix.of fun a b => jaxGrad (fun w => (jaxGrad f w a).re) z b)
      (Matrix.of fun k (_ : Unit) => star (jaxGrad f z k)) = .ok s := by
  obtain ⟨K, _, w, L, t, hw, h, h0⟩ := hf
  obtain rfl : f = fun z => ∑ k, w k * ‖(L *ᵥ z) k - t k‖ ^ 2 := funext h
  obtain rfl : f0 = fun z => ∑ k, w k * ‖(L *ᵥ z) k‖ ^ 2 := funext h0
  simp only [jaxGrad_leastSquares, jaxGrad_jac_leastSquares]
  refine ⟨_, solve_of_isUnit _ ?_⟩
  rw [isUnit_iff_ne_zero]
  intro hdet
  obtain ⟨y, hy, hHy⟩ := Matrix.exists_mulVec_eq_zero_iff.2 hdet
  apply hy
  apply hpos
  have e : ∑ a, star (y a) * ((Matrix.of fun a b => 2 * ∑ k, (w k : ℂ) * (star (L k a) * L k b)) *ᵥ y) a =
      2 * ∑ k, ((w k * ‖(L *ᵥ y) k‖ ^ 2 : ℝ) : ℂ) := by
    have e2 : ∀ k, ((w k * ‖(L *ᵥ y) k‖ ^ 2 : ℝ) : ℂ) = (w k : ℂ) * (star ((L *ᵥ y) k) * (L *ᵥ y) k) := by
      intro k
      rw [Complex.star_def, ← Complex.normSq_eq_conj_mul_self, Complex.normSq_eq_norm_sq]
      push_cast; ring
    simp only [e2]
    simp only [Matrix.mulVec, dotProduct, Matrix.of_apply, star_sum, Finset.mul_sum, Finset.sum_mul, star_mul']
    rw [Finset.sum_comm]
    conv_rhs => rw [Finset.sum_comm]
    have : ∀ b : κ, (∑ a, ∑ k, star (y a) * (2 * ((w k : ℂ) * (star (L k a) * L k b)) * y b)) =
        ∑ k, ∑ a, 2 * ((w k : ℂ) * (star (L k a) * star (y a) * (L k b * y b))) := by
      intro b
      rw [Finset.sum_comm]
      refine Finset.sum_congr rfl fun k _ => Finset.sum_congr rfl fun a _ => ?_
      ring
    simp only [this]
  rw [hHy] at e
  simp only [Pi.zero_apply, mul_zero, Finset.sum_const_zero] at e
  have e := (mul_eq_zero.1 e.symm).resolve_left two_ne_zero
  rw [← Complex.ofReal_sum] at e
  exact_mod_cast e

end Fmmax
