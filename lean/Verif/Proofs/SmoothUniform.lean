import Verif.Proofs.Smooth
import Verif.Proofs.Fmm
import Mathlib.Analysis.SpecialFunctions.Complex.LogDeriv

/-!
Smoothness of the eigenvalues of uniform layers: branches of the square root.
-/

namespace Fmmax.Spec

open Matrix Topology

variable {E : Type} [NormedAddCommGroup E] [NormedSpace ℝ E] {k : WithTop ℕ∞} {x : E}

/-- Like `DependsSmoothly.bind`, remembering the value at the point. -/
theorem DependsSmoothly.bind' {α γ : Type} {P : (E → α) → Prop} {Q : (E → γ) → Prop} {f : E → Res α}
    {h : E → α → Res γ} (hf : DependsSmoothly P x f)
    (hh : ∀ g : E → α, P g → f x = .ok (g x) → DependsSmoothly Q x fun y => h y (g y)) :
    DependsSmoothly Q x fun y => f y >>= h y := by
  refine DependsSmoothly.bind (P := fun g => P g ∧ f x = .ok (g x)) ?_ fun g hg => hh g hg.1 hg.2
  intro v hv
  obtain ⟨g, hg, hP, he⟩ := hf v hv
  exact ⟨g, hg, ⟨hP, hg ▸ hv⟩, he⟩

theorem contDiffAt_csqrt {f : E → ℂ} (hf : ContDiffAt ℝ k f x) (h0 : f x ∈ Complex.slitPlane) :
    ContDiffAt ℝ k (fun y => csqrt (f y)) x := by
  have hlog : ContDiffAt ℝ k (fun y => Complex.log (f y)) x :=
    ((Complex.contDiffAt_log h0).restrict_scalars ℝ).comp x hf
  refine (hlog.mul (contDiffAt_const (c := (1 / 2 : ℂ)))).cexp.congr_of_eventuallyEq ?_
  filter_upwards [hf.continuousAt.eventually_ne (Complex.slitPlane_ne_zero h0)] with y hy
  exact Complex.cpow_def_of_ne_zero hy _

theorem csqrt_parts (w : ℂ) :
    2 * (csqrt w).re * (csqrt w).im = w.im ∧ (csqrt w).re ^ 2 - (csqrt w).im ^ 2 = w.re := by
  have h1 := congrArg Complex.im (csqrt_sq w)
  have h2 := congrArg Complex.re (csqrt_sq w)
  simp only [pow_two, Complex.mul_im, Complex.mul_re] at h1 h2
  constructor <;> nlinarith

theorem csqrt_im_nonneg {w : ℂ} (h : 0 ≤ w.im) (hw : w ∈ Complex.slitPlane) : 0 ≤ (csqrt w).im := by
  have hr := csqrt_re_nonneg w
  obtain ⟨him, hre⟩ := csqrt_parts w
  by_contra hlt
  push Not at hlt
  rcases hr.lt_or_eq with hp | hz
  · nlinarith [mul_neg_of_pos_of_neg hp hlt]
  · rw [← hz] at him hre
    rcases Complex.mem_slitPlane_iff.1 hw with h1 | h1
    · nlinarith [sq_nonneg (csqrt w).im]
    · exact h1 (by linarith)

/-- On the upper side of the positive real axis the forward root is the principal root. -/
theorem forward_eq_csqrt {w : ℂ} (h : 0 ≤ w.im) (hw : w ∈ Complex.slitPlane) :
    selectEigenvaluesSign (csqrt w) = csqrt w := by
  unfold selectEigenvaluesSign
  rw [if_neg (not_lt.2 (csqrt_im_nonneg h hw))]

/-- On the lower side of the positive real axis it is the opposite root. -/
theorem forward_eq_neg_csqrt {w : ℂ} (h : w.im < 0) : selectEigenvaluesSign (csqrt w) = -csqrt w := by
  unfold selectEigenvaluesSign
  refine if_pos ?_
  have hr := csqrt_re_nonneg w
  obtain ⟨him, -⟩ := csqrt_parts w
  by_contra hge
  push Not at hge
  nlinarith [mul_nonneg hr hge]

/-- Off the nonnegative real axis the forward root is `1j` times the principal root of `-w`. -/
theorem forward_eq_I_mul {w : ℂ} (h : -w ∈ Complex.slitPlane) :
    selectEigenvaluesSign (csqrt w) = Complex.I * csqrt (-w) := by
  refine isForwardRoot_unique (selectEigenvaluesSign_forward w) ⟨?_, ?_, ?_⟩
  · rw [mul_pow, csqrt_sq, Complex.I_sq]
    ring
  · simpa using csqrt_re_nonneg (-w)
  · intro h0
    exfalso
    have hre : (csqrt (-w)).re = 0 := by simpa using h0
    have hs := csqrt_sq (-w)
    have e : csqrt (-w) = Complex.I * (csqrt (-w)).im := by
      apply Complex.ext <;> simp [hre]
    rw [e, mul_pow, Complex.I_sq] at hs
    rcases Complex.mem_slitPlane_iff.1 h with h1 | h1
    · rw [← hs] at h1
      simp [pow_two] at h1
      nlinarith [mul_self_nonneg (csqrt (-w)).im]
    · rw [← hs] at h1
      simp [pow_two] at h1

/-- The forward root depends smoothly on the parameters away from zero, if nearby values of a positive number have no negative
imaginary parts. -/
theorem contDiffAt_forward {W : E → ℂ} (hW : ContDiffAt ℝ k W x) (h0 : W x ≠ 0)
    (hpos : (selectEigenvaluesSign (csqrt (W x))).im = 0 → ∀ᶠ y in 𝓝 x, 0 ≤ (W y).im) :
    ContDiffAt ℝ k (fun y => selectEigenvaluesSign (csqrt (W y))) x := by
  by_cases hs : -W x ∈ Complex.slitPlane
  · have hn : ContDiffAt ℝ k (fun y => -W y) x := hW.neg
    refine ((contDiffAt_const (c := Complex.I)).mul (contDiffAt_csqrt hn hs)).congr_of_eventuallyEq ?_
    filter_upwards [hn.continuousAt.eventually (Complex.isOpen_slitPlane.mem_nhds hs)] with y hy
    exact forward_eq_I_mul hy
  · have hW0 : W x ∈ Complex.slitPlane ∧ (W x).im = 0 := by
      rw [Complex.mem_slitPlane_iff] at hs ⊢
      push Not at hs
      simp only [Complex.neg_re, Complex.neg_im, neg_eq_zero] at hs
      refine ⟨Or.inl ?_, hs.2⟩
      rcases lt_or_eq_of_le (by linarith [hs.1] : 0 ≤ (W x).re) with h | h
      · exact h
      · exact absurd (Complex.ext h.symm hs.2) h0
    have him : (selectEigenvaluesSign (csqrt (W x))).im = 0 := by
      rw [forward_eq_csqrt hW0.2.ge hW0.1]
      obtain ⟨h1, h2⟩ := csqrt_parts (W x)
      rw [hW0.2] at h1
      have h3 : 0 < (W x).re := by
        rcases Complex.mem_slitPlane_iff.1 hW0.1 with h | h
        · exact h
        · exact absurd hW0.2 h
      rcases mul_eq_zero.1 h1 with h | h
      · have : (csqrt (W x)).re = 0 := by linarith
        rw [this] at h2
        nlinarith [sq_nonneg (csqrt (W x)).im]
      · exact h
    refine (contDiffAt_csqrt hW hW0.1).congr_of_eventuallyEq ?_
    filter_upwards [hpos him, hW.continuousAt.eventually (Complex.isOpen_slitPlane.mem_nhds hW0.1)] with y h1 h2
    exact forward_eq_csqrt h1 h2

end Fmmax.Spec
