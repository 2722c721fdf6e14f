import Verif.Proofs.TangentConj
import Verif.Props.TimeReversal
import Verif.Props.TangentSymmetry
import Verif.Props.Gratings

/-! Property theorems C121, continued: time reversal for layers in the vector formulations POL and NORMAL.

The theorems of `Verif/Props/TimeReversal.lean` cover vector formulations whose tangent field is conjugate for the conjugate permittivity and reversed orders.  This is the case
for the schemes without Jones vectors, for patterns whose gradient has clearly different directions at two points. -/

set_option linter.unusedSectionVars false

namespace Fmmax

open Matrix Spec

variable {ι : Type} [Fintype ι] [DecidableEq ι] {nx ny : ℕ} {x : Grid nx ny} {g : VectorField nx ny} {G : ι → ℤ × ℤ} {l : LatticeVectors} {M : ℕ × ℕ}

/-- **C121** The tangent field of the schemes POL and NORMAL for the complex conjugate array and the reversed orders is the complex conjugate one. -/
theorem C121_tangent_field {method : VectorMethod} (hmethod : method = .pol ∨ method = .normal) (hG : Function.Injective G) (hr : Resolves nx ny G)
    (hl : Independent l.u l.v) {fw sw : ℝ} (hw : 0 < fw ∨ 0 < sw) (hM : doubledMinShape G nx ny = .ok M) (hg : computeGradient x l = .ok g)
    (h2 : TwoDirections (bandLimited G g M.1 M.2)) {t : VectorField nx ny} (ht : computeField method x G l fw sw = .ok t) :
    computeField method (conj x) (fun i => -G i) l fw sw = .ok fun i j e => star (t i j e) := by
  rcases hmethod with rfl | rfl
  · exact computeTangentField_conj hG hr hl hM hg h2 hw ht
  · obtain ⟨q, hq, hq'⟩ := bind_eq_ok.1 ht
    refine bind_eq_ok.2 ⟨_, computeTangentField_conj hG hr hl hM hg h2 hw hq, ?_⟩
    rw [normalizeElementwise_conj]
    injection hq' with e
    rw [e]
    rfl

/-- The hypotheses hold for a crossed pattern. -/
example : ∃ t, computeField .pol (crossedPattern 4 4) (squareOrders 1) unitSquare 0 2 = .ok t ∧
    computeField .pol (conj (crossedPattern 4 4)) (fun i => -squareOrders 1 i) unitSquare 0 2 = .ok fun i j e => star (t i j e) := by
  obtain ⟨t, ht⟩ := Crossed.computed .pol
  exact ⟨t, ht, C121_tangent_field (M := (6, 6)) (Or.inl rfl) Crossed.orders_injective Crossed.resolves Crossed.independent (Or.inr two_pos) Crossed.shape
    Crossed.gradient_eq Crossed.twoDirections ht⟩

/-- **C121** Time reversal extends to isotropic layers in the named vector formulations POL and NORMAL, with the Fourier or the smoothness loss. -/
theorem C121_schemes {c : Setup ι} {p : StackLayer ι} {scheme : String × VectorMethod × ℝ × ℝ} (hscheme : scheme ∈ vectorFieldSchemes)
    (hmethod : scheme.2.1 = .pol ∨ scheme.2.1 = .normal) {ε : Grid p.nx p.ny} (hp : p.medium = .isotropic ε (.ofScheme scheme))
    (hG : Function.Injective c.expansion) (hr : Resolves p.nx p.ny c.expansion) (hl : Independent c.lattice.u c.lattice.v) (hx : MovablePattern c 0 0 ε) :
    p.ConjugateTangent c := by
  obtain ⟨M, g, hM, -, hg, h2⟩ := hx
  refine Or.inr (Or.inr ⟨ε, _, hp, fun tx ty ht => ?_⟩)
  obtain ⟨t, ht, e⟩ := bind_eq_ok.1 ht
  refine ⟨1, norm_one, bind_eq_ok.2 ⟨_, C121_tangent_field hmethod hG hr hl (scheme_weights hscheme) hM hg h2 ht, ?_⟩⟩
  injection e with e
  rw [Prod.mk.injEq] at e
  rw [← e.1, ← e.2, one_smul, one_smul]
  rfl

/-- The hypotheses hold for a layer with a crossed pattern. -/
example {scheme : String × VectorMethod × ℝ × ℝ} (hscheme : scheme ∈ vectorFieldSchemes) (hmethod : scheme.2.1 = .pol ∨ scheme.2.1 = .normal) :
    StackLayer.ConjugateTangent Crossed.setup
      { nx := 4, ny := 4, medium := .isotropic (crossedPattern 4 4 : Grid 4 4) (.ofScheme scheme), thickness := 1 } :=
  C121_schemes hscheme hmethod rfl Crossed.orders_injective Crossed.resolves Crossed.independent
    ⟨(6, 6), Crossed.gradient, Crossed.shape, ⟨⟨0, by simp⟩, ⟨0, by simp⟩⟩, Crossed.gradient_eq, Crossed.twoDirections⟩

/-! ### Gratings -/

omit [DecidableEq ι] in
/-- A real function seen by the reversed expansion. -/
theorem visible_reverse {d : Matrix (Fin nx) (Fin ny) ℝ} {mx my : ℕ} (h : Visible G d mx my) : Visible (fun i => -G i) d mx my := by
  obtain ⟨r, s, h⟩ := h
  refine ⟨r, s, ?_⟩
  have e : fourierSeries (fun i => -G i) (fun k => fourierCoefficient (d.map Complex.ofReal) (-G k)) mx my r s =
      star (fourierSeries G (fun k => fourierCoefficient (d.map Complex.ofReal) (G k)) mx my r s) := by
    simp only [fourierSeries, of_apply, star_sum, star_mul']
    refine Finset.sum_congr rfl fun k _ => ?_
    rw [planeWave_neg_conj, ← coefficient_conj_reverse]
    congr 2
    ext i j
    simp
  rw [e, norm_star]
  exact h

/-- The tangent field of a grating with permittivity `c + exp (i φ) g` and lines along the second axis. -/
theorem grating_field [NeZero nx] [NeZero ny] (hG : Function.Injective G) (hsym : ∀ i, ∃ j, G j = -G i) (hr : Resolves nx ny G)
    {a b : ℝ} (ha : a ≠ 0) (hb : b ≠ 0) (g : Fin nx → ℝ) (c : ℂ) (φ : ℝ) {m : ℕ × ℕ} (hm : doubledMinShape G nx ny = .ok m)
    (hv : Visible G (Matrix.of fun i (_ : Fin ny) => Real.sqrt |a * b| / a * profileSlope g i) m.1 m.2)
    {eps : Grid nx ny} (heps : eps = linesY fun r => c + Complex.exp (φ * Complex.I) * g r) (method : VectorMethod) (fw sw : ℝ) :
    ∃ z : ℂ, ‖z‖ = 1 ∧ computeField method eps G ⟨(a, 0), (0, b)⟩ fw sw = .ok fun _ _ k => z * ((![Real.sin φ, Real.cos φ] k : ℝ) : ℂ) := by
  obtain ⟨r, s, h1⟩ := hv
  have hg := gradient_linesY (ny := ny) ha hb g c φ
  rw [← heps] at hg
  refine computeField_const hr.pos.1 hr.pos.2 (d := ![Real.sin φ, Real.cos φ]) (Real.sin_sq_add_cos_sq φ) (fun b => ?_) method
  obtain ⟨σ, hσ, h⟩ := tangentField_phase eps G _ b fw sw 1 hG hsym hr _ 0 φ hg hm r s h1
  refine ⟨σ, hσ, h.trans (congrArg Except.ok ?_)⟩
  funext i j k
  fin_cases k <;> simp

theorem conj_linesY (g : Fin nx → ℝ) (c : ℂ) (φ : ℝ) : (conj (linesY fun r => c + Complex.exp (φ * Complex.I) * g r) : Grid nx ny) =
    linesY fun r => star c + Complex.exp (((-φ : ℝ) : ℂ) * Complex.I) * g r := by
  ext r s
  simp only [conj, linesY, of_apply, star_add, star_mul', Complex.star_def, Complex.conj_ofReal, ← Complex.exp_conj, map_mul, Complex.conj_I]
  push_cast
  rw [mul_neg, neg_mul]

/-- **C121** The tangent fields of a grating with permittivity `c + exp (i φ) g` and of the conjugate one, in all vector formulations: their directions are
`(sin φ, cos φ)` and `(-sin φ, cos φ)`. -/
theorem C121_grating_fields [NeZero nx] [NeZero ny] (hG : Function.Injective G) (hsym : ∀ i, ∃ j, G j = -G i) (hr : Resolves nx ny G)
    {a b : ℝ} (ha : a ≠ 0) (hb : b ≠ 0) (g : Fin nx → ℝ) (c : ℂ) (φ : ℝ) {m : ℕ × ℕ} (hm : doubledMinShape G nx ny = .ok m)
    (hv : Visible G (Matrix.of fun i (_ : Fin ny) => Real.sqrt |a * b| / a * profileSlope g i) m.1 m.2)
    {eps : Grid nx ny} (heps : eps = linesY fun r => c + Complex.exp (φ * Complex.I) * g r) (method : VectorMethod) (fw sw : ℝ) :
    ∃ z z' : ℂ, ‖z‖ = 1 ∧ ‖z'‖ = 1 ∧
      computeField method eps G ⟨(a, 0), (0, b)⟩ fw sw = .ok (fun _ _ k => z * ((![Real.sin φ, Real.cos φ] k : ℝ) : ℂ)) ∧
      computeField method (conj eps) (fun i => -G i) ⟨(a, 0), (0, b)⟩ fw sw = .ok fun _ _ k => z' * ((![-Real.sin φ, Real.cos φ] k : ℝ) : ℂ) := by
  obtain ⟨z, hz, h⟩ := grating_field hG hsym hr ha hb g c φ hm hv heps method fw sw
  obtain ⟨z', hz', h'⟩ := grating_field (G := fun i => -G i) (eps := conj eps) (fun i j h => hG (neg_injective h))
    (fun i => by obtain ⟨j, hj⟩ := hsym i; exact ⟨j, by rw [hj]⟩) (resolves_reverse hr) ha hb g (star c) (-φ) (doubledMinShape_reverse.trans hm)
    (visible_reverse hv) (by rw [heps, conj_linesY]) method fw sw
  refine ⟨z, z', hz, hz', h, ?_⟩
  simpa only [Real.sin_neg, Real.cos_neg] using h'

/-- **C121** Time reversal extends to gratings with lines along the second axis of a rectangular cell in all named vector formulations, if the lines differ in the
real part of the permittivity only (`w = 1`) or in absorption only (`w = i`). -/
theorem C121_gratings {s : Setup ι} {p : StackLayer ι} [NeZero p.nx] [NeZero p.ny] (scheme : String × VectorMethod × ℝ × ℝ) {eps : Grid p.nx p.ny}
    (hp : p.medium = .isotropic eps (.ofScheme scheme)) {a b : ℝ} (hl : s.lattice = ⟨(a, 0), (0, b)⟩) (ha : a ≠ 0) (hb : b ≠ 0)
    (hG : Function.Injective s.expansion) (hsym : ∀ i, ∃ j, s.expansion j = -s.expansion i) (hr : Resolves p.nx p.ny s.expansion)
    {m : ℕ × ℕ} (hm : doubledMinShape s.expansion p.nx p.ny = .ok m) (g : Fin p.nx → ℝ) (c w : ℂ) (hw : w = 1 ∨ w = Complex.I)
    (hv : Visible s.expansion (Matrix.of fun i (_ : Fin p.ny) => Real.sqrt |a * b| / a * profileSlope g i) m.1 m.2)
    (heps : eps = linesY fun r => c + w * g r) : p.ConjugateTangent s := by
  obtain ⟨φ, hφ, hs⟩ : ∃ φ : ℝ, w = Complex.exp (φ * Complex.I) ∧ (Real.sin φ = 0 ∨ Real.cos φ = 0) := by
    rcases hw with rfl | rfl
    · exact ⟨0, by simp, by simp⟩
    · exact ⟨Real.pi / 2, by simp [Complex.exp_pi_div_two_mul_I], by simp⟩
  subst hφ
  obtain ⟨z, z', hz, hz', h, h'⟩ := C121_grating_fields hG hsym hr ha hb g c φ hm hv heps scheme.2.1 scheme.2.2.1 scheme.2.2.2
  refine Or.inr (Or.inr ⟨eps, _, hp, fun tx ty ht => ?_⟩)
  obtain ⟨t, ht, e⟩ := bind_eq_ok.1 ht
  rw [hl, h] at ht
  injection ht with ht
  injection e with e
  rw [Prod.mk.injEq] at e
  have hz0 : star z * z = 1 := by rw [Complex.star_def, Complex.conj_mul', hz]; norm_num
  refine ⟨(if Real.cos φ = 0 then -1 else 1) * (z' * z), ?_, bind_eq_ok.2 ⟨_, by
    have : s.reverse.lattice = ⟨(a, 0), (0, b)⟩ := hl
    rw [this]; exact h', ?_⟩⟩
  · split_ifs <;> simp [hz, hz']
  rw [← e.1, ← e.2, ← ht]
  refine congrArg Except.ok (Prod.ext ?_ ?_) <;> ext i j <;>
    simp only [conj, of_apply, Matrix.smul_apply, smul_eq_mul, cons_val_zero, cons_val_one, star_mul', Complex.star_def, Complex.conj_ofReal] <;>
    rw [Complex.star_def] at hz0
  · rcases hs with hs | hs
    · simp [hs]
    · rw [if_pos hs]
      rw [Complex.ofReal_neg]
      linear_combination (z' * (Real.sin φ : ℂ)) * hz0
  · rcases hs with hs | hs
    · have : Real.cos φ ≠ 0 := fun h => by have := Real.sin_sq_add_cos_sq φ; rw [hs, h] at this; norm_num at this
      rw [if_neg this]
      linear_combination -(z' * (Real.cos φ : ℂ)) * hz0
    · simp [hs]

/-- The hypotheses hold for a transparent grating. -/
example (scheme : String × VectorMethod × ℝ × ℝ) : StackLayer.ConjugateTangent
    { wavelength := 1, inPlaneWavevector := (1 / 3, 0), lattice := ⟨(1, 0), (0, 1)⟩, expansion := gratingOrders (1, 0) }
    { nx := 4, ny := 4, medium := .isotropic glassGrating (.ofScheme scheme), thickness := 1 } := by
  obtain ⟨d, h1, h2, h3, h4, h5, h6, h7⟩ := axisGrating_hypotheses
  exact C121_gratings scheme rfl (a := 1) (b := 1) rfl one_ne_zero one_ne_zero h1 h2 h3 h6 quarterCos 3 1 (Or.inl rfl) quarter_visible (by simp [glassGrating])

theorem rules_mirror {E : Matrix (ι ⊕ ι) (ι ⊕ ι) ℂ} {eps eta : Matrix ι ι ℂ} {s c : ℂ} (hs : s ≠ 0) (hc : c ≠ 0) (h1 : s ^ 2 + c ^ 2 = 1)
    (h : FactorizationRules E eps eta (s, c) (c, -s)) (h' : FactorizationRules E eps eta (-s, c) (c, s)) : eps * eta = 1 := by
  have ht : ∀ d : ℂ × ℂ, ∀ f, E *ᵥ stacked d f = stacked d (eps *ᵥ f) := by
    intro d f
    have e : stacked d f = (d.1 / (2 * s) + d.2 / (2 * c)) • stacked (s, c) f + (d.2 / (2 * c) - d.1 / (2 * s)) • stacked (-s, c) f := by
      funext i
      rcases i with i | i <;> simp [stacked] <;> field_simp <;> ring
    have e' : stacked d (eps *ᵥ f) = (d.1 / (2 * s) + d.2 / (2 * c)) • stacked (s, c) (eps *ᵥ f) + (d.2 / (2 * c) - d.1 / (2 * s)) • stacked (-s, c) (eps *ᵥ f) := by
      funext i
      rcases i with i | i <;> simp [stacked] <;> field_simp <;> ring
    rw [e, e', mulVec_add, mulVec_smul, mulVec_smul, h.tangential, h'.tangential]
  have key : ∀ g, (eps * eta) *ᵥ g = g := by
    intro g
    have h1 := h.normal _ g rfl
    rw [ht, mulVec_mulVec] at h1
    funext i
    have := congrFun h1 (.inr i)
    simp only [stacked, Sum.elim_inr] at this
    exact mul_left_cancel₀ hc this
  exact ext_of_mulVec_single fun i => by rw [key, one_mulVec]

omit [DecidableEq ι] in
theorem conj_mulVec_star (A : Matrix (ι ⊕ ι) (ι ⊕ ι) ℂ) (v : ι ⊕ ι → ℂ) : conj A *ᵥ star v = star (A *ᵥ v) := by
  funext i
  simp only [mulVec, dotProduct, conj, of_apply, Pi.star_apply, star_sum, star_mul']

omit [DecidableEq ι] in
theorem conj_mulVec_star' (A : Matrix ι ι ℂ) (v : ι → ℂ) : conj A *ᵥ star v = star (A *ᵥ v) := by
  funext i
  simp only [mulVec, dotProduct, conj, of_apply, Pi.star_apply, star_sum, star_mul']

omit [Fintype ι] [DecidableEq ι] in
theorem stacked_star (t : ℝ × ℝ) (f : ι → ℂ) : stacked ((t.1 : ℂ), (t.2 : ℂ)) (star f) = star (stacked ((t.1 : ℂ), (t.2 : ℂ)) f) := by
  funext i
  rcases i with i | i <;> simp [stacked]

omit [DecidableEq ι] in
theorem rules_conj {E : Matrix (ι ⊕ ι) (ι ⊕ ι) ℂ} {eps eta : Matrix ι ι ℂ} {t n : ℝ × ℝ}
    (h : FactorizationRules (conj E) (conj eps) (conj eta) ((t.1 : ℂ), (t.2 : ℂ)) ((n.1 : ℂ), (n.2 : ℂ))) :
    FactorizationRules E eps eta ((t.1 : ℂ), (t.2 : ℂ)) ((n.1 : ℂ), (n.2 : ℂ)) := by
  refine ⟨fun f => star_injective ?_, fun f g hfg => star_injective ?_⟩
  · have := h.tangential (star f)
    rwa [stacked_star, conj_mulVec_star, conj_mulVec_star', stacked_star] at this
  · have := h.normal (star f) (star g) (by rw [conj_mulVec_star', hfg])
    rwa [stacked_star, conj_mulVec_star, stacked_star] at this

/-- **C121** does not extend to the vector formulations for gratings whose lines differ both in the real part of the permittivity and in absorption: the tangent
direction depends on the phase of the contrast (C94), so that effective permittivities of the conjugate grating are not the conjugate ones, unless the convolution matrices
of the permittivity and its reciprocal are inverse to each other. -/
theorem C121_finding_gratings [NeZero nx] [NeZero ny] (hG : Function.Injective G) (hsym : ∀ i, ∃ j, G j = -G i) (hr : Resolves nx ny G)
    {a b : ℝ} (ha : a ≠ 0) (hb : b ≠ 0) (g : Fin nx → ℝ) (c : ℂ) (φ : ℝ) (hs : Real.sin φ ≠ 0) (hc : Real.cos φ ≠ 0)
    {m : ℕ × ℕ} (hm : doubledMinShape G nx ny = .ok m)
    (hv : Visible G (Matrix.of fun i (_ : Fin ny) => Real.sqrt |a * b| / a * profileSlope g i) m.1 m.2)
    {eps : Grid nx ny} (heps : eps = linesY fun r => c + Complex.exp (φ * Complex.I) * g r)
    (h0 : ∀ r s, eps r s ≠ 0) (hu : IsUnit (convolution G (Matrix.of fun r s => 1 / eps r s)).det)
    (scheme : String × VectorMethod × ℝ × ℝ) :
    ∃ E E', transversePermittivityIsotropic ⟨(a, 0), (0, b)⟩ eps G (.ofScheme scheme) = .ok E ∧
      transversePermittivityIsotropic ⟨(a, 0), (0, b)⟩ (conj eps) (fun i => -G i) (.ofScheme scheme) = .ok E' ∧
      (E' = conj E → convolution G eps * convolution G (Matrix.of fun r s => 1 / eps r s) = 1) := by
  have hrec : (Matrix.of fun r s => 1 / (conj eps : Grid nx ny) r s) = (conj (Matrix.of fun r s => 1 / eps r s) : Grid nx ny) := by
    ext r s
    simp [conj]
  obtain ⟨E, hE, h⟩ := C94_phase_y hG hsym hr ha hb g c φ hm hv heps h0 hu scheme
  obtain ⟨E', hE', h'⟩ := C94_phase_y (G := fun i => -G i) (eps := conj eps) (fun i j h => hG (neg_injective h))
    (fun i => by obtain ⟨j, hj⟩ := hsym i; exact ⟨j, by rw [hj]⟩) (resolves_reverse hr) ha hb g (star c) (-φ) (doubledMinShape_reverse.trans hm)
    (visible_reverse hv) (by rw [heps, conj_linesY]) (fun r s => by simpa [conj] using h0 r s)
    (by rw [hrec, convolution_conj]; exact conj_isUnit hu) scheme
  refine ⟨E, E', hE, hE', fun e => ?_⟩
  rw [hrec, convolution_conj, convolution_conj, e] at h'
  have h2 := rules_conj (t := (Real.sin (-φ), Real.cos (-φ))) (n := (Real.cos (-φ), -Real.sin (-φ))) (by simpa using h')
  refine rules_mirror (s := (Real.sin φ : ℂ)) (c := (Real.cos φ : ℂ)) (by exact_mod_cast hs) (by exact_mod_cast hc) ?_ (by simpa using h) (by simpa using h2)
  exact_mod_cast Real.sin_sq_add_cos_sq φ

/-- A grating with permittivity `2 + exp (i φ) cos`. -/
noncomputable def lossyGrating (φ : ℝ) : Grid 4 4 := linesY fun r => 2 + Complex.exp (φ * Complex.I) * (quarterCos r : ℂ)

theorem lossyGrating_re (φ : ℝ) (r s : Fin 4) : 0 < (lossyGrating φ r s).re := by
  have h1 := Real.neg_one_le_cos φ
  have h2 := Real.cos_le_one φ
  fin_cases r <;> simp [lossyGrating, linesY, quarterCos, Complex.exp_ofReal_mul_I_re] <;> linarith

theorem lossy_product (φ : ℝ) : convolution (gratingOrders (1, 0)) (lossyGrating φ) *
    convolution (gratingOrders (1, 0)) (Matrix.of fun r s => 1 / lossyGrating φ r s) ≠ 1 := by
  intro h
  have := congrFun (congrFun h 1) 1
  set w := Complex.exp (φ * Complex.I) with hw
  have hw0 : w ≠ 0 := Complex.exp_ne_zero _
  have e1 : lossyGrating φ = linesY ![2 + w, 2, 2 - w, 2] := by
    ext r s
    fin_cases r <;> simp [lossyGrating, linesY, quarterCos, hw, sub_eq_add_neg]
  have hp : 2 + w ≠ 0 := by
    intro h
    have := lossyGrating_re φ 0 0
    rw [e1] at this
    simp [linesY, h] at this
  have hm : 2 - w ≠ 0 := by
    intro h
    have := lossyGrating_re φ 2 0
    rw [e1] at this
    simp [linesY, h] at this
  have e2 : (Matrix.of fun r s => 1 / lossyGrating φ r s) = linesY ![1 / (2 + w), 1 / 2, 1 / (2 - w), 1 / 2] := by
    ext r s
    rw [e1]
    fin_cases r <;> simp [linesY]
  have g1 : gratingOrders (1, 0) 1 - gratingOrders (1, 0) 0 = (1, 0) := by simp [gratingOrders]
  have g2 : gratingOrders (1, 0) 1 - gratingOrders (1, 0) 1 = (0, 0) := by simp [gratingOrders]; rfl
  have g3 : gratingOrders (1, 0) 1 - gratingOrders (1, 0) 2 = (2, 0) := by simp [gratingOrders]
  have g4 : gratingOrders (1, 0) 0 - gratingOrders (1, 0) 1 = (-1, 0) := by simp [gratingOrders]
  have g5 : gratingOrders (1, 0) 2 - gratingOrders (1, 0) 1 = (-2, 0) := by simp [gratingOrders]
  rw [e2, e1] at this
  simp only [Matrix.mul_apply, convolution, Matrix.of_apply, Fin.sum_univ_three, g1, g2, g3, g4, g5, coefficient_quarter,
    Matrix.one_apply_eq, Matrix.cons_val_zero, Matrix.cons_val_one, Matrix.cons_val] at this
  have z1 : Complex.I ^ (-1 : ℤ) = -Complex.I := by simp
  have z2 : Complex.I ^ (2 : ℤ) = -1 := by rw [show (2 : ℤ) = ((2 : ℕ) : ℤ) by rfl, zpow_natCast, Complex.I_sq]
  have z3 : Complex.I ^ (3 : ℤ) = -Complex.I := by
    rw [show (3 : ℤ) = ((3 : ℕ) : ℤ) by rfl, zpow_natCast, Complex.I_pow_three]
  have z4 : Complex.I ^ (-2 : ℤ) = -1 := by rw [_root_.zpow_neg, z2]; norm_num
  have z5 : Complex.I ^ (-3 : ℤ) = Complex.I := by rw [_root_.zpow_neg, z3]; simp
  have z6 : Complex.I ^ (4 : ℤ) = 1 := by
    rw [show (4 : ℤ) = ((4 : ℕ) : ℤ) by rfl, zpow_natCast, Complex.I_pow_four]
  have z7 : Complex.I ^ (-4 : ℤ) = 1 := by rw [_root_.zpow_neg, z6, inv_one]
  have z8 : Complex.I ^ (6 : ℤ) = -1 := by
    rw [show (6 : ℤ) = 4 + 2 by norm_num, zpow_add₀ Complex.I_ne_zero, z6, z2, one_mul]
  have z9 : Complex.I ^ (-6 : ℤ) = -1 := by rw [_root_.zpow_neg, z8]; norm_num
  have ia : (2 + w) * (1 / (2 + w)) = 1 := by rw [mul_one_div, div_self hp]
  have ib : (2 - w) * (1 / (2 - w)) = 1 := by rw [mul_one_div, div_self hm]
  generalize 1 / (2 + w) = A at this ia
  generalize 1 / (2 - w) = B at this ib
  norm_num [z1, z2, z3, z4, z5, z6, z7, z8, z9] at this
  have hs : A + B = 1 := by linear_combination 4 * this - (1 / 2 : ℂ) * ia - (1 / 2 : ℂ) * ib
  have : w ^ 2 = 0 := by linear_combination (4 - w ^ 2) * hs - (2 - w) * ia - (2 + w) * ib
  exact hw0 (by simpa using this)

/-- Effective permittivities of such a grating and the conjugate one are not conjugate to each other: the hypotheses of `C121_finding_gratings` hold. -/
example (scheme : String × VectorMethod × ℝ × ℝ) {φ : ℝ} (hs : Real.sin φ ≠ 0) (hc : Real.cos φ ≠ 0) :
    ∃ E E', transversePermittivityIsotropic ⟨(1, 0), (0, 1)⟩ (lossyGrating φ) (gratingOrders (1, 0)) (.ofScheme scheme) = .ok E ∧
      transversePermittivityIsotropic ⟨(1, 0), (0, 1)⟩ (conj (lossyGrating φ)) (fun i => -gratingOrders (1, 0) i) (.ofScheme scheme) = .ok E' ∧ E' ≠ conj E := by
  obtain ⟨d, h1, h2, h3, h4, h5, h6, h7⟩ := axisGrating_hypotheses
  obtain ⟨E, E', hE, hE', h⟩ := C121_finding_gratings h1 h2 h3 one_ne_zero one_ne_zero quarterCos 2 φ hs hc h6 quarter_visible (eps := lossyGrating φ) rfl
    (fun r s h => by
      have := lossyGrating_re φ r s
      rw [h] at this
      simp at this)
    (convolution_isUnit h1 h3 fun r s => recip_re_pos (lossyGrating_re φ r s)) scheme
  exact ⟨E, E', hE, hE', fun e => lossy_product φ (h e)⟩

end Fmmax
