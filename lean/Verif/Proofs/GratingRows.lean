import Verif.Proofs.SupercellMedia
import Verif.Props.Symmetry
import Verif.Spec.GratingRows

/-! Calculations whose orders are part of the orders of another one: layers and stacks.  Applied to the rows of orders of gratings. -/

set_option linter.unusedSectionVars false

namespace Fmmax

open Matrix Spec

variable {ι κ : Type} [Fintype ι] [DecidableEq ι] [Fintype κ] [DecidableEq κ] {nx ny mx my : ℕ}
variable {place : ι → κ} {c : Setup ι} {c' : Setup κ} {γ : Fin mx × Fin my → Fin nx × Fin ny}
variable {eig : Matrix (ι ⊕ ι) (ι ⊕ ι) ℂ → (ι ⊕ ι → ℂ) × Matrix (ι ⊕ ι) (ι ⊕ ι) ℂ}
variable {eig' : Matrix (κ ⊕ κ) (κ ⊕ κ) ℂ → (κ ⊕ κ → ℂ) × Matrix (κ ⊕ κ) (κ ⊕ κ) ℂ}

/-- The orders of `c` are the orders `place i` of `c'`: they have the same wavevectors. -/
structure OrderClass (place : ι → κ) (c : Setup ι) (c' : Setup κ) : Prop where
  wavelength : c'.wavelength = c.wavelength
  injective : Function.Injective place
  wavevectors : ∀ {k' : κ → ℝ × ℝ}, transverseWavevectors c'.inPlaneWavevector c'.lattice c'.expansion = .ok k' →
    transverseWavevectors c.inPlaneWavevector c.lattice c.expansion = .ok fun i => k' (place i)

namespace OrderClass

/-- The orders of the class. -/
abbrev part (h : OrderClass place c c') : Part ι κ := placePart place h.injective

/-- Patterns pulled along `γ` do not couple orders of the class with others, and couple orders of the class as the patterns do. -/
structure Sampling (h : OrderClass place c c') (γ : Fin mx × Fin my → Fin nx × Fin ny) : Prop where
  surjective : Function.Surjective γ
  convolution : ∀ x : Grid nx ny, h.part.Carries h.part (convolution c'.expansion (x.pull γ)) (Fmmax.convolution c.expansion x)

/-- The tangent fields correspond. -/
def SampledFormulation (γ : Fin mx × Fin my → Fin nx × Fin ny) (c : Setup ι) (c' : Setup κ) (x : Grid nx ny) :
    Formulation nx ny ι → Formulation mx my κ → Prop
  | .fft, .fft => True
  | .vector fn, .vector fn' => ∃ t, fn x c.expansion c.lattice = .ok t ∧ fn' (x.pull γ) c'.expansion c'.lattice = .ok (t.1.pull γ, t.2.pull γ)
  | _, _ => False

theorem numerical (he : IsEig eig) (he' : IsEig eig') (h : OrderClass place c c') {M' : FourierMatrices κ} {M : FourierMatrices ι}
    (hM : FourierPart h.part M' M) {r' : LayerSolveResult κ}
    (hr' : numericalEigensolve eig' c'.wavelength c'.inPlaneWavevector c'.lattice M' c'.expansion = .ok r') (hφ' : IsUnit r'.eigenvectors.det) :
    ∃ r, numericalEigensolve eig c.wavelength c.inPlaneWavevector c.lattice M c.expansion = .ok r ∧
      ∃ hφ : IsUnit r.eigenvectors.det, LayerPart h.part.double (h.part.double.modes hφ' hφ) r' r ∧ FieldPart h.part place r' r := by
  obtain ⟨hs', f1', f2', f3', f4', -, -⟩ := numerical_solvedFor he' hr'
  obtain ⟨-, -, -, hf'⟩ := numericalEigensolve_modes he' hr'
  obtain ⟨k', A', hk', hA', er'⟩ := numericalEigensolve_ok_iff.1 hr'
  obtain ⟨g1, g2, g3, -⟩ := (eigenproblemMatrix_ok_iff 0 0 hk').1 hA'
  have hk := h.wavevectors hk'
  have hA := (eigenproblemMatrix_ok_iff (wavelength := c.wavelength) (m := M) 0 0 hk).2
    ⟨by rw [← h.wavelength]; exact g1, hM.zPermittivity.isUnit g2, hM.zPermeability.isUnit g3, rfl⟩
  obtain ⟨r, hr⟩ : ∃ r, numericalEigensolve eig c.wavelength c.inPlaneWavevector c.lattice M c.expansion = .ok r :=
    ⟨_, numericalEigensolve_ok_iff.2 ⟨_, _, hk, hA, rfl⟩⟩
  refine ⟨r, hr, ?_⟩
  obtain ⟨hs, f1, f2, f3, f4, -, -⟩ := numerical_solvedFor he hr
  obtain ⟨-, -, -, hf⟩ := numericalEigensolve_modes he hr
  obtain ⟨_, _, -, -, er⟩ := numericalEigensolve_ok_iff.1 hr
  have w1 := layer_wavevectors (l := r) (c := c) (by rw [er]; rfl) (by rw [er]; rfl) (by rw [er]; rfl) hk
  have w2 := layer_wavevectors (l := r') (c := c') (by rw [er']; rfl) (by rw [er']; rfl) (by rw [er']; rfl) hk'
  have kx : h.part.Carries h.part (diagonal fun i => ((orderWavevector r' i).1 : ℂ)) (diagonal fun i => ((orderWavevector r i).1 : ℂ)) :=
    placePart_diagonal h.injective fun i => by rw [← w1, ← w2]
  have ky : h.part.Carries h.part (diagonal fun i => ((orderWavevector r' i).2 : ℂ)) (diagonal fun i => ((orderWavevector r i).2 : ℂ)) :=
    placePart_diagonal h.injective fun i => by rw [← w1, ← w2]
  have hE := magneticToElectric_part (by unfold omega; rw [f1, f1', h.wavelength]) kx ky (by rw [f3, f3']; exact hM.zPermittivity) hs'.wellPosed.2.2
    (by rw [f2, f2']; exact hM.transversePermeability)
  have hD := divergenceMatrix_part kx ky (by rw [f4, f4']; exact hM.zPermeability) hs'.zPermeability
  have hop : h.part.double.Carries h.part.double (modeOperator r' M'.transversePermittivity) (modeOperator r M.transversePermittivity) := by
    refine (hM.transversePermittivity.mul hE).sub (hD.mul ?_)
    rw [f2, f2']
    exact hM.transversePermeability
  have hφ : IsUnit r.eigenvectors.det := by
    obtain ⟨V, w, hV, hVw⟩ := hop.diagonalise hφ' hs'.modes
    exact numerical_eigenvectors_invertible he hr hV hVw
  refine ⟨hφ, layerPart_of_solved hs' hs hf' hf hφ' hφ hE hop, hs'.wellPosed, by rw [f1, f1', h.wavelength], fun i => by rw [← w1, ← w2], ?_, ?_⟩
  · rw [er, er']; exact hM.inverseZPermittivity
  · rw [er, er']; exact hM.inverseZPermeability

theorem uniform (h : OrderClass place c c') {ε : ℂ} {r' : LayerSolveResult κ}
    (hr' : eigensolveUniformIsotropic c'.wavelength c'.inPlaneWavevector c'.lattice ε c'.expansion = .ok r') (hφ' : IsUnit r'.eigenvectors.det) :
    ∃ r, eigensolveUniformIsotropic c.wavelength c.inPlaneWavevector c.lattice ε c.expansion = .ok r ∧
      ∃ hφ : IsUnit r.eigenvectors.det, LayerPart h.part.double (h.part.double.modes hφ' hφ) r' r ∧ FieldPart h.part place r' r := by
  have hs' := uniform_solvedFor hr'
  obtain ⟨-, -, hf'⟩ := uniform_modeEquation hr'
  obtain ⟨k', w, hk', hw, hε, er'⟩ := eigensolveUniformIsotropic_ok_iff.1 hr'
  have hk := h.wavevectors hk'
  obtain ⟨r, hr⟩ : ∃ r, eigensolveUniformIsotropic c.wavelength c.inPlaneWavevector c.lattice ε c.expansion = .ok r :=
    ⟨_, eigensolveUniformIsotropic_ok_iff.2 ⟨_, _, hk, by rw [← h.wavelength]; exact hw, hε, rfl⟩⟩
  refine ⟨r, hr, ?_⟩
  have hs := uniform_solvedFor hr
  obtain ⟨-, -, hf⟩ := uniform_modeEquation hr
  obtain ⟨_, _, -, -, -, er⟩ := eigensolveUniformIsotropic_ok_iff.1 hr
  have w1 := layer_wavevectors (l := r) (c := c) (by rw [er]) (by rw [er]) (by rw [er]) hk
  have w2 := layer_wavevectors (l := r') (c := c') (by rw [er']) (by rw [er']) (by rw [er']) hk'
  have kx : h.part.Carries h.part (diagonal fun i => ((orderWavevector r' i).1 : ℂ)) (diagonal fun i => ((orderWavevector r i).1 : ℂ)) :=
    placePart_diagonal h.injective fun i => by rw [← w1, ← w2]
  have ky : h.part.Carries h.part (diagonal fun i => ((orderWavevector r' i).2 : ℂ)) (diagonal fun i => ((orderWavevector r i).2 : ℂ)) :=
    placePart_diagonal h.injective fun i => by rw [← w1, ← w2]
  have hT : h.part.double.Carries h.part.double r'.transversePermeabilityMatrix r.transversePermeabilityMatrix := by
    rw [er, er']; simpa using h.part.double.carries_one
  have hE := magneticToElectric_part (by unfold omega; rw [er, er', h.wavelength]) kx ky (by rw [er, er']; simpa [diag_const] using carries_smul_one _ ε)
    hs'.wellPosed.2.2 hT
  have hD := divergenceMatrix_part kx ky (by rw [er, er']; simpa using h.part.carries_one) hs'.zPermeability
  have hop : h.part.double.Carries h.part.double (modeOperator r' (ε • 1)) (modeOperator r (ε • 1)) :=
    (((h.part.double.carries_one).smul ε).mul hE).sub (hD.mul hT)
  have hφ : IsUnit r.eigenvectors.det := by rw [er]; simp
  refine ⟨hφ, layerPart_of_solved hs' hs hf' hf hφ' hφ hE hop, hs'.wellPosed, by rw [er, er']; exact h.wavelength, fun i => by rw [← w1, ← w2], ?_, ?_⟩
  · rw [er, er']; simpa [diag_const] using carries_smul_one h.part (1 / ε)
  · rw [er, er']; simpa [diag_const] using h.part.carries_one

theorem vector (h : OrderClass place c c') (hγ : h.Sampling γ) {ε tx ty : Grid nx ny} (hR : Resolves nx ny c.expansion) {E' : ModeMatrix κ}
    (hE : transversePermittivityVector (ε.pull γ) (tx.pull γ) (ty.pull γ) c'.expansion = .ok E') :
    ∃ E, transversePermittivityVector ε tx ty c.expansion = .ok E ∧ h.part.double.Carries h.part.double E' E := by
  unfold transversePermittivityVector at hE ⊢
  simp only [bind_eq_ok, fourierConvolutionMatrix_ok_iff, inv_ok_iff, ok_inj] at hE ⊢
  obtain ⟨_, ⟨-, rfl⟩, η', hη', _, ⟨-, rfl⟩, _, ⟨hu, rfl⟩, _, ⟨-, rfl⟩, _, ⟨-, rfl⟩, _, ⟨-, rfl⟩, _, ⟨-, rfl⟩, rfl⟩ := hE
  obtain ⟨η, hη, rfl⟩ := recipGrid_of_pull hγ.surjective hη'
  have cη := hγ.convolution η
  have cε := hγ.convolution ε
  refine ⟨_, ⟨_, ⟨hR, rfl⟩, _, hη, _, ⟨hR, rfl⟩, _, ⟨cη.isUnit hu, rfl⟩, _, ⟨hR, rfl⟩, _, ⟨hR, rfl⟩, _, ⟨hR, rfl⟩, _, ⟨hR, rfl⟩, rfl⟩, ?_⟩
  have cd := cε.sub (cη.inv hu (cη.isUnit hu))
  have z := h.part.carries_zero h.part
  refine (Part.carries_fromBlocks cε z z cε).sub ((Part.carries_fromBlocks cd z z cd).mul (Part.carries_fromBlocks ?_ ?_ ?_ ?_))
  · exact hγ.convolution (Matrix.of fun r s => (tangentTerms (tx r s) (ty r s)).yy)
  · exact hγ.convolution (Matrix.of fun r s => (tangentTerms (tx r s) (ty r s)).yx)
  · exact hγ.convolution (Matrix.of fun r s => (tangentTerms (tx r s) (ty r s)).xy)
  · exact hγ.convolution (Matrix.of fun r s => (tangentTerms (tx r s) (ty r s)).xx)

theorem isotropic (h : OrderClass place c c') (hγ : h.Sampling γ) {ε : Grid nx ny} (hR : Resolves nx ny c.expansion)
    {f : Formulation nx ny ι} {f' : Formulation mx my κ} (hf : SampledFormulation γ c c' ε f f') {M' : FourierMatrices κ}
    (hM : fourierMatricesPatternedIsotropic c'.lattice (ε.pull γ) c'.expansion f' = .ok M') :
    ∃ M, fourierMatricesPatternedIsotropic c.lattice ε c.expansion f = .ok M ∧ FourierPart h.part M' M := by
  unfold fourierMatricesPatternedIsotropic at hM ⊢
  simp only [bind_eq_ok, fourierConvolutionMatrix_ok_iff, ok_inj, diag_const, one_smul, zero_smul, Matrix.fromBlocks_one] at hM ⊢
  obtain ⟨E', hE', η', hη', _, ⟨-, rfl⟩, _, ⟨-, rfl⟩, rfl⟩ := hM
  obtain ⟨η, hη, rfl⟩ := recipGrid_of_pull hγ.surjective hη'
  have cε := hγ.convolution ε
  have z := h.part.carries_zero h.part
  obtain ⟨E, hE, hEE⟩ : ∃ E, transversePermittivityIsotropic c.lattice ε c.expansion f = .ok E ∧ h.part.double.Carries h.part.double E' E := by
    cases f with
    | fft =>
      cases f' with
      | fft =>
        unfold transversePermittivityIsotropic transversePermittivityFft at hE' ⊢
        simp only [bind_eq_ok, fourierConvolutionMatrix_ok_iff, ok_inj] at hE' ⊢
        obtain ⟨_, ⟨-, rfl⟩, rfl⟩ := hE'
        exact ⟨_, ⟨_, ⟨hR, rfl⟩, rfl⟩, Part.carries_fromBlocks cε z z cε⟩
      | vector fn' => exact hf.elim
    | vector fn =>
      cases f' with
      | fft => exact hf.elim
      | vector fn' =>
        obtain ⟨t, ht, ht'⟩ := hf
        unfold transversePermittivityIsotropic at hE' ⊢
        simp only [bind_eq_ok] at hE' ⊢
        obtain ⟨t', ht2, hE'⟩ := hE'
        rw [ht', ok_inj] at ht2
        subst ht2
        obtain ⟨E, hE, h2⟩ := h.vector hγ hR hE'
        exact ⟨E, ⟨_, ht, hE⟩, h2⟩
  exact ⟨_, ⟨_, hE, _, hη, _, ⟨hR, rfl⟩, _, ⟨hR, rfl⟩, rfl⟩, ⟨cε, h.part.carries_one, h.part.double.carries_one, hEE, hγ.convolution η, h.part.carries_one⟩⟩

theorem rotated (h : OrderClass place c c') (hγ : h.Sampling γ) (hR : Resolves nx ny c.expansion)
    {tensor : Fin nx → Fin ny → Matrix (Fin 2) (Fin 2) ℂ} {t00 t01 t10 t11 : Grid nx ny} {E' : ModeMatrix κ}
    (hE : rotatedFourierMatrix (fun r s => tensor (γ (r, s)).1 (γ (r, s)).2) (t00.pull γ) (t01.pull γ)
      (t10.pull γ) (t11.pull γ) c'.expansion = .ok E') :
    ∃ E, rotatedFourierMatrix tensor t00 t01 t10 t11 c.expansion = .ok E ∧ h.part.double.Carries h.part.double E' E := by
  unfold rotatedFourierMatrix rotationMatrices at hE ⊢
  simp only [bind_eq_ok, fourierConvolutionMatrix_ok_iff, inv_ok_iff, ok_inj, allOk_eq_ok, Prod.exists, Prod.mk.injEq, solve_eq_ok] at hE ⊢
  obtain ⟨_, _, _, ⟨_, ⟨-, rfl⟩, _, ⟨-, rfl⟩, _, ⟨-, rfl⟩, _, ⟨-, rfl⟩, _, ⟨-, rfl⟩, _, ⟨-, rfl⟩, _, ⟨-, rfl⟩, _, ⟨-, rfl⟩, rfl, rfl, rfl⟩, rot', hrot',
    _, ⟨-, rfl⟩, _, ⟨-, rfl⟩, _, ⟨-, rfl⟩, η', hη', _, ⟨-, rfl⟩, _, ⟨hu, rfl⟩, rfl⟩ := hE
  have hs : Function.Surjective (γ : Fin mx × Fin my → Fin nx × Fin ny) := hγ.surjective
  obtain ⟨rot, hrot⟩ : ∃ rot : Fin nx × Fin ny → Matrix (Fin 2) (Fin 2) ℂ, ∀ q,
      IsUnit (!![t00 q.1 q.2, t01 q.1 q.2; t10 q.1 q.2, t11 q.1 q.2] : Matrix (Fin 2) (Fin 2) ℂ).det ∧
      !![t00 q.1 q.2, t01 q.1 q.2; t10 q.1 q.2, t11 q.1 q.2] * rot q = tensor q.1 q.2 * !![t00 q.1 q.2, t01 q.1 q.2; t10 q.1 q.2, t11 q.1 q.2] := by
    refine ⟨fun q => rot' (Function.surjInv hs q), fun q => ?_⟩
    have := hrot' (Function.surjInv hs q)
    simp only [Grid.pull, of_apply, Prod.mk.eta, Function.surjInv_eq hs q] at this
    exact this
  have hrr : rot' = fun q => rot (γ q) := by
    funext q
    obtain ⟨u1, e1⟩ := hrot' q
    obtain ⟨-, e2⟩ := hrot (γ q)
    have e3 := e1.trans e2.symm
    calc rot' q = (!![t00.pull γ q.1 q.2, t01.pull γ q.1 q.2; t10.pull γ q.1 q.2, t11.pull γ q.1 q.2])⁻¹ *
          (!![t00.pull γ q.1 q.2, t01.pull γ q.1 q.2; t10.pull γ q.1 q.2, t11.pull γ q.1 q.2] * rot' q) := by
          rw [← Matrix.mul_assoc, nonsing_inv_mul _ u1, Matrix.one_mul]
      _ = (!![t00.pull γ q.1 q.2, t01.pull γ q.1 q.2; t10.pull γ q.1 q.2, t11.pull γ q.1 q.2])⁻¹ *
          (!![t00.pull γ q.1 q.2, t01.pull γ q.1 q.2; t10.pull γ q.1 q.2, t11.pull γ q.1 q.2] * rot (γ q)) := by
          rw [e3]; rfl
      _ = _ := by rw [← Matrix.mul_assoc, nonsing_inv_mul _ u1, Matrix.one_mul]
  subst hrr
  obtain ⟨η, hη, rfl⟩ := recipGrid_of_pull (x := Matrix.of fun r s => rot (r, s) 1 1) hs hη'
  have cη := hγ.convolution η
  have cv := fun x : Grid nx ny => hγ.convolution x
  refine ⟨_, ⟨_, _, _, ⟨_, ⟨hR, rfl⟩, _, ⟨hR, rfl⟩, _, ⟨hR, rfl⟩, _, ⟨hR, rfl⟩, _, ⟨hR, rfl⟩, _, ⟨hR, rfl⟩, _, ⟨hR, rfl⟩, _, ⟨hR, rfl⟩, rfl, rfl, rfl⟩,
    rot, hrot, _, ⟨hR, rfl⟩, _, ⟨hR, rfl⟩, _, ⟨hR, rfl⟩, _, hη, _, ⟨hR, rfl⟩, _, ⟨cη.isUnit hu, rfl⟩, rfl⟩, ?_⟩
  refine ((Part.carries_fromBlocks (cv _) (cv _) (cv _) (cv _)).mul (Part.carries_fromBlocks ?_ ?_ ?_ (cη.inv hu (cη.isUnit hu)))).mul
    (Part.carries_fromBlocks ?_ ?_ ?_ ?_)
  · exact cv (Matrix.of fun r s => rot (r, s) 0 0)
  · exact cv (Matrix.of fun r s => rot (r, s) 0 1)
  · exact cv (Matrix.of fun r s => rot (r, s) 1 0)
  · exact cv (Matrix.of fun r s => t11 r s / (denomSafe ‖t00 r s * t11 r s - t10 r s * t01 r s‖ : ℂ))
  · exact cv (Matrix.of fun r s => -t01 r s / (denomSafe ‖t00 r s * t11 r s - t10 r s * t01 r s‖ : ℂ))
  · exact cv (Matrix.of fun r s => -t10 r s / (denomSafe ‖t00 r s * t11 r s - t10 r s * t01 r s‖ : ℂ))
  · exact cv (Matrix.of fun r s => t00 r s / (denomSafe ‖t00 r s * t11 r s - t10 r s * t01 r s‖ : ℂ))

theorem transverse (h : OrderClass place c c') (hγ : h.Sampling γ) (hR : Resolves nx ny c.expansion) {ε μ : TensorComponents nx ny}
    {source : Grid nx ny} {f : Formulation nx ny ι} {f' : Formulation mx my κ} (hf : SampledFormulation γ c c' source f f')
    {E' M' : ModeMatrix κ} (hE : transverseMatricesAnisotropic c'.lattice (ε.pull γ) (μ.pull γ) c'.expansion
      (source.pull γ) f' = .ok (E', M')) :
    ∃ E M, transverseMatricesAnisotropic c.lattice ε μ c.expansion source f = .ok (E, M) ∧ h.part.double.Carries h.part.double E' E ∧
      h.part.double.Carries h.part.double M' M := by
  have cv := fun x : Grid nx ny => hγ.convolution x
  cases f with
  | fft =>
    cases f' with
    | fft =>
      unfold transverseMatricesAnisotropic transversePermittivityFftAnisotropic transversePermeabilityFftAnisotropic at hE ⊢
      simp only [bind_eq_ok, ok_inj, Prod.mk.injEq, fourierConvolutionMatrix_ok_iff] at hE ⊢
      obtain ⟨_, ⟨_, ⟨-, rfl⟩, _, ⟨-, rfl⟩, _, ⟨-, rfl⟩, _, ⟨-, rfl⟩, rfl⟩, _, ⟨_, ⟨-, rfl⟩, _, ⟨-, rfl⟩, _, ⟨-, rfl⟩, _, ⟨-, rfl⟩, rfl⟩, rfl, rfl⟩ := hE
      refine ⟨_, _, ⟨_, ⟨_, ⟨hR, rfl⟩, _, ⟨hR, rfl⟩, _, ⟨hR, rfl⟩, _, ⟨hR, rfl⟩, rfl⟩, _, ⟨_, ⟨hR, rfl⟩, _, ⟨hR, rfl⟩, _, ⟨hR, rfl⟩, _, ⟨hR, rfl⟩, rfl⟩,
        rfl, rfl⟩, Part.carries_fromBlocks (cv ε.yy) (cv (-ε.yx)) (cv (-ε.xy)) (cv ε.xx), Part.carries_fromBlocks (cv μ.xx) (cv μ.xy) (cv μ.yx) (cv μ.yy)⟩
    | vector fn' => exact hf.elim
  | vector fn =>
    cases f' with
    | fft => exact hf.elim
    | vector fn' =>
      obtain ⟨t, ht, ht'⟩ := hf
      unfold transverseMatricesAnisotropic at hE ⊢
      simp only [bind_eq_ok, ok_inj, Prod.mk.injEq] at hE ⊢
      obtain ⟨t', ht2, E', hE', M', hM', rfl, rfl⟩ := hE
      rw [ht', ok_inj] at ht2
      subst ht2
      obtain ⟨E, hE, k1⟩ := h.rotated hγ hR (tensor := epsBlock ε) (t00 := t.2) (t01 := Matrix.of fun r s => star (t.1 r s)) (t10 := -t.1)
        (t11 := Matrix.of fun r s => star (t.2 r s)) hE'
      obtain ⟨M, hM, k2⟩ := h.rotated hγ hR (tensor := muBlock μ) (t00 := t.1) (t01 := Matrix.of fun r s => -star (t.2 r s)) (t10 := t.2)
        (t11 := Matrix.of fun r s => star (t.1 r s)) hM'
      exact ⟨E, M, ⟨t, ht, E, hE, M, hM, rfl, rfl⟩, k1, k2⟩

theorem anisotropic (h : OrderClass place c c') (hγ : h.Sampling γ) (hR : Resolves nx ny c.expansion) {ε μ : TensorComponents nx ny}
    {source : Grid nx ny} {f : Formulation nx ny ι} {f' : Formulation mx my κ} (hf : SampledFormulation γ c c' source f f')
    {M' : FourierMatrices κ} (hM : fourierMatricesPatternedAnisotropic c'.lattice (ε.pull γ) (μ.pull γ) c'.expansion f'
      (source.pull γ) = .ok M') :
    ∃ M, fourierMatricesPatternedAnisotropic c.lattice ε μ c.expansion f source = .ok M ∧ FourierPart h.part M' M := by
  unfold fourierMatricesPatternedAnisotropic at hM ⊢
  simp only [bind_eq_ok, fourierConvolutionMatrix_ok_iff, ok_inj] at hM ⊢
  obtain ⟨⟨E', T'⟩, hEM, η', hη', _, ⟨-, rfl⟩, _, ⟨-, rfl⟩, ζ', hζ', _, ⟨-, rfl⟩, _, ⟨-, rfl⟩, rfl⟩ := hM
  obtain ⟨η, hη, rfl⟩ := recipGrid_of_pull (x := ε.zz) hγ.surjective hη'
  obtain ⟨ζ, hζ, rfl⟩ := recipGrid_of_pull (x := μ.zz) hγ.surjective hζ'
  obtain ⟨E, T, hET, k1, k2⟩ := h.transverse hγ hR hf hEM
  exact ⟨_, ⟨_, hET, _, hη, _, ⟨hR, rfl⟩, _, ⟨hR, rfl⟩, _, hζ, _, ⟨hR, rfl⟩, _, ⟨hR, rfl⟩, rfl⟩,
    ⟨hγ.convolution ε.zz, hγ.convolution μ.zz, k2, k1, hγ.convolution η, hγ.convolution ζ⟩⟩

theorem uniformAnisotropic (h : OrderClass place c c') {ε μ : TensorComponents 1 1} {M' : FourierMatrices κ}
    (hM : fourierMatricesUniformAnisotropic ε μ = .ok M') :
    ∃ M, fourierMatricesUniformAnisotropic ε μ = .ok M ∧ FourierPart h.part M' M := by
  unfold fourierMatricesUniformAnisotropic at hM ⊢
  split_ifs at hM with h0
  rw [ok_inj] at hM
  subst hM
  simp only [if_neg h0, diag_const, ok_inj]
  have s := fun t : ℂ => carries_smul_one h.part t
  exact ⟨_, rfl, ⟨s _, s _, Part.carries_fromBlocks (s _) (s _) (s _) (s _), Part.carries_fromBlocks (s _) (s _) (s _) (s _), s _, s _⟩⟩

variable {eig : Matrix (ι ⊕ ι) (ι ⊕ ι) ℂ → (ι ⊕ ι → ℂ) × Matrix (ι ⊕ ι) (ι ⊕ ι) ℂ}
variable {eig' : Matrix (κ ⊕ κ) (κ ⊕ κ) ℂ → (κ ⊕ κ → ℂ) × Matrix (κ ⊕ κ) (κ ⊕ κ) ℂ}

end OrderClass

/-! ### Gratings -/

theorem groove_coefficient (hy : ny ≠ 0) (x : Grid nx 1) (g : ℤ × ℤ) :
    fourierCoefficient (x.pull groove : Grid nx ny) g = if (ny : ℤ) ∣ g.2 then fourierCoefficient x (g.1, 0) else 0 := by
  have hyc : (ny : ℂ) ≠ 0 := by exact_mod_cast hy
  have key : (∑ r : Fin nx, ∑ s : Fin ny, (x.pull groove : Grid nx ny) r s * planeWave nx ny (-g) r s) =
      (∑ r : Fin nx, ∑ s : Fin 1, x r s * planeWave nx 1 (-(g.1, 0)) r s) *
        ∑ j : Fin ny, Complex.exp (2 * Real.pi * Complex.I * ((-g.2 : ℤ) * (j : ℕ) / ny)) := by
    rw [Finset.sum_mul]
    refine Finset.sum_congr rfl fun r _ => ?_
    rw [Fin.sum_univ_one, Finset.mul_sum]
    refine Finset.sum_congr rfl fun s _ => ?_
    rw [mul_assoc]
    congr 1
    unfold planeWave
    rw [← Complex.exp_add]
    congr 1
    simp
    ring
  unfold fourierCoefficient
  rw [key, sum_exp]
  simp only [dvd_neg]
  split_ifs with h
  · push_cast
    rw [mul_one, mul_div_mul_right _ _ hyc]
  · simp

variable {g : ℤ}

theorem Spec.GratingRow.orderClass (h : GratingRow g place c c') : OrderClass place c c' := by
  refine ⟨h.wavelength.symm, h.injective, fun {k'} hk => ?_⟩
  have hind' : Independent c'.lattice.u c'.lattice.v := by
    unfold transverseWavevectors at hk
    simp only [bind_eq_ok, reciprocal_eq_ok] at hk
    obtain ⟨_, ⟨h1, -⟩, -⟩ := hk
    exact h1
  obtain ⟨t, ht, hv⟩ := h.v
  have hind : Independent c.lattice.u c.lattice.v := by
    unfold Independent at hind' ⊢
    rw [h.u, hv]
    simp only [Prod.smul_fst, Prod.smul_snd, smul_eq_mul]
    intro h0
    apply hind'
    have : t * (c'.lattice.u.1 * c'.lattice.v.2 - c'.lattice.u.2 * c'.lattice.v.1) = 0 := by linear_combination h0
    exact (mul_eq_zero.1 this).resolve_left ht
  obtain ⟨k, hk1, hd, -⟩ := C12_transverse_wavevectors c.inPlaneWavevector c.lattice c.expansion hind
  obtain ⟨k2, hk2, hd', -⟩ := C12_transverse_wavevectors c'.inPlaneWavevector c'.lattice c'.expansion hind'
  rw [hk, ok_inj] at hk2
  subst hk2
  rw [hk1, ok_inj]
  funext i
  obtain ⟨d1, d2⟩ := hd i
  obtain ⟨d1', d2'⟩ := hd' (place i)
  rw [h.expansion] at d1' d2'
  rw [h.u] at d1
  rw [hv, h.zeroth] at d2
  have e1 := h.wavevector_u
  have e2 := h.wavevector_v
  apply dot_unique hind'
  · simp only [dot, Prod.fst_sub, Prod.snd_sub] at d1 d1' e1 ⊢
    linear_combination d1 - d1' + e1
  · simp only [dot, Prod.fst_sub, Prod.snd_sub, Prod.smul_fst, Prod.smul_snd, smul_eq_mul, Int.cast_zero, mul_zero] at d2 d2' e2 ⊢
    apply mul_left_cancel₀ ht
    linear_combination d2 - t * d2' + t * e2

theorem Spec.GratingRow.resolves [Nonempty ι] (h : GratingRow g place c c') (hR : Resolves nx ny c'.expansion) : Resolves nx 1 c.expansion := by
  refine ⟨inferInstance, fun i => ?_⟩
  have := (hR.2 (place i)).1
  rw [h.expansion] at this
  exact ⟨this, by rw [h.zeroth]; simp⟩

theorem Spec.GratingRow.sampling (h : GratingRow g place c c') (hR : Resolves nx ny c'.expansion) :
    h.orderClass.Sampling (groove : Fin nx × Fin ny → Fin nx × Fin 1) := by
  obtain ⟨⟨x0⟩, hR⟩ := hR
  have hy : 0 < ny := by
    have := (hR x0).2
    have := abs_nonneg (c'.expansion x0).2
    omega
  refine ⟨fun q => ⟨(q.1, ⟨0, hy⟩), Prod.ext rfl (Subsingleton.elim _ _)⟩, fun x => ?_⟩
  refine (placePart_carries_iff h.injective).2 ⟨fun i j => ?_, fun y hy' j => ?_⟩
  · simp only [Fmmax.convolution, of_apply]
    rw [groove_coefficient hy.ne', h.expansion, h.expansion, if_pos (by simp)]
    congr 1
    apply Prod.ext
    · rfl
    · simp [h.zeroth]
  · have hd := h.others y hy'
    have hno : ¬(ny : ℤ) ∣ (c'.expansion y).2 - g := by
      intro hdvd
      have h1 := (hR y).2
      have h2 := (hR (place j)).2
      rw [h.expansion] at h2
      simp only at h2
      have h3 : |(c'.expansion y).2 - g| < ny := by
        have := abs_sub (c'.expansion y).2 g
        omega
      exact hd (sub_eq_zero.1 (Int.eq_zero_of_abs_lt_dvd hdvd h3))
    have hno' : ¬(ny : ℤ) ∣ g - (c'.expansion y).2 := fun hdvd => hno (by rw [← neg_sub]; exact (dvd_neg).2 hdvd)
    simp only [Fmmax.convolution, of_apply]
    exact ⟨by rw [groove_coefficient hy.ne', h.expansion, if_neg (by simpa using hno)],
      by rw [groove_coefficient hy.ne', h.expansion, if_neg (by simpa using hno')]⟩

theorem Spec.GratingRow.formulation {x : Grid nx 1} {f : Formulation nx 1 ι} {f' : Formulation nx ny κ} (hf : GratingFormulation c c' x f f') :
    OrderClass.SampledFormulation groove c c' x f f' := by
  cases f <;> cases f' <;> exact hf

theorem Spec.GratingRow.layer (he : IsEig eig) (he' : IsEig eig') [Nonempty ι] (h : GratingRow g place c c') {q : StackLayer ι} {q' : StackLayer κ}
    (hq : GratingLayer c c' q q') {r' : LayerSolveResult κ} (hr' : q'.solve eig' c' = .ok r') (hφ' : IsUnit r'.eigenvectors.det) :
    ∃ r, q.solve eig c = .ok r ∧ ∃ hφ : IsUnit r.eigenvectors.det,
      LayerPart h.orderClass.part.double (h.orderClass.part.double.modes hφ' hφ) r' r ∧ FieldPart h.orderClass.part place r' r := by
  have hR' := solve_resolves hr'
  have hne : ∀ {nx ny : ℕ}, nx ≠ 1 → ¬(nx = 1 ∧ ny = 1) := fun h0 h1 => h0 h1.1
  cases hq with
  | uniformIsotropic ε f f' d =>
    simp only [StackLayer.solve, eigensolveIsotropicMedia, and_self, dite_true] at hr' ⊢
    exact h.orderClass.uniform hr' hφ'
  | uniformAnisotropic ε μ f f' x x' d =>
    simp only [StackLayer.solve, eigensolveGeneralAnisotropicMedia, and_self, dite_true, eigensolveUniformAnisotropic, bind_eq_ok] at hr' ⊢
    obtain ⟨M', hM', hr'⟩ := hr'
    obtain ⟨M, hM, hMM⟩ := h.orderClass.uniformAnisotropic hM'
    obtain ⟨r, hr, hl⟩ := h.orderClass.numerical he he' hMM hr' hφ'
    exact ⟨r, ⟨M, hM, hr⟩, hl⟩
  | isotropic hn ε f f' hf d =>
    have hR := hR' (hne hn)
    simp only [StackLayer.solve, eigensolveIsotropicMedia, dif_neg (hne hn), eigensolvePatternedIsotropic, bind_eq_ok] at hr' ⊢
    obtain ⟨M', hM', hr'⟩ := hr'
    obtain ⟨M, hM, hMM⟩ := h.orderClass.isotropic (h.sampling hR) (h.resolves hR) (GratingRow.formulation hf) hM'
    obtain ⟨r, hr, hl⟩ := h.orderClass.numerical he he' hMM hr' hφ'
    exact ⟨r, ⟨M, hM, hr⟩, hl⟩
  | @anisotropic nx ny hn ε μ x f f' hf d =>
    have hR := hR' (hne hn)
    simp only [StackLayer.solve, eigensolveGeneralAnisotropicMedia, dif_neg (hne hn), eigensolvePatternedAnisotropic, bind_eq_ok] at hr' ⊢
    obtain ⟨M', hM', hr'⟩ := hr'
    have hsrc : (x.map (Grid.pull (groove : Fin nx × Fin ny → Fin nx × Fin 1))).getD (Matrix.of fun r s => ((ε.pull groove).xx r s + (ε.pull groove).yy r s) / 2) =
        (x.getD (Matrix.of fun r s => (ε.xx r s + ε.yy r s) / 2)).pull groove := by
      cases x <;> rfl
    rw [hsrc] at hM'
    obtain ⟨M, hM, hMM⟩ := h.orderClass.anisotropic (h.sampling hR) (h.resolves hR) (GratingRow.formulation hf) hM'
    obtain ⟨r, hr, hl⟩ := h.orderClass.numerical he he' hMM hr' hφ'
    exact ⟨r, ⟨M, hM, hr⟩, hl⟩

theorem Spec.GratingRow.thickness {q : StackLayer ι} {q' : StackLayer κ} (hq : GratingLayer c c' q q') : q'.thickness = q.thickness := by
  cases hq <;> rfl

theorem Spec.GratingRow.stack (he : IsEig eig) (he' : IsEig eig') [Nonempty ι] (h : GratingRow g place c c') {layers : List (StackLayer ι)}
    {layers' : List (StackLayer κ)} (hl : List.Forall₂ (GratingLayer c c') layers layers') {S' : ScatteringMatrix κ}
    (hlast : ∀ p ∈ layers'.getLast?, ∀ r, p.solve eig' c' = .ok r → IsUnit r.eigenvectors.det) (hS : ComputedSMatrix eig' c' layers' S') :
    ∃ S, ComputedSMatrix eig c layers S ∧ IsUnit S'.startLayer.eigenvectors.det ∧ IsUnit S'.endLayer.eigenvectors.det ∧
      ∃ m₀ m₁, SPart h.orderClass.part.double m₀ m₁ S' S := by
  obtain ⟨solved, hsolved, hS⟩ := hS
  have hall := solved_independent hsolved hS hlast
  cases hl with
  | nil =>
    cases hsolved
    exact absurd hS (by simp [stackSMatrix, stackSMatrices])
  | @cons q q' qs qs' hq hqs =>
    obtain _ | ⟨hr, hrs⟩ := hsolved
    rename_i r' rs'
    have hlen : rs'.length = (qs'.map StackLayer.thickness).length := by rw [List.length_map, hrs.length_eq]
    have hz : (rs'.zip (qs'.map StackLayer.thickness)).map Prod.fst = rs' := List.map_fst_zip (by omega)
    rw [List.map_cons, stackSMatrix_cons _ _ _ _ hlen] at hS
    obtain ⟨ends1, ends2⟩ := scanLoop_ends _ _ _ hS
    rw [hz] at ends2
    obtain ⟨r, hr1, hφ, hpart, -⟩ := h.layer he he' hq hr (hall r' (by simp))
    have hrest : ∀ (qs : List (StackLayer ι)) (qs' : List (StackLayer κ)) (rs' : List (LayerSolveResult κ)), List.Forall₂ (GratingLayer c c') qs qs' →
        List.Forall₂ (fun p r => p.solve eig' c' = .ok r) qs' rs' → (∀ x ∈ rs', IsUnit x.eigenvectors.det) →
        ∃ rs, List.Forall₂ (fun p r => p.solve eig c = .ok r) qs rs ∧
          List.Forall₂ (fun p' p => (∃ m, LayerPart h.orderClass.part.double m p'.1 p.1) ∧ p'.2 = p.2) (rs'.zip (qs'.map StackLayer.thickness))
            (rs.zip (qs.map StackLayer.thickness)) := by
      intro qs qs' rs' hi
      induction hi generalizing rs' with
      | nil =>
        intro hs _
        cases hs
        exact ⟨[], .nil, .nil⟩
      | @cons a b as bs hab _ ih =>
        intro hs hu
        obtain _ | ⟨h1, h2⟩ := hs
        rename_i y ys
        obtain ⟨ys', k1, k2⟩ := ih ys h2 fun x hx => hu x (by simp [hx])
        obtain ⟨y', k3, _, k4, -⟩ := h.layer he he' hab h1 (hu y (by simp))
        exact ⟨y' :: ys', .cons k3 k1, .cons ⟨⟨_, k4⟩, GratingRow.thickness hab⟩ k2⟩
    obtain ⟨rs, hrs2, hst⟩ := hrest qs qs' rs' hqs hrs fun x hx => hall x (by simp [hx])
    have hid : SPart h.orderClass.part.double (h.orderClass.part.double.modes (hall r' (by simp)) hφ) (h.orderClass.part.double.modes (hall r' (by simp)) hφ)
        (identitySMatrix r' q'.thickness) (identitySMatrix r q.thickness) := by
      rw [GratingRow.thickness hq]
      exact identity_part hpart _
    obtain ⟨S, m₁, hS1, hSP⟩ := scanLoop_part hst _ _ _ _ _ hid hS
    refine ⟨S, ⟨r :: rs, .cons hr1 hrs2, ?_⟩, ?_, ?_, _, m₁, hSP⟩
    · rw [List.map_cons, stackSMatrix_cons _ _ _ _ (by rw [List.length_map, hrs2.length_eq])]
      exact hS1
    · rw [ends1]; exact hall r' (by simp)
    · refine hall _ ?_
      rw [ends2]
      cases hrs3 : rs'.getLast? with
      | none => simp [identitySMatrix]
      | some x => exact List.mem_cons_of_mem _ (List.mem_of_getLast? hrs3)

end Fmmax
