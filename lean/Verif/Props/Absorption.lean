import Verif.Spec.Absorption
import Verif.Props.Gratings
import Verif.Props.Energy
import Verif.Props.TwoSided
import Verif.Props.AbsorbingSlab
import Verif.Proofs.Plane
import Mathlib.MeasureTheory.Integral.IntervalIntegral.FundThmCalculus

/-! Property theorems C95: the power lost by the fields in a layer is absorbed where the material absorbs. -/

set_option linter.unusedSectionVars false

namespace Fmmax

open Spec Matrix

variable {ι : Type} [Fintype ι] [DecidableEq ι] {β : Type} {nx ny mx my : ℕ}
variable {eig : Matrix (ι ⊕ ι) (ι ⊕ ι) ℂ → (ι ⊕ ι → ℂ) × Matrix (ι ⊕ ι) (ι ⊕ ι) ℂ} {c : Setup ι}

/-! ### Flux and absorption in one layer -/

theorem electricAt_continuous (l : LayerSolveResult ι) (d : ℝ) (a b : Matrix (ι ⊕ ι) β ℂ) (i : ι ⊕ ι) (c : β) :
    Continuous fun z => electricAt l d a b z i c := by
  unfold electricAt propagator
  simp only [Matrix.mul_apply, Matrix.sub_apply, Matrix.diagonal_mul]
  fun_prop

theorem magneticAt_continuous (l : LayerSolveResult ι) (d : ℝ) (a b : Matrix (ι ⊕ ι) β ℂ) (i : ι ⊕ ι) (c : β) :
    Continuous fun z => magneticAt l d a b z i c := by
  unfold magneticAt propagator
  simp only [Matrix.mul_apply, Matrix.add_apply, Matrix.diagonal_mul]
  fun_prop

theorem lossForm_continuous {n : Type} [Fintype n] (A : Matrix n n ℂ) {f : ℝ → n → ℂ} (hf : ∀ i, Continuous fun z => f z i) :
    Continuous fun z => lossForm A (f z) := by
  unfold lossForm
  simp only [dotProduct, Matrix.mulVec, Pi.star_apply, Complex.star_def]
  fun_prop

/-- The fields in a layer which satisfy the Maxwell equations. -/
noncomputable def layerFields (l : LayerSolveResult ι) (d : ℝ) (a b : Matrix (ι ⊕ ι) β ℂ) (z : ℝ) : Fields (Matrix ι β ℂ) :=
  maxwellFields l (electricAt l d a b z) (magneticAt l d a b z)

/-- Power lost per depth. -/
noncomputable def lossAt (l : LayerSolveResult ι) (E : ModeMatrix ι) (F : Fields (Matrix ι β ℂ)) (c : β) : ℝ :=
  lossForm E (fun i => tangentialE F i c) + lossForm l.transversePermeabilityMatrix (fun i => tangentialH F i c) +
    lossForm l.zPermittivityMatrix (fun i => F.ez i c) + lossForm l.zPermeabilityMatrix (fun i => F.hz i c)

theorem lossAt_continuous (l : LayerSolveResult ι) (E : ModeMatrix ι) (d : ℝ) (a b : Matrix (ι ⊕ ι) β ℂ) (c : β) :
    Continuous fun z => lossAt l E (layerFields l d a b z) c := by
  have he := fun i => electricAt_continuous l d a b i c
  have hm := fun i => magneticAt_continuous l d a b i c
  unfold lossAt layerFields
  refine ((Continuous.add (Continuous.add ?_ ?_) ?_).add ?_)
  · refine lossForm_continuous E fun i => ?_
    simp only [tangentialE_maxwellFields]
    exact he i
  · refine lossForm_continuous _ fun i => ?_
    simp only [tangentialH_maxwellFields]
    exact hm i
  · refine lossForm_continuous _ fun i => ?_
    simp only [maxwellFields, kxMatrix, kyMatrix, Matrix.neg_apply, Matrix.smul_apply, Matrix.mul_apply, Matrix.sub_apply,
      Matrix.diagonal_mul, Matrix.of_apply, smul_eq_mul]
    fun_prop
  · refine lossForm_continuous _ fun i => ?_
    simp only [maxwellFields, kxMatrix, kyMatrix, Matrix.neg_apply, Matrix.smul_apply, Matrix.mul_apply, Matrix.add_apply,
      Matrix.diagonal_mul, Matrix.of_apply, smul_eq_mul]
    fun_prop

theorem stateFlux_integral {s : LayerState ι β} {E : ModeMatrix ι} (hs : SolvedFor s.layer E)
    (hq : ∀ i, s.layer.eigenvalues i ≠ 0) (c : β) (z₁ z₂ : ℝ) :
    stateFlux s c z₁ - stateFlux s c z₂ =
      omega s.layer * ∫ z in z₁..z₂, lossAt s.layer E (layerFields s.layer s.thickness s.a s.b z) c := by
  have h : ∀ z, HasDerivAt (stateFlux s c) (-omega s.layer * lossAt s.layer E (layerFields s.layer s.thickness s.a s.b z) c) z := by
    intro z
    have h := poynting (maxwell_of_ode hs.wellPosed hs.zPermeability (transverseODE_modes hs hq s.thickness s.a s.b)) z c
    simp only [tangentialE_maxwellFields, tangentialH_maxwellFields] at h
    unfold lossAt layerFields
    simp only [tangentialE_maxwellFields, tangentialH_maxwellFields]
    exact h
  have hi := intervalIntegral.integral_eq_sub_of_hasDerivAt (a := z₁) (b := z₂) (fun z _ => h z)
    ((continuous_const.mul (lossAt_continuous s.layer E s.thickness s.a s.b c)).intervalIntegrable _ _)
  rw [intervalIntegral.integral_const_mul] at hi
  linarith

/-! ### The loss as a mean over the grid -/

/-- `r` was solved for the tensors `ε`, `μ` with products replaced by convolutions. -/
structure ConvolutionLayer (ε μ : TensorComponents mx my) (c : Setup ι) (r : LayerSolveResult ι) : Prop where
  solved : SolvedFor r (Matrix.fromBlocks (convolution c.expansion ε.yy) (convolution c.expansion (-ε.yx)) (convolution c.expansion (-ε.xy))
    (convolution c.expansion ε.xx))
  permeability : r.transversePermeabilityMatrix = Matrix.fromBlocks (convolution c.expansion μ.xx) (convolution c.expansion μ.xy)
    (convolution c.expansion μ.yx) (convolution c.expansion μ.yy)
  zPermittivity : r.zPermittivityMatrix = convolution c.expansion ε.zz
  zPermeability : r.zPermeabilityMatrix = convolution c.expansion μ.zz
  wavelength : r.wavelength = c.wavelength
  expansion : r.expansion = c.expansion
  lattice : r.primitiveLatticeVectors = c.lattice
  resolves : Resolves mx my c.expansion

theorem fromBlocks_form {n : Type} [Fintype n] (A B C D : Matrix n n ℂ) (x : n ⊕ n → ℂ) :
    star x ⬝ᵥ Matrix.fromBlocks A B C D *ᵥ x =
      star (fun i => x (.inl i)) ⬝ᵥ A *ᵥ (fun i => x (.inl i)) + star (fun i => x (.inl i)) ⬝ᵥ B *ᵥ (fun i => x (.inr i)) +
      (star (fun i => x (.inr i)) ⬝ᵥ C *ᵥ (fun i => x (.inl i)) + star (fun i => x (.inr i)) ⬝ᵥ D *ᵥ (fun i => x (.inr i))) := by
  obtain ⟨u, v, rfl⟩ : ∃ u v, x = Sum.elim u v := ⟨fun i => x (.inl i), fun i => x (.inr i), by funext i; rcases i <;> rfl⟩
  rw [Matrix.fromBlocks_mulVec]
  simp [dotProduct, mul_add, Finset.sum_add_distrib]

theorem fourierSeries_neg (G : ι → ℤ × ℤ) (y : ι → ℂ) (r : Fin mx) (s : Fin my) :
    fourierSeries G (fun i => -y i) mx my r s = -fourierSeries G y mx my r s := by
  simp [fourierSeries]

theorem convolution_grid_form (x : Grid mx my) (G : ι → ℤ × ℤ) (u y : ι → ℂ) :
    star u ⬝ᵥ convolution G x *ᵥ y =
      (∑ r : Fin mx, ∑ s : Fin my, star (fourierSeries G u mx my r s) * x r s * fourierSeries G y mx my r s) / (mx * my) :=
  convolution_sesquilinear x G u y

theorem lossAt_eq {ε μ : TensorComponents mx my} {r : LayerSolveResult ι} (h : ConvolutionLayer ε μ c r) (F : Fields (Matrix ι β ℂ)) (b : β) :
    lossAt r (Matrix.fromBlocks (convolution c.expansion ε.yy) (convolution c.expansion (-ε.yx)) (convolution c.expansion (-ε.xy))
      (convolution c.expansion ε.xx)) F b =
    (∑ i : Fin mx, ∑ j : Fin my,
      (tensorLoss ε i j (fourierSeries c.expansion (fun k => F.ex k b) mx my i j) (fourierSeries c.expansion (fun k => F.ey k b) mx my i j)
        (fourierSeries c.expansion (fun k => F.ez k b) mx my i j) +
      tensorLoss μ i j (fourierSeries c.expansion (fun k => F.hx k b) mx my i j) (fourierSeries c.expansion (fun k => F.hy k b) mx my i j)
        (fourierSeries c.expansion (fun k => F.hz k b) mx my i j))) / (mx * my) := by
  have hE1 : (fun i => tangentialE F (.inl i) b) = fun i => -F.ey i b := rfl
  have hE2 : (fun i => tangentialE F (.inr i) b) = fun i => F.ex i b := rfl
  have hH1 : (fun i => tangentialH F (.inl i) b) = fun i => F.hx i b := rfl
  have hH2 : (fun i => tangentialH F (.inr i) b) = fun i => F.hy i b := rfl
  have hd : ((mx * my : ℝ) : ℂ) = (mx * my : ℂ) := by push_cast; rfl
  unfold lossAt lossForm
  rw [h.permeability, h.zPermittivity, h.zPermeability, fromBlocks_form, fromBlocks_form]
  rw [hE1, hE2, hH1, hH2]
  simp only [convolution_grid_form, ← add_div, ← Complex.add_im, ← Finset.sum_add_distrib]
  rw [← hd, Complex.div_ofReal_im, Complex.im_sum]
  congr 1
  refine Finset.sum_congr rfl fun i _ => ?_
  rw [Complex.im_sum]
  refine Finset.sum_congr rfl fun j _ => ?_
  unfold tensorLoss
  rw [← Complex.add_im]
  congr 1
  simp only [fourierSeries_neg, star_neg, Matrix.neg_apply]
  ring

theorem tensorLoss_phase (t : TensorComponents nx ny) (r : Fin nx) (s : Fin ny) (x y z : ℂ) {p : ℂ} (hp : star p * p = 1) :
    tensorLoss t r s (x * p) (y * p) (z * p) = tensorLoss t r s x y z := by
  unfold tensorLoss
  congr 1
  simp only [star_mul']
  linear_combination (star x * (t.xx r s * x + t.xy r s * y) + star y * (t.yx r s * x + t.yy r s * y) + star z * (t.zz r s * z)) * hp

theorem tileIndex_one_sum {n m : ℕ} (f : Fin n → Fin m → ℝ) :
    ∑ p : Fin (1 * n) × Fin (1 * m), f (tileIndex p.1) (tileIndex p.2) = ∑ i, ∑ j, f i j := by
  have e : ∀ k, ∀ i : Fin (1 * k), tileIndex i = Fin.cast (one_mul k) i := by
    intro k i
    ext
    simp only [tileIndex, Fin.val_cast]
    exact Nat.mod_eq_of_lt (by have := i.2; omega)
  simp only [e]
  rw [Fintype.sum_prod_type]
  refine Fintype.sum_equiv (finCongr (one_mul n)) _ _ fun i => Fintype.sum_equiv (finCongr (one_mul m)) _ _ fun j => ?_
  rfl

/-- The fields on the grid of one unit cell, from the Fourier series. -/
theorem fieldsOnGrid_series {l : LayerSolveResult ι} (h : Resolves mx my l.expansion) (hG : Function.Injective l.expansion)
    (hc : cellArea l ≠ 0) : ∃ phase : Fin (1 * mx) × Fin (1 * my) → ℂ, (∀ p, star (phase p) * phase p = 1) ∧
      ∀ F : Fields (Matrix ι β ℂ), ∃ xy, fieldsOnGrid F l (mx, my) (1, 1) =
        .ok (F.map fun y p b => fourierSeries l.expansion (fun i => y i b) mx my (tileIndex p.1) (tileIndex p.2) * phase p, xy) := by
  refine ⟨fun p => Complex.exp (Complex.I * (dot l.inPlaneWavevector
    (latticePoint l.primitiveLatticeVectors ((p.1 : ℕ) / (mx : ℝ)) ((p.2 : ℕ) / (my : ℝ))) : ℝ)), ?_,
    fun F => ⟨fun p => latticePoint l.primitiveLatticeVectors ((p.1 : ℕ) / (mx : ℝ)) ((p.2 : ℕ) / (my : ℝ)), ?_⟩⟩
  · intro p
    rw [Complex.star_def, ← Complex.exp_conj, ← Complex.exp_add]
    simp
  · rw [fieldsOnGrid_eq (shape := (mx, my)) (cells := (1, 1)) h hG hc]
    congr 2
    congr 1
    funext y p b
    rw [planeWaveSum_latticePoint hc]
    congr 1
    obtain ⟨hx, hy⟩ := h.shape_ne
    unfold fourierSeries tileIndex
    simp only [Matrix.of_apply]
    refine Finset.sum_congr rfl fun i _ => ?_
    rw [planeWave_mod hx hy]
    unfold planeWave
    congr 3
    push_cast
    ring

theorem absorptionDensity_eq {ε μ : TensorComponents mx my} {r : LayerSolveResult ι} (h : ConvolutionLayer ε μ c r)
    (hG : Function.Injective c.expansion) (F : Fields (Matrix ι β ℂ)) :
    ∃ g xy, fieldsOnGrid F r (mx, my) (1, 1) = .ok (g, xy) ∧ ∀ b, absorptionDensity ε μ g b =
      lossAt r (Matrix.fromBlocks (convolution c.expansion ε.yy) (convolution c.expansion (-ε.yx)) (convolution c.expansion (-ε.xy))
        (convolution c.expansion ε.xx)) F b := by
  have hR := h.resolves
  rw [← h.expansion] at hR hG
  obtain ⟨phase, hp, hF⟩ := fieldsOnGrid_series (β := β) hR hG h.solved.wellPosed.2.1
  obtain ⟨xy, hF⟩ := hF F
  refine ⟨_, xy, hF, fun b => ?_⟩
  rw [lossAt_eq h]
  unfold absorptionDensity
  congr 1
  simp only [Fields.map, tensorLoss_phase _ _ _ _ _ _ (hp _), h.expansion]
  exact tileIndex_one_sum (fun i j => tensorLoss ε i j (fourierSeries c.expansion (fun k => F.ex k b) mx my i j)
    (fourierSeries c.expansion (fun k => F.ey k b) mx my i j) (fourierSeries c.expansion (fun k => F.ez k b) mx my i j) +
      tensorLoss μ i j (fourierSeries c.expansion (fun k => F.hx k b) mx my i j) (fourierSeries c.expansion (fun k => F.hy k b) mx my i j)
        (fourierSeries c.expansion (fun k => F.hz k b) mx my i j))

/-! ### Layers -/

/-- Layers solved in the FFT formulation, and uniform layers. -/
theorem SampledMedium.convolutionLayer (he : IsEig eig) (hG : Function.Injective c.expansion) {p : StackLayer ι}
    {ε μ : TensorComponents mx my} (hs : SampledMedium c p mx my ε μ) {r : LayerSolveResult ι} (h : p.solve eig c = .ok r) :
    ConvolutionLayer ε μ c r := by
  have const : ∀ {mx my : ℕ} (x : ℂ), Resolves mx my c.expansion → convolution c.expansion (fun (_ : Fin mx) (_ : Fin my) => x) = x • 1 :=
    fun x hR => convolution_const hG hR x
  have zero : ∀ {mx my : ℕ}, Resolves mx my c.expansion → convolution c.expansion (0 : Grid mx my) = 0 := fun hR =>
    (const 0 hR).trans (zero_smul ℂ _)
  cases hs with
  | patterned hn m hf d =>
    cases m with
    | isotropic ε f =>
      simp only [Medium.formulation] at hf
      subst hf
      simp only [StackLayer.solve, eigensolveIsotropicMedia, dif_neg hn] at h
      unfold eigensolvePatternedIsotropic at h
      obtain ⟨m, hm, h⟩ := bind_eq_ok.1 h
      have hR : Resolves mx my c.expansion := by
        by_contra hR
        unfold fourierMatricesPatternedIsotropic transversePermittivityIsotropic transversePermittivityFft at hm
        simp only [fourierConvolutionMatrix_unresolved hR, bind, Except.bind] at hm
        cases hm
      obtain ⟨e1, e2, e3, e4, -⟩ := fft_matrices_eq hm
      obtain ⟨hs, f1, f2, f3, f4, -, -⟩ := numerical_solvedFor he h
      obtain ⟨k, A, -, -, hr⟩ := numericalEigensolve_ok_iff.1 h
      have n0 : (-(0 : Grid mx my)) = 0 := neg_zero
      refine ⟨?_, ?_, ?_, ?_, f1, by rw [hr]; rfl, by rw [hr]; rfl, hR⟩
      · rw [e2] at hs
        simp only [Medium.permittivity, n0, zero hR]
        exact hs
      · rw [f2, e3]
        simp only [Medium.permeability, zero hR, const 1 hR, one_smul, Matrix.fromBlocks_one]
      · rw [f3, e1]; rfl
      · rw [f4, e4]
        simp only [Medium.permeability, const 1 hR, one_smul]
    | anisotropic ε μ f x =>
      simp only [Medium.formulation] at hf
      subst hf
      simp only [StackLayer.solve, eigensolveGeneralAnisotropicMedia, dif_neg hn] at h
      unfold eigensolvePatternedAnisotropic at h
      obtain ⟨m, hm, h⟩ := bind_eq_ok.1 h
      have hR : Resolves mx my c.expansion := by
        by_contra hR
        unfold fourierMatricesPatternedAnisotropic transverseMatricesAnisotropic transversePermittivityFftAnisotropic at hm
        simp only [fourierConvolutionMatrix_unresolved hR, bind, Except.bind] at hm
        cases hm
      obtain ⟨e1, e2, e3, e4⟩ := anisotropic_fft_matrices_eq hm
      obtain ⟨hs, f1, f2, f3, f4, -, -⟩ := numerical_solvedFor he h
      obtain ⟨k, A, -, -, hr⟩ := numericalEigensolve_ok_iff.1 h
      rw [e1] at hs
      exact ⟨hs, f2.trans e2, f3.trans e3, f4.trans e4, f1, by rw [hr]; rfl, by rw [hr]; rfl, hR⟩
  | uniform m d hR =>
    have pull : ∀ x : Grid 1 1, convolution c.expansion (x.pull fun _ : Fin mx × Fin my => ((0, 0) : Fin 1 × Fin 1)) = x 0 0 • 1 :=
      fun x => const (x 0 0) hR
    have pulln : ∀ x : Grid 1 1, convolution c.expansion (-(x.pull fun _ : Fin mx × Fin my => ((0, 0) : Fin 1 × Fin 1))) = -x 0 0 • 1 :=
      fun x => const (-x 0 0) hR
    have pull1 : convolution c.expansion (Grid.pull (fun _ : Fin mx × Fin my => ((0, 0) : Fin 1 × Fin 1)) fun _ _ => (1 : ℂ)) = 1 :=
      (const 1 hR).trans (one_smul ℂ _)
    have pull0 : convolution c.expansion (Grid.pull (fun _ : Fin mx × Fin my => ((0, 0) : Fin 1 × Fin 1)) (0 : Grid 1 1)) = 0 :=
      (const 0 hR).trans (zero_smul ℂ _)
    cases m with
    | isotropic ε f =>
      simp only [StackLayer.solve, eigensolveIsotropicMedia] at h
      obtain ⟨k, w, -, -, -, hr⟩ := eigensolveUniformIsotropic_ok_iff.1 h
      refine ⟨?_, ?_, ?_, ?_, by rw [hr], by rw [hr], by rw [hr], hR⟩
      · have := uniform_solvedFor h
        simp only [Medium.permittivity, TensorComponents.pull, pull, pulln]
        convert this using 1
        rw [← Matrix.fromBlocks_one, Matrix.fromBlocks_smul]
        simp
      · rw [hr]
        simp only [Medium.permeability, TensorComponents.pull, pull1, pull0, Matrix.fromBlocks_one]
      · rw [hr]
        simp only [Medium.permittivity, TensorComponents.pull, pull]
        rfl
      · rw [hr]
        simp only [Medium.permeability, TensorComponents.pull, pull1]
    | anisotropic ε μ f x =>
      simp only [StackLayer.solve, eigensolveGeneralAnisotropicMedia] at h
      unfold eigensolveUniformAnisotropic at h
      obtain ⟨m, hm, h⟩ := bind_eq_ok.1 h
      obtain ⟨-, -, rfl⟩ := uniformAnisotropic_matrices_eq hm
      obtain ⟨hs, f1, f2, f3, f4, -, -⟩ := numerical_solvedFor he h
      obtain ⟨k, A, -, -, hr⟩ := numericalEigensolve_ok_iff.1 h
      refine ⟨?_, ?_, ?_, ?_, f1, by rw [hr]; rfl, by rw [hr]; rfl, hR⟩
      · simp only [Medium.permittivity, TensorComponents.pull, pull, pulln]
        exact hs
      · rw [f2]
        simp only [Medium.permeability, TensorComponents.pull, pull]
        rfl
      · rw [f3]
        simp only [Medium.permittivity, TensorComponents.pull, pull]
        rfl
      · rw [f4]
        simp only [Medium.permeability, TensorComponents.pull, pull]
        rfl

theorem maxwellFields_completion {ε μ : TensorComponents mx my} {r : LayerSolveResult ι} (h : ConvolutionLayer ε μ c r)
    (e f : Matrix (ι ⊕ ι) β ℂ) :
    MaxwellCompletion (orderWavevector r) (2 * Real.pi / c.wavelength) c.expansion ε.zz μ.zz (fieldsOf r e f) (maxwellFields r e f) := by
  have hw := omega_ne_zero h.solved.wellPosed
  have ho : omega r = 2 * Real.pi / c.wavelength := by rw [omega, h.wavelength]
  refine ⟨rfl, rfl, rfl, rfl, fun i b => ?_, fun i b => ?_⟩
  · have : ∑ j, fourierCoefficient ε.zz (c.expansion i - c.expansion j) * (maxwellFields r e f).ez j b =
        (r.zPermittivityMatrix * (maxwellFields r e f).ez) i b := by
      rw [h.zPermittivity]
      rfl
    rw [this, ← ho]
    simp only [maxwellFields, kxMatrix, kyMatrix]
    rw [Matrix.mul_neg, Matrix.mul_smul, ← Matrix.mul_assoc, Matrix.mul_nonsing_inv _ h.solved.wellPosed.2.2, Matrix.one_mul]
    simp only [Matrix.neg_apply, Matrix.smul_apply, Matrix.sub_apply, Matrix.diagonal_mul, Matrix.of_apply, smul_eq_mul]
    field_simp
  · have : ∑ j, fourierCoefficient μ.zz (c.expansion i - c.expansion j) * (maxwellFields r e f).hz j b =
        (r.zPermeabilityMatrix * (maxwellFields r e f).hz) i b := by
      rw [h.zPermeability]
      rfl
    rw [this, ← ho]
    simp only [maxwellFields, kxMatrix, kyMatrix]
    rw [Matrix.mul_neg, Matrix.mul_smul, ← Matrix.mul_assoc, Matrix.mul_nonsing_inv _ h.solved.zPermeability, Matrix.one_mul]
    simp only [Matrix.neg_apply, Matrix.smul_apply, Matrix.add_apply, Matrix.diagonal_mul, Matrix.of_apply, smul_eq_mul]
    field_simp
    ring

/-- **C95** The difference of the reported flux between two depths of a layer is the integral of the local absorption `Im (E* ε E) + Im (H* μ H)`,
averaged over the grid, of the fields on the grid of the layer.  The tangential components are the reported ones; the z components
are those for which `Dz = εz Ez` and `Bz = μz Hz` hold with the convolution matrices. -/
theorem C95_absorbed_power (he : IsEig eig) (hG : Function.Injective c.expansion) {p : StackLayer ι} {ε μ : TensorComponents mx my}
    (hs : SampledMedium c p mx my ε μ) {r : LayerSolveResult ι} (h : p.solve eig c = .ok r) (hq : ∀ i, r.eigenvalues i ≠ 0)
    (d : ℝ) (a b : Matrix (ι ⊕ ι) β ℂ) :
    ∃ (F F' : ℝ → Fields (Matrix ι β ℂ)) (g : ℝ → Fields (Fin (1 * mx) × Fin (1 * my) → β → ℂ)) (J : ℝ → β → ℝ),
      (∀ z, reportedFields r d a b z = .ok (F z) ∧ reportedFlux r d a b z = .ok (J z) ∧
        (∃ xy, fieldsOnGrid (F' z) r (mx, my) (1, 1) = .ok (g z, xy)) ∧
        MaxwellCompletion (orderWavevector r) (2 * Real.pi / c.wavelength) c.expansion ε.zz μ.zz (F z) (F' z)) ∧
      ∀ x z₁ z₂, J z₁ x - J z₂ x = 2 * Real.pi / c.wavelength * ∫ z in z₁..z₂, absorptionDensity ε μ (g z) x := by
  have hc := SampledMedium.convolutionLayer he hG hs h
  have hw := hc.solved.wellPosed
  choose g xy hg hd using fun z => absorptionDensity_eq hc hG (layerFields r d a b z)
  refine ⟨fun z => fieldsOf r (electricAt r d a b z) (magneticAt r d a b z), layerFields r d a b, g, _, fun z =>
    ⟨reportedFields_eq_ok.2 ⟨hw, hq, rfl⟩, reportedFlux_eq hw hq d a b z, ⟨xy z, hg z⟩, maxwellFields_completion hc _ _⟩, fun x z₁ z₂ => ?_⟩
  have := stateFlux_integral (s := { layer := r, thickness := d, a := a, b := b }) hc.solved hq x z₁ z₂
  simp only [hd]
  rw [this, omega, hc.wavelength]

/-- **C95** In uniform layers the reported fields themselves, all six components, account for the absorbed power. -/
theorem C95_uniform (he : IsEig eig) (hG : Function.Injective c.expansion) {m : Medium 1 1 ι} {t : ℝ} (hR : Resolves mx my c.expansion)
    {r : LayerSolveResult ι} (h : StackLayer.solve eig c ⟨1, 1, m, t⟩ = .ok r) (hq : ∀ i, r.eigenvalues i ≠ 0)
    (d : ℝ) (a b : Matrix (ι ⊕ ι) β ℂ) :
    ∃ (F : ℝ → Fields (Matrix ι β ℂ)) (g : ℝ → Fields (Fin (1 * mx) × Fin (1 * my) → β → ℂ)) (J : ℝ → β → ℝ),
      (∀ z, reportedFields r d a b z = .ok (F z) ∧ reportedFlux r d a b z = .ok (J z) ∧
        ∃ xy, fieldsOnGrid (F z) r (mx, my) (1, 1) = .ok (g z, xy)) ∧
      ∀ x z₁ z₂, J z₁ x - J z₂ x = 2 * Real.pi / c.wavelength * ∫ z in z₁..z₂,
        absorptionDensity (m.permittivity.pull fun _ => (0, 0)) (m.permeability.pull fun _ => (0, 0)) (g z) x := by
  have hc := SampledMedium.convolutionLayer he hG (SampledMedium.uniform m t hR) h
  have hw := hc.solved.wellPosed
  have hinv : r.inverseZPermittivityMatrix * r.zPermittivityMatrix = 1 ∧ r.inverseZPermeabilityMatrix * r.zPermeabilityMatrix = 1 := by
    cases m with
    | isotropic ε f =>
      simp only [StackLayer.solve, eigensolveIsotropicMedia] at h
      obtain ⟨k, w, -, -, hε, hr⟩ := eigensolveUniformIsotropic_ok_iff.1 h
      rw [hr]
      have hε' : ε 0 0 ≠ 0 := hε
      constructor
      · simp [smul_smul, hε']
      · simp
    | anisotropic ε μ f x =>
      simp only [StackLayer.solve, eigensolveGeneralAnisotropicMedia] at h
      unfold eigensolveUniformAnisotropic at h
      obtain ⟨m, hm, h⟩ := bind_eq_ok.1 h
      obtain ⟨h5, h6, rfl⟩ := uniformAnisotropic_matrices_eq hm
      obtain ⟨-, -, -, f3, f4, f5, f6⟩ := numerical_solvedFor he h
      rw [f3, f4, f5, f6]
      exact ⟨by simp [tensorMatrices, smul_smul, h5], by simp [tensorMatrices, smul_smul, h6]⟩
  choose g xy hg hd using fun z => absorptionDensity_eq hc hG (layerFields r d a b z)
  refine ⟨layerFields r d a b, g, _, fun z => ⟨reportedFields_eq_ok.2 ⟨hw, hq, ?_⟩, reportedFlux_eq hw hq d a b z, xy z, hg z⟩, fun x z₁ z₂ => ?_⟩
  · exact (fieldsOf_eq_maxwellFields hinv.1 hinv.2 (omega_ne_zero hw) _ _).symm
  · have := stateFlux_integral (s := { layer := r, thickness := d, a := a, b := b }) hc.solved hq x z₁ z₂
    simp only [hd]
    rw [this, omega, hc.wavelength]

/-- **C95** The density in an isotropic medium: `Im ε |E|²`, averaged over the grid. -/
theorem C95_isotropic_density (ε : Grid nx ny) (f : Formulation nx ny ι) (g : Fields (Fin (1 * nx) × Fin (1 * ny) → β → ℂ)) (x : β) :
    absorptionDensity (Medium.isotropic ε f).permittivity (Medium.isotropic ε f).permeability g x =
      (∑ p, (ε (tileIndex p.1) (tileIndex p.2)).im * (‖g.ex p x‖ ^ 2 + ‖g.ey p x‖ ^ 2 + ‖g.ez p x‖ ^ 2)) / (nx * ny) := by
  unfold absorptionDensity
  congr 1
  refine Finset.sum_congr rfl fun p _ => ?_
  simp only [tensorLoss, Medium.permittivity, Medium.permeability, Matrix.zero_apply, zero_mul, add_zero, zero_add, one_mul, ← Complex.normSq_eq_norm_sq,
    Complex.normSq_apply, Complex.add_im, Complex.mul_im, Complex.mul_re, Complex.star_def, Complex.conj_re, Complex.conj_im]
  ring

/-! ### Stacks -/

theorem telescope (f g : ℕ → ℝ) : ∀ n, (∀ i, i + 1 < n + 1 → g i = f (i + 1)) → f 0 - g n = ∑ i ∈ Finset.range (n + 1), (f i - g i)
  | 0, _ => by simp
  | n + 1, h => by
    rw [Finset.sum_range_succ, ← telescope f g n fun i hi => h i (by omega), h n (by omega)]
    ring

theorem reportedFlux_state {s : LayerState ι β} (hw : WellPosed s.layer) (hq : ∀ i, s.layer.eigenvalues i ≠ 0) {z : ℝ} {J : β → ℝ}
    (h : reportedFlux s.layer s.thickness s.a s.b z = .ok J) {x : β} : J x = stateFlux s x z := by
  rw [reportedFlux_eq hw hq, ok_inj] at h
  rw [← h]

/-- **C95** The energy balance of a stack: the power which flows into the first layer but not out of the last one is the sum of the powers absorbed
in the layers, each of them the integral of the local absorption of the fields computed from the interior amplitudes. -/
theorem C95_balance (he : IsEig eig) (hG : Function.Injective c.expansion) {layers : List (StackLayer ι)} {solved : List (LayerSolveResult ι)}
    (hs : List.Forall₂ (fun p r => p.solve eig c = .ok r) layers solved) (hq : ∀ r ∈ solved, ∀ i, r.eigenvalues i ≠ 0)
    {ps : List (ScatteringMatrix ι × ScatteringMatrix ι)} (h : stackSMatricesInterior solved (layers.map StackLayer.thickness) = .ok ps)
    {a0 bN : Matrix (ι ⊕ ι) β ℂ} {xs : List (Matrix (ι ⊕ ι) β ℂ × Matrix (ι ⊕ ι) β ℂ)} (hx : stackAmplitudesInterior a0 bN ps = .ok xs)
    {mx my : Fin layers.length → ℕ} {ε μ : ∀ n, TensorComponents (mx n) (my n)}
    (hm : ∀ n : Fin layers.length, SampledMedium c layers[n] (mx n) (my n) (ε n) (μ n)) :
    ∃ (_ : 0 < layers.length) (_ : solved.length = layers.length) (_ : xs.length = layers.length)
      (F F' : Fin layers.length → ℝ → Fields (Matrix ι β ℂ))
      (g : ∀ n, ℝ → Fields (Fin (1 * mx n) × Fin (1 * my n) → β → ℂ)) (J : Fin layers.length → ℝ → β → ℝ),
      (∀ n z, reportedFields solved[n] layers[n].thickness xs[n].1 xs[n].2 z = .ok (F n z) ∧
        reportedFlux solved[n] layers[n].thickness xs[n].1 xs[n].2 z = .ok (J n z) ∧
        (∃ xy, fieldsOnGrid (F' n z) solved[n] (mx n, my n) (1, 1) = .ok (g n z, xy)) ∧
        MaxwellCompletion (orderWavevector solved[n]) (2 * Real.pi / c.wavelength) c.expansion (ε n).zz (μ n).zz (F n z) (F' n z)) ∧
      ∀ x, J ⟨0, by omega⟩ 0 x - J ⟨layers.length - 1, by omega⟩ (layers[layers.length - 1]).thickness x =
        ∑ n : Fin layers.length, 2 * Real.pi / c.wavelength * ∫ z in (0 : ℝ)..layers[n].thickness, absorptionDensity (ε n) (μ n) (g n z) x := by
  have l1 : solved.length = layers.length := hs.length_eq.symm
  have hsol : ∀ n (h1 : n < layers.length) (h2 : n < solved.length), layers[n].solve eig c = .ok solved[n] := fun n h1 h2 => hs.get h1 h2
  have hwl : ∀ r ∈ solved, r.wavelength = c.wavelength := by
    intro r hr
    obtain ⟨n, hn, rfl⟩ := List.getElem_of_mem hr
    exact (SampledMedium.convolutionLayer he hG (hm ⟨n, by omega⟩) (hsol n (by omega) hn)).wavelength
  have hreg : Regular c.wavelength (solved.zip (layers.map StackLayer.thickness)) := fun p hp =>
    ⟨hwl _ (List.of_mem_zip hp).1, hq _ (List.of_mem_zip hp).1⟩
  obtain ⟨st, first, last, hg, hc, hf, hl, rfl, rfl, hx'⟩ := C40_interior_amplitudes hreg h a0 bN
  rw [hx'] at hx
  cases hx
  have l2 : st.length = layers.length := by
    have := congrArg List.length hg
    simpa [geometry, l1] using this
  have l0 : 0 < layers.length := by
    rw [← l2]
    cases st with
    | nil => simp at hf
    | cons s st => simp
  have hget : ∀ n (h1 : n < layers.length), (st[n]'(by omega)).layer = solved[n] ∧ (st[n]'(by omega)).thickness = layers[n].thickness := by
    intro n h1
    obtain ⟨e1, e2⟩ := getElem_of_geometry hg n (by omega) (by omega) (by simpa using h1)
    exact ⟨e1, by rw [e2, List.getElem_map]⟩
  choose F F' g J hJ hI using fun n : Fin layers.length => C95_absorbed_power (β := β) he hG (hm n) (hsol n n.2 (by omega))
    (hq _ (List.getElem_mem (by omega))) layers[n].thickness (st[n.1]'(by omega)).a (st[n.1]'(by omega)).b
  refine ⟨l0, l1, by simpa using l2, F, F', g, J, fun n z => ?_, fun x => ?_⟩
  · simp only [Fin.getElem_fin, List.getElem_map]
    exact hJ n z
  · have hJ' : ∀ (n : Fin layers.length) z, J n z x = stateFlux (st[n.1]'(by omega)) x z := by
      intro n z
      have h1 := (hJ n z).2.1
      obtain ⟨e1, e2⟩ := hget n n.2
      have hcl := SampledMedium.convolutionLayer he hG (hm n) (hsol n n.2 (by omega))
      have h2 := hq (solved[n.1]'(by omega)) (List.getElem_mem (by omega))
      have hw := hcl.solved.wellPosed
      simp only [Fin.getElem_fin] at h1
      rw [← e1] at h1 h2 hw
      rw [← e2] at h1
      exact reportedFlux_state hw h2 h1
    simp only [← hI]
    have := telescope (fun n => if hn : n < layers.length then J ⟨n, hn⟩ 0 x else 0)
      (fun n => if hn : n < layers.length then J ⟨n, hn⟩ layers[n].thickness x else 0) (layers.length - 1) (by
        intro i hi
        rw [dif_pos (by omega), dif_pos (by omega), hJ', hJ']
        have hi' : i + 1 < st.length := by omega
        have := (interface_flux (List.isChain_iff_getElem.1 hc i hi') x).2.2
        rw [← this, (hget i (by omega)).2])
    rw [dif_pos (by omega), dif_pos (by omega), Nat.sub_add_cancel l0] at this
    rw [this, ← Fin.sum_univ_eq_sum_range]
    refine Finset.sum_congr rfl fun n _ => ?_
    rw [dif_pos n.2, dif_pos n.2]
    rfl

/-- **C95** Incident power = reflected + transmitted + absorbed power: between two uniform lossless layers, for any propagating amplitudes incident
from both sides, the incident power which does not leave the stack is the sum of the integrals of the local absorption. -/
theorem C95_incident_power (he : IsEig eig) (hG : Function.Injective c.expansion) {layers : List (StackLayer ι)} {solved : List (LayerSolveResult ι)}
    (hs : List.Forall₂ (fun p r => p.solve eig c = .ok r) layers solved) (hq : ∀ r ∈ solved, ∀ i, r.eigenvalues i ≠ 0)
    {S : ScatteringMatrix ι} (hS : stackSMatrix solved (layers.map StackLayer.thickness) = .ok S)
    {ps : List (ScatteringMatrix ι × ScatteringMatrix ι)} (h : stackSMatricesInterior solved (layers.map StackLayer.thickness) = .ok ps)
    {ε0 εN : Grid 1 1} {f0 fN : Formulation 1 1 ι} {d0 dN : ℝ} {l0 lN : LayerSolveResult ι} (p0 : layers.head? = some ⟨1, 1, .isotropic ε0 f0, d0⟩)
    (pN : layers.getLast? = some ⟨1, 1, .isotropic εN fN, dN⟩) (hε0 : (ε0 0 0).im = 0) (hεN : (εN 0 0).im = 0)
    (r0 : solved.head? = some l0) (rN : solved.getLast? = some lN)
    (a0 bN : Matrix (ι ⊕ ι) β ℂ) (ha : ∀ i x, (l0.eigenvalues i).im ≠ 0 → a0 i x = 0) (hb : ∀ i x, (lN.eigenvalues i).im ≠ 0 → bN i x = 0)
    {mx my : Fin layers.length → ℕ} {ε μ : ∀ n, TensorComponents (mx n) (my n)}
    (hm : ∀ n : Fin layers.length, SampledMedium c layers[n] (mx n) (my n) (ε n) (μ n)) :
    ∃ (xs : List (Matrix (ι ⊕ ι) β ℂ × Matrix (ι ⊕ ι) β ℂ)) (_ : solved.length = layers.length) (_ : xs.length = layers.length)
      (F F' : Fin layers.length → ℝ → Fields (Matrix ι β ℂ)) (g : ∀ n, ℝ → Fields (Fin (1 * mx n) × Fin (1 * my n) → β → ℂ)) (I0 IN O0 ON : β → ℝ),
      stackAmplitudesInterior a0 bN ps = .ok xs ∧
      (∀ n z, reportedFields solved[n] layers[n].thickness xs[n].1 xs[n].2 z = .ok (F n z) ∧
        (∃ xy, fieldsOnGrid (F' n z) solved[n] (mx n, my n) (1, 1) = .ok (g n z, xy)) ∧
        MaxwellCompletion (orderWavevector solved[n]) (2 * Real.pi / c.wavelength) c.expansion (ε n).zz (μ n).zz (F n z) (F' n z)) ∧
      forwardPower l0 a0 = .ok I0 ∧ forwardPower lN bN = .ok IN ∧
      forwardPower l0 (propagateAmplitude (S.s21 * a0 + S.s22 * bN) (fun _ => d0) l0) = .ok O0 ∧
      forwardPower lN (propagateAmplitude (S.s11 * a0 + S.s12 * bN) (fun _ => dN) lN) = .ok ON ∧
      ∀ x, I0 x + IN x = O0 x + ON x +
        ∑ n : Fin layers.length, 2 * Real.pi / c.wavelength * ∫ z in (0 : ℝ)..layers[n].thickness, absorptionDensity (ε n) (μ n) (g n z) x := by
  have l1 : solved.length = layers.length := hs.length_eq.symm
  have hsol : ∀ n (h1 : n < layers.length) (h2 : n < solved.length), layers[n].solve eig c = .ok solved[n] := fun n h1 h2 => hs.get h1 h2
  have hcl : ∀ n (h1 : n < layers.length) (h2 : n < solved.length), solved[n].wavelength = c.wavelength ∧ WellPosed solved[n] := by
    intro n h1 h2
    have := SampledMedium.convolutionLayer he hG (hm ⟨n, h1⟩) (hsol n h1 h2)
    exact ⟨this.wavelength, this.solved.wellPosed⟩
  have hreg : Regular c.wavelength (solved.zip (layers.map StackLayer.thickness)) := by
    intro p hp
    obtain ⟨n, hn, e⟩ := List.getElem_of_mem (List.of_mem_zip hp).1
    exact ⟨by rw [← e]; exact (hcl n (by omega) hn).1, hq _ (List.of_mem_zip hp).1⟩
  obtain ⟨xs, x, y, hx, x0, yN, ex, ey⟩ := C40_agrees_with_s_matrix hreg h hS a0 bN
  obtain ⟨n0, l1', l2, F, F', g, J, hJ, hbal⟩ := C95_balance he hG hs hq h hx hm
  rw [List.head?_eq_getElem?, List.getElem?_eq_getElem (by omega), Option.some_inj] at p0 r0 x0
  rw [List.getLast?_eq_getElem?, List.getElem?_eq_getElem (by omega), Option.some_inj] at pN rN yN
  have q0 : ∀ i, l0.eigenvalues i ≠ 0 := by rw [← r0]; exact hq _ (List.getElem_mem _)
  have qN : ∀ i, lN.eigenvalues i ≠ 0 := by rw [← rN]; exact hq _ (List.getElem_mem _)
  have w0 : WellPosed l0 := by rw [← r0]; exact (hcl 0 n0 (by omega)).2
  have wN : WellPosed lN := by rw [← rN]; exact (hcl _ (by omega) (by omega)).2
  have u0 : eigensolveUniformIsotropic c.wavelength c.inPlaneWavevector c.lattice (ε0 0 0) c.expansion = .ok l0 := by
    have := hsol 0 n0 (by omega)
    rw [p0, r0] at this
    exact this
  have uN : eigensolveUniformIsotropic c.wavelength c.inPlaneWavevector c.lattice (εN 0 0) c.expansion = .ok lN := by
    have := hsol (layers.length - 1) (by omega) (by omega)
    rw [pN] at this
    simp only [← l1, rN] at this
    exact this
  have j0 := (hJ ⟨0, n0⟩ 0).2.1
  have jN := (hJ ⟨layers.length - 1, by omega⟩ (layers[layers.length - 1]).thickness).2.1
  simp only [Fin.getElem_fin, p0, r0, x0, ex] at j0
  simp only [Fin.getElem_fin, pN] at jN
  have e1 : solved[layers.length - 1]'(by omega) = lN := by simp only [← l1, rN]
  have e2 : xs[layers.length - 1]'(by omega) = y := by simp only [← l2, yN]
  rw [e1, e2, ey] at jN
  refine ⟨xs, l1, l2, F, F', g, _, _, _, _, hx, fun n z => ⟨(hJ n z).1, (hJ n z).2.2⟩, forwardPower_eq w0 q0 _, forwardPower_eq wN qN _,
    forwardPower_eq w0 q0 _, forwardPower_eq wN qN _, fun x => ?_⟩
  rw [← hbal x]
  have t0 : (layers[layers.length - 1]).thickness = dN := by rw [pN]
  have b0 := reportedFlux_state (s := { layer := l0, thickness := d0, a := a0, b := S.s21 * a0 + S.s22 * bN }) w0 q0 j0 (x := x)
  have b1 := reportedFlux_state (s := { layer := lN, thickness := dN, a := S.s11 * a0 + S.s12 * bN, b := bN }) wN qN jN (x := x)
  rw [t0, b0, b1, boundary_flux hε0 (s := { layer := l0, thickness := d0, a := a0, b := S.s21 * a0 + S.s22 * bN }) u0 ha,
    end_flux hεN (s := { layer := lN, thickness := dN, a := S.s11 * a0 + S.s12 * bN, b := bN }) uN hb]
  ring

/-! ### Examples -/

/-- Normal incidence on a square lattice, one order. -/
noncomputable def slabSetup : Setup (Fin 1) := { wavelength := 2 * Real.pi, inPlaneWavevector := (0, 0), lattice := unitLattice, expansion := fun _ => (0, 0) }

/-- An absorbing pattern between vacuum layers. -/
noncomputable def slabLayers : List (StackLayer (Fin 1)) :=
  [⟨1, 1, .isotropic (fun _ _ => 1) .fft, 1⟩, ⟨3, 5, .isotropic examplePattern .fft, 2⟩, ⟨1, 1, .isotropic (fun _ _ => 1) .fft, 3⟩]

/-- The hypotheses of `C95_incident_power` are met, for all incident amplitudes. -/
example : ∃ (eig : Matrix (Fin 1 ⊕ Fin 1) (Fin 1 ⊕ Fin 1) ℂ → (Fin 1 ⊕ Fin 1 → ℂ) × Matrix (Fin 1 ⊕ Fin 1) (Fin 1 ⊕ Fin 1) ℂ)
    (solved : List (LayerSolveResult (Fin 1))) (S : ScatteringMatrix (Fin 1)) (ps : List (ScatteringMatrix (Fin 1) × ScatteringMatrix (Fin 1)))
    (v : LayerSolveResult (Fin 1)) (mx my : Fin 3 → ℕ) (ε μ : ∀ n, TensorComponents (mx n) (my n)),
    IsEig eig ∧ Function.Injective slabSetup.expansion ∧ List.Forall₂ (fun p r => p.solve eig slabSetup = .ok r) slabLayers solved ∧
    (∀ r ∈ solved, ∀ i, r.eigenvalues i ≠ 0) ∧ stackSMatrix solved (slabLayers.map StackLayer.thickness) = .ok S ∧
    stackSMatricesInterior solved (slabLayers.map StackLayer.thickness) = .ok ps ∧ solved.head? = some v ∧ solved.getLast? = some v ∧
    (∀ i, (v.eigenvalues i).im = 0) ∧ ∀ n : Fin 3, SampledMedium slabSetup slabLayers[n] (mx n) (my n) (ε n) (μ n) := by
  obtain ⟨eig, r, v, he, hr, hv, ha, ho, hw, hw', him⟩ := example_slab
  obtain ⟨S, ps, hS, hp⟩ := C81_absorbing_slab (lam := 2 * Real.pi) (l0 := v) (l1 := r) (l2 := v) (d0 := 1) (d1 := 2) (d2 := 3) (by simp [hw, hw']) ho ha ho
    zero_le_one two_pos (by norm_num)
  have hm : ∀ n : Fin 3, ∃ mx my, ∃ ε μ : TensorComponents mx my, SampledMedium slabSetup slabLayers[n] mx my ε μ := by
    have hR : Resolves 3 5 slabSetup.expansion := ⟨⟨0⟩, by simp [slabSetup]⟩
    intro n
    fin_cases n
    · exact ⟨3, 5, _, _, SampledMedium.uniform (.isotropic (fun _ _ => 1) .fft) 1 hR⟩
    · exact ⟨3, 5, _, _, SampledMedium.patterned (by norm_num) (.isotropic examplePattern .fft) rfl 2⟩
    · exact ⟨3, 5, _, _, SampledMedium.uniform (.isotropic (fun _ _ => 1) .fft) 3 hR⟩
  choose mx my ε μ hm using hm
  have hv' : eigensolveIsotropicMedia eig (2 * Real.pi) (0, 0) unitLattice (fun _ _ => 1 : Grid 1 1) (fun _ : Fin 1 => (0, 0)) .fft = .ok v := hv
  refine ⟨eig, [v, r, v], S, ps, v, mx, my, ε, μ, he, fun _ _ _ => Subsingleton.elim _ _, ?_, ?_, hS, hp, rfl, rfl, him, hm⟩
  · exact .cons hv' (.cons hr (.cons hv' .nil))
  · intro l hl
    simp only [List.mem_cons, List.not_mem_nil, or_false] at hl
    rcases hl with rfl | rfl | rfl
    · exact ho.modes.2
    · exact ha.modes.2
    · exact ho.modes.2

/-- The hypotheses of `C95_absorbed_power` are met: an absorbing pattern on an oblique lattice at oblique incidence, four orders; those of
`C95_uniform` for a uniform absorbing layer, with the fields on the grid of the pattern. -/
example : ∃ (eig : Matrix (Fin 4 ⊕ Fin 4) (Fin 4 ⊕ Fin 4) ℂ → (Fin 4 ⊕ Fin 4 → ℂ) × Matrix (Fin 4 ⊕ Fin 4) (Fin 4 ⊕ Fin 4) ℂ) (c : Setup (Fin 4))
    (p : StackLayer (Fin 4)) (ε μ : TensorComponents 3 5) (r u : LayerSolveResult (Fin 4)), IsEig eig ∧ Function.Injective c.expansion ∧
    Resolves 3 5 c.expansion ∧ SampledMedium c p 3 5 ε μ ∧ p.solve eig c = .ok r ∧ (∀ i, r.eigenvalues i ≠ 0) ∧
    StackLayer.solve eig c ⟨1, 1, .isotropic (fun _ _ => 1 + Complex.I) .fft, 1⟩ = .ok u ∧ ∀ i, u.eigenvalues i ≠ 0 := by
  obtain ⟨eig, he⟩ := exists_isEig (Fin 4 ⊕ Fin 4)
  obtain ⟨r, hr⟩ := patterned_eigensolve_succeeds eig (wavelength := 1) (1, 2) (l := obliqueLattice) (ε := examplePattern)
    exampleExpansion_injective exampleExpansion_resolved one_ne_zero (by norm_num [obliqueLattice])
    (by intro r s; simp [examplePattern]; positivity)
  have hq := (C25_absorbing_pattern he one_pos (by intro r s; simp [examplePattern]) exampleExpansion_injective
    exampleExpansion_resolved hr 5 (0 : Matrix (Fin 4 ⊕ Fin 4) (Fin 2) ℂ) 0).1
  obtain ⟨u, hu⟩ := (C22_uniform_succeeds_iff 1 (1, 2) obliqueLattice (1 + Complex.I) exampleExpansion).2
    ⟨one_ne_zero, fun h0 => by simpa using congrArg Complex.im h0, by norm_num [obliqueLattice]⟩
  refine ⟨eig, { wavelength := 1, inPlaneWavevector := (1, 2), lattice := obliqueLattice, expansion := exampleExpansion },
    ⟨3, 5, .isotropic examplePattern .fft, 1⟩, _, _, r, u, he, exampleExpansion_injective, exampleExpansion_resolved,
    SampledMedium.patterned (by norm_num) _ rfl _, ?_, hq, hu, ?_⟩
  · simp only [StackLayer.solve, eigensolveIsotropicMedia]
    rw [dif_neg (by norm_num)]
    exact hr
  · exact (C81_uniform_absorbing one_pos hu (by simp)).modes.2

/-! ### The reported z component -/

/-- Stripes of permittivity `1 + i` and `3 + i`. -/
noncomputable def lossyStripes : Grid 2 1 := Matrix.of fun r _ => (if r = 0 then 1 else 3) + Complex.I

/-- **C95 (finding)** With the reported z component the balance fails: for stripes with permittivity `1 + i` and `3 + i`, one Fourier order and oblique
incidence, whatever eigensolver is used, for some excitation the absorption computed from the reported fields exceeds the lost power, at all depths. -/
theorem C95_finding_reported_ez {eig : Matrix (Fin 1 ⊕ Fin 1) (Fin 1 ⊕ Fin 1) ℂ → (Fin 1 ⊕ Fin 1 → ℂ) ×
    Matrix (Fin 1 ⊕ Fin 1) (Fin 1 ⊕ Fin 1) ℂ} (he : IsEig eig) :
    ∃ r, eigensolveIsotropicMedia eig (2 * Real.pi) (1, 0) unitLattice lossyStripes (fun _ : Fin 1 => (0, 0)) .fft = .ok r ∧
      (∀ i, r.eigenvalues i ≠ 0) ∧ ∃ (a : Matrix (Fin 1 ⊕ Fin 1) Unit ℂ) (F : ℝ → Fields (Matrix (Fin 1) Unit ℂ))
        (g : ℝ → Fields (Fin (1 * 2) × Fin (1 * 1) → Unit → ℂ)) (J : ℝ → Unit → ℝ),
        (∀ z, reportedFields r 1 a 0 z = .ok (F z) ∧ reportedFlux r 1 a 0 z = .ok (J z) ∧ ∃ xy, fieldsOnGrid (F z) r (2, 1) (1, 1) = .ok (g z, xy)) ∧
        ∀ z, 0 < z → J 0 () - J z () < ∫ z in (0 : ℝ)..z, absorptionDensity (Medium.isotropic (ι := Fin 1) lossyStripes .fft).permittivity
          (Medium.isotropic (ι := Fin 1) lossyStripes .fft).permeability (g z) () := by
  let c : Setup (Fin 1) := { wavelength := 2 * Real.pi, inPlaneWavevector := (1, 0), lattice := unitLattice, expansion := fun _ => (0, 0) }
  have hinj : Function.Injective c.expansion := fun _ _ _ => Subsingleton.elim _ _
  have hne : ∀ r s, 0 < (lossyStripes r s).re := by
    intro r s
    fin_cases r <;> simp [lossyStripes]
  obtain ⟨r, hr⟩ := patterned_eigensolve_succeeds eig (wavelength := 2 * Real.pi) (1, 0) (l := unitLattice) (ε := lossyStripes)
    (G := fun _ : Fin 1 => ((0, 0) : ℤ × ℤ)) hinj ⟨⟨0⟩, by simp⟩
    (by have := Real.pi_ne_zero; positivity) (by norm_num [unitLattice]) hne
  have hr' : eigensolveIsotropicMedia eig (2 * Real.pi) (1, 0) unitLattice lossyStripes (fun _ : Fin 1 => (0, 0)) .fft = .ok r := by
    unfold eigensolveIsotropicMedia
    rw [dif_neg (by norm_num)]
    exact hr
  have hcl := SampledMedium.convolutionLayer (c := c) he hinj (SampledMedium.patterned (by norm_num) (.isotropic lossyStripes .fft) rfl 1) (r := r) hr'
  have h := hr
  unfold eigensolvePatternedIsotropic at h
  obtain ⟨m, hm, h⟩ := bind_eq_ok.1 h
  obtain ⟨e1, e2, e3, e4, e5⟩ := fft_matrices_eq hm
  have e6 := fft_inverseZ_eq hm
  have c1 : (Matrix.of fun i j => fourierCoefficient lossyStripes ((fun _ : Fin 1 => ((0, 0) : ℤ × ℤ)) i - (fun _ : Fin 1 => (0, 0)) j)) =
      (2 + Complex.I : ℂ) • (1 : Matrix (Fin 1) (Fin 1) ℂ) := by
    ext i j
    fin_cases i; fin_cases j
    simp [fourierCoefficient, planeWave, lossyStripes, Fin.sum_univ_two]
    ring
  have c2 : (Matrix.of fun i j => fourierCoefficient (Matrix.of fun r s => 1 / lossyStripes r s)
      ((fun _ : Fin 1 => ((0, 0) : ℤ × ℤ)) i - (fun _ : Fin 1 => (0, 0)) j)) = ((4 - 3 * Complex.I) / 10 : ℂ) • (1 : Matrix (Fin 1) (Fin 1) ℂ) := by
    ext i j
    fin_cases i; fin_cases j
    have i1 : (1 + Complex.I)⁻¹ = (1 - Complex.I) / 2 := by
      refine inv_eq_of_mul_eq_one_right ?_
      linear_combination (-1 / 2 : ℂ) * Complex.I_sq
    have i2 : (3 + Complex.I)⁻¹ = (3 - Complex.I) / 10 := by
      refine inv_eq_of_mul_eq_one_right ?_
      linear_combination (-1 / 10 : ℂ) * Complex.I_sq
    simp [fourierCoefficient, planeWave, lossyStripes, Fin.sum_univ_two, i1, i2]
    ring
  rw [c1] at e1 e2
  rw [c2] at e6
  obtain ⟨hs, f1, f2, f3, f4, f5, f6⟩ := numerical_solvedFor he h
  have h21 : (2 + Complex.I) ≠ 0 := fun h0 => by simpa using congrArg Complex.im h0
  have hk : ∀ i, orderWavevector r i = (1, 0) := by
    intro i
    obtain ⟨k, A, -, -, rfl⟩ := numericalEigensolve_ok_iff.1 h
    simp [orderWavevector, solvedLayer]
  have hω : omega r = 1 := by
    rw [omega, f1]
    exact div_self (by have := Real.pi_ne_zero; positivity)
  have hinv : ((2 + Complex.I : ℂ) • (1 : Matrix (Fin 1) (Fin 1) ℂ))⁻¹ = (1 / (2 + Complex.I) : ℂ) • 1 :=
    Matrix.inv_eq_right_inv (by simp [smul_smul, h21])
  have hA : m.transversePermittivity * magneticToElectric r - divergenceMatrix r * r.transversePermeabilityMatrix = (1 + Complex.I) • 1 := by
    unfold magneticToElectric divergenceMatrix
    simp only [hk, hω, f2, f3, f4, e1, e2, e3, e4]
    rw [hinv]
    ext i j
    rcases i with i | i <;> rcases j with j | j <;> fin_cases i <;> fin_cases j <;>
      simp [Matrix.mul_apply, Fintype.sum_sum_type] <;> field_simp <;> ring
  have hv : IsUnit r.eigenvectors.det := by
    refine numerical_eigenvectors_invertible he h (V := 1) (w := fun _ => 1 + Complex.I) (by simp) ?_
    rw [hA]
    ext i j
    simp [Matrix.one_apply, Matrix.diagonal_apply]
  have h11 : (1 + Complex.I) ≠ 0 := fun h0 => by simpa using congrArg Complex.im h0
  have hq : ∀ i, r.eigenvalues i ≠ 0 := by
    intro j hj
    have hmode := hs.modes
    unfold ModeEquation at hmode
    rw [hA, Matrix.smul_mul, Matrix.one_mul] at hmode
    obtain ⟨i, hi⟩ := numerical_columns_ne_zero he h j
    have := congrFun (congrFun hmode i) j
    rw [Matrix.mul_diagonal, hj] at this
    simp [h11] at this
    exact hi this
  -- a mode with a y component of the magnetic field
  obtain ⟨j, hj⟩ : ∃ j, r.eigenvectors (.inr 0) j ≠ 0 := by
    by_contra hn
    push Not at hn
    exact hv.ne_zero (Matrix.det_eq_zero_of_row_eq_zero (.inr 0) hn)
  let a : Matrix (Fin 1 ⊕ Fin 1) Unit ℂ := Matrix.of fun i _ => if i = j then 1 else 0
  have hmag : ∀ z, magneticAt r 1 a 0 z (.inr 0) () = r.eigenvectors (.inr 0) j * Complex.exp (Complex.I * r.eigenvalues j * z) := by
    intro z
    unfold magneticAt
    rw [Matrix.mul_zero, add_zero, Matrix.mul_apply, Finset.sum_eq_single j]
    · rw [propagator_apply]
      simp [a]
    · intro i _ hi
      rw [propagator_apply]
      simp [a, hi]
    · simp
  let f : ℝ → ℝ := fun z => Complex.normSq (magneticAt r 1 a 0 z (.inr 0) ()) / 20
  have hf : ∀ z, 0 < f z := by
    intro z
    have : 0 < Complex.normSq (magneticAt r 1 a 0 z (.inr 0) ()) := by
      rw [Complex.normSq_pos, hmag]
      exact mul_ne_zero hj (Complex.exp_ne_zero _)
    positivity
  have hfc : Continuous f := by
    have := magneticAt_continuous r 1 a 0 (.inr 0) ()
    exact (Complex.continuous_normSq.comp this).div_const _
  choose g xy hg hd using fun z => absorptionDensity_eq hcl hinj (fieldsOf r (electricAt r 1 a 0 z) (magneticAt r 1 a 0 z))
  refine ⟨r, hr', hq, a, fun z => fieldsOf r (electricAt r 1 a 0 z) (magneticAt r 1 a 0 z), g, _,
    fun z => ⟨reportedFields_eq_ok.2 ⟨hs.wellPosed, hq, rfl⟩, reportedFlux_eq hs.wellPosed hq 1 a 0 z, xy z, hg z⟩, fun z hz => ?_⟩
  obtain ⟨E, hE, hd'⟩ : ∃ E, SolvedFor r E ∧ ∀ z b, absorptionDensity (Medium.isotropic (ι := Fin 1) lossyStripes .fft).permittivity
      (Medium.isotropic (ι := Fin 1) lossyStripes .fft).permeability (g z) b = lossAt r E (fieldsOf r (electricAt r 1 a 0 z) (magneticAt r 1 a 0 z)) b :=
    ⟨_, hcl.solved, hd⟩
  have hflux := stateFlux_integral (s := { layer := r, thickness := 1, a := a, b := 0 }) hE hq () 0 z
  rw [hflux, hω, one_mul]
  change ∫ z in (0 : ℝ)..z, lossAt r E (layerFields r 1 a 0 z) () < _
  have hsplit : ∀ y, absorptionDensity (Medium.isotropic (ι := Fin 1) lossyStripes .fft).permittivity
      (Medium.isotropic (ι := Fin 1) lossyStripes .fft).permeability (g y) () = lossAt r E (layerFields r 1 a 0 y) () + f y := by
    intro y
    rw [hd' y]
    have hz1 : (fieldsOf r (electricAt r 1 a 0 y) (magneticAt r 1 a 0 y)).hz = (layerFields r 1 a 0 y).hz := by
      ext i b
      fin_cases i
      simp only [fieldsOf, layerFields, maxwellFields, kxMatrix, kyMatrix, hk, hω, f4, f6, e4, e5]
      simp [Matrix.mul_apply]
      field_simp
      rw [Complex.I_sq]
      ring
    have hz2 : (fieldsOf r (electricAt r 1 a 0 y) (magneticAt r 1 a 0 y)).ez 0 () = -((4 - 3 * Complex.I) / 10) * magneticAt r 1 a 0 y (.inr 0) () := by
      simp only [fieldsOf, hk, hω, f5, e6]
      simp [Matrix.mul_apply]
      field_simp
      rw [Complex.I_sq]
      ring
    have hz3 : (layerFields r 1 a 0 y).ez 0 () = -(1 / (2 + Complex.I)) * magneticAt r 1 a 0 y (.inr 0) () := by
      simp only [layerFields, maxwellFields, kxMatrix, kyMatrix, hk, hω, f3, e1, hinv]
      simp [Matrix.mul_apply]
    unfold lossAt
    rw [hz1, f3, e1, tangentialE_fieldsOf, tangentialH_fieldsOf]
    simp only [layerFields, tangentialE_maxwellFields, tangentialH_maxwellFields]
    have hl : ∀ x : Fin 1 → ℂ, lossForm ((2 + Complex.I) • (1 : Matrix (Fin 1) (Fin 1) ℂ)) x = Complex.normSq (x 0) := by
      intro x
      simp [lossForm, dotProduct, Matrix.mulVec, Complex.normSq_apply]
      ring
    rw [hl, hl, hz2]
    change _ = _ + _ + Complex.normSq ((layerFields r 1 a 0 y).ez 0 ()) + _ + _
    rw [hz3, Complex.normSq_mul, Complex.normSq_mul, Complex.normSq_neg, Complex.normSq_neg]
    have n1 : Complex.normSq ((4 - 3 * Complex.I) / 10) = 1 / 4 := by
      rw [Complex.normSq_div]
      simp [Complex.normSq_apply]
      norm_num
    have n2 : Complex.normSq (1 / (2 + Complex.I)) = 1 / 5 := by
      rw [Complex.normSq_div]
      simp [Complex.normSq_apply]
      norm_num
    rw [n1, n2]
    simp only [f]
    ring
  simp only [hsplit]
  rw [intervalIntegral.integral_add ((lossAt_continuous r _ 1 a 0 ()).intervalIntegrable _ _) (hfc.intervalIntegrable _ _)]
  have := intervalIntegral.intervalIntegral_pos_of_pos (hfc.intervalIntegrable 0 z) hf hz
  linarith

end Fmmax
