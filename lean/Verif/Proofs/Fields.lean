import Verif.Spec.Maxwell
import Verif.Proofs.Layer
import Verif.Proofs.StackOps
import Mathlib.Analysis.SpecialFunctions.ExpDeriv
import Mathlib.Analysis.Calculus.Deriv.Add
import Mathlib.Analysis.Calculus.MeanValue

/-! Lemmas about fields in layers. -/

set_option linter.unusedSectionVars false

namespace Fmmax

open Matrix Spec

variable {ι : Type} [Fintype ι] [DecidableEq ι] {β κ : Type}

theorem omega_ne_zero {l : LayerSolveResult ι} (h : WellPosed l) : (omega l : ℂ) ≠ 0 := by
  have h1 := h.1
  have h2 := Real.pi_ne_zero
  unfold omega
  exact_mod_cast (by positivity : 2 * Real.pi / l.wavelength ≠ 0)

/-- The matrix from mode amplitudes to `[-Ey; Ex]`. -/
noncomputable def electricModes (l : LayerSolveResult ι) : ModeMatrix ι :=
  magneticToElectric l * l.eigenvectors * Matrix.diagonal fun i => ((omega l : ℂ) * l.eigenvalues i)⁻¹

theorem poyntingFluxAMatrix_eq_ok {l : LayerSolveResult ι} {A : ModeMatrix ι} :
    poyntingFluxAMatrix l = .ok A ↔ WellPosed l ∧ (∀ i, l.eigenvalues i ≠ 0) ∧ A = electricModes l := by
  unfold poyntingFluxAMatrix
  simp only [bind_eq_ok, omegaScriptK_ok_iff, angularFrequency_layer, recip_eq_ok, ok_inj, diag_eq]
  constructor
  · rintro ⟨_, ⟨hw, rfl⟩, _, ⟨-, rfl⟩, _, ⟨hq, rfl⟩, rfl⟩
    exact ⟨hw, fun i => right_ne_zero_of_mul (hq i), rfl⟩
  · rintro ⟨hw, hq, rfl⟩
    exact ⟨_, ⟨hw, rfl⟩, _, ⟨hw.1, rfl⟩, _, ⟨fun i => mul_ne_zero (omega_ne_zero hw) (hq i), rfl⟩, rfl⟩

/-- The fields reported by the library, from `e = [-Ey; Ex]` and `h = [Hx; Hy]`. -/
noncomputable def fieldsOf (l : LayerSolveResult ι) (e h : Matrix (ι ⊕ ι) β ℂ) : Fields (Matrix ι β ℂ) where
  ex := Matrix.of fun i c => e (.inr i) c
  ey := Matrix.of fun i c => -e (.inl i) c
  ez := Matrix.of fun i c => (-l.inverseZPermittivityMatrix * Matrix.of fun i c =>
    Complex.I * (orderWavevector l i).1 * h (.inr i) c - Complex.I * (orderWavevector l i).2 * h (.inl i) c : Matrix ι β ℂ) i c /
      (Complex.I * omega l)
  hx := Matrix.of fun i c => h (.inl i) c
  hy := Matrix.of fun i c => h (.inr i) c
  hz := Matrix.of fun i c => (l.inverseZPermeabilityMatrix * Matrix.of fun i c =>
    Complex.I * (orderWavevector l i).1 * -e (.inl i) c - Complex.I * (orderWavevector l i).2 * e (.inr i) c : Matrix ι β ℂ) i c /
      (Complex.I * omega l)

theorem tangentialE_fieldsOf (l : LayerSolveResult ι) (e h : Matrix (ι ⊕ ι) β ℂ) : tangentialE (fieldsOf l e h) = e := by
  ext i c
  rcases i with i | i <;> simp [tangentialE, fieldsOf]

theorem tangentialH_fieldsOf (l : LayerSolveResult ι) (e h : Matrix (ι ⊕ ι) β ℂ) : tangentialH (fieldsOf l e h) = h := by
  ext i c
  rcases i with i | i <;> simp [tangentialH, fieldsOf]

theorem fieldsFromWaveAmplitudes_eq_ok {l : LayerSolveResult ι} {a b : Matrix (ι ⊕ ι) β ℂ} {F : Fields (Matrix ι β ℂ)} :
    fieldsFromWaveAmplitudes a b l = .ok F ↔ WellPosed l ∧ (∀ i, l.eigenvalues i ≠ 0) ∧
      F = fieldsOf l (electricModes l * (a - b)) (l.eigenvectors * (a + b)) := by
  unfold fieldsFromWaveAmplitudes fieldConversionMatrix
  simp only [bind_eq_ok, poyntingFluxAMatrix_eq_ok, transverseWavevectors_layer, angularFrequency_layer, ok_inj]
  have key : Matrix.fromBlocks (electricModes l) (-electricModes l) l.eigenvectors l.eigenvectors * Matrix.fromRows a b =
      Matrix.fromRows (electricModes l * (a - b)) (l.eigenvectors * (a + b)) := by
    rw [Matrix.fromBlocks_mul_fromRows, Matrix.mul_sub, Matrix.mul_add, Matrix.neg_mul, sub_eq_add_neg]
  constructor
  · rintro ⟨_, ⟨_, ⟨hw, hq, rfl⟩, rfl⟩, _, ⟨-, rfl⟩, _, ⟨-, rfl⟩, rfl⟩
    refine ⟨hw, hq, ?_⟩
    rw [key]
    rfl
  · rintro ⟨hw, hq, rfl⟩
    refine ⟨_, ⟨_, ⟨hw, hq, rfl⟩, rfl⟩, _, ⟨hw.2.1, rfl⟩, _, ⟨hw.1, rfl⟩, ?_⟩
    rw [key]
    rfl

theorem propagateAmplitude_const (a : Matrix (ι ⊕ ι) β ℂ) (z : ℝ) (l : LayerSolveResult ι) :
    propagateAmplitude a (fun _ => z) l = propagator l z * a := by
  ext i c
  simp [propagateAmplitude, propagator, Matrix.diagonal_mul, mul_comm]

/-! ### Maxwell equations -/

/-- The mode equation as an equation of matrices acting on fields. -/
theorem SolvedFor.product {l : LayerSolveResult ι} {E : ModeMatrix ι} :
    ((omega l : ℂ) ^ 2 • E - divergenceMatrix l) * magneticToElectric l =
      (omega l : ℂ) ^ 2 • (E * magneticToElectric l - divergenceMatrix l * l.transversePermeabilityMatrix) := by
  have hK : divergenceMatrix l * ((omega l : ℂ) ^ 2 • l.transversePermeabilityMatrix - magneticToElectric l) = 0 := by
    unfold divergenceMatrix magneticToElectric
    simp only [sub_sub_cancel]
    rw [Matrix.fromBlocks_multiply, ← Matrix.fromBlocks_zero]
    have hc : (diagonal fun i => ((orderWavevector l i).2 : ℂ) : Matrix ι ι ℂ) * (diagonal fun i => ((orderWavevector l i).1 : ℂ)) =
        (diagonal fun i => ((orderWavevector l i).1 : ℂ)) * diagonal fun i => ((orderWavevector l i).2 : ℂ) := by
      simp [mul_comm]
    generalize (diagonal fun i => ((orderWavevector l i).1 : ℂ)) = kx at *
    generalize (diagonal fun i => ((orderWavevector l i).2 : ℂ)) = ky at *
    have hc' : ∀ X : Matrix ι ι ℂ, ky * (kx * X) = kx * (ky * X) := by
      intro X; rw [← Matrix.mul_assoc, hc, Matrix.mul_assoc]
    simp only [Matrix.mul_neg, Matrix.neg_mul, Matrix.mul_assoc, hc', hc]
    congr 1 <;> abel
  rw [Matrix.mul_sub, Matrix.mul_smul] at hK
  rw [Matrix.sub_mul, Matrix.smul_mul, smul_sub, ← sub_eq_zero.1 hK]

/-- Derivative of a linear image of propagated amplitudes. -/
theorem hasDerivAt_propagator {n : Type} (l : LayerSolveResult ι) (C : Matrix n (ι ⊕ ι) ℂ) (a : Matrix (ι ⊕ ι) β ℂ)
    (s t : ℝ) (z : ℝ) (i : n) (c : β) :
    HasDerivAt (fun z : ℝ => (C * (propagator l (s * z + t) * a)) i c)
      ((s : ℂ) * (C * ((diagonal fun i => Complex.I * l.eigenvalues i) * (propagator l (s * z + t) * a))) i c) z := by
  have h1 : ∀ z : ℝ, (C * (propagator l (s * z + t) * a)) i c =
      ∑ j, C i j * (Complex.exp (Complex.I * l.eigenvalues j * ((s * z + t : ℝ) : ℂ)) * a j c) := by
    intro z
    rw [Matrix.mul_apply]
    exact Finset.sum_congr rfl fun j _ => by rw [propagator, Matrix.diagonal_mul]
  have h2 : (s : ℂ) * (C * ((diagonal fun i => Complex.I * l.eigenvalues i) * (propagator l (s * z + t) * a))) i c =
      ∑ j, C i j * (Complex.exp (Complex.I * l.eigenvalues j * ((s * z + t : ℝ) : ℂ)) *
        (Complex.I * l.eigenvalues j * s) * a j c) := by
    rw [Matrix.mul_apply, Finset.mul_sum]
    refine Finset.sum_congr rfl fun j _ => ?_
    rw [propagator, Matrix.diagonal_mul, Matrix.diagonal_mul]
    ring
  rw [h2]
  simp only [h1]
  refine HasDerivAt.fun_sum fun j _ => ?_
  refine HasDerivAt.const_mul _ (HasDerivAt.mul_const ?_ _)
  have h3 : HasDerivAt (fun z : ℝ => Complex.I * l.eigenvalues j * ((s * z + t : ℝ) : ℂ))
      (Complex.I * l.eigenvalues j * s) z := by
    have h4 : HasDerivAt (fun z : ℝ => s * z + t) s z := by
      simpa using ((hasDerivAt_id z).const_mul s).add_const t
    exact h4.ofReal_comp.const_mul _
  exact h3.cexp

/-- The first order system satisfied by tangential fields. -/
def TransverseODE (l : LayerSolveResult ι) (E : ModeMatrix ι) (e h : ℝ → Matrix (ι ⊕ ι) β ℂ) : Prop :=
  ∀ z i c,
    HasDerivAt (fun z => e z i c) (((Complex.I / (omega l : ℂ)) • (magneticToElectric l * h z)) i c) z ∧
    HasDerivAt (fun z => h z i c)
      (((Complex.I / (omega l : ℂ)) • (((omega l : ℂ) ^ 2 • E - divergenceMatrix l) * e z)) i c) z

/-- Tangential fields of given amplitudes at depth `z`. -/
noncomputable def electricAt (l : LayerSolveResult ι) (d : ℝ) (a b : Matrix (ι ⊕ ι) β ℂ) (z : ℝ) : Matrix (ι ⊕ ι) β ℂ :=
  electricModes l * (propagator l z * a - propagator l (d - z) * b)

/-- Tangential fields of given amplitudes at depth `z`. -/
noncomputable def magneticAt (l : LayerSolveResult ι) (d : ℝ) (a b : Matrix (ι ⊕ ι) β ℂ) (z : ℝ) : Matrix (ι ⊕ ι) β ℂ :=
  l.eigenvectors * (propagator l z * a + propagator l (d - z) * b)

theorem fieldsAt_eq {s : LayerState ι β} {z : ℝ} {e h : Matrix (ι ⊕ ι) β ℂ} : FieldsAt s z e h ↔
    WellPosed s.layer ∧ (∀ i, s.layer.eigenvalues i ≠ 0) ∧ e = electricAt s.layer s.thickness s.a s.b z ∧
      h = magneticAt s.layer s.thickness s.a s.b z := Iff.rfl

theorem transverseODE_modes {l : LayerSolveResult ι} {E : ModeMatrix ι} (hs : SolvedFor l E)
    (hq : ∀ i, l.eigenvalues i ≠ 0) (d : ℝ) (a b : Matrix (ι ⊕ ι) β ℂ) :
    TransverseODE l E (electricAt l d a b) (magneticAt l d a b) := by
  have hw := omega_ne_zero hs.wellPosed
  have hQ : ∀ (C : ModeMatrix ι) (z : ℝ) (i : ι ⊕ ι) (c : β), HasDerivAt
      (fun z : ℝ => (C * (propagator l z * a - propagator l (d - z) * b)) i c)
      ((C * ((diagonal fun i => Complex.I * l.eigenvalues i) * (propagator l z * a + propagator l (d - z) * b))) i c) z := by
    intro C z i c
    have h1 := hasDerivAt_propagator l C a 1 0 z i c
    have h2 := hasDerivAt_propagator l C b (-1) d z i c
    have := h1.fun_sub h2
    simp only [one_mul, add_zero, neg_one_mul, neg_add_eq_sub, Complex.ofReal_one, Complex.ofReal_neg,
      sub_neg_eq_add] at this
    rw [Matrix.mul_add, Matrix.mul_add, Matrix.add_apply]
    have hf : ∀ z : ℝ, (C * (propagator l z * a - propagator l (d - z) * b)) i c =
        (C * (propagator l z * a)) i c - (C * (propagator l (d - z) * b)) i c := by
      intro z; rw [Matrix.mul_sub, Matrix.sub_apply]
    simp only [hf]
    exact this
  have hP : ∀ (C : ModeMatrix ι) (z : ℝ) (i : ι ⊕ ι) (c : β), HasDerivAt
      (fun z : ℝ => (C * (propagator l z * a + propagator l (d - z) * b)) i c)
      ((C * ((diagonal fun i => Complex.I * l.eigenvalues i) * (propagator l z * a - propagator l (d - z) * b))) i c) z := by
    intro C z i c
    have h1 := hasDerivAt_propagator l C a 1 0 z i c
    have h2 := hasDerivAt_propagator l C b (-1) d z i c
    have := h1.fun_add h2
    simp only [one_mul, add_zero, neg_one_mul, neg_add_eq_sub, Complex.ofReal_one, Complex.ofReal_neg,
      ← sub_eq_add_neg] at this
    rw [Matrix.mul_sub, Matrix.mul_sub, Matrix.sub_apply]
    have hf : ∀ z : ℝ, (C * (propagator l z * a + propagator l (d - z) * b)) i c =
        (C * (propagator l z * a)) i c + (C * (propagator l (d - z) * b)) i c := by
      intro z; rw [Matrix.mul_add, Matrix.add_apply]
    simp only [hf]
    exact this
  intro z i c
  constructor
  · refine (hQ (electricModes l) z i c).congr_deriv ?_
    refine congrFun (congrFun ?_ i) c
    unfold magneticAt electricModes
    rw [← Matrix.mul_smul, ← Matrix.mul_assoc _ _ (_ + _), Matrix.mul_assoc _ (diagonal _) (diagonal _),
      Matrix.diagonal_mul_diagonal]
    have : (fun i => ((omega l : ℂ) * l.eigenvalues i)⁻¹ * (Complex.I * l.eigenvalues i)) =
        fun _ => Complex.I / (omega l : ℂ) := by
      funext i
      have := hq i
      field_simp
    rw [this]
    have e : (diagonal fun _ : ι ⊕ ι => Complex.I / (omega l : ℂ)) = (Complex.I / (omega l : ℂ)) • (1 : ModeMatrix ι) := by
      ext i j; by_cases h : i = j <;> simp [h]
    rw [e]
    simp only [Matrix.mul_smul, Matrix.smul_mul, Matrix.mul_one, Matrix.mul_assoc]
    rfl
  · refine (hP l.eigenvectors z i c).congr_deriv ?_
    refine congrFun (congrFun ?_ i) c
    unfold electricAt electricModes
    rw [← Matrix.mul_assoc _ _ (_ - _), ← Matrix.mul_assoc _ _ (_ - _), ← Matrix.smul_mul]
    congr 1
    rw [← Matrix.mul_assoc, ← Matrix.mul_assoc, SolvedFor.product, Matrix.smul_mul, Matrix.smul_mul, hs.modes, Matrix.mul_assoc,
      Matrix.diagonal_mul_diagonal, smul_smul, ← Matrix.mul_smul, ← Matrix.diagonal_smul]
    congr 2
    funext i
    have := hq i
    simp only [Pi.smul_apply, smul_eq_mul]
    field_simp

section
variable {l : LayerSolveResult ι}

/-- `diag(kx)` -/
noncomputable def kxMatrix (l : LayerSolveResult ι) : Matrix ι ι ℂ := Matrix.diagonal fun i => ((orderWavevector l i).1 : ℂ)

/-- `diag(ky)` -/
noncomputable def kyMatrix (l : LayerSolveResult ι) : Matrix ι ι ℂ := Matrix.diagonal fun i => ((orderWavevector l i).2 : ℂ)

theorem magneticToElectric_mul (hx hy : Matrix ι β ℂ) : magneticToElectric l * Matrix.fromRows hx hy =
    (omega l : ℂ) ^ 2 • (l.transversePermeabilityMatrix * Matrix.fromRows hx hy) +
      Matrix.fromRows (kyMatrix l * (l.zPermittivityMatrix⁻¹ * (kxMatrix l * hy - kyMatrix l * hx)))
        (-(kxMatrix l * (l.zPermittivityMatrix⁻¹ * (kxMatrix l * hy - kyMatrix l * hx)))) := by
  unfold magneticToElectric
  simp only
  rw [Matrix.sub_mul, Matrix.smul_mul, sub_eq_add_neg]
  congr 1
  rw [Matrix.fromBlocks_mul_fromRows, Matrix.fromRows_neg]
  congr 1 <;>
  · simp only [kxMatrix, kyMatrix]
    mat_module

theorem divergenceMatrix_mul (e₁ e₂ : Matrix ι β ℂ) : divergenceMatrix l * Matrix.fromRows e₁ e₂ =
    Matrix.fromRows (kxMatrix l * (l.zPermeabilityMatrix⁻¹ * (kxMatrix l * e₁ + kyMatrix l * e₂)))
        (kyMatrix l * (l.zPermeabilityMatrix⁻¹ * (kxMatrix l * e₁ + kyMatrix l * e₂))) := by
  unfold divergenceMatrix
  simp only
  rw [Matrix.fromBlocks_mul_fromRows]
  congr 1 <;>
  · simp only [kxMatrix, kyMatrix]
    mat_module

/-- The z component of the Ampère law determines `Ez`. -/
theorem ampere_z_iff (hw : WellPosed l) {hx hy ez : Matrix ι β ℂ} :
    (∀ i c, Complex.I * (orderWavevector l i).1 * hy i c - Complex.I * (orderWavevector l i).2 * hx i c =
      -(Complex.I * omega l * (l.zPermittivityMatrix * ez) i c)) ↔
    l.zPermittivityMatrix⁻¹ * (kxMatrix l * hy - kyMatrix l * hx) = -((omega l : ℂ) • ez) := by
  have h1 : (∀ i c, Complex.I * (orderWavevector l i).1 * hy i c - Complex.I * (orderWavevector l i).2 * hx i c =
      -(Complex.I * omega l * (l.zPermittivityMatrix * ez) i c)) ↔
      kxMatrix l * hy - kyMatrix l * hx = -((omega l : ℂ) • (l.zPermittivityMatrix * ez)) := by
    rw [← Matrix.ext_iff]
    refine forall_congr' fun i => forall_congr' fun c => ?_
    simp only [kxMatrix, kyMatrix, Matrix.sub_apply, Matrix.diagonal_mul, Matrix.neg_apply, Matrix.smul_apply, smul_eq_mul]
    constructor
    · intro h
      refine mul_left_cancel₀ Complex.I_ne_zero ?_
      linear_combination h
    · intro h
      linear_combination Complex.I * h
  rw [h1]
  constructor
  · intro h
    rw [h, Matrix.mul_neg, Matrix.mul_smul, Matrix.nonsing_inv_mul_cancel_left _ _ hw.2.2]
  · intro h
    have := congrArg (fun X : Matrix ι β ℂ => l.zPermittivityMatrix * X) h
    simpa only [Matrix.mul_nonsing_inv_cancel_left _ _ hw.2.2, Matrix.mul_neg, Matrix.mul_smul] using this

/-- The z component of the Faraday law determines `Hz`. -/
theorem faraday_z_iff (hμ : IsUnit l.zPermeabilityMatrix.det) {ex ey hz : Matrix ι β ℂ} :
    (∀ i c, Complex.I * (orderWavevector l i).1 * ey i c - Complex.I * (orderWavevector l i).2 * ex i c =
      Complex.I * omega l * (l.zPermeabilityMatrix * hz) i c) ↔
    l.zPermeabilityMatrix⁻¹ * (kxMatrix l * -ey + kyMatrix l * ex) = -((omega l : ℂ) • hz) := by
  have h1 : (∀ i c, Complex.I * (orderWavevector l i).1 * ey i c - Complex.I * (orderWavevector l i).2 * ex i c =
      Complex.I * omega l * (l.zPermeabilityMatrix * hz) i c) ↔
      kxMatrix l * -ey + kyMatrix l * ex = -((omega l : ℂ) • (l.zPermeabilityMatrix * hz)) := by
    rw [← Matrix.ext_iff]
    refine forall_congr' fun i => forall_congr' fun c => ?_
    simp only [kxMatrix, kyMatrix, Matrix.add_apply, Matrix.diagonal_mul, Matrix.neg_apply, Matrix.smul_apply, smul_eq_mul]
    constructor
    · intro h
      refine mul_left_cancel₀ Complex.I_ne_zero ?_
      linear_combination -h
    · intro h
      linear_combination -Complex.I * h
  rw [h1]
  constructor
  · intro h
    rw [h, Matrix.mul_neg, Matrix.mul_smul, Matrix.nonsing_inv_mul_cancel_left _ _ hμ]
  · intro h
    have := congrArg (fun X : Matrix ι β ℂ => l.zPermeabilityMatrix * X) h
    simpa only [Matrix.mul_nonsing_inv_cancel_left _ _ hμ, Matrix.mul_neg, Matrix.mul_smul] using this

/-- The Maxwell equations are the transverse first order system together with the two z components. -/
theorem maxwell_iff {E : ModeMatrix ι} (hw : WellPosed l) (hμ : IsUnit l.zPermeabilityMatrix.det)
    (F : ℝ → Fields (Matrix ι β ℂ)) :
    Maxwell (orderWavevector l) (omega l) E l.transversePermeabilityMatrix l.zPermittivityMatrix l.zPermeabilityMatrix F ↔
      TransverseODE l E (fun z => tangentialE (F z)) (fun z => tangentialH (F z)) ∧
      (∀ z, l.zPermittivityMatrix⁻¹ * (kxMatrix l * (F z).hy - kyMatrix l * (F z).hx) = -((omega l : ℂ) • (F z).ez)) ∧
      (∀ z, l.zPermeabilityMatrix⁻¹ * (kxMatrix l * -(F z).ey + kyMatrix l * (F z).ex) = -((omega l : ℂ) • (F z).hz)) := by
  have hne := omega_ne_zero hw
  -- the right hand sides of the four evolution equations
  have hE : ∀ z, l.zPermittivityMatrix⁻¹ * (kxMatrix l * (F z).hy - kyMatrix l * (F z).hx) = -((omega l : ℂ) • (F z).ez) →
      ∀ i c, ((Complex.I / (omega l : ℂ)) • (magneticToElectric l * tangentialH (F z))) (.inl i) c =
        -(Complex.I * (orderWavevector l i).2 * (F z).ez i c -
          Complex.I * omega l * (l.transversePermeabilityMatrix * tangentialH (F z)) (.inl i) c) ∧
      ((Complex.I / (omega l : ℂ)) • (magneticToElectric l * tangentialH (F z))) (.inr i) c =
        Complex.I * (orderWavevector l i).1 * (F z).ez i c +
          Complex.I * omega l * (l.transversePermeabilityMatrix * tangentialH (F z)) (.inr i) c := by
    intro z h i c
    simp only [tangentialH]
    rw [magneticToElectric_mul, h]
    simp only [Matrix.smul_apply, Matrix.add_apply, Matrix.fromRows_apply_inl, Matrix.fromRows_apply_inr, kxMatrix, kyMatrix,
      Matrix.diagonal_mul, Matrix.neg_apply, smul_eq_mul]
    constructor <;>
    · field_simp
      ring
  have hH : ∀ z, l.zPermeabilityMatrix⁻¹ * (kxMatrix l * -(F z).ey + kyMatrix l * (F z).ex) = -((omega l : ℂ) • (F z).hz) →
      ∀ i c, ((Complex.I / (omega l : ℂ)) • (((omega l : ℂ) ^ 2 • E - divergenceMatrix l) * tangentialE (F z))) (.inl i) c =
        Complex.I * (orderWavevector l i).1 * (F z).hz i c +
          Complex.I * omega l * (E * tangentialE (F z)) (.inl i) c ∧
      ((Complex.I / (omega l : ℂ)) • (((omega l : ℂ) ^ 2 • E - divergenceMatrix l) * tangentialE (F z))) (.inr i) c =
        Complex.I * (orderWavevector l i).2 * (F z).hz i c +
          Complex.I * omega l * (E * tangentialE (F z)) (.inr i) c := by
    intro z h i c
    simp only [tangentialE]
    rw [Matrix.sub_mul, divergenceMatrix_mul, h]
    simp only [Matrix.smul_mul, Matrix.smul_apply, Matrix.sub_apply, Matrix.fromRows_apply_inl, Matrix.fromRows_apply_inr,
      kxMatrix, kyMatrix, Matrix.diagonal_mul, Matrix.neg_apply, smul_eq_mul]
    constructor <;>
    · field_simp
      ring
  constructor
  · intro m
    have h1 : ∀ z, _ := fun z => (ampere_z_iff hw).1 (m.ampere_z z)
    have h2 : ∀ z, _ := fun z => (faraday_z_iff hμ).1 (m.faraday_z z)
    refine ⟨?_, h1, h2⟩
    rintro z (i | i) c
    · rw [(hE z (h1 z) i c).1, (hH z (h2 z) i c).1]
      exact ⟨(m.faraday_x z i c).neg, m.ampere_y z i c⟩
    · rw [(hE z (h1 z) i c).2, (hH z (h2 z) i c).2]
      exact ⟨m.faraday_y z i c, m.ampere_x z i c⟩
  · rintro ⟨ode, h1, h2⟩
    refine ⟨?_, ?_, fun z => (faraday_z_iff hμ).2 (h2 z), ?_, ?_, fun z => (ampere_z_iff hw).2 (h1 z)⟩
    · intro z i c
      have := (ode z (.inl i) c).1.neg
      rw [(hE z (h1 z) i c).1, neg_neg] at this
      have e : (fun z => (F z).ey i c) = -(fun z => tangentialE (F z) (.inl i) c) := by
        funext z; simp [tangentialE]
      rw [e]
      exact this
    · intro z i c
      have := (ode z (.inr i) c).1
      rw [(hE z (h1 z) i c).2] at this
      exact this
    · intro z i c
      have := (ode z (.inr i) c).2
      rw [(hH z (h2 z) i c).2] at this
      exact this
    · intro z i c
      have := (ode z (.inl i) c).2
      rw [(hH z (h2 z) i c).1] at this
      exact this
end

end Fmmax
