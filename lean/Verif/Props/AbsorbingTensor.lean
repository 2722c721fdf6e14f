import Verif.Props.AbsorbingSlab
import Verif.Spec.Duality

/-! Property theorems C81 for anisotropic and magnetic layers. -/

namespace Fmmax

open Matrix Spec

variable {ι : Type} [Fintype ι] [DecidableEq ι] {nx ny : ℕ} {β : Type}
variable {eig : Matrix (ι ⊕ ι) (ι ⊕ ι) ℂ → (ι ⊕ ι → ℂ) × Matrix (ι ⊕ ι) (ι ⊕ ι) ℂ}

/-- A tensor field which absorbs every field at every grid point. -/
def AbsorbingTensor (t : TensorComponents nx ny) : Prop :=
  ∀ r s, Absorbing !![t.xx r s, t.xy r s; t.yx r s, t.yy r s] ∧ 0 < (t.zz r s).im

/-- All components times `φ`. -/
def TensorComponents.times (φ : ℂ) (t : TensorComponents nx ny) : TensorComponents nx ny :=
  { xx := φ • t.xx, xy := φ • t.xy, yx := φ • t.yx, yy := φ • t.yy, zz := φ • t.zz }

/-- The loss form of a matrix of blocks is positive if the pointwise loss forms are. -/
theorem convolution_blocks_absorbing {a b c d : Matrix (Fin nx) (Fin ny) ℂ} {G : ι → ℤ × ℤ} (hR : Resolves nx ny G) (hG : Function.Injective G)
    (h : ∀ r s, Absorbing !![a r s, b r s; c r s, d r s]) :
    Absorbing (Matrix.fromBlocks (convolution G a) (convolution G b) (convolution G c) (convolution G d)) := by
  intro y hy
  obtain ⟨u, v, rfl⟩ : ∃ u v, y = Sum.elim u v := ⟨fun i => y (.inl i), fun i => y (.inr i), by funext i; rcases i <;> rfl⟩
  obtain ⟨r₀, s₀, h0⟩ : ∃ r s, ![fourierSeries G u nx ny r s, fourierSeries G v nx ny r s] ≠ 0 := by
    by_cases hu : u = 0
    · have hv : v ≠ 0 := by
        rintro rfl
        apply hy
        funext i
        rcases i <;> simp [hu]
      obtain ⟨r, s, h⟩ := fourierSeries_ne_zero hR hG hv
      exact ⟨r, s, fun h' => h (congrFun h' 1)⟩
    · obtain ⟨r, s, h⟩ := fourierSeries_ne_zero hR hG hu
      exact ⟨r, s, fun h' => h (congrFun h' 0)⟩
  unfold lossForm
  have hstar : star (Sum.elim u v) = Sum.elim (star u) (star v) := by funext i; rcases i <;> rfl
  rw [Matrix.fromBlocks_mulVec, hstar]
  simp only [Sum.elim_comp_inl, Sum.elim_comp_inr, convolution]
  rw [sumElim_dotProduct_sumElim, dotProduct_add, dotProduct_add, convolution_sesquilinear, convolution_sesquilinear,
    convolution_sesquilinear, convolution_sesquilinear, ← add_div, ← add_div, ← add_div]
  have hN : ((nx : ℂ) * ny) = ((nx * ny : ℝ) : ℂ) := by push_cast; rfl
  rw [hN, Complex.div_ofReal_im]
  have hnx : (0 : ℝ) < nx := by exact_mod_cast (by have := r₀.2; omega : 0 < nx)
  have hny : (0 : ℝ) < ny := by exact_mod_cast (by have := s₀.2; omega : 0 < ny)
  refine div_pos ?_ (by positivity)
  simp only [← Finset.sum_add_distrib, Complex.im_sum]
  have key : ∀ r s, lossForm !![a r s, b r s; c r s, d r s] ![fourierSeries G u nx ny r s, fourierSeries G v nx ny r s] =
      (star (fourierSeries G u nx ny r s) * a r s * fourierSeries G u nx ny r s + star (fourierSeries G u nx ny r s) * b r s * fourierSeries G v nx ny r s +
        (star (fourierSeries G v nx ny r s) * c r s * fourierSeries G u nx ny r s + star (fourierSeries G v nx ny r s) * d r s * fourierSeries G v nx ny r s)).im := by
    intro r s
    unfold lossForm
    congr 1
    simp [dotProduct, Fin.sum_univ_two, Matrix.mulVec]
    ring
  have hnn : ∀ r s, 0 ≤ lossForm !![a r s, b r s; c r s, d r s] ![fourierSeries G u nx ny r s, fourierSeries G v nx ny r s] := fun r s => (h r s).passive _
  have hpos := h r₀ s₀ _ h0
  refine (Finset.sum_pos' (fun r _ => Finset.sum_nonneg fun s _ => hnn r s) ⟨r₀, Finset.mem_univ _,
    Finset.sum_pos' (fun s _ => hnn r₀ s) ⟨s₀, Finset.mem_univ _, hpos⟩⟩).trans_eq ?_
  refine Finset.sum_congr rfl fun r _ => Finset.sum_congr rfl fun s _ => ?_
  rw [key]

theorem blocks_scalar_absorbing {a b c d : ℂ} (h : Absorbing !![a, b; c, d]) :
    Absorbing (Matrix.fromBlocks (a • (1 : Matrix ι ι ℂ)) (b • (1 : Matrix ι ι ℂ)) (c • (1 : Matrix ι ι ℂ)) (d • (1 : Matrix ι ι ℂ))) := by
  intro x hx
  obtain ⟨u, v, rfl⟩ : ∃ u v, x = Sum.elim u v := ⟨fun i => x (.inl i), fun i => x (.inr i), by funext i; rcases i <;> rfl⟩
  have e : lossForm (Matrix.fromBlocks (a • (1 : Matrix ι ι ℂ)) (b • (1 : Matrix ι ι ℂ)) (c • (1 : Matrix ι ι ℂ)) (d • (1 : Matrix ι ι ℂ))) (Sum.elim u v) =
      ∑ i, lossForm !![a, b; c, d] ![u i, v i] := by
    unfold lossForm
    rw [Matrix.fromBlocks_mulVec]
    simp only [Matrix.smul_mulVec, Matrix.one_mulVec, dotProduct, Fintype.sum_sum_type, Complex.im_sum, Pi.star_apply,
      Sum.elim_inl, Sum.elim_inr, Complex.add_im, Pi.add_apply, Pi.smul_apply, smul_eq_mul, ← Finset.sum_add_distrib]
    refine Finset.sum_congr rfl fun i _ => ?_
    simp [Matrix.mulVec, dotProduct, Fin.sum_univ_two]
  rw [e]
  obtain ⟨i, hi⟩ := Function.ne_iff.1 hx
  obtain ⟨j, hj⟩ : ∃ j, ![u j, v j] ≠ 0 := by
    rcases i with i | i
    · exact ⟨i, fun h' => hi (congrFun h' 0)⟩
    · exact ⟨i, fun h' => hi (congrFun h' 1)⟩
  exact Finset.sum_pos' (fun i _ => h.passive _) ⟨j, Finset.mem_univ _, h _ hj⟩

/-- The tensor acting on `(-Ey, Ex)` absorbs as well as the one acting on `(Ex, Ey)`. -/
theorem swapped_absorbing {xx xy yx yy : ℂ} (h : Absorbing !![xx, xy; yx, yy]) : Absorbing !![yy, -yx; -xy, xx] := by
  intro x hx
  have := h ![x 1, -x 0] (by
    intro h'
    apply hx
    have h0 := congrFun h' 0
    have h1 := congrFun h' 1
    funext i
    fin_cases i
    · simpa using h1
    · simpa using h0)
  have e : lossForm !![yy, -yx; -xy, xx] x = lossForm !![xx, xy; yx, yy] ![x 1, -x 0] := by
    unfold lossForm
    congr 1
    simp [Matrix.mulVec, dotProduct, Fin.sum_univ_two]
    ring
  rwa [e]

/-- A matrix which absorbs, after multiplication by a number, is invertible. -/
theorem absorbing_isUnit {n : Type} [Fintype n] [DecidableEq n] {φ : ℂ} {A : Matrix n n ℂ} (h : Absorbing (φ • A)) : IsUnit A.det := by
  rw [isUnit_iff_ne_zero]
  intro hA
  obtain ⟨x, hx, hAx⟩ := Matrix.exists_mulVec_eq_zero_iff.2 hA
  have := h x hx
  unfold lossForm at this
  rw [Matrix.smul_mulVec, hAx] at this
  simp at this

omit [Fintype ι] [DecidableEq ι] in
theorem convolution_smul (G : ι → ℤ × ℤ) (φ : ℂ) (x : Grid nx ny) : convolution G (φ • x) = φ • convolution G x := by
  ext i j
  simp only [convolution, Matrix.of_apply, Matrix.smul_apply, smul_eq_mul, fourierCoefficient]
  simp only [Finset.mul_sum, mul_div_assoc', mul_assoc]

theorem times_isUnit {μ : TensorComponents nx ny} {φ : ℂ} (h : AbsorbingTensor (μ.times φ)) {G : ι → ℤ × ℤ} (hR : Resolves nx ny G) (hG : Function.Injective G) :
    IsUnit (Matrix.fromBlocks (convolution G μ.xx) (convolution G μ.xy) (convolution G μ.yx) (convolution G μ.yy)).det ∧ IsUnit (convolution G μ.zz).det ∧
      ∀ r s, μ.zz r s ≠ 0 := by
  refine ⟨absorbing_isUnit (φ := φ) ?_, absorbing_isUnit (φ := φ) ?_, ?_⟩
  · have := convolution_blocks_absorbing hR hG (fun r s => (h r s).1)
    simp only [TensorComponents.times, convolution_smul] at this
    rwa [Matrix.fromBlocks_smul]
  · have := convolution_absorbing hR hG (fun r s => (h r s).2)
    rw [← convolution_smul]
    exact this
  · intro r s h0
    have := (h r s).2
    simp [TensorComponents.times, h0] at this

/-- **C81** Anisotropic magnetic layers whose permittivity absorbs everywhere and whose permeability has no gain and is not degenerate, solved in the FFT formulation
on a grid that resolves the expansion, are absorbing if their modes are independent. -/
theorem C81_anisotropic_absorbing (he : IsEig eig) {wavelength : ℝ} (hl : 0 < wavelength) {inPlane : ℝ × ℝ} {l : LatticeVectors}
    {ε μ : TensorComponents nx ny} {src : Option (Grid nx ny)} {G : ι → ℤ × ℤ} (hG : Function.Injective G) (hR : Resolves nx ny G) {r : LayerSolveResult ι}
    (h : eigensolveGeneralAnisotropicMedia eig wavelength inPlane l ε μ G .fft src = .ok r) (hε : AbsorbingTensor ε) (hμ : PassiveTensor μ)
    {φ : ℂ} (hφ : AbsorbingTensor (μ.times φ)) (hv : IsUnit r.eigenvectors.det) : AbsorbingLayer r := by
  unfold eigensolveGeneralAnisotropicMedia at h
  split_ifs at h with hn
  · obtain ⟨rfl, rfl⟩ := hn
    unfold eigensolveUniformAnisotropic at h
    obtain ⟨m, hm, h⟩ := bind_eq_ok.1 h
    obtain ⟨-, -, rfl⟩ := uniformAnisotropic_matrices_eq hm
    obtain ⟨hs, f1, f2, f3, f4, -, -⟩ := numerical_solvedFor he h
    refine ⟨by rwa [f1], ⟨_, hs, ?_⟩, ?_, ⟨?_, ?_⟩, ?_, hv, ?_⟩
    · exact blocks_scalar_absorbing (swapped_absorbing (hε 0 0).1)
    · rw [f3]; exact absorbing_smul_one (hε 0 0).2
    · rw [f2]; exact blocks_scalar_passive (hμ 0 0).1
    · rw [f2]
      refine absorbing_isUnit (φ := φ) ?_
      have := blocks_scalar_absorbing (ι := ι) (hφ 0 0).1
      simp only [TensorComponents.times, Matrix.smul_apply, smul_assoc] at this
      change Absorbing (φ • Matrix.fromBlocks _ _ _ _)
      rwa [Matrix.fromBlocks_smul]
    · rw [f4]; exact passive_smul_one (hμ 0 0).2
    · intro i
      obtain ⟨k, A, -, -, hr⟩ := numericalEigensolve_ok_iff.1 h
      rw [hr]
      exact (selectEigenvaluesSign_forward _).2.1
  · unfold eigensolvePatternedAnisotropic at h
    obtain ⟨m, hm, h⟩ := bind_eq_ok.1 h
    obtain ⟨e1, e2, e3, e4⟩ := anisotropic_fft_matrices_eq hm
    obtain ⟨hs, f1, f2, f3, f4, -, -⟩ := numerical_solvedFor he h
    refine ⟨by rwa [f1], ⟨_, hs, ?_⟩, ?_, ⟨?_, ?_⟩, ?_, hv, ?_⟩
    · rw [e1]; exact convolution_blocks_absorbing hR hG (fun r s => swapped_absorbing (hε r s).1)
    · rw [f3, e3]; exact convolution_absorbing hR hG (fun r s => (hε r s).2)
    · rw [f2, e2]; exact convolution_blocks_passive (fun r s => (hμ r s).1) G
    · rw [f2, e2]; exact (times_isUnit hφ hR hG).1
    · rw [f4, e4]; exact convolution_passive (fun r s => (hμ r s).2) G
    · intro i
      obtain ⟨k, A, -, -, hr⟩ := numericalEigensolve_ok_iff.1 h
      rw [hr]
      exact (selectEigenvaluesSign_forward _).2.1

/-- **C81** The eigensolve of a patterned anisotropic magnetic layer in the FFT formulation succeeds if the permittivity absorbs everywhere and the permeability
is not degenerate. -/
theorem C81_anisotropic_succeeds (eig : Matrix (ι ⊕ ι) (ι ⊕ ι) ℂ → (ι ⊕ ι → ℂ) × Matrix (ι ⊕ ι) (ι ⊕ ι) ℂ) {wavelength : ℝ} (hl : wavelength ≠ 0) (inPlane : ℝ × ℝ)
    {l : LatticeVectors} (hlat : l.u.1 * l.v.2 - l.u.2 * l.v.1 ≠ 0)
    {ε μ : TensorComponents nx ny} (src : Option (Grid nx ny)) {G : ι → ℤ × ℤ} (hG : Function.Injective G) (hR : Resolves nx ny G) (hn : ¬(nx = 1 ∧ ny = 1))
    {ψ φ : ℂ} (hε : AbsorbingTensor (ε.times ψ)) (hμ : AbsorbingTensor (μ.times φ)) :
    ∃ r, eigensolveGeneralAnisotropicMedia eig wavelength inPlane l ε μ G .fft src = .ok r := by
  obtain ⟨k, hk⟩ := transverseWavevectors_exists inPlane l G hlat
  obtain ⟨-, u1, z1⟩ := times_isUnit hε hR hG
  obtain ⟨-, u2, z2⟩ := times_isUnit hμ hR hG
  have r1 : recipGrid ε.zz = .ok (Matrix.of fun r s => 1 / ε.zz r s) := by
    unfold recipGrid
    rw [if_pos z1]
  have r2 : recipGrid μ.zz = .ok (Matrix.of fun r s => 1 / μ.zz r s) := by
    unfold recipGrid
    rw [if_pos z2]
  unfold eigensolveGeneralAnisotropicMedia
  rw [dif_neg hn]
  have hm : ∃ m, fourierMatricesPatternedAnisotropic l ε μ G .fft (src.getD (Matrix.of fun r s => (ε.xx r s + ε.yy r s) / 2)) = .ok m ∧ IsUnit m.zPermittivity.det ∧
      IsUnit m.zPermeability.det := by
    unfold fourierMatricesPatternedAnisotropic transverseMatricesAnisotropic transversePermittivityFftAnisotropic transversePermeabilityFftAnisotropic
    simp only [fourierConvolutionMatrix_eq _ hR, r1, r2, bind, Except.bind]
    exact ⟨_, rfl, u1, u2⟩
  obtain ⟨m, hm, h1, h2⟩ := hm
  have hA := (eigenproblemMatrix_ok_iff (m := m) (wavelength := wavelength) 0 0 hk).2 ⟨hl, h1, h2, rfl⟩
  exact ⟨_, bind_eq_ok.2 ⟨m, hm, numericalEigensolve_ok_iff.2 ⟨k, _, hk, hA, rfl⟩⟩⟩

theorem scalar_absorbing {x : Grid nx ny} (h : ∀ r s, 0 < (x r s).im) : AbsorbingTensor (.scalar x) := by
  intro r s
  refine ⟨?_, h r s⟩
  have : (!![x r s, 0; 0, x r s] : Matrix (Fin 2) (Fin 2) ℂ) = x r s • 1 := by
    ext i j; fin_cases i <;> fin_cases j <;> simp
  simp only [TensorComponents.scalar, Matrix.zero_apply]
  rw [this]
  exact absorbing_smul_one (h r s)

theorem AbsorbingTensor.passive {t : TensorComponents nx ny} (h : AbsorbingTensor t) : PassiveTensor t := fun r s => ⟨(h r s).1.passive, (h r s).2.le⟩

theorem times_one (t : TensorComponents nx ny) : t.times 1 = t := by simp [TensorComponents.times]

/-- A magnetic pattern which a quarter turn around the origin maps to itself. -/
noncomputable def quarterTurnPattern : Grid 2 2 := Matrix.of fun r s => 1 + Complex.I + if r = 0 ∧ s = 0 then 2 else 0

/-- A layer with equal permittivity and permeability, between vacuum, at normal incidence. -/
theorem example_magnetic : ∃ (eig : Matrix (Fin 1 ⊕ Fin 1) (Fin 1 ⊕ Fin 1) ℂ → (Fin 1 ⊕ Fin 1 → ℂ) × Matrix (Fin 1 ⊕ Fin 1) (Fin 1 ⊕ Fin 1) ℂ)
    (r v : LayerSolveResult (Fin 1)), IsEig eig ∧
    eigensolveGeneralAnisotropicMedia eig (2 * Real.pi) (0, 0) unitLattice (.scalar quarterTurnPattern) (.scalar quarterTurnPattern) (fun _ : Fin 1 => (0, 0)) .fft none = .ok r ∧
    eigensolveUniformIsotropic (2 * Real.pi) (0, 0) unitLattice 1 (fun _ : Fin 1 => (0, 0)) = .ok v ∧
    AbsorbingLayer r ∧ OutwardLayer v ∧ r.wavelength = 2 * Real.pi ∧ v.wavelength = 2 * Real.pi := by
  obtain ⟨-, -, v, -, -, hv, -, ho, -, hw', -⟩ := example_slab
  obtain ⟨eig, he⟩ := exists_isEig (Fin 1 ⊕ Fin 1)
  have hl : (0 : ℝ) < 2 * Real.pi := by have := Real.pi_pos; positivity
  have hA : AbsorbingTensor (.scalar quarterTurnPattern) := scalar_absorbing (by intro r s; simp only [quarterTurnPattern, of_apply]; split_ifs <;> simp)
  have hG : Function.Injective (fun _ : Fin 1 => ((0, 0) : ℤ × ℤ)) := fun _ _ _ => Subsingleton.elim _ _
  have hR : Resolves 2 2 (fun _ : Fin 1 => ((0, 0) : ℤ × ℤ)) := ⟨⟨0⟩, by simp⟩
  obtain ⟨r, hr⟩ := C81_anisotropic_succeeds eig hl.ne' (0, 0) (l := unitLattice) (by norm_num [unitLattice]) none hG hR (by norm_num) (ψ := 1) (φ := 1)
    (by rw [times_one]; exact hA) (by rw [times_one]; exact hA)
  have h := hr
  unfold eigensolveGeneralAnisotropicMedia at h
  rw [dif_neg (by norm_num)] at h
  unfold eigensolvePatternedAnisotropic at h
  obtain ⟨m, hm, h⟩ := bind_eq_ok.1 h
  obtain ⟨e1, e2, e3, e4⟩ := anisotropic_fft_matrices_eq hm
  obtain ⟨hs, f1, f2, f3, f4, f5, -⟩ := numerical_solvedFor he h
  have hk : ∀ i, orderWavevector r i = (0, 0) := by
    intro i
    obtain ⟨k, A, -, -, rfl⟩ := numericalEigensolve_ok_iff.1 h
    simp [orderWavevector, solvedLayer]
  have hω : omega r = 1 := by
    rw [omega, f1]
    exact div_self hl.ne'
  have hV : IsUnit r.eigenvectors.det := by
    refine numerical_eigenvectors_invertible he h (V := 1) (w := fun _ => fourierCoefficient quarterTurnPattern (0, 0) ^ 2) (by simp) ?_
    rw [Matrix.mul_one, Matrix.one_mul]
    unfold magneticToElectric divergenceMatrix
    have z : ∀ x : Grid 2 2, convolution (fun _ : Fin 1 => ((0, 0) : ℤ × ℤ)) x = fourierCoefficient x (0, 0) • 1 := by
      intro x
      ext i j
      fin_cases i; fin_cases j
      simp [convolution]
      rfl
    have z0 : fourierCoefficient (0 : Grid 2 2) (0, 0) = 0 := by simp [fourierCoefficient]
    simp only [hk, hω, f2, f4, e1, e2, e4, z, TensorComponents.scalar, neg_zero, z0]
    ext i j
    rcases i with i | i <;> rcases j with j | j <;> fin_cases i <;> fin_cases j <;>
      simp [Matrix.mul_apply, Fintype.sum_sum_type, sq]
  exact ⟨eig, r, v, he, hr, hv, C81_anisotropic_absorbing he hl hG hR hr hA hA.passive (φ := 1) (by rw [times_one]; exact hA) hV, ho, f1, hw'⟩

example : ∃ r v S ps, AbsorbingLayer r ∧ OutwardLayer (ι := Fin 1) v ∧ stackSMatrix [v, r, v] [1, 2, 3] = .ok S ∧ stackSMatricesInterior [v, r, v] [1, 2, 3] = .ok ps := by
  obtain ⟨eig, r, v, he, hr, hv, ha, ho, hw, hw'⟩ := example_magnetic
  obtain ⟨S, ps, hS, hp⟩ := C81_absorbing_slab (lam := 2 * Real.pi) (l0 := v) (l1 := r) (l2 := v) (d0 := 1) (d1 := 2) (d2 := 3) (by simp [hw, hw']) ho ha ho
    zero_le_one two_pos (by norm_num)
  exact ⟨r, v, S, ps, ha, ho, hS, hp⟩

/-- A uniform absorbing tensor with off-diagonal components, and unit permeability. -/
example : AbsorbingTensor (nx := 1) (ny := 1) { xx := fun _ _ => 2 + 2 * Complex.I, xy := fun _ _ => Complex.I, yx := fun _ _ => Complex.I, yy := fun _ _ => 3 + 2 * Complex.I, zz := fun _ _ => Complex.I } ∧
    AbsorbingTensor ((TensorComponents.scalar (nx := 1) (ny := 1) (Matrix.of fun _ _ => 1)).times Complex.I) := by
  constructor
  · intro r s
    refine ⟨fun x hx => ?_, by simp⟩
    have e : lossForm !![2 + 2 * Complex.I, Complex.I; Complex.I, 3 + 2 * Complex.I] x =
        Complex.normSq (x 0 + x 1) + Complex.normSq (x 0) + Complex.normSq (x 1) := by
      simp [lossForm, Matrix.mulVec, dotProduct, Fin.sum_univ_two, Complex.normSq_apply]
      ring
    rw [e]
    obtain ⟨i, hi⟩ := Function.ne_iff.1 hx
    have h0 := Complex.normSq_nonneg (x 0)
    have h1 := Complex.normSq_nonneg (x 1)
    have h2 := Complex.normSq_nonneg (x 0 + x 1)
    fin_cases i
    · have := Complex.normSq_pos.2 hi
      simp only [Fin.zero_eta] at this
      linarith
    · have := Complex.normSq_pos.2 hi
      simp only [Fin.mk_one] at this
      linarith
  · have : ((TensorComponents.scalar (nx := 1) (ny := 1) (Matrix.of fun _ _ => 1)).times Complex.I) = .scalar (Matrix.of fun _ _ => Complex.I) := by
      simp only [TensorComponents.times, TensorComponents.scalar, smul_zero]
      congr 1 <;> · ext; simp
    rw [this]
    exact scalar_absorbing (by simp)

end Fmmax
