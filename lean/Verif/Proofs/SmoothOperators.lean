import Verif.Proofs.SmoothRoot
import Verif.Proofs.StackLoop
import Verif.Props.Smooth
import Verif.Spec.SmoothMedium

/-!
Scattering matrices in the Fourier basis: operators that do not refer to eigenvectors, and their smooth dependence on parameters.
-/

set_option linter.unusedSectionVars false

namespace Fmmax

open Matrix Spec Topology

variable {ι : Type} [Fintype ι] [DecidableEq ι]

/-! ### The recursion in the Fourier basis -/

/-- The matrix `omega_script_k`, the root of the eigenproblem matrix, and the propagator through the layer. -/
structure FourierLayer (ι : Type) where
  A : ModeMatrix ι
  X : ModeMatrix ι
  P : ModeMatrix ι

/-- `extendSMatrix` without eigenvectors. -/
noncomputable def fourierExtend (s : Blocks ι) (F G : FourierLayer ι) : Res (Blocks ι) :=
  solve G.X 1 >>= fun Z => solve F.A (G.A * Z) >>= fun Y =>
    solve ((1 / 2 : ℂ) • (F.X * Y + 1) - F.P * s.s12 * ((1 / 2 : ℂ) • (-(F.X * Y) + 1))) (F.P * s.s11) >>= fun s11 =>
    solve ((1 / 2 : ℂ) • (F.X * Y + 1) - F.P * s.s12 * ((1 / 2 : ℂ) • (-(F.X * Y) + 1)))
      ((F.P * s.s12 * ((1 / 2 : ℂ) • (F.X * Y + 1)) - (1 / 2 : ℂ) • (-(F.X * Y) + 1)) * G.P) >>= fun s12 =>
    .ok { s11 := s11, s12 := s12, s21 := s.s22 * ((1 / 2 : ℂ) • (-(F.X * Y) + 1)) * s11 + s.s21,
          s22 := s.s22 * ((1 / 2 : ℂ) • (-(F.X * Y) + 1)) * s12 + s.s22 * ((1 / 2 : ℂ) • (F.X * Y + 1)) * G.P }

/-- The data of a layer in the Fourier basis. -/
structure Represents (l : LayerSolveResult ι) (d : ℝ) (F : FourierLayer ι) : Prop where
  independent : IsUnit l.eigenvectors.det
  A : l.omegaScriptKMatrix = .ok F.A
  X : F.X = l.eigenvectors * diagonal l.eigenvalues * l.eigenvectors⁻¹
  P : F.P = l.eigenvectors * diagonal (phase l.eigenvalues d) * l.eigenvectors⁻¹

/-- Blocks in the basis of the modes `φ` of the first and `ψ` of the last layer. -/
noncomputable def inModes (φ ψ : ModeMatrix ι) (s : Blocks ι) : Blocks ι :=
  { s11 := ψ⁻¹ * s.s11 * φ, s12 := ψ⁻¹ * s.s12 * ψ, s21 := φ⁻¹ * s.s21 * φ, s22 := φ⁻¹ * s.s22 * ψ }

theorem solve_conj {β γ : Type} [Fintype β] {φ ψ T : ModeMatrix ι} (hφ : IsUnit φ.det) (hψ : IsUnit ψ.det) (B : Matrix (ι ⊕ ι) β ℂ)
    (C : Matrix β γ ℂ) :
    solve (φ⁻¹ * T * ψ) (φ⁻¹ * B * C) = (solve T B).map fun X => ψ⁻¹ * X * C := by
  have hφ' : IsUnit (φ⁻¹).det := isUnit_nonsing_inv_det _ hφ
  by_cases hT : IsUnit T.det
  · have hu : IsUnit (φ⁻¹ * T * ψ).det := by
      rw [det_mul, det_mul]
      exact (hφ'.mul hT).mul hψ
    rw [solve_of_isUnit _ hT]
    refine solve_eq_ok.2 ⟨hu, ?_⟩
    calc φ⁻¹ * T * ψ * (ψ⁻¹ * (T⁻¹ * B) * C) = φ⁻¹ * (T * (ψ * ψ⁻¹ * (T⁻¹ * B))) * C := by simp only [Matrix.mul_assoc]
      _ = φ⁻¹ * B * C := by
        rw [mul_nonsing_inv _ hψ, Matrix.one_mul, mul_nonsing_inv_cancel_left _ _ hT]
  · have hu : ¬IsUnit (φ⁻¹ * T * ψ).det := by
      rw [det_mul, det_mul]
      intro h
      exact hT (isUnit_of_mul_isUnit_right (isUnit_of_mul_isUnit_left h))
    unfold solve
    rw [if_neg hT, if_neg hu]
    rfl

theorem solve_conj_left {β : Type} {φ ψ T : ModeMatrix ι} (hφ : IsUnit φ.det) (hψ : IsUnit ψ.det) (B : Matrix (ι ⊕ ι) β ℂ) :
    solve (φ⁻¹ * T * ψ) (φ⁻¹ * B) = (solve T B).map fun X : Matrix (ι ⊕ ι) β ℂ => ψ⁻¹ * X := by
  have hφ' : IsUnit (φ⁻¹).det := isUnit_nonsing_inv_det _ hφ
  by_cases hT : IsUnit T.det
  · have hu : IsUnit (φ⁻¹ * T * ψ).det := by
      rw [det_mul, det_mul]
      exact (hφ'.mul hT).mul hψ
    rw [solve_of_isUnit _ hT]
    refine solve_eq_ok.2 ⟨hu, ?_⟩
    rw [Matrix.mul_assoc, mul_nonsing_inv_cancel_left _ _ hψ, Matrix.mul_assoc, mul_nonsing_inv_cancel_left _ _ hT]
  · have hu : ¬IsUnit (φ⁻¹ * T * ψ).det := by
      rw [det_mul, det_mul]
      intro h
      exact hT (isUnit_of_mul_isUnit_right (isUnit_of_mul_isUnit_left h))
    unfold solve
    rw [if_neg hT, if_neg hu]
    rfl

variable {l n : LayerSolveResult ι} {d e : ℝ} {F G : FourierLayer ι}

theorem Represents.diag_mul (hF : Represents l d F) : diagonal l.eigenvalues * l.eigenvectors⁻¹ = l.eigenvectors⁻¹ * F.X := by
  rw [hF.X, ← Matrix.mul_assoc, ← Matrix.mul_assoc, nonsing_inv_mul _ hF.independent, Matrix.one_mul]

theorem Represents.phase_mul (hF : Represents l d F) :
    diagonal (phase l.eigenvalues d) * l.eigenvectors⁻¹ = l.eigenvectors⁻¹ * F.P := by
  rw [hF.P, ← Matrix.mul_assoc, ← Matrix.mul_assoc, nonsing_inv_mul _ hF.independent, Matrix.one_mul]

theorem Represents.mul_phase (hF : Represents l d F) :
    l.eigenvectors * diagonal (phase l.eigenvalues d) = F.P * l.eigenvectors := by
  rw [hF.P, Matrix.mul_assoc _ _ l.eigenvectors, nonsing_inv_mul _ hF.independent, Matrix.mul_one]

theorem Represents.isUnit_X (hF : Represents l d F) : IsUnit F.X.det ↔ ∀ i, l.eigenvalues i ≠ 0 := by
  have hφ := hF.independent
  rw [hF.X, det_mul, det_mul, det_diagonal]
  constructor
  · intro h i h0
    have := (isUnit_of_mul_isUnit_right (isUnit_of_mul_isUnit_left h)).ne_zero
    exact this (Finset.prod_eq_zero (Finset.mem_univ i) h0)
  · intro h
    exact (hφ.mul (isUnit_iff_ne_zero.2 (Finset.prod_ne_zero_iff.2 fun i _ => h i))).mul (isUnit_nonsing_inv_det _ hφ)

theorem Represents.mul_recip (hF : Represents l d F) (h : ∀ i, l.eigenvalues i ≠ 0) :
    l.eigenvectors * diagonal (fun i => (l.eigenvalues i)⁻¹) = F.X⁻¹ * l.eigenvectors := by
  have hX := hF.isUnit_X.2 h
  have e1 : F.X * (l.eigenvectors * diagonal (fun i => (l.eigenvalues i)⁻¹)) = l.eigenvectors := by
    rw [hF.X]
    calc _ = l.eigenvectors * (diagonal l.eigenvalues * (l.eigenvectors⁻¹ * l.eigenvectors) *
          diagonal (fun i => (l.eigenvalues i)⁻¹)) := by simp only [Matrix.mul_assoc]
      _ = _ := by
        rw [nonsing_inv_mul _ hF.independent, Matrix.mul_one, diagonal_mul_diagonal]
        simp [h]
  have := congrArg (F.X⁻¹ * ·) e1
  simpa only [nonsing_inv_mul_cancel_left _ _ hX] using this

/-- Interface matrices in the Fourier basis. -/
theorem interfaceMatrices_fourier (hF : Represents l d F) (hG : Represents n e G) :
    interfaceMatrices l n = (solve G.X 1 >>= fun Z => solve F.A (G.A * Z)).map fun Y =>
      (l.eigenvectors⁻¹ * ((1 / 2 : ℂ) • (F.X * Y + 1)) * n.eigenvectors,
        l.eigenvectors⁻¹ * ((1 / 2 : ℂ) • (-(F.X * Y) + 1)) * n.eigenvectors) := by
  have hφ := hF.independent
  unfold interfaceMatrices
  rw [hF.A, hG.A]
  dsimp only [bind, Except.bind]
  by_cases hq : ∀ i, n.eigenvalues i ≠ 0
  · have hX := hG.isUnit_X.2 hq
    rw [recip_eq_ok.2 ⟨hq, rfl⟩, solve_of_isUnit _ hX]
    simp only [bind, Except.bind, Matrix.mul_one]
    by_cases hA : IsUnit F.A.det
    · have hAφ : IsUnit (F.A * l.eigenvectors).det := by rw [det_mul]; exact hA.mul hφ
      rw [solve_of_isUnit _ hA, solve_of_isUnit _ hAφ, solve_of_isUnit _ hAφ]
      simp only [Except.map]
      have e1 : (F.A * l.eigenvectors)⁻¹ * colScale (G.A * n.eigenvectors) (fun i => (n.eigenvalues i)⁻¹) =
          l.eigenvectors⁻¹ * (F.A⁻¹ * (G.A * G.X⁻¹)) * n.eigenvectors := by
        rw [colScale_eq, Matrix.mul_assoc G.A, hG.mul_recip hq, Matrix.mul_inv_rev]
        simp only [Matrix.mul_assoc]
      have e2 : (F.A * l.eigenvectors)⁻¹ * (F.A * n.eigenvectors) = l.eigenvectors⁻¹ * n.eigenvectors := by
        rw [Matrix.mul_inv_rev, Matrix.mul_assoc, nonsing_inv_mul_cancel_left _ _ hA]
      rw [e1, e2, rowScale_eq, ← Matrix.mul_assoc, ← Matrix.mul_assoc, hF.diag_mul]
      refine congrArg Except.ok (Prod.ext ?_ ?_) <;> mat_module
    · have hAφ : ¬IsUnit (F.A * l.eigenvectors).det := by
        rw [det_mul]
        exact fun h => hA (isUnit_of_mul_isUnit_left h)
      unfold solve
      rw [if_neg hA, if_neg hAφ]
      rfl
  · have hX := mt hG.isUnit_X.1 hq
    unfold recip solve
    rw [if_neg hX, if_neg hq]
    rfl

/-- `_extend_s_matrix` in the Fourier basis. -/
theorem extendSMatrix_fourier (hF : Represents l d F) (hG : Represents n e G) {φ : ModeMatrix ι}
    (s : Blocks ι) :
    extendSMatrix (inModes φ l.eigenvectors s) l d n e = (fourierExtend s F G).map (inModes φ n.eigenvectors) := by
  have hl := hF.independent
  have hn := hG.independent
  unfold extendSMatrix fourierExtend
  rw [interfaceMatrices_fourier hF hG]
  cases solve G.X (1 : ModeMatrix ι) with
  | error e => rfl
  | ok Z =>
  simp only [bind, Except.bind]
  cases solve F.A (G.A * Z) with
  | error e => rfl
  | ok Y =>
  simp only [Except.map, inModes]
  generalize (1 / 2 : ℂ) • (F.X * Y + 1) = I11
  generalize (1 / 2 : ℂ) • (-(F.X * Y) + 1) = I12
  have hc : ∀ B : ModeMatrix ι, l.eigenvectors * (l.eigenvectors⁻¹ * B) = B := fun B => mul_nonsing_inv_cancel_left _ B hl
  have hc' : ∀ B : ModeMatrix ι, n.eigenvectors * (n.eigenvectors⁻¹ * B) = B := fun B => mul_nonsing_inv_cancel_left _ B hn
  have hp : ∀ B : ModeMatrix ι, diagonal (phase l.eigenvalues d) * (l.eigenvectors⁻¹ * B) = l.eigenvectors⁻¹ * (F.P * B) := by
    intro B
    rw [← Matrix.mul_assoc, hF.phase_mul, Matrix.mul_assoc]
  have e3 : l.eigenvectors⁻¹ * I11 * n.eigenvectors -
      rowScale (phase l.eigenvalues d) (l.eigenvectors⁻¹ * s.s12 * l.eigenvectors) * (l.eigenvectors⁻¹ * I12 * n.eigenvectors) =
      l.eigenvectors⁻¹ * (I11 - F.P * s.s12 * I12) * n.eigenvectors := by
    simp only [rowScale_eq, Matrix.mul_assoc, hp, hc, Matrix.mul_sub, Matrix.sub_mul]
  have e4 : rowScale (phase l.eigenvalues d) (l.eigenvectors⁻¹ * s.s11 * φ) = l.eigenvectors⁻¹ * (F.P * s.s11) * φ := by
    simp only [rowScale_eq, Matrix.mul_assoc, hp]
  have e5 : colScale (rowScale (phase l.eigenvalues d) (l.eigenvectors⁻¹ * s.s12 * l.eigenvectors) *
      (l.eigenvectors⁻¹ * I11 * n.eigenvectors) - l.eigenvectors⁻¹ * I12 * n.eigenvectors) (phase n.eigenvalues e) =
      l.eigenvectors⁻¹ * ((F.P * s.s12 * I11 - I12) * G.P) * n.eigenvectors := by
    simp only [rowScale_eq, colScale_eq, Matrix.mul_assoc, hp, hc, Matrix.mul_sub, Matrix.sub_mul, hG.mul_phase]
  rw [e3, e4, e5, solve_conj hl hn, solve_conj hl hn]
  cases solve (I11 - F.P * s.s12 * I12) (F.P * s.s11) with
  | error e => rfl
  | ok s11 =>
  simp only [Except.map]
  cases solve (I11 - F.P * s.s12 * I12) ((F.P * s.s12 * I11 - I12) * G.P) with
  | error e => rfl
  | ok s12 =>
  refine congrArg Except.ok (Blocks.ext rfl rfl ?_ ?_)
  · simp only [Matrix.mul_assoc, hc, hc', Matrix.mul_add, Matrix.add_mul]
  · simp only [colScale_eq, Matrix.mul_assoc, hc, hc', Matrix.mul_add, Matrix.add_mul, hG.mul_phase]

/-! ### Smooth dependence -/

variable {E : Type} [NormedAddCommGroup E] [NormedSpace ℝ E] {k : WithTop ℕ∞} {x : E} {D : Set E}

theorem Spec.DependsSmoothlyOn.pure {α : Type} {P : (E → α) → Prop} {g : E → α} (hg : P g) :
    DependsSmoothlyOn D P x fun y => (.ok (g y) : Res α) := by
  intro v hv
  injection hv with hv
  exact ⟨g, hv, hg, Filter.Eventually.of_forall fun _ _ => rfl⟩

theorem Spec.DependsSmoothlyOn.bind {α γ : Type} {P : (E → α) → Prop} {Q : (E → γ) → Prop} {f : E → Res α}
    {h : E → α → Res γ} (hf : DependsSmoothlyOn D P x f)
    (hh : ∀ g : E → α, P g → DependsSmoothlyOn D Q x fun y => h y (g y)) :
    DependsSmoothlyOn D Q x fun y => f y >>= h y := by
  intro v hv
  obtain ⟨a, ha, hv⟩ := bind_eq_ok.1 hv
  obtain ⟨g, rfl, hP, he⟩ := hf a ha
  obtain ⟨r, hr, hQ, he'⟩ := hh g hP v hv
  refine ⟨r, hr, hQ, ?_⟩
  filter_upwards [he, he'] with y h1 h2 hy
  exact bind_eq_ok.2 ⟨_, h1 hy, h2 hy⟩

theorem Spec.DependsSmoothlyOn.mono {α : Type} {P Q : (E → α) → Prop} {f : E → Res α} (h : ∀ g, P g → Q g)
    (hf : DependsSmoothlyOn D P x f) : DependsSmoothlyOn D Q x f := by
  intro v hv
  obtain ⟨g, hg, hP, he⟩ := hf v hv
  exact ⟨g, hg, h g hP, he⟩

theorem Spec.DependsSmoothly.on {α : Type} {P : (E → α) → Prop} {f : E → Res α} (hf : DependsSmoothly P x f) :
    DependsSmoothlyOn D P x f := by
  intro v hv
  obtain ⟨g, hg, hP, he⟩ := hf v hv
  exact ⟨g, hg, hP, he.mono fun y h _ => h⟩

/-- A computation equal, at the parameters in `D`, to a smooth one followed by a function. -/
theorem Spec.DependsSmoothly.map_on {α γ : Type} {P : (E → α) → Prop} {Q : (E → γ) → Prop} {f : E → Res α} {h : E → Res γ}
    {t : E → α → γ} (hf : DependsSmoothly P x f) (hx : x ∈ D)
    (he : ∀ᶠ y in 𝓝 x, y ∈ D → h y = (f y).map (t y)) (hQ : ∀ g, P g → Q fun y => t y (g y)) : DependsSmoothlyOn D Q x h := by
  intro v hv
  have h0 := he.self_of_nhds hx
  rw [hv] at h0
  cases hfx : f x with
  | error e => rw [hfx] at h0; cases h0
  | ok a =>
    rw [hfx] at h0
    injection h0 with h0
    obtain ⟨g, rfl, hP, hg⟩ := hf a hfx
    refine ⟨fun y => t y (g y), h0.symm, hQ g hP, ?_⟩
    filter_upwards [he, hg] with y h1 h2 hy
    rw [h1 hy, h2]
    rfl

theorem Spec.SmoothLayer.material {L : E → LayerSolveResult ι} (h : SmoothLayer k x L) : SmoothMaterial k x L :=
  ⟨h.wavelength, h.inPlaneWavevector, h.latticeU, h.latticeV, h.expansion, h.zPermittivity, h.inverseZPermittivity,
    h.zPermeability, h.inverseZPermeability, h.transversePermeability⟩

/-- The same material with given modes. -/
def withModes (l : LayerSolveResult ι) (q : ι ⊕ ι → ℂ) (φ : ModeMatrix ι) : LayerSolveResult ι :=
  { l with eigenvalues := q, eigenvectors := φ }

theorem Spec.SmoothMaterial.withModes {L : E → LayerSolveResult ι} (h : SmoothMaterial k x L) (q : ι ⊕ ι → ℂ) (φ : ModeMatrix ι) :
    SmoothLayer k x fun y => withModes (L y) q φ :=
  ⟨h.wavelength, h.inPlaneWavevector, h.latticeU, h.latticeV, h.expansion, fun _ => contDiffAt_const,
    fun _ _ => contDiffAt_const, h.zPermittivity, h.inverseZPermittivity, h.zPermeability, h.inverseZPermeability,
    h.transversePermeability⟩

theorem Spec.SmoothMaterial.omegaScriptK {L : E → LayerSolveResult ι} (h : SmoothMaterial k x L) :
    DependsSmoothly (SmoothMat k x) x fun y => (L y).omegaScriptKMatrix :=
  dependsSmoothly_omegaScriptKMatrix (L := fun y => Fmmax.withModes (L y) 0 0) (h.withModes 0 0)

/-- A layer of smooth material and a smooth root; `D` contains the parameters with independent eigenvectors. -/
structure OperatorLayer (D : Set E) (k : WithTop ℕ∞) (x : E) (L : E → LayerSolveResult ι) : Prop where
  material : SmoothMaterial k x L
  independent : ∀ y ∈ D, IsUnit (L y).eigenvectors.det
  root : ∃ X : E → ModeMatrix ι, SmoothMat k x X ∧
    ∀ᶠ y in 𝓝 x, y ∈ D → X y = (L y).eigenvectors * diagonal (L y).eigenvalues * (L y).eigenvectors⁻¹

theorem Spec.SmoothMedium.operator {L : E → LayerSolveResult ι} (h : SmoothMedium k x L)
    (hD : ∀ y ∈ D, IsUnit (L y).eigenvectors.det) : OperatorLayer D k x L := by
  obtain ⟨M, hM, hMe⟩ := h.matrix
  obtain ⟨c, hc⟩ := h.halfPlane
  obtain ⟨X, hX, hXe⟩ := hM.sqrt h.independent hc hMe
  exact ⟨h.toSmoothMaterial, hD, X, hX, hXe.mono fun y hy h => hy (hD y h)⟩

theorem Spec.SmoothMat.diagonal {n : Type} [DecidableEq n] {v : E → n → ℂ} (hv : SmoothVec k x v) :
    SmoothMat k x fun y => Matrix.diagonal (v y) := by
  simpa only [diag_eq] using SmoothMat.diag hv

theorem Spec.SmoothLayer.operator {L : E → LayerSolveResult ι} (h : SmoothLayer k x L)
    (hD : ∀ y ∈ D, IsUnit (L y).eigenvectors.det) (hx : x ∈ D) : OperatorLayer D k x L :=
  ⟨h.material, hD, _, (h.eigenvectors.mul (SmoothMat.diagonal h.eigenvalues)).mul
    (h.eigenvectors.inv (hD x hx).ne_zero), Filter.Eventually.of_forall fun y _ => rfl⟩

/-- Smooth data in the Fourier basis. -/
structure SmoothFourier (k : WithTop ℕ∞) (x : E) (F : E → FourierLayer ι) : Prop where
  A : SmoothMat k x fun y => (F y).A
  X : SmoothMat k x fun y => (F y).X
  P : SmoothMat k x fun y => (F y).P

theorem exp_phase {φ : ModeMatrix ι} (hφ : IsUnit φ.det) (q : ι ⊕ ι → ℂ) (d : ℝ) :
    NormedSpace.exp ((Complex.I * d) • (φ * diagonal q * φ⁻¹)) = φ * diagonal (phase q d) * φ⁻¹ := by
  rw [exp_conj_diagonal hφ]
  refine congrArg (fun v => φ * diagonal v * φ⁻¹) ?_
  funext i
  unfold phase
  congr 1
  ring

theorem OperatorLayer.represents {L : E → LayerSolveResult ι} (h : OperatorLayer D k x L) {d : E → ℝ} (hd : ContDiffAt ℝ k d x)
    {A₀ : ModeMatrix ι} (hA : (L x).omegaScriptKMatrix = .ok A₀) :
    ∃ F : E → FourierLayer ι, SmoothFourier k x F ∧ ∀ᶠ y in 𝓝 x, y ∈ D → Represents (L y) (d y) (F y) := by
  obtain ⟨A, -, hAs, hAe⟩ := h.material.omegaScriptK _ hA
  obtain ⟨X, hX, hXe⟩ := h.root
  refine ⟨fun y => ⟨A y, X y, NormedSpace.exp ((Complex.I * d y) • X y)⟩,
    ⟨hAs, hX, (hX.smul (contDiffAt_const.mul (contDiffAt_ofReal hd))).exp⟩, ?_⟩
  filter_upwards [hAe, hXe] with y h1 h2 hy
  refine ⟨h.independent y hy, h1, h2 hy, ?_⟩
  dsimp only
  rw [h2 hy]
  exact exp_phase (h.independent y hy) _ _

theorem dependsSmoothly_fourierExtend {s : E → Blocks ι} {F G : E → FourierLayer ι} (hs : SmoothBlocks k x s)
    (hF : SmoothFourier k x F) (hG : SmoothFourier k x G) :
    DependsSmoothly (SmoothBlocks k x) x fun y => fourierExtend (s y) (F y) (G y) := by
  refine (dependsSmoothly_solve hG.X (SmoothMat.const 1)).bind fun Z hZ => ?_
  refine (dependsSmoothly_solve hF.A (hG.A.mul hZ)).bind fun Y hY => ?_
  have h1 : SmoothMat k x fun y => (1 / 2 : ℂ) • ((F y).X * Y y + 1) :=
    .smul contDiffAt_const ((hF.X.mul hY).add (.const 1))
  have h2 : SmoothMat k x fun y => (1 / 2 : ℂ) • (-((F y).X * Y y) + 1) :=
    .smul contDiffAt_const ((hF.X.mul hY).neg.add (.const 1))
  have hP := hF.P.mul hs.s12
  have h3 := h1.sub (hP.mul h2)
  refine (dependsSmoothly_solve h3 (hF.P.mul hs.s11)).bind fun s11 h11 => ?_
  refine (dependsSmoothly_solve h3 (((hP.mul h1).sub h2).mul hG.P)).bind fun s12 h12 => ?_
  exact DependsSmoothly.pure ⟨h11, h12, ((hs.s22.mul h2).mul h11).add hs.s21,
    ((hs.s22.mul h2).mul h12).add ((hs.s22.mul h1).mul hG.P)⟩

/-- Blocks that are smooth in the Fourier basis. -/
def OperatorBlocks (D : Set E) (k : WithTop ℕ∞) (x : E) (φ ψ : E → ModeMatrix ι) (s : E → Blocks ι) : Prop :=
  ∃ S : E → Blocks ι, SmoothBlocks k x S ∧ ∀ᶠ y in 𝓝 x, y ∈ D → s y = inModes (φ y) (ψ y) (S y)

/-- A scattering matrix of a stack that starts with the layer `p` and ends with the layer `q`. -/
structure OperatorScattering (D : Set E) (k : WithTop ℕ∞) (x : E) (p q : E → LayerSolveResult ι × ℝ)
    (s : E → ScatteringMatrix ι) : Prop where
  blocks : OperatorBlocks D k x (fun y => (p y).1.eigenvectors) (fun y => (q y).1.eigenvectors) fun y => (s y).toBlocks
  startLayer : ∀ y, ((s y).startLayer, (s y).startThickness) = p y
  endLayer : ∀ y, ((s y).endLayer, (s y).endThickness) = q y

/-- A layer with a thickness. -/
def OperatorPair (D : Set E) (k : WithTop ℕ∞) (x : E) (p : E → LayerSolveResult ι × ℝ) : Prop :=
  OperatorLayer D k x (fun y => (p y).1) ∧ ContDiffAt ℝ k (fun y => (p y).2) x

theorem extendSMatrix_omegaScriptK {s b : Blocks ι} (h : extendSMatrix s l d n e = .ok b) :
    ∃ A B, l.omegaScriptKMatrix = .ok A ∧ n.omegaScriptKMatrix = .ok B := by
  obtain ⟨i, hi, -⟩ := bind_eq_ok.1 h
  obtain ⟨A, hA, hi⟩ := bind_eq_ok.1 hi
  obtain ⟨B, hB, -⟩ := bind_eq_ok.1 hi
  exact ⟨A, B, hA, hB⟩

theorem dependsOn_extendSMatrix (hx : x ∈ D) {φ : E → ModeMatrix ι} {s : E → Blocks ι} {L M : E → LayerSolveResult ι} {d e : E → ℝ}
    (hs : OperatorBlocks D k x φ (fun y => (L y).eigenvectors) s) (hL : OperatorLayer D k x L) (hd : ContDiffAt ℝ k d x)
    (hM : OperatorLayer D k x M) (he : ContDiffAt ℝ k e x) :
    DependsSmoothlyOn D (OperatorBlocks D k x φ fun y => (M y).eigenvectors) x
      fun y => extendSMatrix (s y) (L y) (d y) (M y) (e y) := by
  intro v hv
  obtain ⟨A, B, hA, hB⟩ := extendSMatrix_omegaScriptK hv
  obtain ⟨F, hF, hFe⟩ := hL.represents hd hA
  obtain ⟨G, hG, hGe⟩ := hM.represents he hB
  obtain ⟨S, hS, hSe⟩ := hs
  refine (dependsSmoothly_fourierExtend hS hF hG).map_on (t := fun y => inModes (φ y) (M y).eigenvectors) hx ?_ ?_ v hv
  · filter_upwards [hFe, hGe, hSe] with y h1 h2 h3 hy
    rw [h3 hy, extendSMatrix_fourier (h1 hy) (h2 hy)]
  · exact fun g hg => ⟨g, hg, Filter.Eventually.of_forall fun y _ => rfl⟩

theorem dependsOn_appendLayer (hx : x ∈ D) {s : E → ScatteringMatrix ι} {p q r : E → LayerSolveResult ι × ℝ}
    (hs : OperatorScattering D k x p q s) (hq : OperatorPair D k x q) (hr : OperatorPair D k x r) :
    DependsSmoothlyOn D (OperatorScattering D k x p r) x fun y => appendLayer (s y) (r y).1 (r y).2 := by
  have h1 : ∀ y, (s y).endLayer = (q y).1 := fun y => congrArg Prod.fst (hs.endLayer y)
  have h2 : ∀ y, (s y).endThickness = (q y).2 := fun y => congrArg Prod.snd (hs.endLayer y)
  simp only [appendLayer, h1, h2]
  refine (dependsOn_extendSMatrix hx hs.blocks hq.1 hq.2 hr.1 hr.2).bind fun B hB => ?_
  exact DependsSmoothlyOn.pure ⟨hB, hs.startLayer, fun y => rfl⟩

theorem inModes_one {φ : ModeMatrix ι} (hφ : IsUnit φ.det) :
    inModes φ φ { s11 := 1, s12 := 0, s21 := 0, s22 := 1 } = { s11 := 1, s12 := 0, s21 := 0, s22 := 1 } := by
  simp [inModes, nonsing_inv_mul _ hφ]

theorem OperatorScattering.identity {p : E → LayerSolveResult ι × ℝ} (hp : OperatorPair D k x p) :
    OperatorScattering D k x p p fun y => identitySMatrix (p y).1 (p y).2 := by
  refine ⟨⟨fun _ => { s11 := 1, s12 := 0, s21 := 0, s22 := 1 }, ⟨.const _, .const _, .const _, .const _⟩, ?_⟩, fun y => rfl,
    fun y => rfl⟩
  refine Filter.Eventually.of_forall fun y hy => ?_
  refine Eq.trans ?_ (inModes_one (hp.1.independent y hy)).symm
  simp [identitySMatrix]

/-- Lists of functions related elementwise to a given list. -/
def SmoothList₂ {α γ : Type} (R : γ → (E → α) → Prop) (cs : List γ) (g : E → List α) : Prop :=
  ∃ gs : List (E → α), (∀ y, g y = gs.map fun h => h y) ∧ List.Forall₂ R cs gs

theorem SmoothList₂.nil {α γ : Type} {R : γ → (E → α) → Prop} : SmoothList₂ R [] fun _ : E => [] :=
  ⟨[], fun _ => rfl, .nil⟩

theorem SmoothList₂.cons {α γ : Type} {R : γ → (E → α) → Prop} {c : γ} {cs : List γ} {a : E → α} {g : E → List α} (ha : R c a)
    (hg : SmoothList₂ R cs g) : SmoothList₂ R (c :: cs) fun y => a y :: g y := by
  obtain ⟨gs, h, hR⟩ := hg
  exact ⟨a :: gs, fun y => by beta_reduce; rw [h y]; rfl, .cons ha hR⟩

theorem dependsOn_appendLoop (hx : x ∈ D) (ls : List (E → LayerSolveResult ι × ℝ)) (hl : ∀ p ∈ ls, OperatorPair D k x p)
    {p q : E → LayerSolveResult ι × ℝ} {s : E → ScatteringMatrix ι} (hs : OperatorScattering D k x p q s)
    (hq : OperatorPair D k x q) :
    DependsSmoothlyOn D (SmoothList₂ (OperatorScattering D k x p) ls) x fun y => appendLoop (s y) (ls.map fun p => p y) := by
  induction ls generalizing s q with
  | nil => exact DependsSmoothlyOn.pure SmoothList₂.nil
  | cons r ls ih =>
    have hr := hl r (by simp)
    refine (dependsOn_appendLayer hx hs hq hr).bind fun s' hs' => ?_
    refine (ih (fun q hq => hl q (by simp [hq])) hs' hr).bind fun t ht => ?_
    exact DependsSmoothlyOn.pure (ht.cons hs')

theorem dependsOn_stackSMatrices (hx : x ∈ D) (p : E → LayerSolveResult ι × ℝ) (ls : List (E → LayerSolveResult ι × ℝ))
    (hl : ∀ q ∈ p :: ls, OperatorPair D k x q) :
    DependsSmoothlyOn D (SmoothList₂ (OperatorScattering D k x p) (p :: ls)) x
      fun y => stackSMatrices ((p :: ls).map fun q => (q y).1) ((p :: ls).map fun q => (q y).2) := by
  have hp := hl p (by simp)
  have e : ∀ y, stackSMatrices ((p :: ls).map fun q => (q y).1) ((p :: ls).map fun q => (q y).2) =
      (appendLoop (identitySMatrix (p y).1 (p y).2) (ls.map fun q => q y) >>= fun tail =>
        .ok (identitySMatrix (p y).1 (p y).2 :: tail)) := by
    intro y
    refine stackSMatrices_eq _ _ ?_ (p y) (ls.map fun q => q y) ?_
    · rw [List.length_map, List.length_map]
    · rw [List.zip_map', List.map_cons]
  rw [funext e]
  refine (dependsOn_appendLoop hx ls (fun q hq => hl q (by simp [hq])) (.identity hp) hp).bind fun t ht => ?_
  exact DependsSmoothlyOn.pure (ht.cons (.identity hp))

theorem SmoothList₂.getLast {α γ : Type} {R : γ → (E → α) → Prop} {cs : List γ} {g : E → List α} (h : SmoothList₂ R cs g)
    {c : γ} (hc : cs.getLast? = some c) : ∃ a : E → α, R c a ∧ ∀ y, (g y).getLast? = some (a y) := by
  obtain ⟨gs, h, hR⟩ := h
  simp only [h, List.getLast?_map]
  clear h
  induction hR with
  | nil => simp at hc
  | @cons c' a cs gs h1 h2 ih =>
    cases h2 with
    | nil =>
      simp only [List.getLast?_singleton, Option.some.injEq] at hc
      subst hc
      exact ⟨a, h1, fun y => rfl⟩
    | cons h3 h4 =>
      rw [List.getLast?_cons_cons] at hc ⊢
      exact ih hc

theorem SmoothList₂.reverse {α γ : Type} {R : γ → (E → α) → Prop} {cs : List γ} {g : E → List α} (h : SmoothList₂ R cs g) :
    SmoothList₂ R cs.reverse fun y => (g y).reverse := by
  obtain ⟨gs, h, hR⟩ := h
  exact ⟨gs.reverse, fun y => by beta_reduce; rw [h, List.map_reverse], List.rel_reverse hR⟩

theorem SmoothList₂.map {α α' γ : Type} {R : γ → (E → α) → Prop} {R' : γ → (E → α') → Prop} {cs : List γ} {g : E → List α}
    (f : α → α') (hf : ∀ c a, R c a → R' c fun y => f (a y)) (h : SmoothList₂ R cs g) :
    SmoothList₂ R' cs fun y => (g y).map f := by
  obtain ⟨gs, h, hR⟩ := h
  refine ⟨gs.map fun a y => f (a y), fun y => by beta_reduce; rw [h, List.map_map, List.map_map]; rfl, ?_⟩
  clear h
  induction hR with
  | nil => exact .nil
  | cons h1 _ ih => exact .cons (hf _ _ h1) ih

theorem SmoothList₂.zip {α α' γ : Type} {R : γ → (E → α) → Prop} {R' : γ → (E → α') → Prop} {cs : List γ} {g : E → List α}
    {g' : E → List α'} (h : SmoothList₂ R cs g) (h' : SmoothList₂ R' cs g') :
    SmoothList₂ (fun c a => R c (fun y => (a y).1) ∧ R' c fun y => (a y).2) cs fun y => (g y).zip (g' y) := by
  obtain ⟨gs, h, hR⟩ := h
  obtain ⟨gs', h', hR'⟩ := h'
  refine ⟨List.zipWith (fun a b y => (a y, b y)) gs gs', fun y => ?_, ?_⟩
  · beta_reduce
    rw [h, h', List.zip_map, List.map_zipWith, List.zip, List.map_zipWith]
    rfl
  · clear h h'
    induction hR generalizing gs' with
    | nil => cases hR'; exact .nil
    | cons h1 _ ih =>
      cases hR' with
      | cons h2 h3 => exact .cons ⟨h1, h2⟩ (ih _ h3)

theorem SmoothBlocks.reverse' {s : E → Blocks ι} (h : SmoothBlocks k x s) : SmoothBlocks k x fun y => (s y).reverse :=
  ⟨h.s22, h.s21, h.s12, h.s11⟩

theorem OperatorScattering.reverse {p q : E → LayerSolveResult ι × ℝ} {s : E → ScatteringMatrix ι}
    (h : OperatorScattering D k x p q s) : OperatorScattering D k x q p fun y => (s y).reverse := by
  obtain ⟨S, hS, hSe⟩ := h.blocks
  refine ⟨⟨fun y => (S y).reverse, SmoothBlocks.reverse' hS, ?_⟩, h.endLayer, h.startLayer⟩
  filter_upwards [hSe] with y hy h
  have := congrArg Blocks.reverse (hy h)
  exact this

theorem dependsOn_interior (hx : x ∈ D) {p q : E → LayerSolveResult ι × ℝ} {ls : List (E → LayerSolveResult ι × ℝ)}
    (hp : ls.head? = some p) (hq : ls.getLast? = some q) (hl : ∀ r ∈ ls, OperatorPair D k x r) :
    DependsSmoothlyOn D (SmoothList₂ (fun r s => OperatorScattering D k x p r (fun y => (s y).1) ∧
        OperatorScattering D k x r q fun y => (s y).2) ls) x
      fun y => stackSMatricesInterior (ls.map fun q => (q y).1) (ls.map fun q => (q y).2) := by
  obtain ⟨t, rfl⟩ : ∃ t, ls = p :: t := by
    cases ls with
    | nil => simp at hp
    | cons a t => simp only [List.head?_cons, Option.some.injEq] at hp; exact ⟨t, by rw [hp]⟩
  obtain ⟨t', ht'⟩ : ∃ t', (p :: t).reverse = q :: t' := by
    cases h : (p :: t).reverse with
    | nil => simp at h
    | cons a t' =>
      have := List.head?_reverse (l := p :: t)
      rw [h, hq, List.head?_cons, Option.some.injEq] at this
      exact ⟨t', by rw [this]⟩
  refine (dependsOn_stackSMatrices hx p t hl).bind fun ss hss => ?_
  have hrev := dependsOn_stackSMatrices hx q t' (fun r hr => hl r (List.mem_reverse.1 (ht' ▸ hr)))
  rw [← ht'] at hrev
  simp only [List.map_reverse] at hrev
  refine hrev.bind fun rev hr => ?_
  have h2 := hr.reverse
  rw [List.reverse_reverse] at h2
  exact DependsSmoothlyOn.pure (hss.zip (h2.map (R' := fun r => OperatorScattering D k x r q) _ fun c a h => h.reverse))

/-! ### Amplitudes and fields -/

variable {β : Type}

/-- Amplitudes that are smooth in the Fourier basis. -/
def OperatorAmplitudes (D : Set E) (k : WithTop ℕ∞) (x : E) (p : E → LayerSolveResult ι × ℝ)
    (ab : E → Matrix (ι ⊕ ι) β ℂ × Matrix (ι ⊕ ι) β ℂ) : Prop :=
  ∃ α γ : E → Matrix (ι ⊕ ι) β ℂ, SmoothMat k x α ∧ SmoothMat k x γ ∧
    ∀ᶠ y in 𝓝 x, y ∈ D → (p y).1.eigenvectors * (ab y).1 = α y ∧ (p y).1.eigenvectors * (ab y).2 = γ y

theorem dependsOn_amplitudesInterior (hx : x ∈ D) {p q r : E → LayerSolveResult ι × ℝ} (hr : OperatorPair D k x r)
    {s t : E → ScatteringMatrix ι} (hs : OperatorScattering D k x p r s) (ht : OperatorScattering D k x r q t)
    {a b : E → Matrix (ι ⊕ ι) β ℂ} (ha : SmoothMat k x fun y => (p y).1.eigenvectors * a y)
    (hb : SmoothMat k x fun y => (q y).1.eigenvectors * b y) :
    DependsSmoothlyOn D (OperatorAmplitudes D k x r) x
      fun y => amplitudesInterior (s y).toBlocks (t y).toBlocks (a y) (b y) := by
  obtain ⟨S, hS, hSe⟩ := hs.blocks
  obtain ⟨T, hT, hTe⟩ := ht.blocks
  have h1 : DependsSmoothly (SmoothMat k x) x fun y => solve (1 - (S y).s12 * (T y).s21)
      ((S y).s11 * ((p y).1.eigenvectors * a y) + (S y).s12 * (T y).s22 * ((q y).1.eigenvectors * b y)) :=
    dependsSmoothly_solve ((SmoothMat.const 1).sub (hS.s12.mul hT.s21))
      ((hS.s11.mul ha).add ((hS.s12.mul hT.s22).mul hb))
  refine h1.map_on hx (t := fun y A => ((r y).1.eigenvectors⁻¹ * A,
    (r y).1.eigenvectors⁻¹ * ((T y).s21 * A + (T y).s22 * ((q y).1.eigenvectors * b y)))) ?_ ?_
  · filter_upwards [hSe, hTe] with y h2 h3 hy
    have hφ := hr.1.independent y hy
    have hc : ∀ {γ : Type} (B : Matrix (ι ⊕ ι) γ ℂ), (r y).1.eigenvectors * ((r y).1.eigenvectors⁻¹ * B) = B :=
      fun B => mul_nonsing_inv_cancel_left _ B hφ
    unfold amplitudesInterior
    rw [h2 hy, h3 hy]
    have e1 : (1 : ModeMatrix ι) - (inModes (p y).1.eigenvectors (r y).1.eigenvectors (S y)).s12 *
        (inModes (r y).1.eigenvectors (q y).1.eigenvectors (T y)).s21 =
        (r y).1.eigenvectors⁻¹ * (1 - (S y).s12 * (T y).s21) * (r y).1.eigenvectors := by
      simp only [inModes, Matrix.mul_sub, Matrix.sub_mul, Matrix.mul_assoc, hc, Matrix.one_mul, nonsing_inv_mul _ hφ]
    have e2 : (inModes (p y).1.eigenvectors (r y).1.eigenvectors (S y)).s11 * a y +
        (inModes (p y).1.eigenvectors (r y).1.eigenvectors (S y)).s12 *
        (inModes (r y).1.eigenvectors (q y).1.eigenvectors (T y)).s22 * b y =
        (r y).1.eigenvectors⁻¹ * ((S y).s11 * ((p y).1.eigenvectors * a y) +
          (S y).s12 * (T y).s22 * ((q y).1.eigenvectors * b y)) := by
      simp only [inModes, Matrix.mul_add, Matrix.mul_assoc, hc]
    dsimp only
    rw [e1, e2, solve_conj_left hφ hφ]
    cases solve (1 - (S y).s12 * (T y).s21) ((S y).s11 * ((p y).1.eigenvectors * a y) +
          (S y).s12 * (T y).s22 * ((q y).1.eigenvectors * b y)) with
    | error e => rfl
    | ok A =>
      refine congrArg Except.ok (Prod.ext rfl ?_)
      simp only [inModes, Matrix.mul_add, Matrix.mul_assoc, hc]
  · intro g hg
    refine ⟨g, fun y => (T y).s21 * g y + (T y).s22 * ((q y).1.eigenvectors * b y), hg, (hT.s21.mul hg).add (hT.s22.mul hb),
      Filter.Eventually.of_forall fun y hy => ?_⟩
    have hφ := hr.1.independent y hy
    exact ⟨mul_nonsing_inv_cancel_left _ _ hφ, mul_nonsing_inv_cancel_left _ _ hφ⟩

theorem dependsOn_stackAmplitudes (hx : x ∈ D) {p q : E → LayerSolveResult ι × ℝ} {ls : List (E → LayerSolveResult ι × ℝ)}
    (hl : ∀ r ∈ ls, OperatorPair D k x r) {ps : E → List (ScatteringMatrix ι × ScatteringMatrix ι)}
    (hps : SmoothList₂ (fun r s => OperatorScattering D k x p r (fun y => (s y).1) ∧
        OperatorScattering D k x r q fun y => (s y).2) ls ps)
    {a b : E → Matrix (ι ⊕ ι) β ℂ} (ha : SmoothMat k x fun y => (p y).1.eigenvectors * a y)
    (hb : SmoothMat k x fun y => (q y).1.eigenvectors * b y) :
    DependsSmoothlyOn D (SmoothList₂ (OperatorAmplitudes D k x) ls) x
      fun y => stackAmplitudesInterior (a y) (b y) (ps y) := by
  obtain ⟨gs, h, hR⟩ := hps
  simp only [h]
  clear h
  induction hR with
  | nil => exact DependsSmoothlyOn.pure SmoothList₂.nil
  | @cons r g ls gs h1 h2 ih =>
    refine (dependsOn_amplitudesInterior hx (hl r (by simp)) h1.1 h1.2 ha hb).bind fun ab hab => ?_
    refine (ih fun r' hr' => hl r' (by simp [hr'])).bind fun t ht => ?_
    exact DependsSmoothlyOn.pure (ht.cons hab)

/-- `colocate_amplitudes`. -/
theorem OperatorAmplitudes.colocate {p : E → LayerSolveResult ι × ℝ} (hp : OperatorPair D k x p)
    {ab : E → Matrix (ι ⊕ ι) β ℂ × Matrix (ι ⊕ ι) β ℂ} (hab : OperatorAmplitudes D k x p ab) {z : E → β → ℝ}
    (hz : ∀ c, ContDiffAt ℝ k (fun y => z y c) x) :
    OperatorAmplitudes D k x p fun y => colocateAmplitudes (ab y).1 (ab y).2 (z y) (p y).1 (p y).2 := by
  obtain ⟨α, γ, hα, hγ, he⟩ := hab
  obtain ⟨X, hX, hXe⟩ := hp.1.root
  have key : ∀ {u : E → Matrix (ι ⊕ ι) β ℂ} {t : E → β → ℝ}, SmoothMat k x u → (∀ c, ContDiffAt ℝ k (fun y => t y c) x) →
      SmoothMat k x fun y => (Matrix.of fun i c => (NormedSpace.exp ((Complex.I * t y c) • X y) * u y) i c) := by
    intro u t hu ht i c
    exact ((hX.smul (contDiffAt_const.mul (contDiffAt_ofReal (ht c)))).exp.mul hu) i c
  have key' : ∀ {y : E} (_ : y ∈ D) (_ : X y = (p y).1.eigenvectors * diagonal (p y).1.eigenvalues * (p y).1.eigenvectors⁻¹)
      (u v : Matrix (ι ⊕ ι) β ℂ) (t : β → ℝ) (_ : (p y).1.eigenvectors * u = v),
      (p y).1.eigenvectors * propagateAmplitude u t (p y).1 =
        Matrix.of fun i c => (NormedSpace.exp ((Complex.I * t c) • X y) * v) i c := by
    intro y hy hXy u v t huv
    ext i c
    rw [Matrix.of_apply, hXy, exp_phase (hp.1.independent y hy), ← huv, ← Matrix.mul_assoc,
      Matrix.mul_assoc _ ((p y).1.eigenvectors⁻¹), nonsing_inv_mul _ (hp.1.independent y hy), Matrix.mul_one, Matrix.mul_assoc,
      Matrix.mul_apply, Matrix.mul_apply]
    refine Finset.sum_congr rfl fun j _ => ?_
    rw [diagonal_mul]
    simp only [propagateAmplitude, phase, Matrix.of_apply]
    ring
  refine ⟨_, _, key hα hz, key (t := fun y c => (p y).2 - z y c) hγ fun c => hp.2.sub (hz c), ?_⟩
  filter_upwards [he, hXe] with y h1 h2 hy
  exact ⟨key' hy (h2 hy) _ _ _ (h1 hy).1, key' hy (h2 hy) _ _ _ (h1 hy).2⟩

/-- The amplitudes of waves in the fictitious layer with eigenvalues and eigenvectors one that have the same fields. -/
noncomputable def fictitious (Z : ModeMatrix ι) (α γ : Matrix (ι ⊕ ι) β ℂ) : Matrix (ι ⊕ ι) β ℂ × Matrix (ι ⊕ ι) β ℂ :=
  ((1 / 2 : ℂ) • (α + γ + Z * (α - γ)), (1 / 2 : ℂ) • (α + γ - Z * (α - γ)))

theorem angularFrequency_ne_zero' {lam w : ℝ} (h : angularFrequency lam = .ok w) : w ≠ 0 := by
  unfold angularFrequency at h
  split_ifs at h with hl
  injection h with h
  rw [← h]
  exact div_ne_zero (by have := Real.pi_pos; positivity) hl

theorem fields_fictitious {X : ModeMatrix ι} (hφ : IsUnit l.eigenvectors.det)
    (hX : X = l.eigenvectors * diagonal l.eigenvalues * l.eigenvectors⁻¹) (hq : ∀ i, l.eigenvalues i ≠ 0)
    (a b : Matrix (ι ⊕ ι) β ℂ) :
    fieldsFromWaveAmplitudes a b l =
      fieldsFromWaveAmplitudes (fictitious X⁻¹ (l.eigenvectors * a) (l.eigenvectors * b)).1
        (fictitious X⁻¹ (l.eigenvectors * a) (l.eigenvectors * b)).2 (withModes l (fun _ => 1) 1) := by
  have hrec : l.eigenvectors * diagonal (fun i => (l.eigenvalues i)⁻¹) = X⁻¹ * l.eigenvectors := by
    have hu : IsUnit X.det := by
      rw [hX, det_mul, det_mul, det_diagonal]
      exact (hφ.mul (isUnit_iff_ne_zero.2 (Finset.prod_ne_zero_iff.2 fun i _ => hq i))).mul (isUnit_nonsing_inv_det _ hφ)
    have e1 : X * (l.eigenvectors * diagonal (fun i => (l.eigenvalues i)⁻¹)) = l.eigenvectors := by
      rw [hX]
      calc _ = l.eigenvectors * (diagonal l.eigenvalues * (l.eigenvectors⁻¹ * l.eigenvectors) *
            diagonal (fun i => (l.eigenvalues i)⁻¹)) := by simp only [Matrix.mul_assoc]
        _ = _ := by
          rw [nonsing_inv_mul _ hφ, Matrix.mul_one, diagonal_mul_diagonal]
          simp [hq]
    have := congrArg (X⁻¹ * ·) e1
    simpa only [nonsing_inv_mul_cancel_left _ _ hu] using this
  have hK : (withModes l (fun _ => 1) 1).omegaScriptKMatrix = l.omegaScriptKMatrix := rfl
  have hw : (withModes l (fun _ => 1) 1).wavelength = l.wavelength := rfl
  unfold fieldsFromWaveAmplitudes fieldConversionMatrix poyntingFluxAMatrix
  rw [hK, hw]
  cases l.omegaScriptKMatrix with
  | error e => rfl
  | ok K =>
  cases hω : angularFrequency l.wavelength with
  | error e => rfl
  | ok w =>
  have hw0 : (w : ℂ) ≠ 0 := Complex.ofReal_ne_zero.2 (angularFrequency_ne_zero' hω)
  have r1 : recip (fun i => (w : ℂ) * l.eigenvalues i) = .ok fun i => ((w : ℂ) * l.eigenvalues i)⁻¹ :=
    recip_eq_ok.2 ⟨fun i => mul_ne_zero hw0 (hq i), rfl⟩
  have r2 : recip (fun i => (w : ℂ) * (withModes l (fun _ => 1) 1).eigenvalues i) = .ok fun _ => (w : ℂ)⁻¹ :=
    recip_eq_ok.2 ⟨fun i => mul_ne_zero hw0 one_ne_zero, by funext i; simp [withModes]⟩
  have key : fromBlocks (K * l.eigenvectors * diag fun i => ((w : ℂ) * l.eigenvalues i)⁻¹)
      (-(K * l.eigenvectors * diag fun i => ((w : ℂ) * l.eigenvalues i)⁻¹)) l.eigenvectors l.eigenvectors * fromRows a b =
      fromBlocks (K * (withModes l (fun _ => 1) 1).eigenvectors * diag fun _ => (w : ℂ)⁻¹)
        (-(K * (withModes l (fun _ => 1) 1).eigenvectors * diag fun _ => (w : ℂ)⁻¹)) (withModes l (fun _ => 1) 1).eigenvectors
        (withModes l (fun _ => 1) 1).eigenvectors *
        fromRows (fictitious X⁻¹ (l.eigenvectors * a) (l.eigenvectors * b)).1
          (fictitious X⁻¹ (l.eigenvectors * a) (l.eigenvectors * b)).2 := by
    have e1 : (K * l.eigenvectors * diag fun i => ((w : ℂ) * l.eigenvalues i)⁻¹) = (w : ℂ)⁻¹ • (K * (X⁻¹ * l.eigenvectors)) := by
      rw [← hrec, diag_eq, Matrix.mul_assoc, ← Matrix.mul_smul, ← Matrix.mul_smul, ← diagonal_smul]
      congr 3
      funext i
      simp [mul_comm]
    have e2 : (diag fun _ : ι ⊕ ι => (w : ℂ)⁻¹) = (w : ℂ)⁻¹ • 1 := by
      rw [diag_eq, ← diagonal_one, ← diagonal_smul]
      congr 1
      funext i
      simp
    rw [fromBlocks_mul_fromRows, fromBlocks_mul_fromRows, e1, e2]
    simp only [withModes, fictitious, Matrix.one_mul, Matrix.mul_one]
    congr 1
    · mat_module
    · mat_module
  simp only [bind, Except.bind, r1, r2]
  rw [key]
  rfl

theorem dependsOn_fields (hx : x ∈ D) {p : E → LayerSolveResult ι × ℝ} (hp : OperatorPair D k x p)
    {ab : E → Matrix (ι ⊕ ι) β ℂ × Matrix (ι ⊕ ι) β ℂ} (hab : OperatorAmplitudes D k x p ab) :
    DependsSmoothlyOn D (SmoothFields k x) x fun y => fieldsFromWaveAmplitudes (ab y).1 (ab y).2 (p y).1 := by
  intro v hv
  obtain ⟨α, γ, hα, hγ, he⟩ := hab
  obtain ⟨X, hX, hXe⟩ := hp.1.root
  have hq : ∀ i, (p x).1.eigenvalues i ≠ 0 := by
    obtain ⟨M, hM, -⟩ := bind_eq_ok.1 hv
    obtain ⟨A, hA, -⟩ := bind_eq_ok.1 hM
    obtain ⟨K, -, hA⟩ := bind_eq_ok.1 hA
    obtain ⟨w, -, hA⟩ := bind_eq_ok.1 hA
    obtain ⟨r, hr, -⟩ := bind_eq_ok.1 hA
    exact fun i h0 => (recip_eq_ok.1 hr).1 i (by rw [h0, mul_zero])
  have hdet : ∀ y, y ∈ D → X y = (p y).1.eigenvectors * diagonal (p y).1.eigenvalues * (p y).1.eigenvectors⁻¹ →
      ((X y).det ≠ 0 ↔ ∀ i, (p y).1.eigenvalues i ≠ 0) := by
    intro y hy h
    have hφ := hp.1.independent y hy
    rw [h, det_mul, det_mul, det_diagonal, mul_right_comm, ← det_mul, mul_nonsing_inv _ hφ, det_one, one_mul]
    simp [Finset.prod_eq_zero_iff]
  have hXx : (X x).det ≠ 0 := (hdet x hx (hXe.self_of_nhds hx)).2 hq
  have hXn : ∀ᶠ y in 𝓝 x, (X y).det ≠ 0 := hX.det.continuousAt.eventually_ne hXx
  have hZ : SmoothMat k x fun y => (X y)⁻¹ := hX.inv hXx
  have h := C114_fields (a := fun y => (fictitious (X y)⁻¹ (α y) (γ y)).1) (b := fun y => (fictitious (X y)⁻¹ (α y) (γ y)).2)
    (.smul contDiffAt_const ((hα.add hγ).add (hZ.mul (hα.sub hγ))))
    (.smul contDiffAt_const ((hα.add hγ).sub (hZ.mul (hα.sub hγ)))) (hp.1.material.withModes (fun _ => 1) 1)
  have hall : ∀ᶠ y in 𝓝 x, y ∈ D → fieldsFromWaveAmplitudes (ab y).1 (ab y).2 (p y).1 =
      fieldsFromWaveAmplitudes (fictitious (X y)⁻¹ (α y) (γ y)).1 (fictitious (X y)⁻¹ (α y) (γ y)).2
        (withModes (p y).1 (fun _ => 1) 1) := by
    filter_upwards [he, hXe, hXn] with y h1 h2 h3 hy
    rw [fields_fictitious (hp.1.independent y hy) (h2 hy) ((hdet y hy (h2 hy)).1 h3), (h1 hy).1, (h1 hy).2]
  beta_reduce at hv
  rw [hall.self_of_nhds hx] at hv
  obtain ⟨g, hg, hP, hge⟩ := h v hv
  refine ⟨g, hg, hP, ?_⟩
  filter_upwards [hall, hge] with y h1 h2 hy
  rw [h1 hy, h2]

end Fmmax
