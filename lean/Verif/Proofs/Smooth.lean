import Verif.Spec.Smooth
import Verif.Proofs.Basic
import Mathlib.Analysis.SpecialFunctions.ExpDeriv
import Mathlib.Analysis.Complex.Basic

/-!
Smoothness of the elementary operations of the library.
-/

namespace Fmmax.Spec

open Matrix Topology

variable {E : Type} [NormedAddCommGroup E] [NormedSpace ℝ E] {k : WithTop ℕ∞} {x : E}

/-! ### Computations that may fail -/

theorem DependsSmoothly.pure {α : Type} {P : (E → α) → Prop} {g : E → α} (hg : P g) :
    DependsSmoothly P x fun y => (.ok (g y) : Res α) := by
  intro v hv
  injection hv with hv
  exact ⟨g, hv, hg, Filter.Eventually.of_forall fun _ => rfl⟩

theorem DependsSmoothly.bind {α γ : Type} {P : (E → α) → Prop} {Q : (E → γ) → Prop} {f : E → Res α}
    {h : E → α → Res γ} (hf : DependsSmoothly P x f)
    (hh : ∀ g : E → α, P g → DependsSmoothly Q x fun y => h y (g y)) :
    DependsSmoothly Q x fun y => f y >>= h y := by
  intro v hv
  obtain ⟨a, ha, hv⟩ := bind_eq_ok.1 hv
  obtain ⟨g, rfl, hP, he⟩ := hf a ha
  obtain ⟨r, hr, hQ, he'⟩ := hh g hP v hv
  refine ⟨r, hr, hQ, ?_⟩
  filter_upwards [he, he'] with y h1 h2
  exact bind_eq_ok.2 ⟨_, h1, h2⟩

/-- A guarded value: the guard stays true nearby. -/
theorem DependsSmoothly.guard {α : Type} {P : (E → α) → Prop} {f : E → Res α} {C : E → Prop} {g : E → α}
    (hok : ∀ y, C y → f y = .ok (g y)) (herr : ∀ y, ¬C y → ∀ v, f y ≠ .ok v)
    (hopen : C x → ∀ᶠ y in 𝓝 x, C y) (hP : C x → P g) : DependsSmoothly P x f := by
  intro v hv
  have hC : C x := by
    by_contra hC
    exact herr x hC v hv
  refine ⟨g, ?_, hP hC, (hopen hC).mono hok⟩
  have h := hok x hC
  rw [hv] at h
  injection h with h
  exact h.symm

theorem DependsSmoothly.congr {α : Type} {P : (E → α) → Prop} {f f' : E → Res α} (h : ∀ y, f y = f' y)
    (hf : DependsSmoothly P x f') : DependsSmoothly P x f := by
  have : f = f' := funext h
  rw [this]
  exact hf

theorem DependsSmoothly.mono {α : Type} {P Q : (E → α) → Prop} {f : E → Res α} (h : ∀ g, P g → Q g)
    (hf : DependsSmoothly P x f) : DependsSmoothly Q x f := by
  intro v hv
  obtain ⟨g, hg, hP, he⟩ := hf v hv
  exact ⟨g, hg, h g hP, he⟩

/-! ### Numbers -/

theorem contDiffAt_ofReal {f : E → ℝ} (hf : ContDiffAt ℝ k f x) : ContDiffAt ℝ k (fun y => (f y : ℂ)) x :=
  hf.continuousLinearMap_comp Complex.ofRealCLM

theorem contDiffAt_re {f : E → ℂ} (hf : ContDiffAt ℝ k f x) : ContDiffAt ℝ k (fun y => (f y).re) x :=
  hf.continuousLinearMap_comp Complex.reCLM

theorem contDiffAt_star {f : E → ℂ} (hf : ContDiffAt ℝ k f x) : ContDiffAt ℝ k (fun y => star (f y)) x :=
  hf.continuousLinearMap_comp (Complex.conjCLE : ℂ →L[ℝ] ℂ)

theorem contDiffAt_inv' {𝕜 : Type} [NormedField 𝕜] [NormedAlgebra ℝ 𝕜] {f : E → 𝕜} (hf : ContDiffAt ℝ k f x)
    (h0 : f x ≠ 0) : ContDiffAt ℝ k (fun y => (f y)⁻¹) x :=
  hf.inv h0

/-! ### Matrices -/

section
variable {l m n : Type}

theorem SmoothMat.const (A : Matrix m n ℂ) : SmoothMat k x fun _ : E => A := fun _ _ => contDiffAt_const

theorem SmoothMat.add {A B : E → Matrix m n ℂ} (hA : SmoothMat k x A) (hB : SmoothMat k x B) :
    SmoothMat k x fun y => A y + B y := fun i j => (hA i j).add (hB i j)

theorem SmoothMat.sub {A B : E → Matrix m n ℂ} (hA : SmoothMat k x A) (hB : SmoothMat k x B) :
    SmoothMat k x fun y => A y - B y := fun i j => (hA i j).sub (hB i j)

theorem SmoothMat.neg {A : E → Matrix m n ℂ} (hA : SmoothMat k x A) : SmoothMat k x fun y => -A y :=
  fun i j => (hA i j).neg

theorem SmoothMat.smul {c : E → ℂ} {A : E → Matrix m n ℂ} (hc : ContDiffAt ℝ k c x) (hA : SmoothMat k x A) :
    SmoothMat k x fun y => c y • A y := fun i j => hc.mul (hA i j)

theorem SmoothMat.mul [Fintype m] {A : E → Matrix l m ℂ} {B : E → Matrix m n ℂ} (hA : SmoothMat k x A)
    (hB : SmoothMat k x B) : SmoothMat k x fun y => A y * B y := by
  intro i j
  simp only [Matrix.mul_apply]
  exact ContDiffAt.sum fun c _ => (hA i c).mul (hB c j)

theorem SmoothMat.rowScale {v : E → m → ℂ} {A : E → Matrix m n ℂ} (hv : SmoothVec k x v) (hA : SmoothMat k x A) :
    SmoothMat k x fun y => rowScale (v y) (A y) := fun i j => (hv i).mul (hA i j)

theorem SmoothMat.colScale {v : E → n → ℂ} {A : E → Matrix m n ℂ} (hA : SmoothMat k x A) (hv : SmoothVec k x v) :
    SmoothMat k x fun y => colScale (A y) (v y) := fun i j => (hA i j).mul (hv j)

theorem SmoothMat.diag [DecidableEq n] {v : E → n → ℂ} (hv : SmoothVec k x v) : SmoothMat k x fun y => diag (v y) := by
  intro i j
  by_cases h : i = j
  · subst h
    simpa [Fmmax.diag] using hv i
  · simp only [Fmmax.diag, Matrix.of_apply, h, if_false]
    exact contDiffAt_const

theorem SmoothMat.fromBlocks {m' n' : Type} {A : E → Matrix m n ℂ} {B : E → Matrix m n' ℂ} {C : E → Matrix m' n ℂ}
    {D : E → Matrix m' n' ℂ} (hA : SmoothMat k x A) (hB : SmoothMat k x B) (hC : SmoothMat k x C)
    (hD : SmoothMat k x D) : SmoothMat k x fun y => Matrix.fromBlocks (A y) (B y) (C y) (D y) := by
  rintro (i | i) (j | j)
  · exact hA i j
  · exact hB i j
  · exact hC i j
  · exact hD i j

theorem SmoothMat.fromRows {m' : Type} {A : E → Matrix m n ℂ} {B : E → Matrix m' n ℂ} (hA : SmoothMat k x A)
    (hB : SmoothMat k x B) : SmoothMat k x fun y => Matrix.fromRows (A y) (B y) := by
  rintro (i | i) j
  · exact hA i j
  · exact hB i j

theorem SmoothMat.det [Fintype n] [DecidableEq n] {A : E → Matrix n n ℂ} (hA : SmoothMat k x A) :
    ContDiffAt ℝ k (fun y => (A y).det) x := by
  simp only [Matrix.det_apply]
  refine ContDiffAt.sum fun σ _ => ?_
  exact ContDiffAt.const_smul (Equiv.Perm.sign σ) (contDiffAt_prod fun i _ => hA _ _)

theorem SmoothMat.adjugate [Fintype n] [DecidableEq n] {A : E → Matrix n n ℂ} (hA : SmoothMat k x A) :
    SmoothMat k x fun y => (A y).adjugate := by
  intro i j
  simp only [Matrix.adjugate_apply]
  refine SmoothMat.det fun a b => ?_
  by_cases h : a = j
  · subst h
    simp only [Matrix.updateRow_self]
    exact contDiffAt_const
  · simp only [Matrix.updateRow_ne h]
    exact hA a b

theorem SmoothMat.inv [Fintype n] [DecidableEq n] {A : E → Matrix n n ℂ} (hA : SmoothMat k x A)
    (h0 : (A x).det ≠ 0) : SmoothMat k x fun y => (A y)⁻¹ := by
  intro i j
  simp only [Matrix.inv_def, Ring.inverse_eq_inv', Matrix.smul_apply, smul_eq_mul]
  exact (contDiffAt_inv' hA.det h0).mul (hA.adjugate i j)

/-- `jnp.linalg.solve`. -/
theorem dependsSmoothly_solve [Fintype m] [DecidableEq m] {A : E → Matrix m m ℂ} {B : E → Matrix m n ℂ}
    (hA : SmoothMat k x A) (hB : SmoothMat k x B) :
    DependsSmoothly (SmoothMat k x) x fun y => solve (A y) (B y) := by
  refine DependsSmoothly.guard (C := fun y => (A y).det ≠ 0) (g := fun y => (A y)⁻¹ * B y) ?_ ?_ ?_ ?_
  · intro y hy
    exact if_pos (isUnit_iff_ne_zero.2 hy)
  · intro y hy v hv
    rw [solve, if_neg (fun h => hy (isUnit_iff_ne_zero.1 h))] at hv
    cases hv
  · intro h0
    exact hA.det.continuousAt.eventually_ne h0
  · intro h0
    exact (hA.inv h0).mul hB

/-- `1 / q`. -/
theorem dependsSmoothly_recip [Finite n] {q : E → n → ℂ} (hq : SmoothVec k x q) :
    DependsSmoothly (SmoothVec k x) x fun y => recip (q y) := by
  refine DependsSmoothly.guard (C := fun y => ∀ i, q y i ≠ 0) (g := fun y i => 1 / q y i) ?_ ?_ ?_ ?_
  · intro y hy
    exact if_pos hy
  · intro y hy v hv
    rw [recip, if_neg hy] at hv
    cases hv
  · intro h0
    exact Filter.eventually_all.2 fun i => (hq i).continuousAt.eventually_ne (h0 i)
  · intro h0 i
    simp only [one_div]
    exact contDiffAt_inv' (hq i) (h0 i)

end

/-- `utils.angular_frequency_for_wavelength`; the frequency does not vanish. -/
theorem dependsSmoothly_angularFrequency' {w : E → ℝ} (hw : ContDiffAt ℝ k w x) :
    DependsSmoothly (fun g => ContDiffAt ℝ k g x ∧ g x ≠ 0) x fun y => angularFrequency (w y) := by
  refine DependsSmoothly.guard (C := fun y => w y ≠ 0) (g := fun y => 2 * Real.pi / w y) ?_ ?_ ?_ ?_
  · intro y hy
    exact if_neg hy
  · intro y hy v hv
    rw [angularFrequency, if_pos (not_not.1 hy)] at hv
    cases hv
  · intro h0
    exact hw.continuousAt.eventually_ne h0
  · intro h0
    refine ⟨?_, div_ne_zero (by have := Real.pi_ne_zero; positivity) h0⟩
    simp only [div_eq_mul_inv]
    exact contDiffAt_const.mul (contDiffAt_inv' hw h0)

theorem dependsSmoothly_angularFrequency {w : E → ℝ} (hw : ContDiffAt ℝ k w x) :
    DependsSmoothly (fun g => ContDiffAt ℝ k g x) x fun y => angularFrequency (w y) :=
  (dependsSmoothly_angularFrequency' hw).mono fun _ h => h.1

variable {ι : Type}

/-- `basis.transverse_wavevectors`. -/
theorem dependsSmoothly_transverseWavevectors {p : E → ℝ × ℝ} {l : E → LatticeVectors} (G : ι → ℤ × ℤ)
    (hp : SmoothPair k x p) (hu : SmoothPair k x fun y => (l y).u) (hv : SmoothPair k x fun y => (l y).v) :
    DependsSmoothly (fun g : E → ι → ℝ × ℝ => ∀ i, SmoothPair k x fun y => g y i) x fun y => transverseWavevectors (p y) (l y) G := by
  have hc : ContDiffAt ℝ k (fun y => crossProduct (l y).u (l y).v) x :=
    (hu.1.mul hv.2).sub (hu.2.mul hv.1)
  refine DependsSmoothly.bind
    (P := fun g => SmoothPair k x (fun y => (g y).u) ∧ SmoothPair k x (fun y => (g y).v)) ?_ ?_
  · refine DependsSmoothly.guard (C := fun y => crossProduct (l y).u (l y).v ≠ 0) (g := fun y =>
      { u := ((l y).v.2 / crossProduct (l y).u (l y).v, -(l y).v.1 / crossProduct (l y).u (l y).v),
        v := (-(l y).u.2 / crossProduct (l y).u (l y).v, (l y).u.1 / crossProduct (l y).u (l y).v) }) ?_ ?_ ?_ ?_
    · intro y hy
      exact if_neg hy
    · intro y hy v hv
      simp only [reciprocal] at hv
      rw [if_pos (not_not.1 hy)] at hv
      cases hv
    · intro h0
      exact hc.continuousAt.eventually_ne h0
    · intro h0
      have hi := contDiffAt_inv' hc h0
      simp only [div_eq_mul_inv]
      exact ⟨⟨hv.2.mul hi, hv.1.neg.mul hi⟩, ⟨hu.2.neg.mul hi, hu.1.mul hi⟩⟩
  · rintro g ⟨g1, g2⟩
    refine DependsSmoothly.pure fun i => ⟨?_, ?_⟩
    · exact hp.1.add (contDiffAt_const.mul ((contDiffAt_const.mul g1.1).add (contDiffAt_const.mul g2.1)))
    · exact hp.2.add (contDiffAt_const.mul ((contDiffAt_const.mul g1.2).add (contDiffAt_const.mul g2.2)))

variable [Fintype ι] [DecidableEq ι]

theorem SmoothVec.kx {q : E → ι → ℝ × ℝ} (hq : ∀ i, SmoothPair k x fun y => q y i) :
    SmoothVec k x fun y => kxOf (q y) := fun i => contDiffAt_ofReal (hq i).1

theorem SmoothVec.ky {q : E → ι → ℝ × ℝ} (hq : ∀ i, SmoothPair k x fun y => q y i) :
    SmoothVec k x fun y => kyOf (q y) := fun i => contDiffAt_ofReal (hq i).2

theorem SmoothVec.neg {n : Type} {v : E → n → ℂ} (hv : SmoothVec k x v) : SmoothVec k x fun y i => -v y i :=
  fun i => (hv i).neg

theorem SmoothVec.phase {q : E → ι ⊕ ι → ℂ} {d : E → ℝ} (hq : SmoothVec k x q) (hd : ContDiffAt ℝ k d x) :
    SmoothVec k x fun y => phase (q y) (d y) := fun i =>
  ((contDiffAt_const.mul (hq i)).mul (contDiffAt_ofReal hd)).cexp

/-- `LayerSolveResult.omega_script_k_matrix`. -/
theorem dependsSmoothly_omegaScriptKMatrix {L : E → LayerSolveResult ι} (hL : SmoothLayer k x L) :
    DependsSmoothly (SmoothMat k x) x fun y => (L y).omegaScriptKMatrix := by
  refine DependsSmoothly.congr (f' := fun y =>
      transverseWavevectors (L y).inPlaneWavevector (L y).primitiveLatticeVectors (L x).expansion >>= fun q =>
        omegaScriptKMatrixPatterned (L y).wavelength (L y).zPermittivityMatrix (L y).transversePermeabilityMatrix q) ?_ ?_
  · intro y
    rw [LayerSolveResult.omegaScriptKMatrix, hL.expansion y]
  · refine (dependsSmoothly_transverseWavevectors _ hL.inPlaneWavevector hL.latticeU hL.latticeV).bind ?_
    intro q hq
    refine DependsSmoothly.bind (P := SmoothMat k x) ?_ ?_
    · refine (dependsSmoothly_solve hL.zPermittivity (SmoothMat.diag (SmoothVec.kx hq))).bind fun X hX => ?_
      refine (dependsSmoothly_solve hL.zPermittivity (SmoothMat.diag (SmoothVec.ky hq))).bind fun Y hY => ?_
      exact DependsSmoothly.pure (SmoothMat.fromBlocks (.rowScale (.ky hq) hY) (.rowScale (SmoothVec.ky hq).neg hX)
        (.rowScale (SmoothVec.kx hq).neg hY) (.rowScale (.kx hq) hX))
    · intro K hK
      refine (dependsSmoothly_angularFrequency hL.wavelength).bind fun w hw => ?_
      exact DependsSmoothly.pure (((hL.transversePermeability.smul ((contDiffAt_ofReal hw).pow 2))).sub hK)

/-- scattering.py 414-439. -/
theorem dependsSmoothly_interfaceMatrices {L M : E → LayerSolveResult ι} (hL : SmoothLayer k x L)
    (hM : SmoothLayer k x M) :
    DependsSmoothly (fun g => SmoothMat k x (fun y => (g y).1) ∧ SmoothMat k x fun y => (g y).2) x
      fun y => interfaceMatrices (L y) (M y) := by
  refine (dependsSmoothly_omegaScriptKMatrix hL).bind fun K hK => ?_
  refine (dependsSmoothly_omegaScriptKMatrix hM).bind fun K' hK' => ?_
  refine (dependsSmoothly_recip hM.eigenvalues).bind fun r hr => ?_
  refine (dependsSmoothly_solve (hK.mul hL.eigenvectors) ((hK'.mul hM.eigenvectors).colScale hr)).bind fun X hX => ?_
  refine (dependsSmoothly_solve (hK.mul hL.eigenvectors) (hK.mul hM.eigenvectors)).bind fun Y hY => ?_
  have ht : SmoothMat k x fun y => rowScale (L y).eigenvalues (X y) := .rowScale hL.eigenvalues hX
  exact DependsSmoothly.pure ⟨.smul contDiffAt_const (ht.add hY), .smul contDiffAt_const (ht.neg.add hY)⟩

/-- scattering.py 391-464 `_extend_s_matrix`. -/
theorem dependsSmoothly_extendSMatrix {s : E → Blocks ι} {L M : E → LayerSolveResult ι} {d e : E → ℝ}
    (hs : SmoothBlocks k x s) (hL : SmoothLayer k x L) (hd : ContDiffAt ℝ k d x) (hM : SmoothLayer k x M)
    (he : ContDiffAt ℝ k e x) :
    DependsSmoothly (SmoothBlocks k x) x fun y => extendSMatrix (s y) (L y) (d y) (M y) (e y) := by
  refine (dependsSmoothly_interfaceMatrices hL hM).bind fun I hI => ?_
  have hfd : SmoothVec k x fun y => phase (L y).eigenvalues (d y) := .phase hL.eigenvalues hd
  have hfe : SmoothVec k x fun y => phase (M y).eigenvalues (e y) := .phase hM.eigenvalues he
  have h3 : SmoothMat k x fun y => (I y).1 - rowScale (phase (L y).eigenvalues (d y)) (s y).s12 * (I y).2 :=
    hI.1.sub ((SmoothMat.rowScale hfd hs.s12).mul hI.2)
  refine (dependsSmoothly_solve h3 (.rowScale hfd hs.s11)).bind fun X hX => ?_
  refine (dependsSmoothly_solve h3
    (.colScale (((SmoothMat.rowScale hfd hs.s12).mul hI.1).sub hI.2) hfe)).bind fun Y hY => ?_
  exact DependsSmoothly.pure ⟨hX, hY, ((hs.s22.mul hI.2).mul hX).add hs.s21,
    ((hs.s22.mul hI.2).mul hY).add (.colScale (hs.s22.mul hI.1) hfe)⟩

/-- scattering.py 467-514 `_pair_s_matrix`. -/
theorem dependsSmoothly_pairSMatrix {L M : E → LayerSolveResult ι} {d e : E → ℝ} (hL : SmoothLayer k x L)
    (hd : ContDiffAt ℝ k d x) (hM : SmoothLayer k x M) (he : ContDiffAt ℝ k e x) :
    DependsSmoothly (SmoothScattering k x) x fun y => pairSMatrix (L y) (d y) (M y) (e y) := by
  refine (dependsSmoothly_interfaceMatrices hL hM).bind fun I hI => ?_
  have hfd : SmoothVec k x fun y => phase (L y).eigenvalues (d y) := .phase hL.eigenvalues hd
  have hfe : SmoothVec k x fun y => phase (M y).eigenvalues (e y) := .phase hM.eigenvalues he
  refine (dependsSmoothly_solve hI.1 (.diag hfd)).bind fun X hX => ?_
  refine (dependsSmoothly_solve hI.1 (.colScale hI.2.neg hfe)).bind fun Y hY => ?_
  exact DependsSmoothly.pure ⟨⟨hX, hY, hI.2.mul hX, (hI.2.mul hY).add (.colScale hI.1 hfe)⟩, hL, hd, hM, he⟩

theorem SmoothScattering.identity {L : E → LayerSolveResult ι} {d : E → ℝ} (hL : SmoothLayer k x L)
    (hd : ContDiffAt ℝ k d x) : SmoothScattering k x fun y => identitySMatrix (L y) (d y) :=
  ⟨⟨.const _, .const _, .const _, .const _⟩, hL, hd, hL, hd⟩

/-- scattering.py 313-347 `append_layer`. -/
theorem dependsSmoothly_appendLayer {s : E → ScatteringMatrix ι} {M : E → LayerSolveResult ι} {e : E → ℝ}
    (hs : SmoothScattering k x s) (hM : SmoothLayer k x M) (he : ContDiffAt ℝ k e x) :
    DependsSmoothly (SmoothScattering k x) x fun y => appendLayer (s y) (M y) (e y) := by
  refine (dependsSmoothly_extendSMatrix hs.blocks hs.endLayer hs.endThickness hM he).bind fun B hB => ?_
  exact DependsSmoothly.pure ⟨hB, hs.startLayer, hs.startThickness, hM, he⟩

/-- scattering.py 350-388 `prepend_layer`. -/
theorem dependsSmoothly_prependLayer {s : E → ScatteringMatrix ι} {M : E → LayerSolveResult ι} {e : E → ℝ}
    (hs : SmoothScattering k x s) (hM : SmoothLayer k x M) (he : ContDiffAt ℝ k e x) :
    DependsSmoothly (SmoothScattering k x) x fun y => prependLayer (s y) (M y) (e y) := by
  refine (dependsSmoothly_extendSMatrix (s := fun y =>
      { s11 := (s y).s22, s12 := (s y).s21, s21 := (s y).s12, s22 := (s y).s11 })
    ⟨hs.blocks.s22, hs.blocks.s21, hs.blocks.s12, hs.blocks.s11⟩ hs.startLayer hs.startThickness hM he).bind
    fun B hB => ?_
  exact DependsSmoothly.pure ⟨⟨hB.s22, hB.s21, hB.s12, hB.s11⟩, hM, he, hs.endLayer, hs.endThickness⟩

/-! ### Lists -/

theorem SmoothList.nil {α : Type} {P : (E → α) → Prop} : SmoothList P fun _ : E => [] :=
  ⟨[], fun _ => rfl, by simp⟩

theorem SmoothList.cons {α : Type} {P : (E → α) → Prop} {a : E → α} {g : E → List α} (ha : P a)
    (hg : SmoothList P g) : SmoothList P fun y => a y :: g y := by
  obtain ⟨gs, h, hP⟩ := hg
  exact ⟨a :: gs, fun y => by simp [h y], by simpa using ⟨ha, hP⟩⟩

theorem SmoothList.reverse {α : Type} {P : (E → α) → Prop} {g : E → List α} (hg : SmoothList P g) :
    SmoothList P fun y => (g y).reverse := by
  obtain ⟨gs, h, hP⟩ := hg
  exact ⟨gs.reverse, fun y => by simp [h y], by simpa using hP⟩

theorem SmoothList.append {α : Type} {P : (E → α) → Prop} {f g : E → List α} (hf : SmoothList P f)
    (hg : SmoothList P g) : SmoothList P fun y => f y ++ g y := by
  obtain ⟨fs, h, hP⟩ := hf
  obtain ⟨gs, h', hP'⟩ := hg
  refine ⟨fs ++ gs, fun y => by simp [h y, h' y], fun a ha => ?_⟩
  rcases List.mem_append.1 ha with ha | ha
  exacts [hP a ha, hP' a ha]

theorem SmoothList.map {α γ : Type} {P : (E → α) → Prop} {Q : (E → γ) → Prop} {g : E → List α} (r : α → γ)
    (hr : ∀ a, P a → Q fun y => r (a y)) (hg : SmoothList P g) : SmoothList Q fun y => (g y).map r := by
  obtain ⟨gs, h, hP⟩ := hg
  refine ⟨gs.map fun a y => r (a y), fun y => by simp [h y], ?_⟩
  simp only [List.mem_map, forall_exists_index, and_imp, forall_apply_eq_imp_iff₂]
  exact fun a ha => hr a (hP a ha)

theorem SmoothList.zip {α γ : Type} {P : (E → α) → Prop} {Q : (E → γ) → Prop} {f : E → List α} {g : E → List γ}
    (hf : SmoothList P f) (hg : SmoothList Q g) :
    SmoothList (fun p => P (fun y => (p y).1) ∧ Q fun y => (p y).2) fun y => (f y).zip (g y) := by
  obtain ⟨fs, h, hP⟩ := hf
  obtain ⟨gs, h', hQ⟩ := hg
  refine ⟨(fs.zip gs).map fun p y => (p.1 y, p.2 y), fun y => ?_, ?_⟩
  · dsimp only; rw [h y, h' y, List.zip_map, List.map_map]
    rfl
  · intro p hp
    obtain ⟨⟨a, b⟩, hab, rfl⟩ := List.mem_map.1 hp
    exact ⟨hP a (List.of_mem_zip hab).1, hQ b (List.of_mem_zip hab).2⟩

/-- scattering.py 197-209: the loop over the remaining layers. -/
theorem dependsSmoothly_appendLoop (ls : List (E → LayerSolveResult ι × ℝ))
    (hl : ∀ p ∈ ls, SmoothLayer k x (fun y => (p y).1) ∧ ContDiffAt ℝ k (fun y => (p y).2) x)
    {s : E → ScatteringMatrix ι} (hs : SmoothScattering k x s) :
    DependsSmoothly (SmoothList (SmoothScattering k x)) x fun y => appendLoop (s y) (ls.map fun p => p y) := by
  induction ls generalizing s with
  | nil => exact DependsSmoothly.pure SmoothList.nil
  | cons p ls ih =>
    have hp := hl p (by simp)
    refine (dependsSmoothly_appendLayer hs hp.1 hp.2).bind fun s' hs' => ?_
    refine (ih (fun q hq => hl q (by simp [hq])) hs').bind fun t ht => ?_
    exact DependsSmoothly.pure (ht.cons hs')

/-- The scan of scattering.py 264-280. -/
theorem dependsSmoothly_scanLoop (ls : List (E → LayerSolveResult ι × ℝ))
    (hl : ∀ p ∈ ls, SmoothLayer k x (fun y => (p y).1) ∧ ContDiffAt ℝ k (fun y => (p y).2) x)
    {s : E → ScatteringMatrix ι} (hs : SmoothScattering k x s) :
    DependsSmoothly (SmoothScattering k x) x fun y => scanLoop (s y) (ls.map fun p => p y) := by
  induction ls generalizing s with
  | nil => exact DependsSmoothly.pure hs
  | cons p ls ih =>
    have hp := hl p (by simp)
    refine (dependsSmoothly_appendLayer hs hp.1 hp.2).bind fun s' hs' => ?_
    exact ih (fun q hq => hl q (by simp [hq])) hs'

end Fmmax.Spec
