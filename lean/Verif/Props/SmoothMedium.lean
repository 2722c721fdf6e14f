import Verif.Proofs.SmoothOperators
import Verif.Proofs.Media
import Verif.Props.SmoothUniform
import Verif.Props.Radiation

/-!
C117: scattering matrices and fields of patterned stacks depend smoothly on the materials, although eigenvectors do not.
-/

namespace Fmmax

open Matrix Spec Topology

variable {E : Type} [NormedAddCommGroup E] [NormedSpace ℝ E] {k : WithTop ℕ∞} {x : E}
variable {ι : Type} [Fintype ι] [DecidableEq ι] {β : Type}

theorem Spec.SmoothlyVarying.independent {L : E → LayerSolveResult ι} (h : SmoothlyVarying k x L) :
    IsUnit (L x).eigenvectors.det := h.elim (fun h => h.2) fun h => h.independent

theorem Spec.SmoothlyVarying.operator {L : E → LayerSolveResult ι} (h : SmoothlyVarying k x L) {D : Set E}
    (hD : ∀ y ∈ D, IsUnit (L y).eigenvectors.det) (hx : x ∈ D) : OperatorLayer D k x L :=
  h.elim (fun h => h.1.operator hD hx) fun h => h.operator hD

/-- Layers and thicknesses as pairs. -/
theorem pairs_of_lists {layers : List (E → LayerSolveResult ι)} {ds : List (E → ℝ)} (hlen : layers.length = ds.length) {D : Set E}
    (hl : ∀ L ∈ layers, OperatorLayer D k x L) (hd : ∀ d ∈ ds, ContDiffAt ℝ k d x) :
    ∃ ps : List (E → LayerSolveResult ι × ℝ), (∀ p ∈ ps, OperatorPair D k x p) ∧
      (ps.map fun p y => (p y).1) = layers ∧ (ps.map fun p y => (p y).2) = ds := by
  induction layers generalizing ds with
  | nil =>
    cases ds with
    | nil => exact ⟨[], by simp, rfl, rfl⟩
    | cons d ds => simp at hlen
  | cons L layers ih =>
    cases ds with
    | nil => simp at hlen
    | cons d ds =>
      obtain ⟨ps, h1, h2, h3⟩ := ih (ds := ds) (by simpa using hlen) (fun L h => hl L (by simp [h])) fun d h => hd d (by simp [h])
      refine ⟨(fun y => (L y, d y)) :: ps, ?_, by rw [List.map_cons, h2], by rw [List.map_cons, h3]⟩
      intro p hp
      rcases List.mem_cons.1 hp with rfl | hp
      · exact ⟨hl L (by simp), hd d (by simp)⟩
      · exact h1 p hp

/-- **C117** If both end layers depend smoothly on the parameters, and the materials of the layers between them do, then so does the
scattering matrix, although eigenvectors, their normalisation and their order may be arbitrary functions of the parameters. -/
theorem C117_stack_s_matrix {L₀ Lₙ : E → LayerSolveResult ι} {Ms : List (E → LayerSolveResult ι)} {ds : List (E → ℝ)}
    (h₀ : SmoothLayer k x L₀) (hₙ : SmoothLayer k x Lₙ) (i₀ : IsUnit (L₀ x).eigenvectors.det) (iₙ : IsUnit (Lₙ x).eigenvectors.det)
    (hM : ∀ M ∈ Ms, SmoothlyVarying k x M) (hd : ∀ d ∈ ds, ContDiffAt ℝ k d x) :
    DependsSmoothlyOn (Diagonalisable Ms) (SmoothBlocks k x) x fun y =>
      (stackSMatrix ((L₀ :: (Ms ++ [Lₙ])).map fun L => L y) (ds.map fun d => d y)).map fun S => S.toBlocks := by
  intro v hv
  obtain ⟨S, hS, rfl⟩ : ∃ S, stackSMatrix ((L₀ :: (Ms ++ [Lₙ])).map fun L => L x) (ds.map fun d => d x) = .ok S ∧ S.toBlocks = v := by
    beta_reduce at hv
    cases h : stackSMatrix ((L₀ :: (Ms ++ [Lₙ])).map fun L => L x) (ds.map fun d => d x) with
    | error e => rw [h] at hv; cases hv
    | ok S => rw [h] at hv; injection hv with hv; exact ⟨S, rfl, hv⟩
  have hlen : (L₀ :: (Ms ++ [Lₙ])).length = ds.length := by
    obtain ⟨ss, hss, -⟩ := bind_eq_ok.1 hS
    simpa using (stackSMatrices_length hss).1
  let D : Set E := Diagonalisable (L₀ :: (Ms ++ [Lₙ]))
  have hx : x ∈ D := by
    intro L hL
    rcases List.mem_cons.1 hL with rfl | hL
    · exact i₀
    · rcases List.mem_append.1 hL with hL | hL
      · exact (hM L hL).independent
      · rw [List.mem_singleton.1 hL]
        exact iₙ
  have hop : ∀ L ∈ L₀ :: (Ms ++ [Lₙ]), OperatorLayer D k x L := by
    intro L hL
    have hDL : ∀ y ∈ D, IsUnit (L y).eigenvectors.det := fun y hy => hy L hL
    rcases List.mem_cons.1 hL with rfl | hL
    · exact h₀.operator hDL hx
    · rcases List.mem_append.1 hL with hL | hL
      · exact (hM L hL).operator hDL hx
      · rw [List.mem_singleton.1 hL] at hDL ⊢
        exact hₙ.operator hDL hx
  have hnear : ∀ᶠ y in 𝓝 x, y ∈ Diagonalisable Ms → y ∈ D := by
    filter_upwards [h₀.eigenvectors.det.continuousAt.eventually_ne i₀.ne_zero,
      hₙ.eigenvectors.det.continuousAt.eventually_ne iₙ.ne_zero] with y h1 h2 hy L hL
    rcases List.mem_cons.1 hL with rfl | hL
    · exact isUnit_iff_ne_zero.2 h1
    · rcases List.mem_append.1 hL with hL | hL
      · exact hy L hL
      · rw [List.mem_singleton.1 hL]
        exact isUnit_iff_ne_zero.2 h2
  obtain ⟨ps, hps, e1, e2⟩ := pairs_of_lists hlen hop hd
  have em1 : ∀ y, ((L₀ :: (Ms ++ [Lₙ])).map fun L => L y) = ps.map fun p => (p y).1 := fun y => by
    rw [← e1, List.map_map]; rfl
  have em2 : ∀ y, (ds.map fun d => d y) = ps.map fun p => (p y).2 := fun y => by
    rw [← e2, List.map_map]; rfl
  obtain ⟨p, t, rfl⟩ : ∃ p t, ps = p :: t := by
    cases ps with
    | nil => simp at e1
    | cons p t => exact ⟨p, t, rfl⟩
  obtain ⟨q, hq⟩ : ∃ q, (p :: t).getLast? = some q := ⟨_, List.getLast?_eq_some_getLast (by simp)⟩
  have hpL : (fun y => (p y).1) = L₀ := by
    rw [List.map_cons] at e1
    exact (List.cons.inj e1).1
  have hqL : (fun y => (q y).1) = Lₙ := by
    have := congrArg List.getLast? e1
    rw [List.getLast?_map, hq, Option.map_some] at this
    have h2 : (L₀ :: (Ms ++ [Lₙ])).getLast? = some Lₙ := by
      rw [← List.cons_append, List.getLast?_concat]
    rw [h2] at this
    exact Option.some.inj this
  have hstack : DependsSmoothlyOn D (OperatorScattering D k x p q) x fun y =>
      stackSMatrix ((p :: t).map fun p => (p y).1) ((p :: t).map fun p => (p y).2) := by
    refine (dependsOn_stackSMatrices hx p t hps).bind fun ss hss => ?_
    obtain ⟨a, ha, hl⟩ := hss.getLast hq
    simp only [hl]
    exact DependsSmoothlyOn.pure ha
  rw [em1, em2] at hS
  obtain ⟨g, hgx, hg, hge⟩ := hstack S hS
  obtain ⟨B, hB, hBe⟩ := hg.blocks
  have hp' : ∀ y, (p y).1.eigenvectors = (L₀ y).eigenvectors := fun y => by rw [← hpL]
  have hq' : ∀ y, (q y).1.eigenvectors = (Lₙ y).eigenvectors := fun y => by rw [← hqL]
  simp only [hp', hq'] at hBe
  refine ⟨fun y => inModes (L₀ y).eigenvectors (Lₙ y).eigenvectors (B y), ?_, ?_, ?_⟩
  · rw [← hgx]
    exact (hBe.self_of_nhds hx).symm
  · have f₀ := h₀.eigenvectors.inv i₀.ne_zero
    have fₙ := hₙ.eigenvectors.inv iₙ.ne_zero
    exact ⟨(fₙ.mul hB.s11).mul h₀.eigenvectors, (fₙ.mul hB.s12).mul hₙ.eigenvectors, (f₀.mul hB.s21).mul h₀.eigenvectors,
      (f₀.mul hB.s22).mul hₙ.eigenvectors⟩
  · filter_upwards [hnear, hge, hBe] with y h1 h2 h3 hy
    beta_reduce
    rw [em1, em2, h2 (h1 hy)]
    exact congrArg Except.ok (h3 (h1 hy))

/-- **C117** The fields inside the stack, including those inside the layers whose eigenvectors are arbitrary, depend smoothly on the
parameters, if the incident waves do: `φ a` are the Fourier coefficients of the transverse magnetic field of the waves `a`. -/
theorem C117_fields {layers : List (E → LayerSolveResult ι)} {ds : List (E → ℝ)} {L₀ Lₙ : E → LayerSolveResult ι}
    (h₀ : layers.head? = some L₀) (hₙ : layers.getLast? = some Lₙ) (hl : ∀ L ∈ layers, SmoothlyVarying k x L)
    (hd : ∀ d ∈ ds, ContDiffAt ℝ k d x) {a₀ bₙ : E → Matrix (ι ⊕ ι) β ℂ}
    (ha : SmoothMat k x fun y => (L₀ y).eigenvectors * a₀ y) (hb : SmoothMat k x fun y => (Lₙ y).eigenvectors * bₙ y) (i : ℕ)
    {z : E → β → ℝ} (hz : ∀ c, ContDiffAt ℝ k (fun y => z y c) x) :
    DependsSmoothlyOn (Diagonalisable layers) (SmoothFields k x) x fun y =>
      fieldsInStack (layers.map fun L => L y) (ds.map fun d => d y) (a₀ y) (bₙ y) i (z y) := by
  intro v hv
  have hlen : layers.length = ds.length := by
    obtain ⟨ss, hss, -⟩ := bind_eq_ok.1 hv
    obtain ⟨ss, hss, -⟩ := bind_eq_ok.1 hss
    simpa using (stackSMatrices_length hss).1
  have hx : x ∈ Diagonalisable layers := fun L hL => (hl L hL).independent
  have hop : ∀ L ∈ layers, OperatorLayer (Diagonalisable layers) k x L := fun L hL => (hl L hL).operator (fun y hy => hy L hL) hx
  obtain ⟨ps, hps, e1, e2⟩ := pairs_of_lists hlen hop hd
  have em1 : ∀ y, (layers.map fun L => L y) = ps.map fun p => (p y).1 := fun y => by
    rw [← e1, List.map_map]; rfl
  have em2 : ∀ y, (ds.map fun d => d y) = ps.map fun p => (p y).2 := fun y => by
    rw [← e2, List.map_map]; rfl
  obtain ⟨p, hp, hpL⟩ : ∃ p, ps.head? = some p ∧ (fun y => (p y).1) = L₀ := by
    rw [← e1, List.head?_map] at h₀
    cases h : ps.head? with
    | none => rw [h] at h₀; simp at h₀
    | some p => rw [h] at h₀; exact ⟨p, rfl, Option.some.inj h₀⟩
  obtain ⟨q, hq, hqL⟩ : ∃ q, ps.getLast? = some q ∧ (fun y => (q y).1) = Lₙ := by
    rw [← e1, List.getLast?_map] at hₙ
    cases h : ps.getLast? with
    | none => rw [h] at hₙ; simp at hₙ
    | some p => rw [h] at hₙ; exact ⟨p, rfl, Option.some.inj hₙ⟩
  have hp' : ∀ y, (p y).1 = L₀ y := fun y => congrFun hpL y
  have hq' : ∀ y, (q y).1 = Lₙ y := fun y => congrFun hqL y
  suffices h : DependsSmoothlyOn (Diagonalisable layers) (SmoothFields k x) x fun y =>
      fieldsInStack (ps.map fun p => (p y).1) (ps.map fun p => (p y).2) (a₀ y) (bₙ y) i (z y) by
    simp only [em1, em2] at hv ⊢
    exact h v hv
  clear hv em1 em2 e1 e2
  unfold fieldsInStack
  refine (dependsOn_interior hx hp hq hps).bind fun ss hss => ?_
  refine (dependsOn_stackAmplitudes (a := a₀) (b := bₙ) hx hps hss (by simpa only [hp'] using ha)
    (by simpa only [hq'] using hb)).bind fun abs habs => ?_
  obtain ⟨gs, hg, hR⟩ := habs
  simp only [hg, List.getElem?_map]
  cases hr : ps[i]? with
  | none =>
    intro v hv
    simp at hv
  | some r =>
    obtain ⟨ab, hab, hrab⟩ : ∃ ab, gs[i]? = some ab ∧ OperatorAmplitudes (Diagonalisable layers) k x r ab := by
      clear hg
      obtain ⟨hi, hri⟩ := List.getElem?_eq_some_iff.1 hr
      have hi' : i < gs.length := hR.length_eq ▸ hi
      have := hR.get hi hi'
      simp only [List.get_eq_getElem] at this
      rw [hri] at this
      exact ⟨gs[i], List.getElem?_eq_getElem hi', this⟩
    rw [hab]
    simp only [Option.map_some]
    have hrp := hps r (List.mem_of_getElem? hr)
    exact dependsOn_fields hx hrp (hrab.colocate hrp hz)

/-! ### From materials to layers -/

theorem dependsSmoothly_eigenproblemMatrix {lam : E → ℝ} {q : E → ι → ℝ × ℝ} {m : E → FourierMatrices ι} (hlam : ContDiffAt ℝ k lam x)
    (hq : ∀ i, SmoothPair k x fun y => q y i) (hm : SmoothFourierMatrices k x m) :
    DependsSmoothly (SmoothMat k x) x fun y => eigenproblemMatrix (lam y) (q y) (m y) := by
  refine DependsSmoothly.bind (P := SmoothMat k x) ?_ fun K hK => ?_
  · refine (dependsSmoothly_solve hm.zPermeability (SmoothMat.diag (SmoothVec.kx hq))).bind fun X hX => ?_
    refine (dependsSmoothly_solve hm.zPermeability (SmoothMat.diag (SmoothVec.ky hq))).bind fun Y hY => ?_
    exact DependsSmoothly.pure (SmoothMat.fromBlocks (.rowScale (.kx hq) hX) (.rowScale (.kx hq) hY)
      (.rowScale (.ky hq) hX) (.rowScale (.ky hq) hY))
  refine DependsSmoothly.bind (P := SmoothMat k x) ?_ fun W hW => ?_
  · refine DependsSmoothly.bind (P := SmoothMat k x) ?_ ?_
    · refine (dependsSmoothly_solve hm.zPermittivity (SmoothMat.diag (SmoothVec.kx hq))).bind fun X hX => ?_
      refine (dependsSmoothly_solve hm.zPermittivity (SmoothMat.diag (SmoothVec.ky hq))).bind fun Y hY => ?_
      exact DependsSmoothly.pure (SmoothMat.fromBlocks (.rowScale (.ky hq) hY) (.rowScale (SmoothVec.ky hq).neg hX)
        (.rowScale (SmoothVec.kx hq).neg hY) (.rowScale (.kx hq) hX))
    · intro K hK
      refine (dependsSmoothly_angularFrequency hlam).bind fun w hw => ?_
      exact DependsSmoothly.pure (((hm.transversePermeability.smul ((contDiffAt_ofReal hw).pow 2))).sub hK)
  exact DependsSmoothly.pure ((hm.transversePermittivity.mul hW).sub (hK.mul hm.transversePermeability))

/-- The imaginary part of a forward root is positive unless the number is a non-negative real. -/
theorem forward_im_pos {w : ℂ} (h : -w ∈ Complex.slitPlane) : 0 < (selectEigenvaluesSign (csqrt w)).im := by
  obtain ⟨h1, h2, h3⟩ := selectEigenvaluesSign_forward w
  refine h2.lt_of_ne fun h0 => ?_
  set s := selectEigenvaluesSign (csqrt w)
  rw [← h1] at h
  have e : -s ^ 2 = ((-(s.re ^ 2) : ℝ) : ℂ) := by
    apply Complex.ext <;> simp [pow_two, ← h0]
  rw [e, Complex.ofReal_mem_slitPlane] at h
  have := sq_nonneg s.re
  linarith

theorem neg_sq_mem_slitPlane {q : ℂ} (h : 0 < q.im) : -q ^ 2 ∈ Complex.slitPlane := by
  rw [Complex.mem_slitPlane_iff]
  by_cases hr : q.re = 0
  · left
    simp only [Complex.neg_re, pow_two, Complex.mul_re, hr]
    nlinarith
  · right
    simp only [Complex.neg_im, pow_two, Complex.mul_im]
    intro h0
    have : q.re * q.im = 0 := by linarith
    rcases mul_eq_zero.1 this with h1 | h1
    · exact hr h1
    · exact h.ne' h1

theorem isEig_mem_spectrum {n : Type} [Fintype n] [DecidableEq n] {eig : Matrix n n ℂ → (n → ℂ) × Matrix n n ℂ} (he : IsEig eig)
    (A : Matrix n n ℂ) (i : n) : (eig A).1 i ∈ spectrum ℂ A := by
  rw [← Matrix.spectrum_toLin', ← Module.End.hasEigenvalue_iff_mem_spectrum]
  refine Module.End.hasEigenvalue_of_hasEigenvector (x := fun a => (eig A).2 a i) ⟨Module.End.mem_eigenspace_iff.2 ?_, ?_⟩
  · ext a
    have := congrFun (congrFun (he.eigen A) a) i
    rw [Matrix.mul_diagonal, Matrix.mul_apply] at this
    rw [Matrix.toLin'_apply]
    simp only [Matrix.mulVec, dotProduct, Pi.smul_apply, smul_eq_mul]
    rw [this, mul_comm]
  · obtain ⟨a, ha⟩ := he.ne_zero A i
    exact fun h => ha (congrFun h a)

/-- **C117** The numerical eigensolve: if its Fourier matrices, wavelength, in-plane wavevector and lattice are smooth, and if at the
point `x` the modes decay and are linearly independent, then the solution is a `SmoothMedium`, whatever eigenvectors the eigensolver
chooses. -/
theorem C117_eigensolve {eig : Matrix (ι ⊕ ι) (ι ⊕ ι) ℂ → (ι ⊕ ι → ℂ) × Matrix (ι ⊕ ι) (ι ⊕ ι) ℂ} (he : IsEig eig) {lam : E → ℝ}
    {p : E → ℝ × ℝ} {lat : E → LatticeVectors} {m : E → FourierMatrices ι} (G : ι → ℤ × ℤ) (hlam : ContDiffAt ℝ k lam x)
    (hp : SmoothPair k x p) (hu : SmoothPair k x fun y => (lat y).u) (hv : SmoothPair k x fun y => (lat y).v)
    (hm : SmoothFourierMatrices k x m) (hx : ∀ r, numericalEigensolve eig (lam x) (p x) (lat x) (m x) G = .ok r →
      IsUnit r.eigenvectors.det ∧ ∀ i, 0 < (r.eigenvalues i).im) :
    DependsSmoothly (SmoothMedium k x) x fun y => numericalEigensolve eig (lam y) (p y) (lat y) (m y) G := by
  refine (dependsSmoothly_transverseWavevectors G hp hu hv).bind' fun q hqs hqx => ?_
  refine (dependsSmoothly_eigenproblemMatrix hlam hqs hm).bind' fun A hA hAx => ?_
  obtain ⟨hdet, hq⟩ := hx _ (numericalEigensolve_ok_iff.2 ⟨_, _, hqx, hAx, rfl⟩)
  change IsUnit (eig (A x)).2.det at hdet
  refine DependsSmoothly.pure ⟨⟨hlam, hp, hu, hv, fun _ => rfl, hm.zPermittivity, hm.inverseZPermittivity, hm.zPermeability,
    hm.inverseZPermeability, hm.transversePermeability⟩, ⟨A, hA, Filter.Eventually.of_forall fun y => ?_⟩, hdet, -Complex.I, ?_⟩
  · change A y * (eig (A y)).2 = (eig (A y)).2 * diagonal fun i => selectEigenvaluesSign (csqrt ((eig (A y)).1 i)) ^ 2
    simp only [(selectEigenvaluesSign_forward _).1]
    exact he.eigen (A y)
  · have hU : IsOpen {w : ℂ | -w ∈ Complex.slitPlane} := Complex.isOpen_slitPlane.preimage continuous_neg
    have hs : spectrum ℂ (A x) ⊆ {w : ℂ | -w ∈ Complex.slitPlane} := by
      have e : A x = (eig (A x)).2 * diagonal (eig (A x)).1 * (eig (A x)).2⁻¹ := by
        rw [← he.eigen, Matrix.mul_assoc, mul_nonsing_inv _ hdet, Matrix.mul_one]
      rw [e, spectrum_conj_diagonal hdet]
      rintro _ ⟨i, rfl⟩
      have := neg_sq_mem_slitPlane (hq i)
      change -selectEigenvaluesSign (csqrt ((eig (A x)).1 i)) ^ 2 ∈ _ at this
      rwa [(selectEigenvaluesSign_forward _).1] at this
    filter_upwards [hA.eventually_spectrum hU hs] with y hy i
    have := forward_im_pos (hy (isEig_mem_spectrum he (A y) i))
    simpa using this

theorem dependsSmoothly_fourierConvolutionMatrix {nx ny : ℕ} {g : E → Grid nx ny} (hg : SmoothMat k x g) (G : ι → ℤ × ℤ) :
    DependsSmoothly (SmoothMat k x) x fun y => fourierConvolutionMatrix (g y) G := by
  by_cases hR : Resolves nx ny G
  · simp only [fourierConvolutionMatrix_eq _ hR]
    refine DependsSmoothly.pure fun i j => ?_
    simp only [Matrix.of_apply, fourierCoefficient, div_eq_mul_inv]
    exact (ContDiffAt.sum fun r _ => ContDiffAt.sum fun s _ => (hg r s).mul contDiffAt_const).mul contDiffAt_const
  · intro v hv
    exact absurd (fourierConvolutionMatrix_ok_iff.1 hv).1 hR

theorem dependsSmoothly_recipGrid {nx ny : ℕ} {g : E → Grid nx ny} (hg : SmoothMat k x g) :
    DependsSmoothly (SmoothMat k x) x fun y => recipGrid (g y) := by
  refine DependsSmoothly.guard (C := fun y => ∀ r s, g y r s ≠ 0) (fun y hy => if_pos hy) ?_ (fun h0 => ?_) fun h0 => ?_
  · intro y hy v hv
    exact hy (recipGrid_ok_iff.1 hv).1
  · exact Filter.eventually_all.2 fun r => Filter.eventually_all.2 fun s => (hg r s).continuousAt.eventually_ne (h0 r s)
  · intro r s
    simp only [Matrix.of_apply, one_div]
    exact contDiffAt_inv' (hg r s) (h0 r s)

theorem dependsSmoothly_fourierMatrices {nx ny : ℕ} {g : E → Grid nx ny} (hg : SmoothMat k x g) (lat : E → LatticeVectors) (G : ι → ℤ × ℤ) :
    DependsSmoothly (SmoothFourierMatrices k x) x fun y => fourierMatricesPatternedIsotropic (lat y) (g y) G .fft := by
  refine DependsSmoothly.bind (P := SmoothMat k x) ?_ fun T hT => ?_
  · refine (dependsSmoothly_fourierConvolutionMatrix hg G).bind fun X hX => ?_
    exact DependsSmoothly.pure (.fromBlocks hX (.const _) (.const _) hX)
  refine (dependsSmoothly_recipGrid hg).bind fun eta heta => ?_
  refine (dependsSmoothly_fourierConvolutionMatrix heta G).bind fun X hX => ?_
  refine (dependsSmoothly_fourierConvolutionMatrix hg G).bind fun Y hY => ?_
  exact DependsSmoothly.pure ⟨hX, hY, hT, .const _, .const _, .const _⟩

/-- **C117** Absorbing patterned layers: `eigensolve_isotropic_media` with the FFT formulation, for permittivities with positive
imaginary part. -/
theorem C117_absorbing_layer {eig : Matrix (ι ⊕ ι) (ι ⊕ ι) ℂ → (ι ⊕ ι → ℂ) × Matrix (ι ⊕ ι) (ι ⊕ ι) ℂ} (he : IsEig eig) {nx ny : ℕ}
    {lam : E → ℝ} {p : E → ℝ × ℝ} {lat : E → LatticeVectors} {ε : E → Grid nx ny} {G : ι → ℤ × ℤ} (hG : Function.Injective G)
    (hlam : ContDiffAt ℝ k lam x) (hp : SmoothPair k x p) (hu : SmoothPair k x fun y => (lat y).u)
    (hv : SmoothPair k x fun y => (lat y).v) (hε : SmoothMat k x ε) (hpos : 0 < lam x) (him : ∀ r s, 0 < (ε x r s).im)
    (hx : ∀ r, eigensolveIsotropicMedia eig (lam x) (p x) (lat x) (ε x) G .fft = .ok r → IsUnit r.eigenvectors.det) :
    DependsSmoothly (SmoothlyVarying k x) x fun y => eigensolveIsotropicMedia eig (lam y) (p y) (lat y) (ε y) G .fft := by
  unfold eigensolveIsotropicMedia at hx ⊢
  by_cases hn : nx = 1 ∧ ny = 1
  · simp only [dif_pos hn] at hx ⊢
    have key := C115_uniform_layer (ε := fun y => ε y ⟨0, by omega⟩ ⟨0, by omega⟩) G hlam hp hu hv (hε _ _) (by
      intro r hr i
      have hd := (C81_uniform_absorbing hpos hr (him _ _)).decay i
      refine ⟨fun h => ?_, fun h => absurd h hd.ne'⟩
      rw [h] at hd
      simp at hd)
    intro v hv
    obtain ⟨g, h1, h2, h3⟩ := key v hv
    exact ⟨g, h1, .inl ⟨h2, h1 ▸ hx v hv⟩, h3⟩
  · simp only [dif_neg hn] at hx ⊢
    refine DependsSmoothly.mono (P := SmoothMedium k x) (fun g h => .inr h) ?_
    refine (dependsSmoothly_fourierMatrices hε lat G).bind' fun m hm hmx => ?_
    refine C117_eigensolve he G hlam hp hu hv hm fun r hr => ?_
    have hr' : eigensolvePatternedIsotropic eig (lam x) (p x) (lat x) (ε x) G .fft = .ok r := by
      unfold eigensolvePatternedIsotropic
      rw [hmx]
      exact hr
    have hR : Resolves nx ny G := by
      unfold fourierMatricesPatternedIsotropic at hmx
      obtain ⟨T, hT, -⟩ := bind_eq_ok.1 hmx
      obtain ⟨X, hX, -⟩ := bind_eq_ok.1 hT
      exact (fourierConvolutionMatrix_ok_iff.1 hX).1
    have hr'' : eigensolveIsotropicMedia eig (lam x) (p x) (lat x) (ε x) G .fft = .ok r := by
      unfold eigensolveIsotropicMedia
      rw [dif_neg hn]
      exact hr'
    exact ⟨hx r hr', fun i => (C81_isotropic_absorbing he hpos hG hR hr'' him (hx r hr')).decay i⟩

/-- Solvers that succeed with smoothly varying layers. -/
theorem solvers_of_lists {P : (E → LayerSolveResult ι) → Prop} {fs : List (E → Res (LayerSolveResult ι))}
    (hf : ∀ f ∈ fs, DependsSmoothly P x f) {ms : List (LayerSolveResult ι)} (h : fs.mapM (fun f => f x) = .ok ms) :
    ∃ gs : List (E → LayerSolveResult ι), (gs.map fun g => g x) = ms ∧ (∀ g ∈ gs, P g) ∧
      ∀ᶠ y in 𝓝 x, fs.mapM (fun f => f y) = .ok (gs.map fun g => g y) ∧
        ∀ g ∈ gs, ∃ f ∈ fs, f y = .ok (g y) := by
  induction fs generalizing ms with
  | nil =>
    simp only [List.mapM_nil] at h
    cases h
    exact ⟨[], rfl, by simp, Filter.Eventually.of_forall fun y => ⟨rfl, by simp⟩⟩
  | cons f fs ih =>
    rw [List.mapM_cons] at h
    obtain ⟨v, hv, h⟩ := bind_eq_ok.1 h
    obtain ⟨vs, hvs, h⟩ := bind_eq_ok.1 h
    cases h
    obtain ⟨g, g1, g2, g3⟩ := hf f (by simp) v hv
    obtain ⟨gs, e1, e2, e3⟩ := ih (fun f h => hf f (by simp [h])) hvs
    refine ⟨g :: gs, by rw [List.map_cons, g1, e1], ?_, ?_⟩
    · intro a ha
      rcases List.mem_cons.1 ha with rfl | ha
      · exact g2
      · exact e2 a ha
    · filter_upwards [g3, e3] with y h1 h2
      refine ⟨by rw [List.mapM_cons, h1, h2.1]; rfl, ?_⟩
      intro a ha
      rcases List.mem_cons.1 ha with rfl | ha
      · exact ⟨f, by simp, h1⟩
      · obtain ⟨f', hf', h'⟩ := h2.2 a ha
        exact ⟨f', by simp [hf'], h'⟩

/-- **C117** From materials to the scattering matrix: solve all layers, then the stack.  The statement is about parameters for which
the eigensolver finds independent eigenvectors in the interior layers. -/
theorem C117_solved_stack {f₀ fₙ : E → Res (LayerSolveResult ι)} {fs : List (E → Res (LayerSolveResult ι))} {ds : List (E → ℝ)}
    (h₀ : DependsSmoothly (fun L => SmoothLayer k x L ∧ IsUnit (L x).eigenvectors.det) x f₀)
    (hₙ : DependsSmoothly (fun L => SmoothLayer k x L ∧ IsUnit (L x).eigenvectors.det) x fₙ)
    (hf : ∀ f ∈ fs, DependsSmoothly (SmoothlyVarying k x) x f) (hd : ∀ d ∈ ds, ContDiffAt ℝ k d x) :
    DependsSmoothlyOn {y | ∀ f ∈ fs, ∀ r, f y = .ok r → IsUnit r.eigenvectors.det} (SmoothBlocks k x) x fun y =>
      f₀ y >>= fun l₀ => fs.mapM (fun f => f y) >>= fun ms => fₙ y >>= fun lₙ =>
        (stackSMatrix (l₀ :: (ms ++ [lₙ])) (ds.map fun d => d y)).map fun S => S.toBlocks := by
  intro v hv
  obtain ⟨l₀, e₀, hv⟩ := bind_eq_ok.1 hv
  obtain ⟨ms, em, hv⟩ := bind_eq_ok.1 hv
  obtain ⟨lₙ, eₙ, hv⟩ := bind_eq_ok.1 hv
  obtain ⟨L₀, rfl, hL₀, E₀⟩ := h₀ l₀ e₀
  obtain ⟨Lₙ, rfl, hLₙ, Eₙ⟩ := hₙ lₙ eₙ
  obtain ⟨gs, rfl, hg, Eg⟩ := solvers_of_lists hf em
  have hlist : ∀ y, L₀ y :: ((gs.map fun g => g y) ++ [Lₙ y]) = (L₀ :: (gs ++ [Lₙ])).map fun g => g y := by
    intro y
    simp
  rw [hlist] at hv
  obtain ⟨B, hB, hBs, hBe⟩ := C117_stack_s_matrix hL₀.1 hLₙ.1 hL₀.2 hLₙ.2 hg hd v hv
  refine ⟨B, hB, hBs, ?_⟩
  filter_upwards [E₀, Eₙ, Eg, hBe] with y h1 h2 h3 h4 hy
  rw [h1, h2, h3.1]
  simp only [bind, Except.bind]
  rw [hlist]
  refine h4 fun g hgm => ?_
  obtain ⟨f, hfm, hfy⟩ := h3.2 g hgm
  exact hy f hfm _ hfy

/-- The absorbing pattern of `example_absorbing_pattern`, whose permittivity is shifted by a parameter `t`. -/
theorem example_smooth_pattern : ∃ (eig : Matrix (Fin 1 ⊕ Fin 1) (Fin 1 ⊕ Fin 1) ℂ → (Fin 1 ⊕ Fin 1 → ℂ) ×
    Matrix (Fin 1 ⊕ Fin 1) (Fin 1 ⊕ Fin 1) ℂ) (r : LayerSolveResult (Fin 1)), IsEig eig ∧ AbsorbingLayer r ∧
    eigensolveIsotropicMedia eig (2 * Real.pi) (0, 0) unitLattice (examplePattern + Matrix.of fun _ _ => ((0 : ℝ) : ℂ))
      (fun _ : Fin 1 => (0, 0)) .fft = .ok r ∧
    DependsSmoothly (SmoothlyVarying ⊤ 0) (0 : ℝ) fun t => eigensolveIsotropicMedia eig (2 * Real.pi) (0, 0) unitLattice
      (examplePattern + Matrix.of fun _ _ => (t : ℂ)) (fun _ : Fin 1 => (0, 0)) .fft := by
  obtain ⟨eig, r, he, hr, hv⟩ := example_absorbing_pattern
  have hl : (0 : ℝ) < 2 * Real.pi := by have := Real.pi_pos; positivity
  have ha := C81_isotropic_absorbing he hl (fun _ _ _ => Subsingleton.elim _ _) ⟨⟨0⟩, by simp⟩ hr (by intro r s; simp [examplePattern]) hv
  have e0 : examplePattern + Matrix.of (fun _ _ => ((0 : ℝ) : ℂ)) = examplePattern := by
    ext i j
    simp
  refine ⟨eig, r, he, ha, by rw [e0]; exact hr, ?_⟩
  refine C117_absorbing_layer (lam := fun _ => 2 * Real.pi) (p := fun _ => (0, 0)) (lat := fun _ => unitLattice)
    (ε := fun t : ℝ => examplePattern + Matrix.of fun _ _ => (t : ℂ)) he (fun _ _ _ => Subsingleton.elim _ _)
    contDiffAt_const ⟨contDiffAt_const, contDiffAt_const⟩ ⟨contDiffAt_const, contDiffAt_const⟩
    ⟨contDiffAt_const, contDiffAt_const⟩ ?_ hl ?_ ?_
  · intro i j
    exact contDiffAt_const.add (contDiffAt_ofReal contDiffAt_id)
  · intro i j
    simp [examplePattern]
  · intro r' hr'
    rw [e0, hr] at hr'
    cases hr'
    exact hv

/-- The hypotheses of `C117_solved_stack` and `C117_stack_s_matrix` are met by a patterned layer of varying permittivity and
thickness between two absorbing half-spaces. -/
example : ∃ (eig : Matrix (Fin 1 ⊕ Fin 1) (Fin 1 ⊕ Fin 1) ℂ → (Fin 1 ⊕ Fin 1 → ℂ) × Matrix (Fin 1 ⊕ Fin 1) (Fin 1 ⊕ Fin 1) ℂ)
    (f : ℝ → Res (LayerSolveResult (Fin 1))) (r : LayerSolveResult (Fin 1)) (B : ℝ → Blocks (Fin 1)), IsEig eig ∧ SmoothBlocks ⊤ 0 B ∧
    (∀ t, f t = eigensolveIsotropicMedia eig (2 * Real.pi) (0, 0) unitLattice (examplePattern + Matrix.of fun _ _ => (t : ℂ))
      (fun _ : Fin 1 => (0, 0)) .fft) ∧ f 0 = .ok r ∧
    ∀ᶠ t : ℝ in 𝓝 0, ∀ m, f t = .ok m → IsUnit m.eigenvectors.det →
      (stackSMatrix [r, m, r] [0, 1 + t, 0]).map (fun S => S.toBlocks) = .ok (B t) := by
  obtain ⟨eig, r, he, ha, hr, hf⟩ := example_smooth_pattern
  obtain ⟨S, -, hS, -⟩ := C81_absorbing_stack (layers := [r, r, r]) (ds := [0, 1 + 0, 0]) (by simp) (by simp) (lam := r.wavelength)
    (by simp) (by simpa using ha) (by simp)
  have hc : DependsSmoothly (fun L => SmoothLayer ⊤ 0 L ∧ IsUnit (L (0 : ℝ)).eigenvectors.det) 0 fun _ => .ok r :=
    DependsSmoothly.pure ⟨SmoothLayer.const r, ha.independent⟩
  have hd : ∀ d ∈ [fun _ => (0 : ℝ), fun t => 1 + t, fun _ => 0], ContDiffAt ℝ ⊤ d (0 : ℝ) := by
    intro d hd
    simp only [List.mem_cons, List.not_mem_nil, or_false] at hd
    rcases hd with rfl | rfl | rfl
    · exact contDiffAt_const
    · exact contDiffAt_const.add contDiffAt_id
    · exact contDiffAt_const
  obtain ⟨B, -, h1, h2⟩ := C117_solved_stack (ds := [fun _ => (0 : ℝ), fun t => 1 + t, fun _ => 0]) hc hc (fs := [_])
    (fun f h => List.mem_singleton.1 h ▸ hf) hd S.toBlocks (by
      simp only [List.mapM_cons, List.mapM_nil, hr]
      simp only [bind, Except.bind, pure, Except.pure, List.cons_append, List.nil_append, List.map_cons, List.map_nil, hS]
      rfl)
  refine ⟨eig, _, r, B, he, h1, fun _ => rfl, hr, ?_⟩
  filter_upwards [h2] with t ht m hm hu
  rw [← ht (by
    intro f hfm s hs
    obtain rfl := List.mem_singleton.1 hfm
    rw [← Except.ok.inj (hm.symm.trans hs)]
    exact hu)]
  simp only [List.mapM_cons, List.mapM_nil, hm]
  rfl

/-- The hypotheses of `C117_fields` are met for the same stack with a wave of unit amplitude incident on it. -/
example : ∃ (g : ℝ → LayerSolveResult (Fin 1)) (F : ℝ → Fields (Matrix (Fin 1) (Fin 1) ℂ)), SmoothlyVarying ⊤ 0 g ∧ SmoothFields ⊤ 0 F ∧
    ∀ᶠ t : ℝ in 𝓝 0, IsUnit (g t).eigenvectors.det →
      fieldsInStack [g 0, g t, g 0] [0, 1 + t, 0] (Matrix.of fun _ _ => 1) 0 1 (fun _ => 1 / 2) = .ok (F t) := by
  obtain ⟨eig, r, he, ha, hr, hf⟩ := example_smooth_pattern
  obtain ⟨g, rfl, hg, -⟩ := hf r hr
  obtain ⟨S, ps, -, hps, -⟩ := C81_absorbing_stack (layers := [g 0, g 0, g 0]) (ds := [0, 1 + 0, 0]) (by simp) (by simp)
    (lam := (g 0).wavelength) (by simp) (by simpa using ha) (by simp)
  have hd : ∀ d ∈ [fun _ => (0 : ℝ), fun t => 1 + t, fun _ => 0], ContDiffAt ℝ ⊤ d (0 : ℝ) := by
    intro d hd
    simp only [List.mem_cons, List.not_mem_nil, or_false] at hd
    rcases hd with rfl | rfl | rfl
    · exact contDiffAt_const
    · exact contDiffAt_const.add contDiffAt_id
    · exact contDiffAt_const
  have hreg : Regular (g 0).wavelength ([g 0, g 0, g 0].zip [0, 1 + 0, 0]) := by
    intro p hp
    simp only [List.zip_cons_cons, List.zip_nil_left, List.mem_cons, List.not_mem_nil, or_false] at hp
    rcases hp with rfl | rfl | rfl
    · exact ⟨rfl, ha.modes.2⟩
    · exact ⟨rfl, ha.modes.2⟩
    · exact ⟨rfl, ha.modes.2⟩
  obtain ⟨st, -, -, hst, -, -, -, -, -, hx⟩ := C40_interior_amplitudes hreg hps (Matrix.of fun _ (_ : Fin 1) => 1) 0
  have hlen : st.length = 3 := by
    have := congrArg List.length hst
    simpa [geometry] using this
  obtain ⟨s₀, s₁, s₂, rfl⟩ := List.length_eq_three.1 hlen
  have hwp : WellPosed (g 0) := by
    obtain ⟨E, hs, -⟩ := ha.solved
    exact hs.wellPosed
  have hu : IsUnit (g 0).eigenvectors.det := ha.independent
  have hfields := (fieldsFromWaveAmplitudes_eq_ok (l := g 0)
    (a := (colocateAmplitudes s₁.a s₁.b (fun _ => 1 / 2) (g 0) (1 + 0)).1)
    (b := (colocateAmplitudes s₁.a s₁.b (fun _ => 1 / 2) (g 0) (1 + 0)).2)).2 ⟨hwp, ha.modes.2, rfl⟩
  obtain ⟨F, -, h1, h2⟩ := C117_fields (L₀ := fun _ => g 0) (Lₙ := fun _ => g 0) (layers := [fun _ => g 0, g, fun _ => g 0]) (ds := [fun _ => (0 : ℝ), fun t => 1 + t, fun _ => 0])
    (a₀ := fun _ => Matrix.of fun _ _ => 1) (bₙ := fun _ => 0) (z := fun _ _ => 1 / 2) rfl rfl (by
      intro L hL
      simp only [List.mem_cons, List.not_mem_nil, or_false] at hL
      rcases hL with rfl | rfl | rfl
      · exact .inl ⟨SmoothLayer.const _, hu⟩
      · exact hg
      · exact .inl ⟨SmoothLayer.const _, hu⟩) hd (.const _) (.const _) 1 (fun _ => contDiffAt_const) _ (by
      simp only [fieldsInStack, List.map_cons, List.map_nil, hps]
      simp only [bind, Except.bind]
      rw [hx]
      exact hfields)
  refine ⟨g, F, hg, h1, h2.mono fun t ht hut => ht ?_⟩
  intro L hL
  simp only [List.mem_cons, List.not_mem_nil, or_false] at hL
  rcases hL with rfl | rfl | rfl
  · exact hu
  · exact hut
  · exact hu

end Fmmax
