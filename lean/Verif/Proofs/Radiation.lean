import Verif.Proofs.Absorbing
import Verif.Proofs.StackOps
import Verif.Spec.Radiation

/-! Absence of resonances in absorbing stacks, and existence of their scattering matrices. -/

set_option linter.unusedSectionVars false

namespace Fmmax

open Spec Matrix Filter Topology

variable {ι : Type} [Fintype ι] [DecidableEq ι] {β : Type}

theorem electricModes_isUnit {l : LayerSolveResult ι} {E : ModeMatrix ι} (hs : SolvedFor l E) (hm : CompleteModes l) :
    IsUnit (magneticToElectric l).det ∧ IsUnit (electricModes l).det := by
  obtain ⟨hv, hq⟩ := hm
  have hw := omega_ne_zero hs.wellPosed
  set N : ModeMatrix ι := (omega l : ℂ) ^ 2 • E - divergenceMatrix l with hN
  have hNX : N * magneticToElectric l = (omega l : ℂ) ^ 2 • (E * magneticToElectric l -
    divergenceMatrix l * l.transversePermeabilityMatrix) := SolvedFor.product
  have hNXφ : N * magneticToElectric l * l.eigenvectors =
      (omega l : ℂ) ^ 2 • (l.eigenvectors * Matrix.diagonal fun i => l.eigenvalues i ^ 2) := by
    rw [hNX, Matrix.smul_mul, hs.modes]
  have hdetX : IsUnit (magneticToElectric l).det := by
    have h1 : IsUnit (N * magneticToElectric l * l.eigenvectors).det := by
      rw [hNXφ, Matrix.det_smul, Matrix.det_mul, Matrix.det_diagonal, isUnit_iff_ne_zero]
      refine mul_ne_zero (pow_ne_zero _ (pow_ne_zero _ hw)) (mul_ne_zero hv.ne_zero ?_)
      exact Finset.prod_ne_zero_iff.2 fun i _ => pow_ne_zero _ (hq i)
    rw [Matrix.det_mul, Matrix.det_mul] at h1
    exact isUnit_of_mul_isUnit_right (isUnit_of_mul_isUnit_left h1)
  refine ⟨hdetX, ?_⟩
  unfold electricModes
  rw [Matrix.det_mul, Matrix.det_mul, Matrix.det_diagonal]
  refine (hdetX.mul hv).mul (isUnit_iff_ne_zero.2 ?_)
  exact Finset.prod_ne_zero_iff.2 fun i _ => inv_ne_zero (mul_ne_zero hw (hq i))

/-- A matrix with invertible determinant annihilates no column. -/
theorem column_eq_zero {A : ModeMatrix ι} (hA : IsUnit A.det) {x : Matrix (ι ⊕ ι) β ℂ} {c : β} (h : ∀ i, (A * x) i c = 0) (i : ι ⊕ ι) :
    x i c = 0 := by
  have e : x i c = (A⁻¹ * (A * x)) i c := by
    rw [← Matrix.mul_assoc, Matrix.nonsing_inv_mul _ hA, Matrix.one_mul]
  rw [e, Matrix.mul_apply]
  exact Finset.sum_eq_zero fun j _ => by rw [h j, mul_zero]

theorem propagator_apply (l : LayerSolveResult ι) (z : ℝ) (a : Matrix (ι ⊕ ι) β ℂ) (i : ι ⊕ ι) (c : β) :
    (propagator l z * a) i c = Complex.exp (Complex.I * l.eigenvalues i * z) * a i c := by
  unfold propagator
  rw [Matrix.diagonal_mul]

/-- Forward waves alone. -/
def forwardState (l : LayerSolveResult ι) (a : Matrix (ι ⊕ ι) β ℂ) : LayerState ι β where
  layer := l
  thickness := 0
  a := a
  b := 0

theorem stateFlux_forward (l : LayerSolveResult ι) (a : Matrix (ι ⊕ ι) β ℂ) (c : β) (z : ℝ) :
    stateFlux (forwardState l a) c z = netFlux (electricModes l * (propagator l z * a)) (l.eigenvectors * (propagator l z * a)) c := by
  unfold stateFlux electricAt magneticAt forwardState
  simp

theorem stateFlux_deriv {s : LayerState ι β} {E : ModeMatrix ι} (hs : SolvedFor s.layer E)
    (hq : ∀ i, s.layer.eigenvalues i ≠ 0) (c : β) (z : ℝ) :
    ∃ y u v, HasDerivAt (stateFlux s c) (-(omega s.layer) *
      (lossForm E (fun i => electricAt s.layer s.thickness s.a s.b z i c) + lossForm s.layer.transversePermeabilityMatrix y +
      lossForm s.layer.zPermittivityMatrix u + lossForm s.layer.zPermeabilityMatrix v)) z := by
  have h := poynting (maxwell_of_ode hs.wellPosed hs.zPermeability (transverseODE_modes hs hq s.thickness s.a s.b)) z c
  simp only [tangentialE_maxwellFields, tangentialH_maxwellFields] at h
  exact ⟨_, _, _, h⟩

namespace Spec.AbsorbingLayer

variable {l : LayerSolveResult ι}

theorem omega_pos (h : AbsorbingLayer l) : 0 < omega l := by
  unfold omega
  have := Real.pi_pos
  have := h.wavelength
  positivity

theorem passiveLayer (h : AbsorbingLayer l) : PassiveLayer l := by
  obtain ⟨E, hs, hE⟩ := h.solved
  exact ⟨h.wavelength, E, hs, hE.passive, h.permeability.1, h.zPermittivity.passive, h.zPermeability⟩

theorem modes (h : AbsorbingLayer l) : CompleteModes l := by
  obtain ⟨E, hs, hE⟩ := h.solved
  refine ⟨h.independent, fun j => ?_⟩
  refine absorbing_eigenvalue_ne_zero hs h.wavelength hE h.zPermittivity h.permeability.1 h.permeability.2 h.zPermeability ?_
  by_contra hn
  push Not at hn
  refine h.independent.ne_zero ?_
  exact Matrix.det_eq_zero_of_column_eq_zero j hn

/-- If the flux is stationary at some depth then the electric field vanishes there. -/
theorem stationary (h : AbsorbingLayer l) {s : LayerState ι β} (hsl : s.layer = l) {c : β} {z : ℝ}
    (hz : HasDerivAt (stateFlux s c) 0 z) (i : ι ⊕ ι) : electricAt l s.thickness s.a s.b z i c = 0 := by
  subst hsl
  obtain ⟨E, hs, hE⟩ := h.solved
  obtain ⟨y, u, v, hd⟩ := stateFlux_deriv hs h.modes.2 c z
  have e := hz.unique hd
  have hω := h.omega_pos
  by_contra hi
  have h1 := hE (fun i => electricAt s.layer s.thickness s.a s.b z i c) (fun h0 => hi (congrFun h0 i))
  have h2 := h.permeability.1 y
  have h3 := h.zPermittivity.passive u
  have h4 := h.zPermeability v
  have := mul_pos hω (by linarith :
    0 < lossForm E (fun i => electricAt s.layer s.thickness s.a s.b z i c) + lossForm s.layer.transversePermeabilityMatrix y +
      lossForm s.layer.zPermittivityMatrix u + lossForm s.layer.zPermeabilityMatrix v)
  linarith

/-- All modes decay. -/
theorem decay (h : AbsorbingLayer l) (j : ι ⊕ ι) : 0 < (l.eigenvalues j).im := by
  refine lt_of_le_of_ne (h.forward j) fun h0 => ?_
  obtain ⟨E, hs, -⟩ := h.solved
  let a : Matrix (ι ⊕ ι) Unit ℂ := Matrix.of fun i _ => if i = j then 1 else 0
  have hpa : ∀ z : ℝ, propagator l z * a = Complex.exp (Complex.I * l.eigenvalues j * z) • a := by
    intro z
    ext i c
    rw [propagator_apply, Matrix.smul_apply, smul_eq_mul]
    by_cases hij : i = j
    · rw [hij]
    · simp [a, hij]
  have hn : ∀ z : ℝ, star (Complex.exp (Complex.I * l.eigenvalues j * z)) * Complex.exp (Complex.I * l.eigenvalues j * z) = 1 := by
    intro z
    rw [Complex.star_def, ← Complex.normSq_eq_conj_mul_self, Complex.normSq_eq_norm_sq, Complex.norm_exp]
    simp [← h0]
  have hc : ∀ z, stateFlux (forwardState l a) () z = stateFlux (forwardState l a) () 0 := by
    intro z
    rw [stateFlux_forward, stateFlux_forward, hpa, propagator_zero, Matrix.one_mul, Matrix.mul_smul, Matrix.mul_smul]
    unfold netFlux
    refine Finset.sum_congr rfl fun i _ => ?_
    rw [Matrix.smul_apply, Matrix.smul_apply, smul_eq_mul, smul_eq_mul, star_mul']
    congr 1
    linear_combination (star ((electricModes l * a) i ()) * (l.eigenvectors * a) i ()) * hn z
  have hd : HasDerivAt (stateFlux (forwardState l a) ()) 0 0 := by
    have e : stateFlux (forwardState l a) () = fun _ => stateFlux (forwardState l a) () 0 := funext hc
    rw [e]
    exact hasDerivAt_const _ _
  have he := h.stationary (s := forwardState l a) rfl hd
  have h1 : a j () = 0 := column_eq_zero (electricModes_isUnit hs h.modes).2 (c := ()) (fun i => by
    have := he i
    simpa [electricAt, forwardState] using this) j
  simp [a] at h1

theorem tendsto_flux (h : AbsorbingLayer l) (a : Matrix (ι ⊕ ι) β ℂ) (c : β) :
    Tendsto (stateFlux (forwardState l a) c) atTop (𝓝 0) := by
  have hp : ∀ i, Tendsto (fun z : ℝ => (propagator l z * a) i c) atTop (𝓝 0) := by
    intro i
    simp only [propagator_apply]
    rw [← zero_mul (a i c)]
    refine Tendsto.mul_const _ ?_
    rw [tendsto_zero_iff_norm_tendsto_zero]
    have e : (fun z : ℝ => ‖Complex.exp (Complex.I * l.eigenvalues i * z)‖) = fun z => Real.exp (-((l.eigenvalues i).im * z)) := by
      funext z
      rw [Complex.norm_exp]
      simp
    rw [e]
    exact Real.tendsto_exp_neg_atTop_nhds_zero.comp (tendsto_id.const_mul_atTop (h.decay i))
  have hA : ∀ (A : ModeMatrix ι) i, Tendsto (fun z : ℝ => (A * (propagator l z * a)) i c) atTop (𝓝 0) := by
    intro A i
    have e : (fun z : ℝ => (A * (propagator l z * a)) i c) = fun z => ∑ j, A i j * (propagator l z * a) j c :=
      funext fun z => Matrix.mul_apply
    rw [e]
    have : (0 : ℂ) = ∑ j : ι ⊕ ι, A i j * 0 := by simp
    rw [this]
    exact tendsto_finset_sum _ fun j _ => (hp j).const_mul _
  have e : stateFlux (forwardState l a) c = fun z => netFlux (electricModes l * (propagator l z * a))
      (l.eigenvectors * (propagator l z * a)) c := funext fun z => stateFlux_forward l a c z
  rw [e]
  unfold netFlux
  have : (0 : ℝ) = ∑ j : ι ⊕ ι, (star (0 : ℂ) * 0).re := by simp
  rw [this]
  refine tendsto_finset_sum _ fun j _ => ?_
  exact (Complex.continuous_re.tendsto _).comp (((continuous_star.tendsto _).comp (hA _ j)).mul (hA _ j))

theorem flux_nonneg (h : AbsorbingLayer l) (a : Matrix (ι ⊕ ι) β ℂ) (c : β) (z : ℝ) : 0 ≤ stateFlux (forwardState l a) c z :=
  (stateFlux_antitone (s := forwardState l a) h.passiveLayer h.modes.2 c).le_of_tendsto (h.tendsto_flux a c) z

theorem flux_pos (h : AbsorbingLayer l) {a : Matrix (ι ⊕ ι) β ℂ} {c : β} (h0 : stateFlux (forwardState l a) c 0 ≤ 0) (i : ι ⊕ ι) :
    a i c = 0 := by
  obtain ⟨E, hs, -⟩ := h.solved
  have hz : ∀ z, 0 ≤ z → stateFlux (forwardState l a) c z = 0 := fun z hz =>
    le_antisymm ((stateFlux_antitone (s := forwardState l a) h.passiveLayer h.modes.2 c hz).trans h0) (h.flux_nonneg a c z)
  have hd : HasDerivAt (stateFlux (forwardState l a) c) 0 1 := by
    refine (hasDerivAt_const (1 : ℝ) (0 : ℝ)).congr_of_eventuallyEq ?_
    filter_upwards [lt_mem_nhds (zero_lt_one (α := ℝ))] with z hz'
    exact hz z hz'.le
  have he := h.stationary (s := forwardState l a) rfl hd
  have h1 : (propagator l 1 * a) i c = 0 := column_eq_zero (electricModes_isUnit hs h.modes).2 (c := c) (fun i => by
    have := he i
    simpa [electricAt, forwardState] using this) i
  rw [propagator_apply] at h1
  exact (mul_eq_zero.1 h1).resolve_left (Complex.exp_ne_zero _)

theorem outwardLayer (h : AbsorbingLayer l) : OutwardLayer l where
  passive := h.passiveLayer
  modes := h.modes
  outward := by
    intro β a e m c hf
    obtain ⟨-, -, rfl, rfl⟩ := fieldsAt_eq.1 hf
    exact h.flux_nonneg a c 0

end Spec.AbsorbingLayer

/-! ### No resonances -/

/-- Without fields there are no amplitudes. -/
theorem amplitudes_eq_zero {s : LayerState ι β} {E : ModeMatrix ι} (hs : SolvedFor s.layer E) (hm : CompleteModes s.layer) {z : ℝ}
    {c : β} (he : ∀ i, electricAt s.layer s.thickness s.a s.b z i c = 0) (hh : ∀ i, magneticAt s.layer s.thickness s.a s.b z i c = 0)
    (i : ι ⊕ ι) : s.a i c = 0 ∧ s.b i c = 0 := by
  have h1 := column_eq_zero (electricModes_isUnit hs hm).2 (c := c) he i
  have h2 := column_eq_zero hm.1 (c := c) hh i
  rw [Matrix.sub_apply, propagator_apply, propagator_apply] at h1
  rw [Matrix.add_apply, propagator_apply, propagator_apply] at h2
  constructor
  · have : Complex.exp (Complex.I * s.layer.eigenvalues i * z) * s.a i c = 0 := by linear_combination (1 / 2) * h1 + (1 / 2) * h2
    exact (mul_eq_zero.1 this).resolve_left (Complex.exp_ne_zero _)
  · have : Complex.exp (Complex.I * s.layer.eigenvalues i * (s.thickness - z : ℝ)) * s.b i c = 0 := by
      linear_combination (1 / 2) * h2 - (1 / 2) * h1
    exact (mul_eq_zero.1 this).resolve_left (Complex.exp_ne_zero _)

theorem zero_propagates (c : β) : ∀ (st : List (LayerState ι β)) (s : LayerState ι β), Consistent (s :: st) →
    (∀ t ∈ s :: st, (∃ E, SolvedFor t.layer E) ∧ CompleteModes t.layer) → (∀ i, s.a i c = 0 ∧ s.b i c = 0) →
    ∀ t ∈ s :: st, ∀ i, t.a i c = 0 ∧ t.b i c = 0
  | [], s, _, _, h0 => by
      intro t ht
      simp only [List.mem_singleton] at ht
      subst ht
      exact h0
  | u :: st, s, hc, hL, h0 => by
      rw [Consistent, List.isChain_cons_cons] at hc
      obtain ⟨⟨e, m, h1, h2⟩, hc'⟩ := hc
      obtain ⟨-, -, e1, m1⟩ := fieldsAt_eq.1 h1
      obtain ⟨-, -, e2, m2⟩ := fieldsAt_eq.1 h2
      obtain ⟨⟨E, hs⟩, hm⟩ := hL u (by simp)
      have hzero : ∀ (A : ModeMatrix ι) (z z' : ℝ) (σ : ℂ) i,
          (A * (propagator s.layer z * s.a + σ • (propagator s.layer z' * s.b))) i c = 0 := by
        intro A z z' σ i
        rw [Matrix.mul_apply]
        refine Finset.sum_eq_zero fun j _ => ?_
        rw [Matrix.add_apply, Matrix.smul_apply, propagator_apply, propagator_apply, (h0 j).1, (h0 j).2]
        simp
      have hu := amplitudes_eq_zero (s := u) hs hm (z := 0) (c := c)
        (fun i => by
          rw [← e2, e1]
          have := hzero (electricModes s.layer) s.thickness (s.thickness - s.thickness) (-1) i
          rwa [neg_one_smul, ← sub_eq_add_neg] at this)
        (fun i => by
          rw [← m2, m1]
          have := hzero s.layer.eigenvectors s.thickness (s.thickness - s.thickness) 1 i
          rwa [one_smul] at this)
      intro t ht
      rw [List.mem_cons] at ht
      rcases ht with rfl | ht
      · exact h0
      · exact zero_propagates c st u hc' (fun t ht => hL t (List.mem_cons_of_mem _ ht)) hu t ht

/-- The flux of backward waves alone at the end of their layer. -/
theorem stateFlux_backward {s : LayerState ι β} {c : β} (ha : ∀ i, s.a i c = 0) :
    stateFlux s c s.thickness = -stateFlux (forwardState s.layer s.b) c 0 := by
  rw [stateFlux_forward]
  unfold stateFlux electricAt magneticAt netFlux
  rw [sub_self, propagator_zero, Matrix.one_mul, ← Finset.sum_neg_distrib]
  have hp : ∀ (A : ModeMatrix ι) i, (A * (propagator s.layer s.thickness * s.a)) i c = 0 := by
    intro A i
    rw [Matrix.mul_apply]
    exact Finset.sum_eq_zero fun j _ => by rw [propagator_apply, ha j, mul_zero, mul_zero]
  refine Finset.sum_congr rfl fun i _ => ?_
  rw [Matrix.mul_sub, Matrix.mul_add, Matrix.sub_apply, Matrix.add_apply, hp, hp, zero_sub, zero_add, star_neg, neg_mul, Complex.neg_re]

/-- The flux of forward waves alone at the start of their layer. -/
theorem stateFlux_outgoing {s : LayerState ι β} {c : β} (hb : ∀ i, s.b i c = 0) :
    stateFlux s c 0 = stateFlux (forwardState s.layer s.a) c 0 := by
  rw [stateFlux_forward]
  unfold stateFlux electricAt magneticAt netFlux
  have hp : ∀ (A : ModeMatrix ι) z i, (A * (propagator s.layer z * s.b)) i c = 0 := by
    intro A z i
    rw [Matrix.mul_apply]
    exact Finset.sum_eq_zero fun j _ => by rw [propagator_apply, hb j, mul_zero, mul_zero]
  refine Finset.sum_congr rfl fun i _ => ?_
  rw [Matrix.mul_sub, Matrix.mul_add, Matrix.sub_apply, Matrix.add_apply, hp, hp, sub_zero, add_zero]

/-- Stacks that start with an absorbing layer have no resonances. -/
theorem no_resonance {st : List (LayerState ι β)} {first last : LayerState ι β} (hc : Consistent st)
    (hf : st.head? = some first) (hl : st.getLast? = some last) (h0 : AbsorbingLayer first.layer)
    (hL : ∀ s ∈ st, PassiveLayer s.layer ∧ CompleteModes s.layer ∧ 0 ≤ s.thickness) (hN : OutwardLayer last.layer) (c : β)
    (ha : ∀ i, first.a i c = 0) (hb : ∀ i, last.b i c = 0) : ∀ s ∈ st, ∀ i, s.a i c = 0 ∧ s.b i c = 0 := by
  rcases st with _ | ⟨s, st⟩
  · simp at hf
  simp only [List.head?_cons, Option.some.injEq] at hf
  subst hf
  refine zero_propagates c st s hc (fun t ht => ⟨(hL t ht).1.2.imp fun _ h => h.1, (hL t ht).2.1⟩) fun i => ⟨ha i, ?_⟩
  rcases List.eq_nil_or_concat st with rfl | ⟨mid, t, rfl⟩
  · simp only [List.getLast?_singleton, Option.some.injEq] at hl
    subst hl
    exact hb i
  · have ht : t = last := by
      rw [List.concat_eq_append, ← List.cons_append, List.getLast?_append] at hl
      simpa using hl
    subst ht
    have hp := stack_flux_antitone c hc (fun s hs => (hL s hs).1) (fun s hs => (hL s hs).2.2)
    rw [List.pairwise_cons] at hp
    have hle := (hp.1 t (by simp)).2 s.thickness 0 le_rfl le_rfl
    have h1 : 0 ≤ stateFlux t c 0 := by
      rw [stateFlux_outgoing hb]
      exact hN.outward t.a _ _ c (fieldsAt_eq.2 ⟨(hL t (by simp)).1.2.choose_spec.1.wellPosed, hN.modes.2, rfl, rfl⟩)
    rw [stateFlux_backward ha] at hle
    exact h0.flux_pos (by linarith) i

/-! ### Existence of scattering matrices -/

theorem isUnit_of_kernel {A : ModeMatrix ι} (h : ∀ x : Matrix (ι ⊕ ι) Unit ℂ, A * x = 0 → x = 0) : IsUnit A.det := by
  rw [isUnit_iff_ne_zero]
  intro h0
  obtain ⟨v, hv, hA⟩ := Matrix.exists_mulVec_eq_zero_iff.2 h0
  refine hv ?_
  have := h (Matrix.of fun i _ => v i) (by
    ext i c
    exact congrFun hA i)
  funext i
  exact congrFun (congrFun this i) ()

theorem interfaceMatrices_exists {l l' : LayerSolveResult ι} (hw : WellPosed l) (hw' : WellPosed l')
    (hq' : ∀ i, l'.eigenvalues i ≠ 0) (hu : IsUnit (magneticToElectric l * l.eigenvectors).det) :
    ∃ p, interfaceMatrices l l' = .ok p := by
  refine ⟨(_, _), interfaceMatrices_ok_iff.2 ⟨_, _, (magneticToElectric l * l.eigenvectors)⁻¹ *
    (magneticToElectric l' * l'.eigenvectors * diagonal (fun i => (l'.eigenvalues i)⁻¹)),
    (magneticToElectric l * l.eigenvectors)⁻¹ * (magneticToElectric l * l'.eigenvectors),
    omegaScriptK_ok_iff.2 ⟨hw, rfl⟩, omegaScriptK_ok_iff.2 ⟨hw', rfl⟩, hq', hu, ?_, ?_, rfl, rfl⟩⟩
  · rw [Matrix.mul_nonsing_inv_cancel_left _ _ hu]
  · rw [Matrix.mul_nonsing_inv_cancel_left _ _ hu]

theorem extendSMatrix_exists {S : Blocks ι} {l l' : LayerSolveResult ι} {d d' : ℝ} {i11 i12 : ModeMatrix ι}
    (hi : interfaceMatrices l l' = .ok (i11, i12)) (hu : IsUnit (i11 - propagator l d * S.s12 * i12).det) :
    ∃ S', extendSMatrix S l d l' d' = .ok S' := by
  set A := i11 - propagator l d * S.s12 * i12 with hA
  set s11 := A⁻¹ * (propagator l d * S.s11) with h11
  set s12 := A⁻¹ * ((propagator l d * S.s12 * i11 - i12) * propagator l' d') with h12
  exact ⟨⟨s11, s12, S.s22 * i12 * s11 + S.s21, S.s22 * i12 * s12 + S.s22 * i11 * propagator l' d'⟩,
    extendSMatrix_ok_iff.2 ⟨i11, i12, hi, hu, Matrix.mul_nonsing_inv_cancel_left _ _ hu,
      Matrix.mul_nonsing_inv_cancel_left _ _ hu, rfl, rfl⟩⟩

/-- The same stack without waves. -/
def silent (s : LayerState ι β) : LayerState ι β := { layer := s.layer, thickness := s.thickness, a := 0, b := 0 }

theorem consistent_silent {st : List (LayerState ι β)} (hc : Consistent st) : Consistent (st.map silent) := by
  unfold Consistent at *
  rw [List.isChain_map]
  refine hc.imp fun s t h => ?_
  obtain ⟨e, m, h1, h2⟩ := h
  obtain ⟨w1, q1, -, -⟩ := fieldsAt_eq.1 h1
  obtain ⟨w2, q2, -, -⟩ := fieldsAt_eq.1 h2
  refine ⟨0, 0, fieldsAt_eq.2 ⟨w1, q1, ?_, ?_⟩, fieldsAt_eq.2 ⟨w2, q2, ?_, ?_⟩⟩ <;>
    simp [silent, electricAt, magneticAt]

/-- A stack with a scattering matrix has no resonance. -/
theorem Spec.IsSMatrix.noResonance {S : ScatteringMatrix ι} {layers : List (LayerSolveResult ι × ℝ)} (h : IsSMatrix S layers) :
    NoResonance layers := by
  intro st first last hg hc hf hl ha hb
  have hst : st = st.map silent := by
    refine h.unique st (st.map silent) first last (silent first) (silent last) hg ?_ hc (consistent_silent hc) hf hl ?_ ?_ ?_ ?_
    · rw [← hg]; simp [geometry, silent]
    · rw [List.head?_map, hf]; rfl
    · rw [List.getLast?_map, hl]; rfl
    · rw [ha]; rfl
    · rw [hb]; rfl
  intro s hs
  rw [hst, List.mem_map] at hs
  obtain ⟨t, -, rfl⟩ := hs
  exact ⟨rfl, rfl⟩

/-- `append_layer` succeeds unless the longer stack has a resonance. -/
theorem append_succeeds_iff {S : ScatteringMatrix ι} {layers : List (LayerSolveResult ι × ℝ)} {l' : LayerSolveResult ι} {d' lam : ℝ}
    (hS : IsSMatrix S layers) (hr : Regular lam (layers ++ [(l', d')]))
    (hw : ∀ p ∈ layers ++ [(l', d')], WellPosed p.1 ∧ IsUnit (magneticToElectric p.1 * p.1.eigenvectors).det) :
    (∃ S', appendLayer S l' d' = .ok S') ↔ NoResonance (layers ++ [(l', d')]) := by
  constructor
  · rintro ⟨S', h⟩
    exact (isSMatrix_append hS hr h).noResonance
  · intro hn
    have hlast : (S.endLayer, S.endThickness) ∈ layers := List.mem_of_getLast? hS.finish
    obtain ⟨we, ue⟩ := hw (S.endLayer, S.endThickness) (by simp [hlast])
    obtain ⟨wn, un⟩ := hw (l', d') (by simp)
    obtain ⟨le, qe⟩ := hr (S.endLayer, S.endThickness) (by simp [hlast])
    obtain ⟨ln, qn⟩ := hr (l', d') (by simp)
    simp only at we ue wn un le qe ln qn
    obtain ⟨⟨i11, i12⟩, hi⟩ := interfaceMatrices_exists we wn qn ue
    have hω : angularFrequency S.endLayer.wavelength = .ok (omega S.endLayer) := angularFrequency_layer.2 ⟨we.1, rfl⟩
    have hω' : angularFrequency l'.wavelength = .ok (omega S.endLayer) := by rw [ln, ← le]; exact hω
    have hu : IsUnit (i11 - propagator S.endLayer S.endThickness * S.s12 * i12).det := by
      refine isUnit_of_kernel fun x hx => ?_
      obtain ⟨s, first, y, hg, hc, hf, hy, hfa, hyb⟩ := hS.complete (β := Unit) 0 (i12 * x)
      obtain ⟨y', hy', hyl, hyd⟩ := geometry_getLast hg hS.finish
      rw [hy] at hy'; simp only [Option.some.injEq] at hy'; subst hy'
      have hrel := hS.sound s first y hg hc hf hy
      have hint : Interface y ⟨l', d', x, 0⟩ := by
        rw [interface_iff (s := y) (t := ⟨l', d', x, 0⟩) (by rw [hyl]; exact hi) (by rw [hyl]; exact hω) hω'
          (by rw [hyl]; exact qe)]
        simp only [Matrix.mul_zero, add_zero]
        refine ⟨?_, hyb⟩
        rw [hyl, hyd, hrel.1, hfa, hyb, Matrix.mul_zero, zero_add]
        rw [Matrix.sub_mul, sub_eq_zero] at hx
        rw [hx]
        simp only [Matrix.mul_assoc]
      exact (hn (s ++ [⟨l', d', x, 0⟩]) first ⟨l', d', x, 0⟩ (by rw [geometry_append, hg]; rfl)
        ((consistent_snoc hy).2 ⟨hc, hint⟩) (head?_append_of_some _ hf) (by simp) hfa rfl ⟨l', d', x, 0⟩ (by simp)).1
    obtain ⟨b, hb⟩ := extendSMatrix_exists (S := S.toBlocks) (d' := d') hi hu
    unfold appendLayer
    rw [hb]
    exact ⟨_, rfl⟩

theorem scanLoop_succeeds_iff {lam : ℝ} : ∀ (rest pre : List (LayerSolveResult ι × ℝ)) (S : ScatteringMatrix ι), IsSMatrix S pre →
    Regular lam (pre ++ rest) → (∀ p ∈ pre ++ rest, WellPosed p.1 ∧ IsUnit (magneticToElectric p.1 * p.1.eigenvectors).det) →
    ((∃ S', scanLoop S rest = .ok S') ↔ ∀ n, n < rest.length → NoResonance (pre ++ rest.take (n + 1)))
  | [], _, S, _, _, _ => by simp [scanLoop]
  | (l, d) :: rest, pre, S, hS, hr, hw => by
      have e : pre ++ (l, d) :: rest = pre ++ [(l, d)] ++ rest := by simp
      rw [e] at hr hw
      have ha := append_succeeds_iff hS (regular_append_left hr) (fun p hp => hw p (List.mem_append_left _ hp))
      simp only [scanLoop, bind_eq_ok]
      constructor
      · rintro ⟨S'', S', h1, h2⟩ n hn
        have h3 := (scanLoop_succeeds_iff rest (pre ++ [(l, d)]) S' (isSMatrix_append hS (regular_append_left hr) h1) hr hw).1 ⟨_, h2⟩
        cases n with
        | zero => simpa using ha.1 ⟨_, h1⟩
        | succ n => simpa using h3 n (by simpa using hn)
      · intro h
        obtain ⟨S', h1⟩ := ha.2 (by simpa using h 0 (by simp))
        obtain ⟨S'', h2⟩ := (scanLoop_succeeds_iff rest (pre ++ [(l, d)]) S' (isSMatrix_append hS (regular_append_left hr) h1) hr hw).2
          (fun n hn => by simpa using h (n + 1) (by simpa using hn))
        exact ⟨S'', S', h1, h2⟩

theorem noResonance_single (p : LayerSolveResult ι × ℝ) : NoResonance [p] :=
  (isSMatrix_identity p.1 p.2).noResonance

theorem noResonance_reverse {layers : List (LayerSolveResult ι × ℝ)} (h : NoResonance layers) : NoResonance layers.reverse := by
  intro st first last hg hc hf hl ha hb s hs
  have := h (st.map swapState).reverse (swapState last) (swapState first)
    (by rw [geometry_reverse_swap, hg, List.reverse_reverse]) (consistent_reverse_swap hc)
    (by rw [List.head?_reverse, List.getLast?_map, hl]; rfl) (by rw [List.getLast?_reverse, List.head?_map, hf]; rfl)
    hb ha (swapState s) (by simpa using ⟨s, hs, rfl⟩)
  exact this.symm

/-- `prepend_layer` succeeds unless the longer stack has a resonance. -/
theorem prepend_succeeds_iff {S : ScatteringMatrix ι} {layers : List (LayerSolveResult ι × ℝ)} {l' : LayerSolveResult ι} {d' lam : ℝ}
    (hS : IsSMatrix S layers) (hr : Regular lam ((l', d') :: layers))
    (hw : ∀ p ∈ (l', d') :: layers, WellPosed p.1 ∧ IsUnit (magneticToElectric p.1 * p.1.eigenvectors).det) :
    (∃ S', prependLayer S l' d' = .ok S') ↔ NoResonance ((l', d') :: layers) := by
  have e : ((l', d') :: layers).reverse = layers.reverse ++ [(l', d')] := by simp
  have ha := append_succeeds_iff (isSMatrix_reverse hS) (by rw [← e]; exact regular_reverse hr)
    (fun p hp => hw p (by rw [← e, List.mem_reverse] at hp; exact hp))
  rw [← e] at ha
  have h1 : (∃ S', prependLayer S l' d' = .ok S') ↔ ∃ S', appendLayer S.reverse l' d' = .ok S' := by
    rw [prependLayer_eq]
    simp only [bind_eq_ok, ok_inj]
    exact ⟨fun ⟨_, T, hT, _⟩ => ⟨T, hT⟩, fun ⟨T, hT⟩ => ⟨_, T, hT, rfl⟩⟩
  rw [h1, ha]
  exact ⟨fun h => by simpa using noResonance_reverse h, noResonance_reverse⟩

/-- The star product succeeds unless one of the stacks it passes through has a resonance. -/
theorem star_succeeds_iff {A B : ScatteringMatrix ι} {la lb : List (LayerSolveResult ι × ℝ)} {lam : ℝ} (hA : IsSMatrix A la)
    (hB : IsSMatrix B lb) (hr : Regular lam (la ++ lb))
    (hw : ∀ p ∈ la ++ lb, WellPosed p.1 ∧ IsUnit (magneticToElectric p.1 * p.1.eigenvectors).det) :
    (∃ S, redhefferStarProduct A B = .ok S) ↔
      NoResonance (la ++ [(B.startLayer, B.startThickness)]) ∧ NoResonance (la ++ lb) := by
  obtain ⟨rest, rfl⟩ : ∃ rest, lb = (B.startLayer, B.startThickness) :: rest := by
    cases lb with
    | nil => have := hB.start; simp at this
    | cons p rest => have := hB.start; simp only [List.head?_cons, Option.some.injEq] at this; exact ⟨rest, by rw [this]⟩
  have hsub : ∀ p ∈ la ++ [(B.startLayer, B.startThickness)], p ∈ la ++ (B.startLayer, B.startThickness) :: rest := by
    intro p hp
    simp only [List.mem_append, List.mem_singleton] at hp
    simp only [List.mem_append, List.mem_cons]; tauto
  have hrE : Regular lam (la ++ [(B.startLayer, B.startThickness)]) := fun p hp => hr p (hsub p hp)
  constructor
  · rintro ⟨S, hS⟩
    refine ⟨?_, (isSMatrix_redheffer hA hB hr hS).noResonance⟩
    unfold redhefferStarProduct at hS
    obtain ⟨E, hE, -⟩ := bind_eq_ok.1 hS
    exact (isSMatrix_append hA hrE hE).noResonance
  · rintro ⟨n1, n2⟩
    obtain ⟨E, hE⟩ := (append_succeeds_iff hA hrE (fun p hp => hw p (hsub p hp))).2 n1
    have hEs := isSMatrix_append hA hrE hE
    have hu : IsUnit (1 - E.s12 * B.s21).det := by
      refine isUnit_of_kernel fun x hx => ?_
      obtain ⟨s1, f1, t, g1, c1, e1, e2, e3, e4⟩ := hEs.complete (β := Unit) 0 (B.s21 * x)
      obtain ⟨s2, u, l2, g2, c2, k1, k2, k3, k4⟩ := hB.complete (β := Unit) x 0
      have r1 := hEs.sound s1 f1 t g1 c1 e1 e2
      have r2 := hB.sound s2 u l2 g2 c2 k1 k2
      obtain ⟨sa, t', rfl, ga, gl, gt⟩ := geometry_snoc_inv g1
      simp only [List.getLast?_append, List.getLast?_singleton, Option.some_or, Option.some.injEq] at e2
      subst e2
      obtain ⟨u', sb, rfl⟩ : ∃ u sb, s2 = u :: sb := by
        cases s2 with
        | nil => simp at k1
        | cons u sb => exact ⟨u, sb, rfl⟩
      simp only [List.head?_cons, Option.some.injEq] at k1
      subst k1
      have hgu : (u'.layer, u'.thickness) = (B.startLayer, B.startThickness) := by
        have := g2; simp only [geometry, List.map_cons, List.cons.injEq] at this; exact this.1
      simp only [Prod.mk.injEq] at hgu
      have hta : t'.a = x := by
        rw [r1.1, e3, e4, Matrix.mul_zero, zero_add]
        rw [Matrix.sub_mul, Matrix.one_mul, sub_eq_zero] at hx
        rw [← Matrix.mul_assoc]
        exact hx.symm
      have hub : u'.b = B.s21 * x := by rw [r2.2, k3, k4, Matrix.mul_zero, add_zero]
      have htu : t' = u' := LayerState.ext' (gl.trans hgu.1.symm) (gt.trans hgu.2.symm) (hta.trans k3.symm) (e4.trans hub.symm)
      subst htu
      have := n2 (sa ++ t' :: sb) f1 l2 (by rw [geometry_append, ga, g2])
        (by unfold Consistent; rw [List.isChain_split]; exact ⟨c1, c2⟩)
        (by rw [← e1]; cases sa <;> rfl) (by
          rw [List.getLast?_append, k2]; rfl) e3 k4 t' (by simp)
      rw [← hta]
      exact this.1
    have hu' : IsUnit (1 - B.s21 * E.s12).det := by
      rwa [Matrix.det_one_sub_mul_comm]
    unfold redhefferStarProduct
    rw [hE]
    have hd : (diag fun _ => 1 : Matrix (ι ⊕ ι) (ι ⊕ ι) ℂ) = 1 := by unfold diag; exact Matrix.diagonal_one
    simp only [Bind.bind, Except.bind, hd, solve_of_isUnit _ hu, solve_of_isUnit _ hu']
    exact ⟨_, rfl⟩

/-- Stacks of absorbing layers have no resonances. -/
theorem absorbing_noResonance {layers : List (LayerSolveResult ι × ℝ)} (h : ∀ p ∈ layers, AbsorbingLayer p.1 ∧ 0 ≤ p.2) :
    NoResonance layers := by
  intro st first last hg hc hf hl ha hb
  have hmem : ∀ s ∈ st, AbsorbingLayer s.layer ∧ 0 ≤ s.thickness := by
    intro s hs
    have h1 : (s.layer, s.thickness) ∈ geometry st := List.mem_map_of_mem hs
    rw [hg] at h1
    exact h _ h1
  have := no_resonance hc hf hl (hmem first (List.mem_of_head? hf)).1
    (fun s hs => ⟨(hmem s hs).1.passiveLayer, (hmem s hs).1.modes, (hmem s hs).2⟩)
    (hmem last (List.mem_of_getLast? hl)).1.outwardLayer () (fun i => by rw [ha]; rfl) (fun i => by rw [hb]; rfl)
  intro s hs
  exact ⟨by ext i c; exact (this s hs i).1, by ext i c; exact (this s hs i).2⟩

theorem Spec.AbsorbingLayer.wellPosed {l : LayerSolveResult ι} (h : AbsorbingLayer l) :
    WellPosed l ∧ IsUnit (magneticToElectric l * l.eigenvectors).det := by
  obtain ⟨E, hs, -⟩ := h.solved
  refine ⟨hs.wellPosed, ?_⟩
  rw [Matrix.det_mul]
  exact (electricModes_isUnit hs h.modes).1.mul h.independent

end Fmmax
