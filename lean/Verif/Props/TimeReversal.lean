import Verif.Proofs.TimeReversal
import Verif.Props.EigChoice
import Verif.Props.Reciprocity
import Verif.Props.Energy

/-! Property theorems C121: time reversal.

`conj`, `StackLayer.conj`, `StackLayer.ConjugateTangent`, `reversedForward`, `reversedBackward` and `TimeReversedSMatrices` are from
`Verif/Spec/TimeReversal.lean`. -/

set_option linter.unusedSectionVars false

namespace Fmmax

open Spec Matrix

variable {ι : Type} [Fintype ι] [DecidableEq ι] {β : Type} {c : Setup ι} {layers : List (StackLayer ι)} {S S' : ScatteringMatrix ι}
variable {eig : Matrix (ι ⊕ ι) (ι ⊕ ι) ℂ → (ι ⊕ ι → ℂ) × Matrix (ι ⊕ ι) (ι ⊕ ι) ℂ}

/-! ### Fields -/

/-- **C121** The complex conjugates of the electric fields and the negative conjugates of the magnetic fields of any excitation of a stack are the fields, at all
depths of all layers, of an excitation of the stack with conjugate materials and reversed wavevector. -/
theorem C121_fields (he : IsEig eig) (hp : ∀ p ∈ layers, p.ConjugateTangent c)
    {solved : List (LayerSolveResult ι)} (hs : List.Forall₂ (fun p r => p.solve eig c = .ok r) layers solved) (hc : ∀ r ∈ solved, CompleteModes r)
    {st : List (LayerState ι β)} (hg : geometry st = solved.zip (layers.map StackLayer.thickness)) (hst : Consistent st) :
    ∃ (solved' : List (LayerSolveResult ι)) (st' : List (LayerState ι β)),
      List.Forall₂ (fun p r => p.solve eig c.reverse = .ok r) (layers.map StackLayer.conj) solved' ∧
      geometry st' = solved'.zip (layers.map StackLayer.thickness) ∧ Consistent st' ∧
      List.Forall₂ (fun s s' => ∀ z e h, FieldsAt s z e h → FieldsAt s' z (conj e) (-conj h)) st st' := by
  obtain ⟨solved', h1, h2⟩ := layers_timeReversed he hs hp hc
  obtain ⟨k1, k2, k3⟩ := states_timeReversed (by rw [List.length_map, hs.length_eq]) h2 hg hst
  refine ⟨solved', _, h1, k1, k2, ?_⟩
  clear k1 k2 hst hg h1 h2 hs
  induction k3 with
  | nil => exact .nil
  | @cons s r st rs a _ ih => exact .cons (fun z e h hf => reversedState_fields a hf) ih

/-! ### Scattering matrices -/

theorem solve_solvedFor (he : IsEig eig) {p : StackLayer ι} {r : LayerSolveResult ι} (hr : p.solve eig c = .ok r) : ∃ E, SolvedFor r E := by
  obtain ⟨nx, ny, med, d⟩ := p
  by_cases hn : nx = 1 ∧ ny = 1
  · obtain ⟨rfl, rfl⟩ := hn
    cases med with
    | isotropic ε f =>
      simp only [StackLayer.solve, eigensolveIsotropicMedia, and_self, dite_true] at hr
      exact ⟨_, uniform_solvedFor hr⟩
    | anisotropic ε μ f x =>
      simp only [StackLayer.solve, eigensolveGeneralAnisotropicMedia, and_self, dite_true, eigensolveUniformAnisotropic,
        bind_eq_ok] at hr
      obtain ⟨m, hm, hr⟩ := hr
      exact ⟨_, (numerical_solvedFor he hr).1⟩
  · cases med with
    | isotropic ε f =>
      simp only [StackLayer.solve, eigensolveIsotropicMedia, dif_neg hn, eigensolvePatternedIsotropic, bind_eq_ok] at hr
      obtain ⟨m, hm, hr⟩ := hr
      exact ⟨_, (numerical_solvedFor he hr).1⟩
    | anisotropic ε μ f x =>
      simp only [StackLayer.solve, eigensolveGeneralAnisotropicMedia, dif_neg hn, eigensolvePatternedAnisotropic, bind_eq_ok] at hr
      obtain ⟨m, hm, hr⟩ := hr
      exact ⟨_, (numerical_solvedFor he hr).1⟩

/-- The layers of both stacks. -/
theorem stack_timeReversed (he : IsEig eig) (hp : ∀ p ∈ layers, p.ConjugateTangent c)
    (hS : ComputedSMatrix eig c layers S) (hq : ∀ i, S.startLayer.eigenvalues i ≠ 0) (hv : IsUnit S.endLayer.eigenvectors.det) :
    ∃ solved solved', List.Forall₂ (fun p r => p.solve eig c = .ok r) layers solved ∧ stackSMatrix solved (layers.map StackLayer.thickness) = .ok S ∧
      (∀ r ∈ solved, WellPosed r ∧ CompleteModes r) ∧ Regular c.wavelength (solved.zip (layers.map StackLayer.thickness)) ∧
      List.Forall₂ (fun p r => p.solve eig c.reverse = .ok r) (layers.map StackLayer.conj) solved' ∧ List.Forall₂ TimeReversedLayer solved solved' ∧
      Regular c.wavelength (solved'.zip (layers.map StackLayer.thickness)) := by
  obtain ⟨⟨p, hp0, hr0⟩, pN, hpN, hrN⟩ := hS.ends
  obtain ⟨solved, hs, hS⟩ := hS
  have hcm := solved_complete hs hS (by
    intro q hq0 r hr
    have : q = p := Option.mem_unique hq0 hp0
    subst this
    rw [hr0] at hr
    rw [← ok_inj.1 hr]
    exact hq) (by
    intro q hq0 r hr
    have : q = pN := Option.mem_unique hq0 hpN
    subst this
    rw [hrN] at hr
    rw [← ok_inj.1 hr]
    exact hv)
  obtain ⟨solved', hs', hpair⟩ := layers_timeReversed he hs hp hcm
  refine ⟨solved, solved', hs, hS, ?_, ?_, hs', hpair, ?_⟩
  · intro r hr
    obtain ⟨p, hp', hr'⟩ := forall₂_mem_right hs _ hr
    obtain ⟨E, hE⟩ := solve_solvedFor he hr'
    exact ⟨hE.wellPosed, hcm r hr⟩
  · intro q hq
    have hq' := (List.of_mem_zip hq).1
    obtain ⟨p, -, hp⟩ := forall₂_mem_right hs _ hq'
    exact ⟨solve_wavelength he hp, (hcm _ hq').2⟩
  · intro q hq
    have hq' := (List.of_mem_zip hq).1
    obtain ⟨p, -, hp⟩ := forall₂_mem_right hs' _ hq'
    obtain ⟨r, -, hr⟩ := forall₂_mem_right hpair _ hq'
    exact ⟨solve_wavelength (c := c.reverse) he hp, hr.2.nonzero⟩

theorem conj_thickness : (layers.map StackLayer.conj).map StackLayer.thickness = layers.map StackLayer.thickness := by
  rw [List.map_map]
  rfl

/-- **C121** Time reversal.  The scattering matrix of the calculation with conjugate materials and reversed wavevector relates the time reversed waves: modes which
propagate without decay exchange their roles as incoming and outgoing waves, others do not. -/
theorem C121_time_reversal (he : IsEig eig) (hp : ∀ p ∈ layers, p.ConjugateTangent c)
    (hS : ComputedSMatrix eig c layers S) (hS' : ComputedSMatrix eig c.reverse (layers.map StackLayer.conj) S')
    (hq : ∀ i, S.startLayer.eigenvalues i ≠ 0) (hv : IsUnit S.endLayer.eigenvectors.det) :
    TimeReversedSMatrices (S'.startLayer.eigenvectors⁻¹ * conj S.startLayer.eigenvectors) (S'.endLayer.eigenvectors⁻¹ * conj S.endLayer.eigenvectors) S S' := by
  obtain ⟨solved, solved', hs, hS1, -, hreg, hs', hpair, hreg'⟩ := stack_timeReversed he hp hS hq hv
  obtain ⟨solved2, hs2, hS2⟩ := hS'
  have : solved2 = solved' := forall₂_solve_unique hs2 hs'
  subst this
  rw [conj_thickness] at hS2
  exact relations_timeReversed (by rw [List.length_map, hs.length_eq]) hpair (stackSMatrix_spec hreg hS1) (stackSMatrix_spec hreg' hS2)

theorem conj_uniform {p : StackLayer ι} (h : p.Uniform) : p.conj.Uniform := by
  obtain ⟨h1, h2, ε, f, h3⟩ := h
  exact ⟨h1, h2, conj ε, f, by unfold StackLayer.conj; rw [h3]; rfl⟩

theorem uniform_end_vectors (hfirst : ∀ p ∈ layers.head?, p.Uniform) (hlast : ∀ p ∈ layers.getLast?, p.Uniform) (hS : ComputedSMatrix eig c layers S) :
    S.startLayer.eigenvectors = 1 ∧ S.endLayer.eigenvectors = 1 := by
  obtain ⟨⟨p, hp0, hr0⟩, pN, hpN, hrN⟩ := hS.ends
  exact ⟨uniform_eigenvectors (hfirst p hp0) hr0, uniform_eigenvectors (hlast pN hpN) hrN⟩

theorem conj_uniform_ends (hfirst : ∀ p ∈ layers.head?, p.Uniform) (hlast : ∀ p ∈ layers.getLast?, p.Uniform) :
    (∀ p ∈ (layers.map StackLayer.conj).head?, p.Uniform) ∧ ∀ p ∈ (layers.map StackLayer.conj).getLast?, p.Uniform := by
  constructor
  · intro p hp
    rw [List.head?_map, Option.mem_def, Option.map_eq_some_iff] at hp
    obtain ⟨q, hq, rfl⟩ := hp
    exact conj_uniform (hfirst q hq)
  · intro p hp
    rw [List.getLast?_map, Option.mem_def, Option.map_eq_some_iff] at hp
    obtain ⟨q, hq, rfl⟩ := hp
    exact conj_uniform (hlast q hq)

/-- **C121** Uniform first and last layers: plane waves are reversed one by one. -/
theorem C121_uniform_ends (he : IsEig eig) (hp : ∀ p ∈ layers, p.ConjugateTangent c)
    (hfirst : ∀ p ∈ layers.head?, p.Uniform) (hlast : ∀ p ∈ layers.getLast?, p.Uniform)
    (hS : ComputedSMatrix eig c layers S) (hS' : ComputedSMatrix eig c.reverse (layers.map StackLayer.conj) S')
    (hq : ∀ i, S.startLayer.eigenvalues i ≠ 0) : TimeReversedSMatrices 1 1 S S' := by
  obtain ⟨e1, e2⟩ := uniform_end_vectors hfirst hlast hS
  obtain ⟨e1', e2'⟩ := uniform_end_vectors (conj_uniform_ends hfirst hlast).1 (conj_uniform_ends hfirst hlast).2 hS'
  have := C121_time_reversal he hp hS hS' hq (by rw [e2]; simp)
  rwa [e1, e1', e2, e2', conj_one, inv_one, Matrix.mul_one] at this

theorem reversed_decaying {l : LayerSolveResult ι} (h : ∀ i, (l.eigenvalues i).im ≠ 0) (d : ℝ) (a b : Matrix (ι ⊕ ι) β ℂ) :
    reversedForward l d a b = conj a ∧ reversedBackward l d a b = conj b := by
  constructor <;> ext i j <;> simp [reversedForward, reversedBackward, conj, h i]

theorem reversed_propagating {l : LayerSolveResult ι} (h : ∀ i, (l.eigenvalues i).im = 0) (d : ℝ) (a b : Matrix (ι ⊕ ι) β ℂ) :
    reversedForward l d a b = conj (propagator l d * b) ∧ reversedBackward l d a b = conj (propagator l d * a) := by
  constructor <;> ext i j <;> simp [reversedForward, reversedBackward, conj, h i, propagator]

/-- **C121** Uniform first and last layers with decaying waves: the scattering matrix of the stack with conjugate materials and reversed wavevector is the
conjugate one. -/
theorem C121_decaying_ends (he : IsEig eig) (hp : ∀ p ∈ layers, p.ConjugateTangent c)
    (hfirst : ∀ p ∈ layers.head?, p.Uniform) (hlast : ∀ p ∈ layers.getLast?, p.Uniform)
    (hS : ComputedSMatrix eig c layers S) (hS' : ComputedSMatrix eig c.reverse (layers.map StackLayer.conj) S')
    (hq : ∀ i, (S.startLayer.eigenvalues i).im ≠ 0) (hq' : ∀ i, (S.endLayer.eigenvalues i).im ≠ 0) :
    S'.s11 = conj S.s11 ∧ S'.s12 = conj S.s12 ∧ S'.s21 = conj S.s21 ∧ S'.s22 = conj S.s22 := by
  have h := C121_uniform_ends he hp hfirst hlast hS hS' fun i h0 => hq i (by rw [h0]; rfl)
  obtain ⟨k1, k2⟩ := h _ (1 : ModeMatrix ι) 0 S.s11 S.s21 (by simp) (by simp)
  obtain ⟨k3, k4⟩ := h _ (0 : ModeMatrix ι) 1 S.s12 S.s22 (by simp) (by simp)
  simp only [(reversed_decaying hq _ _ _).1, (reversed_decaying hq _ _ _).2, (reversed_decaying hq' _ _ _).1, (reversed_decaying hq' _ _ _).2, conj_one, conj_zero,
    Matrix.one_mul, Matrix.mul_one, Matrix.mul_zero, add_zero, zero_add] at k1 k2 k3 k4
  exact ⟨k1.symm, k3.symm, k2.symm, k4.symm⟩

/-- **C121** Uniform first and last layers in which all waves propagate without decay: the time reversed scattering matrix is the inverse of the conjugate one, from
outgoing to incoming waves.  (`propagator` accounts for the thickness of these layers, between the planes where incoming and outgoing amplitudes are given.) -/
theorem C121_propagating_ends (he : IsEig eig) (hp : ∀ p ∈ layers, p.ConjugateTangent c)
    (hfirst : ∀ p ∈ layers.head?, p.Uniform) (hlast : ∀ p ∈ layers.getLast?, p.Uniform)
    (hS : ComputedSMatrix eig c layers S) (hS' : ComputedSMatrix eig c.reverse (layers.map StackLayer.conj) S')
    (hq0 : ∀ i, S.startLayer.eigenvalues i ≠ 0) (hq : ∀ i, (S.startLayer.eigenvalues i).im = 0) (hq' : ∀ i, (S.endLayer.eigenvalues i).im = 0) :
    let P₀ := propagator S.startLayer S.startThickness
    let Pₙ := propagator S.endLayer S.endThickness
    S'.s21 * conj (P₀ * S.s21) + S'.s22 * conj (Pₙ * S.s11) = conj P₀ ∧ S'.s21 * conj (P₀ * S.s22) + S'.s22 * conj (Pₙ * S.s12) = 0 ∧
    S'.s11 * conj (P₀ * S.s21) + S'.s12 * conj (Pₙ * S.s11) = 0 ∧ S'.s11 * conj (P₀ * S.s22) + S'.s12 * conj (Pₙ * S.s12) = conj Pₙ := by
  have h := C121_uniform_ends he hp hfirst hlast hS hS' hq0
  obtain ⟨k1, k2⟩ := h _ (1 : ModeMatrix ι) 0 S.s11 S.s21 (by simp) (by simp)
  obtain ⟨k3, k4⟩ := h _ (0 : ModeMatrix ι) 1 S.s12 S.s22 (by simp) (by simp)
  simp only [(reversed_propagating hq _ _ _).1, (reversed_propagating hq _ _ _).2, (reversed_propagating hq' _ _ _).1, (reversed_propagating hq' _ _ _).2,
    conj_zero, Matrix.one_mul, Matrix.mul_one, Matrix.mul_zero] at k1 k2 k3 k4
  exact ⟨k2.symm, k4.symm, k1.symm, k3.symm⟩

/-- **C121** Perfect absorbers are lasers in reverse: if the calculation with conjugate materials and reversed wavevector succeeds (the stack with gain does not lase),
then no propagating waves are absorbed completely: something goes out whatever comes in. -/
theorem C121_no_perfect_absorption (he : IsEig eig) (hp : ∀ p ∈ layers, p.ConjugateTangent c)
    (hfirst : ∀ p ∈ layers.head?, p.Uniform) (hlast : ∀ p ∈ layers.getLast?, p.Uniform)
    (hS : ComputedSMatrix eig c layers S) (hS' : ComputedSMatrix eig c.reverse (layers.map StackLayer.conj) S')
    (hq0 : ∀ i, S.startLayer.eigenvalues i ≠ 0) (hq : ∀ i, (S.startLayer.eigenvalues i).im = 0) (hq' : ∀ i, (S.endLayer.eigenvalues i).im = 0)
    {a b : Matrix (ι ⊕ ι) β ℂ} (hf : S.s11 * a + S.s12 * b = 0) (hb : S.s21 * a + S.s22 * b = 0) : a = 0 ∧ b = 0 := by
  have h := C121_uniform_ends he hp hfirst hlast hS hS' hq0
  obtain ⟨k1, k2⟩ := h _ a b 0 0 hf.symm hb.symm
  simp only [(reversed_propagating hq _ _ _).1, (reversed_propagating hq _ _ _).2, (reversed_propagating hq' _ _ _).1, (reversed_propagating hq' _ _ _).2,
    conj_zero, Matrix.one_mul, Matrix.mul_zero, add_zero] at k1 k2
  have hz : ∀ (l : LayerSolveResult ι) (d : ℝ) (x : Matrix (ι ⊕ ι) β ℂ), conj (propagator l d * x) = 0 → x = 0 := by
    intro l d x hx
    ext i j
    have := congrFun (congrFun hx i) j
    simp only [conj, propagator, of_apply, diagonal_mul, star_mul', Matrix.zero_apply, mul_eq_zero, star_eq_zero] at this
    exact this.resolve_left (Complex.exp_ne_zero _)
  exact ⟨hz _ _ _ k2, hz _ _ _ k1⟩

/-- **C121** Stacks whose layers have decaying modes only, e.g. absorbing ones: the scattering matrix of the stack with conjugate materials and reversed
wavevector can be calculated as well. -/
theorem C121_decaying_stack (he : IsEig eig) (hp : ∀ p ∈ layers, p.ConjugateTangent c) (hS : ComputedSMatrix eig c layers S)
    (hv : IsUnit S.endLayer.eigenvectors.det) (hq : ∀ p ∈ layers, ∀ r, p.solve eig c = .ok r → ∀ i, (r.eigenvalues i).im ≠ 0) :
    ∃ S', ComputedSMatrix eig c.reverse (layers.map StackLayer.conj) S' := by
  have hq0 : ∀ i, S.startLayer.eigenvalues i ≠ 0 := by
    obtain ⟨⟨p, hp0, hr0⟩, -⟩ := hS.ends
    intro i hi
    exact hq p (List.mem_of_head? hp0) _ hr0 i (by rw [hi]; rfl)
  obtain ⟨solved, solved', hs, hS1, hcm, hreg, hs', hpair, hreg'⟩ := stack_timeReversed he hp hS hq0 hv
  have hlen := hs.length_eq
  have hlen' := hpair.length_eq
  have him : ∀ r ∈ solved, ∀ i, (r.eigenvalues i).im ≠ 0 := by
    intro r hr
    obtain ⟨p, hp', hr'⟩ := forall₂_mem_right hs _ hr
    exact hq p hp' r hr'
  obtain ⟨ss, hss, -⟩ := stackSMatrix_eq_ok hS1
  obtain ⟨hl1, hpre⟩ := stackSMatrices_spec hreg hss
  have hne : solved' ≠ [] := by
    rintro rfl
    cases hpair
    cases hs
    exact absurd hS1 (by simp [stackSMatrix, stackSMatrices])
  have hall : ∀ r' ∈ solved', r'.wavelength = c.wavelength ∧ (∃ E, SolvedFor r' E) ∧ CompleteModes r' := by
    intro r' hr'
    obtain ⟨p, -, hp⟩ := forall₂_mem_right hs' _ hr'
    obtain ⟨r, -, hr⟩ := forall₂_mem_right hpair _ hr'
    exact ⟨solve_wavelength (c := c.reverse) he hp, solve_solvedFor he hp, hr.1⟩
  obtain ⟨S', hS'⟩ : ∃ S', stackSMatrix solved' (layers.map StackLayer.thickness) = .ok S' := by
    rw [C81_succeeds_iff (lam := c.wavelength) hne (by rw [List.length_map]; omega) (fun r hr => ⟨(hall r hr).1, (hall r hr).2.2.2⟩) (fun r hr => by
      obtain ⟨-, ⟨E, hE⟩, h⟩ := hall r hr
      refine ⟨hE.wellPosed, ?_⟩
      rw [det_mul]
      exact (electricModes_isUnit hE h).1.mul h.1)]
    intro n hn
    have hn' : n < ss.length := by
      rw [hl1, List.length_zip, List.length_map]
      omega
    have hpn := hpre n hn'
    rw [List.zip, List.take_zipWith] at hpn ⊢
    exact noResonance_timeReversed (by simp; omega) (forall₂_take hpair (n + 1)) (fun r hr => (hcm r (List.mem_of_mem_take hr)).1)
      (fun r hr => (hcm r (List.mem_of_mem_take hr)).2) (fun r hr => him r (List.mem_of_mem_take hr)) hpn
  exact ⟨S', solved', hs', by rw [conj_thickness]; exact hS'⟩

/-- **C121** Finding: gain is not distinguished from absorption when the first and the last layer amplify (or absorb).  Replacing all materials by their
conjugates and reversing the wavevector, all reflected and transmitted waves have the same magnitudes: a stack of absorbing layers in which absorption is
replaced by gain does not amplify. -/
theorem C121_finding_gain (he : IsEig eig) (hp : ∀ p ∈ layers, p.ConjugateTangent c)
    (hfirst : ∀ p ∈ layers.head?, p.Uniform) (hlast : ∀ p ∈ layers.getLast?, p.Uniform) (hS : ComputedSMatrix eig c layers S)
    (hq : ∀ p ∈ layers, ∀ r, p.solve eig c = .ok r → ∀ i, (r.eigenvalues i).im ≠ 0) :
    ∃ S', ComputedSMatrix eig c.reverse (layers.map StackLayer.conj) S' ∧ ∀ i j, ‖S'.s11 i j‖ = ‖S.s11 i j‖ ∧ ‖S'.s12 i j‖ = ‖S.s12 i j‖ ∧
      ‖S'.s21 i j‖ = ‖S.s21 i j‖ ∧ ‖S'.s22 i j‖ = ‖S.s22 i j‖ := by
  obtain ⟨S', hS'⟩ := C121_decaying_stack he hp hS (by rw [(uniform_end_vectors hfirst hlast hS).2]; simp) hq
  refine ⟨S', hS', ?_⟩
  obtain ⟨⟨p, hp0, hr0⟩, pN, hpN, hrN⟩ := hS.ends
  obtain ⟨k1, k2, k3, k4⟩ := C121_decaying_ends he hp hfirst hlast hS hS' (hq p (List.mem_of_head? hp0) _ hr0) (hq pN (List.mem_of_getLast? hpN) _ hrN)
  intro i j
  rw [k1, k2, k3, k4]
  simp [conj]

namespace TimeReversalExample

/-! #### An absorbing grating -/

open SymmetryExample in
theorem conjugateTangent : ∀ p ∈ stack, p.ConjugateTangent setup := fun p hp => .inr (.inl (SymmetryExample.fft p hp))

open SymmetryExample in
/-- All modes of all layers decay. -/
theorem decaying {eig : Matrix (Fin 3 ⊕ Fin 3) (Fin 3 ⊕ Fin 3) ℂ → _} (he : IsEig eig) :
    ∀ p ∈ stack, ∀ r, p.solve eig setup = .ok r → ∀ i, (r.eigenvalues i).im ≠ 0 := by
  obtain ⟨u, v, h1, h2, h3, h4, -, -⟩ := EigChoiceExample.absorbing_layers he
  intro p hp r hr i
  simp only [stack, List.mem_cons, List.not_mem_nil, or_false] at hp
  rcases hp with rfl | rfl | rfl <;> simp only [StackLayer.solve] at hr
  · rw [h1, ok_inj] at hr
    exact hr ▸ (h3.decay i).ne'
  · rw [h2, ok_inj] at hr
    exact hr ▸ (h4.decay i).ne'
  · rw [h1, ok_inj] at hr
    exact hr ▸ (h3.decay i).ne'

open SymmetryExample in
/-- C121: the hypotheses of `C121_decaying_stack`, `C121_finding_gain`, `C121_time_reversal`, `C121_uniform_ends` and `C121_decaying_ends` hold for an absorbing
grating; the time reversed one amplifies. -/
example : ∃ eig S S', IsEig eig ∧ ComputedSMatrix eig setup stack S ∧ ComputedSMatrix eig setup.reverse (stack.map StackLayer.conj) S' ∧
    TimeReversedSMatrices (S'.startLayer.eigenvectors⁻¹ * conj S.startLayer.eigenvectors) (S'.endLayer.eigenvectors⁻¹ * conj S.endLayer.eigenvectors) S S' ∧
    TimeReversedSMatrices 1 1 S S' ∧ (S'.s11 = conj S.s11 ∧ S'.s12 = conj S.s12 ∧ S'.s21 = conj S.s21 ∧ S'.s22 = conj S.s22) ∧
    ∃ S', ComputedSMatrix eig setup.reverse (stack.map StackLayer.conj) S' ∧ ∀ i j, ‖S'.s11 i j‖ = ‖S.s11 i j‖ ∧ ‖S'.s12 i j‖ = ‖S.s12 i j‖ ∧
      ‖S'.s21 i j‖ = ‖S.s21 i j‖ ∧ ‖S'.s22 i j‖ = ‖S.s22 i j‖ := by
  obtain ⟨eig, he, S, hS⟩ := computed
  have hv : IsUnit S.endLayer.eigenvectors.det := by rw [(uniform_end_vectors uniform_ends.1 uniform_ends.2 hS).2]; simp
  obtain ⟨S', hS'⟩ := C121_decaying_stack he conjugateTangent hS hv (decaying he)
  obtain ⟨⟨p, hp0, hr0⟩, pN, hpN, hrN⟩ := hS.ends
  exact ⟨eig, S, S', he, hS, hS', C121_time_reversal he conjugateTangent hS hS' (start_nonzero hS) hv,
    C121_uniform_ends he conjugateTangent uniform_ends.1 uniform_ends.2 hS hS' (start_nonzero hS),
    C121_decaying_ends he conjugateTangent uniform_ends.1 uniform_ends.2 hS hS' (decaying he p (List.mem_of_head? hp0) _ hr0)
      (decaying he pN (List.mem_of_getLast? hpN) _ hrN),
    C121_finding_gain he conjugateTangent uniform_ends.1 uniform_ends.2 hS (decaying he)⟩

open SymmetryExample in
/-- C121: the hypotheses of `C121_fields` hold for any waves incident on the absorbing grating. -/
example (a b : Matrix (Fin 3 ⊕ Fin 3) (Fin 2) ℂ) : ∃ (eig : _) (solved : List (LayerSolveResult (Fin 3))) (st : List (LayerState (Fin 3) (Fin 2)))
    (first last : LayerState (Fin 3) (Fin 2)), IsEig eig ∧ List.Forall₂ (fun p r => p.solve eig setup = .ok r) stack solved ∧ (∀ r ∈ solved, CompleteModes r) ∧
    geometry st = solved.zip (stack.map StackLayer.thickness) ∧ Consistent st ∧ st.head? = some first ∧ st.getLast? = some last ∧ first.a = a ∧ last.b = b ∧
    ∃ (solved' : List (LayerSolveResult (Fin 3))) (st' : List (LayerState (Fin 3) (Fin 2))),
      List.Forall₂ (fun p r => p.solve eig setup.reverse = .ok r) (stack.map StackLayer.conj) solved' ∧
      geometry st' = solved'.zip (stack.map StackLayer.thickness) ∧ Consistent st' ∧
      List.Forall₂ (fun s s' => ∀ z e h, FieldsAt s z e h → FieldsAt s' z (conj e) (-conj h)) st st' := by
  obtain ⟨eig, he, S, hS⟩ := computed
  have hv : IsUnit S.endLayer.eigenvectors.det := by rw [(uniform_end_vectors uniform_ends.1 uniform_ends.2 hS).2]; simp
  obtain ⟨solved, -, hs, h1, h2, h3, -⟩ := stack_timeReversed he conjugateTangent hS (start_nonzero hS) hv
  obtain ⟨st, f, y, hg, hc, hf, hy, hfa, hyb⟩ := (stackSMatrix_spec h3 h1).complete a b
  exact ⟨eig, solved, st, f, y, he, hs, fun r hr => (h2 r hr).2, hg, hc, hf, hy, hfa, hyb, C121_fields he conjugateTangent hs (fun r hr => (h2 r hr).2) hg hc⟩

/-- C121: a layer solved in a vector formulation with a given real tangent field, e.g. along the grooves of a grating. -/
example (c : Setup (Fin 3)) (ε : Grid 6 1) (d : ℝ) (tx ty : Matrix (Fin 6) (Fin 1) ℝ) :
    (⟨6, 1, .isotropic ε (.vector fun _ _ _ => .ok (tx.map Complex.ofReal, ty.map Complex.ofReal)), d⟩ : StackLayer (Fin 3)).ConjugateTangent c := by
  refine .inr (.inr ⟨ε, _, rfl, fun x y h => ?_⟩)
  simp only [ok_inj, Prod.mk.injEq] at h
  obtain ⟨rfl, rfl⟩ := h
  refine ⟨1, norm_one, congrArg Except.ok (Prod.ext ?_ ?_)⟩ <;> ext i j <;> simp [conj]

/-! #### A lossless film -/

/-- Normal incidence, one order. -/
noncomputable def filmSetup : Setup (Fin 1) :=
  { wavelength := 2 * Real.pi, inPlaneWavevector := (0, 0), lattice := { u := (1, 0), v := (0, 1) }, expansion := fun _ => (0, 0) }

/-- A film of permittivity `4` between layers of vacuum. -/
noncomputable def film : List (StackLayer (Fin 1)) :=
  [⟨1, 1, .isotropic (Matrix.of fun _ _ => 1) .fft, Real.pi⟩, ⟨1, 1, .isotropic (Matrix.of fun _ _ => 4) .fft, Real.pi⟩,
    ⟨1, 1, .isotropic (Matrix.of fun _ _ => 1) .fft, Real.pi⟩]

theorem film_reverse : filmSetup.reverse = filmSetup ∧ film.map StackLayer.conj = film := by
  have h : ∀ x : ℂ, star x = x → conj (Matrix.of fun _ _ => x : Grid 1 1) = Matrix.of fun _ _ => x := by
    intro x hx
    ext
    exact hx
  constructor
  · simp [Setup.reverse, filmSetup]
  · simp only [film, List.map_cons, List.map_nil, StackLayer.conj, Medium.conj]
    rw [h 1 (star_one ℂ), h 4 (Complex.conj_ofNat 4)]

theorem film_computed (eig : Matrix (Fin 1 ⊕ Fin 1) (Fin 1 ⊕ Fin 1) ℂ → (Fin 1 ⊕ Fin 1 → ℂ) × Matrix (Fin 1 ⊕ Fin 1) (Fin 1 ⊕ Fin 1) ℂ) :
    ∃ S, ComputedSMatrix eig filmSetup film S ∧ S.startLayer = Examples.exLayer 1 ∧ S.endLayer = Examples.exLayer 1 := by
  have e1 := exLayer_eigensolve one_pos
  have e2 := exLayer_eigensolve two_pos
  simp only [Complex.ofReal_one, Complex.ofReal_ofNat] at e1 e2
  norm_num at e1 e2
  have hreg : Regular (2 * Real.pi) ([Examples.exLayer 1, Examples.exLayer 2, Examples.exLayer 1].zip
      [Real.pi, Real.pi, Real.pi]) := Examples.exRegular [1, 2, 1] (by simp) [Real.pi, Real.pi, Real.pi]
  have hS := stackSMatrix_spec hreg Examples.exStack3
  have k1 := hS.start
  have k2 := hS.finish
  simp at k1 k2
  exact ⟨_, ⟨[Examples.exLayer 1, Examples.exLayer 2, Examples.exLayer 1], .cons e1 (.cons e2 (.cons e1 .nil)), Examples.exStack3⟩, k1.1.symm, k2.1.symm⟩

theorem film_uniform : (∀ p ∈ film.head?, p.Uniform) ∧ (∀ p ∈ film.getLast?, p.Uniform) ∧ ∀ p ∈ film, p.ConjugateTangent filmSetup := by
  refine ⟨?_, ?_, ?_⟩
  · intro p hp
    simp only [film, List.head?_cons, Option.mem_def, Option.some.injEq] at hp
    subst hp
    exact ⟨rfl, rfl, _, _, rfl⟩
  · intro p hp
    simp only [film, List.getLast?_cons_cons, List.getLast?_singleton, Option.mem_def, Option.some.injEq] at hp
    subst hp
    exact ⟨rfl, rfl, _, _, rfl⟩
  · intro p hp
    simp only [film, List.mem_cons, List.not_mem_nil, or_false] at hp
    rcases hp with rfl | rfl | rfl <;> exact .inl ⟨rfl, rfl⟩

/-- C121: the hypotheses of `C121_propagating_ends` and `C121_no_perfect_absorption` hold for a lossless film. -/
example (a b : Matrix (Fin 1 ⊕ Fin 1) (Fin 2) ℂ) : ∃ eig S S', IsEig eig ∧ ComputedSMatrix eig filmSetup film S ∧
    ComputedSMatrix eig filmSetup.reverse (film.map StackLayer.conj) S' ∧
    S'.s21 * conj (propagator S.startLayer S.startThickness * S.s21) + S'.s22 * conj (propagator S.endLayer S.endThickness * S.s11) =
      conj (propagator S.startLayer S.startThickness) ∧ (S.s11 * a + S.s12 * b = 0 → S.s21 * a + S.s22 * b = 0 → a = 0 ∧ b = 0) := by
  obtain ⟨eig, he⟩ := exists_isEig (Fin 1 ⊕ Fin 1)
  obtain ⟨S, hS, e1, e2⟩ := film_computed eig
  have hS' : ComputedSMatrix eig filmSetup.reverse (film.map StackLayer.conj) S := by
    rw [film_reverse.1, film_reverse.2]
    exact hS
  have q0 : ∀ i, S.startLayer.eigenvalues i ≠ 0 := by rw [e1]; simp [Examples.exLayer]
  have q1 : ∀ i, (S.startLayer.eigenvalues i).im = 0 := by rw [e1]; simp [Examples.exLayer]
  have q2 : ∀ i, (S.endLayer.eigenvalues i).im = 0 := by rw [e2]; simp [Examples.exLayer]
  exact ⟨eig, S, S, he, hS, hS', (C121_propagating_ends he film_uniform.2.2 film_uniform.1 film_uniform.2.1 hS hS' q0 q1 q2).1,
    C121_no_perfect_absorption he film_uniform.2.2 film_uniform.1 film_uniform.2.1 hS hS' q0 q1 q2⟩

end TimeReversalExample

end Fmmax
