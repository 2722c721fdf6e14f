import Verif.Proofs.Duality
import Verif.Props.Symmetry
import Verif.Props.Reciprocity
import Verif.Props.AbsorbingTensor

/-! Property theorems C103: electromagnetic duality.

`StackLayer.dual`, `StackLayer.IsDual`, `StackLayer.SelfDual`, `Fields.dual`, `quarterTurn`, `electricProfiles`, `dualModes` and `DualSMatrices` are from
`Verif/Spec/Duality.lean`. -/

set_option linter.unusedSectionVars false

namespace Fmmax

open Matrix Spec

variable {ι : Type} [Fintype ι] [DecidableEq ι] {nx ny : ℕ} {β : Type}
variable {eig : Matrix (ι ⊕ ι) (ι ⊕ ι) ℂ → (ι ⊕ ι → ℂ) × Matrix (ι ⊕ ι) (ι ⊕ ι) ℂ}
variable {c : Setup ι} {layers layers' : List (StackLayer ι)} {S : ScatteringMatrix ι}

/-! ### Layers -/

/-- **C103** Fields in a layer and in the dual layer.  If permittivity and permeability of a layer are exchanged, the eigensolve succeeds, and for corresponding
amplitudes the reported electric field is the magnetic field of the original layer, and the reported magnetic field the reversed electric field, at every depth:
all six components, also in vector formulations. -/
theorem C103_fields (he : IsEig eig) (hG : Function.Injective c.expansion) {p p' : StackLayer ι} (hp : p.IsDual p') {r : LayerSolveResult ι}
    (hr : p.solve eig c = .ok r) (hc : CompleteModes r) :
    ∃ r', p'.solve eig c = .ok r' ∧ IsUnit (dualModes r r').det ∧ ∀ (d z : ℝ) (a b : Matrix (ι ⊕ ι) β ℂ), ∃ F,
      reportedFields r d (dualModes r r' * a) (-(dualModes r r' * b)) z = .ok F ∧ reportedFields r' d a b z = .ok F.dual := by
  obtain ⟨r', hr', h, -⟩ := layer_isDual he hG hp hr hc
  refine ⟨r', hr', h.isUnit, fun d z a b => ?_⟩
  obtain ⟨E, hE⟩ := h.solved
  obtain ⟨E', hE'⟩ := h.solved'
  refine ⟨_, reportedFields_eq_ok.2 ⟨hE.wellPosed, hc.2, rfl⟩, reportedFields_eq_ok.2 ⟨hE'.wellPosed, h.complete'.2, ?_⟩⟩
  have e1 := h.electricAt_eq d z (dualModes r r' * a) (-(dualModes r r' * b))
  have e2 := h.magneticAt_eq d z (dualModes r r' * a) (-(dualModes r r' * b))
  rw [Matrix.mul_neg, neg_neg, nonsing_inv_mul_cancel_left _ _ h.isUnit, nonsing_inv_mul_cancel_left _ _ h.isUnit] at e1 e2
  rw [e1, e2, h.fieldsOf_eq]

/-- **C103** The reported flux of corresponding amplitudes is the same in every order, with the two polarisations exchanged. -/
theorem C103_flux (he : IsEig eig) (hG : Function.Injective c.expansion) {p p' : StackLayer ι} (hp : p.IsDual p') {r : LayerSolveResult ι}
    (hr : p.solve eig c = .ok r) (hc : CompleteModes r) :
    ∃ r', p'.solve eig c = .ok r' ∧ ∀ a b : Matrix (ι ⊕ ι) β ℂ, ∃ f g,
      amplitudePoyntingFlux (dualModes r r' * a) (-(dualModes r r' * b)) r = .ok (f, g) ∧
      amplitudePoyntingFlux a b r' = .ok (f.submatrix Sum.swap id, g.submatrix Sum.swap id) := by
  obtain ⟨r', hr', h, -⟩ := layer_isDual he hG hp hr hc
  refine ⟨r', hr', fun a b => ?_⟩
  obtain ⟨E, hE⟩ := h.solved
  obtain ⟨E', hE'⟩ := h.solved'
  have hA := poyntingFluxAMatrix_eq_ok.2 ⟨hE.wellPosed, hc.2, rfl⟩
  have hA' := poyntingFluxAMatrix_eq_ok.2 ⟨hE'.wellPosed, h.complete'.2, rfl⟩
  have j1 : ∀ (x : Matrix (ι ⊕ ι) β ℂ) i k, ((quarterTurn : ModeMatrix ι) * x) (.inl i) k = -x (.inr i) k := by
    intro x i k
    simp [quarterTurn, Matrix.mul_apply, Fintype.sum_sum_type, Matrix.one_apply]
  have j2 : ∀ (x : Matrix (ι ⊕ ι) β ℂ) i k, ((quarterTurn : ModeMatrix ι) * x) (.inr i) k = x (.inl i) k := by
    intro x i k
    simp [quarterTurn, Matrix.mul_apply, Fintype.sum_sum_type, Matrix.one_apply]
  have e1 : ∀ x : Matrix (ι ⊕ ι) β ℂ, r'.eigenvectors * x = quarterTurn * (electricModes r * (dualModes r r' * x)) := by
    intro x; rw [h.magnetic]; simp only [Matrix.mul_assoc]
  have e2 : ∀ x : Matrix (ι ⊕ ι) β ℂ, electricModes r' * x = quarterTurn * (r.eigenvectors * (dualModes r r' * x)) := by
    intro x; rw [h.electric]; simp only [Matrix.mul_assoc]
  unfold amplitudePoyntingFlux
  rw [hA, hA']
  refine ⟨_, _, rfl, ?_⟩
  change Except.ok _ = Except.ok _
  rw [ok_inj, Prod.mk.injEq]
  constructor
  · ext i k
    rcases i with i | i
    · simp only [of_apply, submatrix_apply, Sum.swap_inl, id, e1, e2, j1, Matrix.mul_neg, Matrix.neg_apply]
      congr 1
      simp only [star_neg]
      ring
    · simp only [of_apply, submatrix_apply, Sum.swap_inr, id, e1, e2, j2, Matrix.mul_neg, Matrix.neg_apply]
      congr 1
      simp only [star_neg]
      ring
  · ext i k
    rcases i with i | i
    · simp only [of_apply, submatrix_apply, Sum.swap_inl, id, e1, e2, j1, Matrix.mul_neg, Matrix.neg_apply]
      congr 1
      simp only [star_neg, star_sub, star_mul', star_star]
      ring
    · simp only [of_apply, submatrix_apply, Sum.swap_inr, id, e1, e2, j2, Matrix.mul_neg, Matrix.neg_apply]
      congr 1
      simp only [star_neg, star_sub, star_mul', star_star]
      ring

/-! ### Stacks -/

theorem stack_dual_relations (he : IsEig eig) (hG : Function.Injective c.expansion) (hd : List.Forall₂ StackLayer.IsDual layers layers')
    (hS : ComputedSMatrix eig c layers S) (hq : ∀ i, S.startLayer.eigenvalues i ≠ 0) (hv : IsUnit S.endLayer.eigenvectors.det) :
    ∃ S', ComputedSMatrix eig c layers' S' ∧ DualLayers S.startLayer S'.startLayer ∧ DualLayers S.endLayer S'.endLayer ∧
      DualSMatrices (dualModes S.startLayer S'.startLayer) (dualModes S.endLayer S'.endLayer) S S' := by
  obtain ⟨⟨p, hp0, hr0⟩, pN, hpN, hrN⟩ := hS.ends
  obtain ⟨S', solved, solved', hS', hs, hs', hpair, k, k'⟩ := stack_dual he hG hd (by
    intro q hq0 r hr
    have : q = p := Option.mem_unique hq0 hp0
    subst this
    rw [hr0] at hr
    rw [← ok_inj.1 hr]
    exact hq) (by
    intro q hq0 r hr
    have : q = pN := Option.mem_unique hq0 hpN
    subst this
    rw [hrN] at hr
    rw [← ok_inj.1 hr]
    exact hv) hS
  obtain ⟨h1, h2, h3⟩ := relations_dual hpair k k'
  exact ⟨S', hS', h2, h3, h1⟩

/-- **C103** Duality.  If permittivity and permeability are exchanged in all layers, the scattering matrix is computed as well: transmission is the same, reflection
has the opposite sign, amplitudes being expressed by the dual modes. -/
theorem C103_duality (he : IsEig eig) (hG : Function.Injective c.expansion) (hd : List.Forall₂ StackLayer.IsDual layers layers')
    (hS : ComputedSMatrix eig c layers S) (hq : ∀ i, S.startLayer.eigenvalues i ≠ 0) (hv : IsUnit S.endLayer.eigenvectors.det) :
    ∃ S', ComputedSMatrix eig c layers' S' ∧ IsUnit (dualModes S.startLayer S'.startLayer).det ∧ IsUnit (dualModes S.endLayer S'.endLayer).det ∧
      DualSMatrices (dualModes S.startLayer S'.startLayer) (dualModes S.endLayer S'.endLayer) S S' := by
  obtain ⟨S', hS', h2, h3, h1⟩ := stack_dual_relations he hG hd hS hq hv
  exact ⟨S', hS', h2.isUnit, h3.isUnit, h1⟩

/-- A layer of vacuum. -/
def vacuumLayer (d : ℝ) : StackLayer ι := ⟨1, 1, .isotropic (Matrix.of fun _ _ => 1) .fft, d⟩

theorem vacuumLayer_selfDual (d : ℝ) : (vacuumLayer d : StackLayer ι).SelfDual := Or.inl ⟨_, _, rfl⟩

theorem vacuumLayer_eigenvectors {d : ℝ} {r : LayerSolveResult ι} (h : (vacuumLayer d).solve eig c = .ok r) : r.eigenvectors = 1 := by
  simp only [vacuumLayer, StackLayer.solve, eigensolveIsotropicMedia, and_self] at h
  obtain ⟨_, _, -, -, -, er⟩ := eigensolveUniformIsotropic_ok_iff.1 h
  rw [er]

/-- In vacuum the dual modes are the turned electric fields of the modes. -/
theorem vacuum_dualModes {r r' : LayerSolveResult ι} (h : DualLayers r r') (hr : r' = r) (hφ : r.eigenvectors = 1) :
    dualModes r r' = -(quarterTurn * electricProfiles r) ∧ (quarterTurn * electricProfiles r) * (quarterTurn * electricProfiles r) = -1 := by
  subst hr
  have e := h.electric
  rw [hφ, Matrix.mul_one] at e
  have e1 : (quarterTurn : ModeMatrix ι) * electricProfiles r' = -dualModes r' r' := by
    rw [electricProfiles_eq, e, ← Matrix.mul_assoc, quarterTurn_sq, Matrix.neg_mul, Matrix.one_mul]
  have e2 := h.dualModes_symm
  have e3 : dualModes r' r' * dualModes r' r' = -1 := by
    nth_rw 2 [e2]
    rw [Matrix.mul_neg, mul_nonsing_inv _ h.isUnit]
  rw [e1, neg_neg, Matrix.neg_mul, Matrix.mul_neg, neg_neg]
  exact ⟨rfl, e3⟩

/-- **C103** A structure between two half spaces of vacuum, and the structure with permittivity and permeability exchanged: with `D` the turned electric fields of
the waves in vacuum, `D² = -1`, the transmission matrices are conjugate by `D`, and so are the reflection matrices with opposite sign. -/
theorem C103_vacuum_ends (he : IsEig eig) (hG : Function.Injective c.expansion) {d d' : ℝ} (hd : List.Forall₂ StackLayer.IsDual layers layers')
    (hS : ComputedSMatrix eig c (vacuumLayer d :: layers ++ [vacuumLayer d']) S) (hq : ∀ i, S.startLayer.eigenvalues i ≠ 0) :
    ∃ S', ComputedSMatrix eig c (vacuumLayer d :: layers' ++ [vacuumLayer d']) S' ∧
      let D := quarterTurn * electricProfiles S.startLayer
      D * D = -1 ∧ electricProfiles S.endLayer = electricProfiles S.startLayer ∧
      D * S'.s11 = S.s11 * D ∧ D * S'.s12 = -(S.s12 * D) ∧ D * S'.s21 = -(S.s21 * D) ∧ D * S'.s22 = S.s22 * D := by
  obtain ⟨⟨p, hp0, hr0⟩, pN, hpN, hrN⟩ := hS.ends
  have i0 : p = vacuumLayer d := by simpa [eq_comm] using hp0
  have iN : pN = vacuumLayer d' := by
    rw [List.getLast?_append] at hpN
    simpa [eq_comm] using hpN
  subst i0 iN
  have v0 := vacuumLayer_eigenvectors hr0
  have vN := vacuumLayer_eigenvectors hrN
  have hfa : List.Forall₂ StackLayer.IsDual (vacuumLayer d :: layers ++ [vacuumLayer d']) (vacuumLayer d :: layers' ++ [vacuumLayer d']) :=
    List.rel_append (.cons (.inr ⟨vacuumLayer_selfDual _, rfl⟩) hd) (.cons (.inr ⟨vacuumLayer_selfDual _, rfl⟩) .nil)
  obtain ⟨S', hS', h2, h3, k1, k2, k3, k4⟩ := stack_dual_relations he hG hfa hS hq (by rw [vN]; simp)
  obtain ⟨⟨p, hp0', hr0'⟩, pN, hpN', hrN'⟩ := hS'.ends
  have i0 : p = vacuumLayer d := by simpa [eq_comm] using hp0'
  have iN : pN = vacuumLayer d' := by
    rw [List.getLast?_append] at hpN'
    simpa [eq_comm] using hpN'
  subst i0 iN
  rw [hr0, ok_inj] at hr0'
  rw [hrN, ok_inj] at hrN'
  have hend : S.endLayer = S.startLayer := by
    have : (vacuumLayer d' : StackLayer ι).solve eig c = (vacuumLayer d : StackLayer ι).solve eig c := rfl
    rw [this, hr0, ok_inj] at hrN
    exact hrN.symm
  obtain ⟨d1, d2⟩ := vacuum_dualModes h2 hr0'.symm v0
  obtain ⟨d3, -⟩ := vacuum_dualModes h3 hrN'.symm vN
  rw [d1] at k1 k3 k4
  rw [d3, hend] at k1 k2 k4
  simp only [Matrix.neg_mul, Matrix.mul_neg, neg_inj, neg_neg] at k1 k2 k3 k4
  refine ⟨S', hS', d2, by rw [hend], k1, ?_, ?_, k4⟩
  · rw [← k2]; simp
  · rw [← k3]; simp

/-! ### Self-dual structures -/

/-- **C103** Structures in which permittivity and permeability are equal everywhere, in vacuum: the scattering matrix is dual to itself. -/
theorem C103_self_dual (he : IsEig eig) (hG : Function.Injective c.expansion) {d d' : ℝ} (hd : ∀ p ∈ layers, p.SelfDual)
    (hS : ComputedSMatrix eig c (vacuumLayer d :: layers ++ [vacuumLayer d']) S) (hq : ∀ i, S.startLayer.eigenvalues i ≠ 0) :
    let D := quarterTurn * electricProfiles S.startLayer
    D * D = -1 ∧ D * S.s11 = S.s11 * D ∧ D * S.s12 = -(S.s12 * D) ∧ D * S.s21 = -(S.s21 * D) ∧ D * S.s22 = S.s22 * D := by
  have hfa : List.Forall₂ StackLayer.IsDual layers layers := List.forall₂_same.2 fun p hp => .inr ⟨hd p hp, rfl⟩
  obtain ⟨S', hS', h1, -, h2⟩ := C103_vacuum_ends he hG hfa hS hq
  rw [← hS.unique hS'] at h2
  exact ⟨h1, h2⟩

/-- The electric fields of normally incident waves in vacuum. -/
theorem vacuum_normal {d : ℝ} {r : LayerSolveResult ι} (h : (vacuumLayer d).solve eig c = .ok r) (hq : ∀ i, r.eigenvalues i ≠ 0) (h0 : c.inPlaneWavevector = 0)
    {i₀ : ι} (hi : c.expansion i₀ = 0) : ∃ x : ℂ, x ≠ 0 ∧ ∀ i : ι ⊕ ι,
      electricProfiles r (.inl i₀) i = (if i = .inl i₀ then x else 0) ∧ electricProfiles r (.inr i₀) i = (if i = .inr i₀ then x else 0) ∧
      electricProfiles r i (.inl i₀) = (if i = .inl i₀ then x else 0) ∧ electricProfiles r i (.inr i₀) = if i = .inr i₀ then x else 0 := by
  simp only [vacuumLayer, StackLayer.solve, eigensolveIsotropicMedia, and_self] at h
  have hw := omega_ne_zero (uniform_modeEquation h).1
  have hk : orderWavevector r i₀ = 0 := by
    obtain ⟨_, _, -, -, -, er⟩ := eigensolveUniformIsotropic_ok_iff.1 h
    unfold orderWavevector
    rw [er]
    simp [h0, hi]
  have key := fun i => uniform_electric h (1 : ModeMatrix ι) i
  refine ⟨(omega r : ℂ) ^ 2 / ((omega r : ℂ) * r.eigenvalues (.inl i₀)), ?_, ?_⟩
  · have := hq (.inl i₀)
    positivity
  · intro i
    simp only [electricProfiles_eq]
    have h1 : ((Matrix.of fun _ _ => 1 : Grid 1 1) ⟨0, Nat.one_pos⟩ ⟨0, Nat.one_pos⟩ : ℂ) = 1 := rfl
    have k1 := (key i₀ i).1
    have k2 := (key i₀ i).2.1
    rw [Matrix.mul_one, hk] at k1 k2
    refine ⟨?_, ?_, ?_, ?_⟩
    · rw [k1]
      rcases i with i | i
      · by_cases hii : i = i₀
        · subst hii; simp
        · simp [hii, Ne.symm hii]
      · simp
    · rw [k2]
      rcases i with i | i
      · simp
      · by_cases hii : i = i₀
        · subst hii; simp
        · simp [hii, Ne.symm hii]
    · rcases i with i | i
      · have k := (key i (.inl i₀)).1
        rw [Matrix.mul_one] at k
        rw [k]
        by_cases hii : i = i₀
        · subst hii; simp [hk]
        · simp [hii]
      · have k := (key i (.inl i₀)).2.1
        rw [Matrix.mul_one] at k
        rw [k]
        by_cases hii : i = i₀
        · subst hii; simp [hk]
        · simp [hii]
    · rcases i with i | i
      · have k := (key i (.inr i₀)).1
        rw [Matrix.mul_one] at k
        rw [k]
        by_cases hii : i = i₀
        · subst hii; simp [hk]
        · simp [hii]
      · have k := (key i (.inr i₀)).2.1
        rw [Matrix.mul_one] at k
        rw [k]
        by_cases hii : i = i₀
        · subst hii; simp [hk]
        · simp [hii]

/-- A redescription of the structure which maps the setup to itself at normal incidence keeps the zero order. -/
theorem redescription_zero {D : Redescription ι} (hG : Function.Injective c.expansion) (hs : D.SetupImage c c) (h0 : c.inPlaneWavevector = 0)
    {i₀ : ι} (hi : c.expansion i₀ = 0) : D.order i₀ = i₀ ∧ D.phase c i₀ = 1 := by
  have hpi := Real.pi_pos
  have z1 : D.zone.1 = 0 := by
    have := hs.wavevector_u
    simp only [h0, Redescription.rotate, dot, Prod.fst_zero, Prod.snd_zero, mul_zero, add_zero, zero_mul, zero_add, Prod.smul_fst, Prod.smul_snd, smul_zero] at this
    have h2 : (D.zone.1 : ℝ) = 0 := by
      by_contra h
      exact absurd this.symm (by positivity)
    exact_mod_cast h2
  have z2 : D.zone.2 = 0 := by
    have := hs.wavevector_v
    simp only [h0, Redescription.rotate, dot, Prod.fst_zero, Prod.snd_zero, mul_zero, add_zero, zero_mul, zero_add, Prod.smul_fst, Prod.smul_snd, smul_zero] at this
    have h2 : (D.zone.2 : ℝ) = 0 := by
      by_contra h
      exact absurd this.symm (by positivity)
    exact_mod_cast h2
  have he := hs.expansion i₀
  rw [hi, z1, z2, Prod.ext_iff] at he
  obtain ⟨e1, e2⟩ := he
  simp only [Prod.fst_zero, Prod.snd_zero, sub_zero] at e1 e2
  have hdet := D.basis_det
  rw [Matrix.det_fin_two] at hdet
  have g1 : (c.expansion (D.order i₀)).1 = 0 := by
    have : (D.basis 0 0 * D.basis 1 1 - D.basis 0 1 * D.basis 1 0) * (c.expansion (D.order i₀)).1 = 0 := by
      linear_combination -D.basis 1 1 * e1 + D.basis 1 0 * e2
    exact (mul_eq_zero.1 this).resolve_left hdet
  have g2 : (c.expansion (D.order i₀)).2 = 0 := by
    have : (D.basis 0 0 * D.basis 1 1 - D.basis 0 1 * D.basis 1 0) * (c.expansion (D.order i₀)).2 = 0 := by
      linear_combination D.basis 0 1 * e1 - D.basis 0 0 * e2
    exact (mul_eq_zero.1 this).resolve_left hdet
  refine ⟨hG ?_, ?_⟩
  · rw [hi]; exact Prod.ext g1 g2
  · simp [Redescription.phase, g1, g2]

/-- **C103** No reflection (Weston's theorem).  A structure in vacuum with equal permittivity and permeability everywhere, and a rotation symmetry other than the
half turn: the wave incident along the normal is not reflected into the zero order, in either polarisation and from either side. -/
theorem C103_no_reflection (he : IsEig eig) (hG : Function.Injective c.expansion) {d d' : ℝ} (hd : ∀ p ∈ layers, p.SelfDual)
    {D : Redescription ι} (hs : D.SetupImage c c) (hl : List.Forall₂ (D.Image c c) layers layers) (hrot : D.rotation 0 1 ≠ D.rotation 1 0)
    (h0 : c.inPlaneWavevector = 0) {i₀ : ι} (hi : c.expansion i₀ = 0)
    (hS : ComputedSMatrix eig c (vacuumLayer d :: layers ++ [vacuumLayer d']) S) (hq : ∀ i, S.startLayer.eigenvalues i ≠ 0) :
    ∀ a b : ι ⊕ ι, a = .inl i₀ ∨ a = .inr i₀ → b = .inl i₀ ∨ b = .inr i₀ → S.s21 a b = 0 ∧ S.s12 a b = 0 := by
  obtain ⟨-, -, k2, k3, -⟩ := C103_self_dual he hG hd hS hq
  have hscale : D.scale = 1 := by
    have := hs.wavelength
    have hw : c.wavelength ≠ 0 := by
      obtain ⟨⟨p, hp0, hr0⟩, -⟩ := hS.ends
      have i0 : p = vacuumLayer d := by simpa [eq_comm] using hp0
      subst i0
      simp only [vacuumLayer, StackLayer.solve, eigensolveIsotropicMedia, and_self] at hr0
      exact ((C22_uniform_succeeds_iff _ _ _ _ _).1 ⟨_, hr0⟩).1
    exact (mul_eq_right₀ hw).1 this.symm
  have hvac : ∀ d, D.Image c c (vacuumLayer d) (vacuumLayer d) := by
    intro d
    have := LayerImage.uniformIsotropic (scale := D.scale) (O := D.rotation) (grids := fun γ => D.GridImage c γ) (c := c) (c' := c) (Matrix.of fun _ _ => 1) .fft .fft d
    rw [hscale, one_mul] at this
    unfold Redescription.Image
    rw [hscale]
    exact this
  have hl' : List.Forall₂ (D.Image c c) (vacuumLayer d :: layers ++ [vacuumLayer d']) (vacuumLayer d :: layers ++ [vacuumLayer d']) :=
    List.rel_append (.cons (hvac d) hl) (.cons (hvac d') .nil)
  have hu : ∀ d, (vacuumLayer d : StackLayer ι).Uniform := fun d => ⟨rfl, rfl, _, _, rfl⟩
  obtain ⟨-, c2, c3, -⟩ := C88_symmetry he hs hl' (by
    intro p hp
    have : p = vacuumLayer d := by simpa [eq_comm] using hp
    rw [this]; exact hu d) (by
    intro p hp
    have : p = vacuumLayer d' := by
      rw [List.getLast?_append] at hp
      simpa [eq_comm] using hp
    rw [this]; exact hu d') hS
  obtain ⟨⟨p, hp0, hr0⟩, -⟩ := hS.ends
  have i0 : p = vacuumLayer d := by simpa [eq_comm] using hp0
  subst i0
  obtain ⟨x, hx, hD⟩ := vacuum_normal hr0 hq h0 hi
  obtain ⟨ho, hph⟩ := redescription_zero hG hs h0 hi
  have hsymm : D.order.symm i₀ = i₀ := by rw [Equiv.symm_apply_eq, ho]
  -- entries of the two matrices
  have f1 : ∀ (M : ModeMatrix ι) (b : ι ⊕ ι), (D.fieldMatrix c * M) (.inl i₀) b = D.rotation 0 0 * M (.inl i₀) b + D.rotation 0 1 * M (.inr i₀) b := by
    intro M b
    simp [Redescription.fieldMatrix, Matrix.mul_apply, Fintype.sum_sum_type, ho, hph]
  have f2 : ∀ (M : ModeMatrix ι) (b : ι ⊕ ι), (D.fieldMatrix c * M) (.inr i₀) b = D.rotation 1 0 * M (.inl i₀) b + D.rotation 1 1 * M (.inr i₀) b := by
    intro M b
    simp [Redescription.fieldMatrix, Matrix.mul_apply, Fintype.sum_sum_type, ho, hph]
  have col : ∀ i, (if D.order i = i₀ then D.phase c i else 0 : ℂ) = if i = i₀ then 1 else 0 := by
    intro i
    by_cases h : i = i₀
    · subst h; simp [ho, hph]
    · have : D.order i ≠ i₀ := fun h' => h (by rw [← hsymm, ← h', Equiv.symm_apply_apply])
      simp [h, this]
  have f3 : ∀ (M : ModeMatrix ι) (a : ι ⊕ ι), (M * D.fieldMatrix c) a (.inl i₀) = D.rotation 0 0 * M a (.inl i₀) + D.rotation 1 0 * M a (.inr i₀) := by
    intro M b
    simp [Redescription.fieldMatrix, Matrix.mul_apply, Fintype.sum_sum_type, col]
    ring
  have f4 : ∀ (M : ModeMatrix ι) (a : ι ⊕ ι), (M * D.fieldMatrix c) a (.inr i₀) = D.rotation 0 1 * M a (.inl i₀) + D.rotation 1 1 * M a (.inr i₀) := by
    intro M b
    simp [Redescription.fieldMatrix, Matrix.mul_apply, Fintype.sum_sum_type, col]
    ring
  have j : ∀ b, ((quarterTurn : ModeMatrix ι) * electricProfiles S.startLayer) (.inl i₀) b = -electricProfiles S.startLayer (.inr i₀) b ∧
      ((quarterTurn : ModeMatrix ι) * electricProfiles S.startLayer) (.inr i₀) b = electricProfiles S.startLayer (.inl i₀) b := by
    intro b
    constructor <;> simp [quarterTurn, Matrix.mul_apply, Fintype.sum_sum_type, Matrix.one_apply]
  have j' : ∀ b, ((quarterTurn : ModeMatrix ι) * electricProfiles S.startLayer) b (.inl i₀) = (if b = .inr i₀ then x else 0) ∧
      ((quarterTurn : ModeMatrix ι) * electricProfiles S.startLayer) b (.inr i₀) = if b = .inl i₀ then -x else 0 := by
    intro b
    rcases b with b | b
    · by_cases hb : b = i₀ <;> constructor <;>
        simp [quarterTurn, Matrix.mul_apply, (hD _).2.2.1, (hD _).2.2.2, hb]
    · by_cases hb : b = i₀ <;> constructor <;>
        simp [quarterTurn, Matrix.mul_apply, (hD _).2.2.1, (hD _).2.2.2, hb]
  have e1 : ∀ (M : ModeMatrix ι) (b : ι ⊕ ι), (((quarterTurn : ModeMatrix ι) * electricProfiles S.startLayer) * M) (.inl i₀) b = -(x * M (.inr i₀) b) := by
    intro M b
    rw [Matrix.mul_apply]
    simp [(j _).1, (hD _).2.1]
  have e2 : ∀ (M : ModeMatrix ι) (b : ι ⊕ ι), (((quarterTurn : ModeMatrix ι) * electricProfiles S.startLayer) * M) (.inr i₀) b = x * M (.inl i₀) b := by
    intro M b
    rw [Matrix.mul_apply]
    simp [(j _).2, (hD _).1]
  have e3 : ∀ (M : ModeMatrix ι) (a : ι ⊕ ι), (M * ((quarterTurn : ModeMatrix ι) * electricProfiles S.startLayer)) a (.inl i₀) = x * M a (.inr i₀) := by
    intro M b
    rw [Matrix.mul_apply]
    simp [(j' _).1, mul_comm]
  have e4 : ∀ (M : ModeMatrix ι) (a : ι ⊕ ι), (M * ((quarterTurn : ModeMatrix ι) * electricProfiles S.startLayer)) a (.inr i₀) = -(x * M a (.inl i₀)) := by
    intro M b
    rw [Matrix.mul_apply]
    simp [(j' _).2, mul_comm]
  have hrot' : (D.rotation 0 1 : ℂ) - D.rotation 1 0 ≠ 0 := by
    rw [sub_ne_zero]
    exact_mod_cast hrot
  have key : ∀ M : ModeMatrix ι, ((quarterTurn : ModeMatrix ι) * electricProfiles S.startLayer) * M = -(M * ((quarterTurn : ModeMatrix ι) * electricProfiles S.startLayer)) →
      M * D.fieldMatrix c = D.fieldMatrix c * M → ∀ a b : ι ⊕ ι, a = .inl i₀ ∨ a = .inr i₀ → b = .inl i₀ ∨ b = .inr i₀ → M a b = 0 := by
    intro M hM hC
    have a1 := congrFun (congrFun hM (.inl i₀)) (.inl i₀)
    have a2 := congrFun (congrFun hM (.inl i₀)) (.inr i₀)
    have b1 := congrFun (congrFun hC (.inl i₀)) (.inl i₀)
    have b2 := congrFun (congrFun hC (.inl i₀)) (.inr i₀)
    rw [Matrix.neg_apply, e1, e3] at a1
    rw [Matrix.neg_apply, e1, e4] at a2
    rw [f1, f3] at b1
    have b3 := congrFun (congrFun hC (.inr i₀)) (.inl i₀)
    rw [f1, f4] at b2
    rw [f2, f3] at b3
    have m1 : M (.inr i₀) (.inl i₀) = M (.inl i₀) (.inr i₀) := mul_left_cancel₀ hx (by linear_combination -a1)
    have m2 : M (.inr i₀) (.inr i₀) = -M (.inl i₀) (.inl i₀) := mul_left_cancel₀ hx (by linear_combination -a2)
    have m3 : M (.inl i₀) (.inr i₀) = 0 := (mul_eq_zero.1 (by rw [m1] at b1; linear_combination -b1 :
      ((D.rotation 0 1 : ℂ) - D.rotation 1 0) * M (.inl i₀) (.inr i₀) = 0)).resolve_left hrot'
    have m4 : M (.inl i₀) (.inl i₀) = 0 := (mul_eq_zero.1 (by
      rw [m1, m2, m3] at b3
      rw [m2, m3] at b2
      linear_combination (b2 + b3) / 2 : ((D.rotation 0 1 : ℂ) - D.rotation 1 0) * M (.inl i₀) (.inl i₀) = 0)).resolve_left hrot'
    rintro a b (rfl | rfl) (rfl | rfl)
    · exact m4
    · exact m3
    · rw [m1, m3]
    · rw [m2, m4, neg_zero]
  intro a b ha hb
  exact ⟨key _ k3 c3 a b ha hb, key _ k2 c2 a b ha hb⟩

/-! ### Examples -/

/-- C103: an absorbing grating and its magnetic dual. -/
example : ∃ eig S S', ComputedSMatrix eig SymmetryExample.setup SymmetryExample.stack S ∧
    ComputedSMatrix eig SymmetryExample.setup (SymmetryExample.stack.map StackLayer.dual) S' ∧
    IsUnit (dualModes S.startLayer S'.startLayer).det ∧ IsUnit (dualModes S.endLayer S'.endLayer).det ∧
    DualSMatrices (dualModes S.startLayer S'.startLayer) (dualModes S.endLayer S'.endLayer) S S' := by
  obtain ⟨eig, he, S, hS⟩ := SymmetryExample.computed
  obtain ⟨-, pN, hpN, hrN⟩ := hS.ends
  have hd : List.Forall₂ StackLayer.IsDual SymmetryExample.stack (SymmetryExample.stack.map StackLayer.dual) := by
    rw [List.forall₂_map_right_iff, List.forall₂_same]
    exact fun p hp => .inl ⟨.inr (.inl (SymmetryExample.fft p hp)), rfl⟩
  obtain ⟨S', h⟩ := C103_duality he SymmetryExample.injective hd hS (SymmetryExample.start_nonzero hS)
    (by rw [uniform_eigenvectors (SymmetryExample.uniform_ends.2 pN hpN) hrN]; simp)
  exact ⟨eig, S, S', hS, h⟩

/-- C103: fields and fluxes of corresponding waves in the first layer of the grating and in its dual. -/
example : ∃ eig p r r', p ∈ SymmetryExample.stack ∧ p.solve eig SymmetryExample.setup = .ok r ∧ p.dual.solve eig SymmetryExample.setup = .ok r' ∧
    (∃ F, reportedFields r 1 (dualModes r r' * (1 : ModeMatrix (Fin 3))) (-(dualModes r r' * 1)) (1 / 2) = .ok F ∧ reportedFields r' 1 1 1 (1 / 2) = .ok F.dual) ∧
    ∃ f g, amplitudePoyntingFlux (dualModes r r' * (1 : ModeMatrix (Fin 3))) (-(dualModes r r' * 1)) r = .ok (f, g) ∧
      amplitudePoyntingFlux 1 1 r' = .ok (f.submatrix Sum.swap id, g.submatrix Sum.swap id) := by
  obtain ⟨eig, he, S, hS⟩ := SymmetryExample.computed
  obtain ⟨⟨p, hp, hr⟩, -⟩ := hS.ends
  have hm := List.mem_of_mem_head? hp
  have hd : p.IsDual p.dual := .inl ⟨.inr (.inl (SymmetryExample.fft p hm)), rfl⟩
  have hc : CompleteModes S.startLayer := ⟨by rw [uniform_eigenvectors (SymmetryExample.uniform_ends.1 p hp) hr]; simp, SymmetryExample.start_nonzero hS⟩
  obtain ⟨r', hr', -, h⟩ := C103_fields (β := Fin 3 ⊕ Fin 3) he SymmetryExample.injective hd hr hc
  obtain ⟨r'', hr'', h'⟩ := C103_flux (β := Fin 3 ⊕ Fin 3) he SymmetryExample.injective hd hr hc
  rw [hr', ok_inj] at hr''
  subst hr''
  exact ⟨eig, p, _, r', hm, hr, hr', h 1 (1 / 2) 1 1, h' 1 1⟩

namespace DualityExample

/-- Normal incidence on a square lattice. -/
noncomputable def setup : Setup (Fin 1) := { wavelength := 2 * Real.pi, inPlaneWavevector := (0, 0), lattice := unitLattice, expansion := fun _ => (0, 0) }

/-- A pattern with equal permittivity and permeability. -/
noncomputable def pattern : StackLayer (Fin 1) := ⟨2, 2, .anisotropic (.scalar quarterTurnPattern) (.scalar quarterTurnPattern) .fft none, 1⟩

/-- A quarter turn. -/
def turn : Redescription (Fin 1) :=
  { scale := 1, scale_pos := one_pos, rotation := !![0, -1; 1, 0], orthogonal := by ext i j; fin_cases i <;> fin_cases j <;> simp [Matrix.mul_apply, Fin.sum_univ_two],
    basis := !![0, 1; -1, 0], basis_det := by simp [Matrix.det_fin_two], shift := 0, order := Equiv.refl _, zone := 0 }

theorem turn_setup : turn.SetupImage setup setup := by
  refine ⟨?_, ?_, ?_, ?_, ?_, ?_⟩ <;> simp [turn, setup, unitLattice, Redescription.rotate, dot]

theorem turn_pattern : turn.Image setup setup pattern pattern := by
  have hγ : turn.GridImage setup (Prod.swap : Fin 2 × Fin 2 → Fin 2 × Fin 2) := by
    refine ⟨Prod.swap_surjective, ⟨⟨0⟩, by simp [setup]⟩, fun p => ⟨(0, (p.1 : ℕ)), by simp [turn], ?_⟩⟩
    simp [turn]
    ring
  have := LayerImage.anisotropic (scale := 1) (O := !![0, -1; 1, 0]) (grids := fun γ => turn.GridImage setup γ) (c := setup) (c' := setup) _ hγ (by norm_num) (by norm_num)
    (.scalar quarterTurnPattern) (.scalar quarterTurnPattern) none .fft .fft trivial 1
  have e : ((rotateTensor !![0, -1; 1, 0] (TensorComponents.scalar quarterTurnPattern)).pull (Prod.swap : Fin 2 × Fin 2 → Fin 2 × Fin 2)) = .scalar quarterTurnPattern := by
    simp only [rotateTensor, TensorComponents.pull, TensorComponents.scalar]
    congr 1 <;> · ext r s; simp [Grid.pull, quarterTurnPattern, and_comm]
  rw [e, one_mul] at this
  exact this

/-- C103: the pattern between vacuum does not reflect; its transmission is determined. -/
example : ∃ eig S, ComputedSMatrix eig setup [vacuumLayer 1, pattern, vacuumLayer 1] S ∧ S.s21 = 0 ∧ S.s12 = 0 ∧
    (quarterTurn * electricProfiles S.startLayer) * S.s11 = S.s11 * (quarterTurn * electricProfiles S.startLayer) := by
  obtain ⟨eig, r, v, he, hr, hv, ha, ho, hw, hw'⟩ := example_magnetic
  obtain ⟨S, ps, hS, hp⟩ := C81_absorbing_slab (lam := 2 * Real.pi) (l0 := v) (l1 := r) (l2 := v) (d0 := 1) (d1 := 1) (d2 := 1) (by simp [hw, hw']) ho ha ho
    zero_le_one one_pos zero_le_one
  have hC : ComputedSMatrix eig setup [vacuumLayer 1, pattern, vacuumLayer 1] S := ⟨[v, r, v], .cons hv (.cons hr (.cons hv .nil)), hS⟩
  have hG : Function.Injective setup.expansion := fun _ _ _ => Subsingleton.elim _ _
  have hd : ∀ p ∈ [pattern], p.SelfDual := by
    intro p hp
    rw [List.mem_singleton] at hp
    rw [hp]
    exact .inr ⟨_, _, _, rfl⟩
  have hq : ∀ i, S.startLayer.eigenvalues i ≠ 0 := by
    obtain ⟨⟨p, hp, hr'⟩, -⟩ := hC.ends
    have : p = vacuumLayer 1 := by simpa [eq_comm] using hp
    subst this
    have e : (vacuumLayer 1 : StackLayer (Fin 1)).solve eig setup = .ok v := hv
    rw [e, ok_inj] at hr'
    rw [← hr']
    exact ho.modes.2
  have k := C103_no_reflection (layers := [pattern]) he hG hd turn_setup (.cons turn_pattern .nil) (by norm_num [turn]) rfl (i₀ := 0) rfl hC hq
  have hall : ∀ a : Fin 1 ⊕ Fin 1, a = .inl 0 ∨ a = .inr 0 := by
    intro a
    rcases a with a | a <;> fin_cases a <;> simp
  refine ⟨eig, S, hC, ?_, ?_, (C103_self_dual (layers := [pattern]) he hG hd hC hq).2.1⟩
  · ext a b
    exact (k a b (hall a) (hall b)).1
  · ext a b
    exact (k a b (hall a) (hall b)).2

end DualityExample

end Fmmax
