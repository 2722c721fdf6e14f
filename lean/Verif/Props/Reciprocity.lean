import Verif.Proofs.ReciprocityStack
import Verif.Props.Symmetry

/-! Property theorems C89: Lorentz reciprocity.

`Setup.reverse`, `StackLayer.transpose`, `StackLayer.ConstantTangent`, `lorentz`, `pairing`, `wavePairing` and `ReciprocalSMatrices` are from `Verif/Spec/Reciprocity.lean`. -/

set_option linter.unusedSectionVars false

namespace Fmmax

open Spec Matrix

variable {ι : Type} [Fintype ι] [DecidableEq ι] {β γ : Type} {c : Setup ι} {layers : List (StackLayer ι)} {S : ScatteringMatrix ι}
variable {eig : Matrix (ι ⊕ ι) (ι ⊕ ι) ℂ → (ι ⊕ ι → ℂ) × Matrix (ι ⊕ ι) (ι ⊕ ι) ℂ}

/-! ### The Lorentz form -/

/-- **C89** For any excitation of a stack and any excitation of the reciprocal stack, `E' × H - E × H'` has the same average over the unit cell at all
depths of all layers. -/
theorem C89_lorentz_invariant (he : IsEig eig) (hG : Function.Injective c.expansion) (hp : ∀ p ∈ layers, p.ConstantTangent c)
    {solved solved' : List (LayerSolveResult ι)} (hs : List.Forall₂ (fun p r => p.solve eig c = .ok r) layers solved)
    (hs' : List.Forall₂ (fun p r => p.solve eig c.reverse = .ok r) (layers.map StackLayer.transpose) solved') (hc : ∀ r ∈ solved, CompleteModes r)
    {st : List (LayerState ι β)} (hg : geometry st = solved.zip (layers.map StackLayer.thickness)) (hst : Consistent st)
    {st' : List (LayerState ι γ)} (hg' : geometry st' = solved'.zip (layers.map StackLayer.thickness)) (hst' : Consistent st')
    {i j : ℕ} (hi : i < st.length) (hi' : i < st'.length) (hj : j < st.length) (hj' : j < st'.length) {z w : ℝ} {e h f g : Matrix (ι ⊕ ι) β ℂ} {e' h' f' g' : Matrix (ι ⊕ ι) γ ℂ}
    (h1 : FieldsAt st[i] z e h) (h1' : FieldsAt st'[i] z e' h') (h2 : FieldsAt st[j] w f g) (h2' : FieldsAt st'[j] w f' g') :
    lorentz e h e' h' = lorentz f g f' g' := by
  obtain ⟨solved2, k1, k2⟩ := layers_reciprocal he hG hs hp hc
  have : solved2 = solved' := forall₂_solve_unique k1 hs'
  subst this
  rw [← hg, ← hg'] at k2
  have key : ∃ W, List.Forall₂ (fun u v => stateLorentz u v = W) st st' := by
    cases st with
    | nil => simp at hi
    | cons s st =>
      cases st' with
      | nil => simp at hi'
      | cons t st' => exact ⟨_, stateLorentz_const st st' s t hst hst' k2⟩
  obtain ⟨W, hW⟩ := key
  have hpair : ∀ (n : ℕ) (hn : n < st.length) (hn' : n < st'.length), stateLorentz st[n] st'[n] = W ∧ Reciprocal st[n].layer st'[n].layer ∧ st'[n].thickness = st[n].thickness := by
    intro n hn hn'
    refine ⟨(List.forall₂_iff_get.1 hW).2 n hn hn', ?_⟩
    have := (List.forall₂_iff_get.1 k2).2 n (by simpa [geometry] using hn) (by simpa [geometry] using hn')
    simpa [geometry, ReciprocalPair] using this
  obtain ⟨a1, a2, a3⟩ := hpair i hi hi'
  obtain ⟨b1, b2, b3⟩ := hpair j hj hj'
  rw [stateLorentz_eq a2 a3 h1 h1', stateLorentz_eq b2 b3 h2 h2', a1, b1]

/-! ### Scattering matrices -/

/-- **C89** Reciprocity.  The calculation with reversed in-plane wavevector, reversed orders and transposed tensors succeeds as well, and its scattering
matrix is the transpose of the original one with respect to the pairing of the modes of the first and of the last layer: the reflected
amplitudes are transposed, and transmission in one direction corresponds to transmission in the other direction. -/
theorem C89_reciprocity (he : IsEig eig) (hG : Function.Injective c.expansion) (hp : ∀ p ∈ layers, p.ConstantTangent c)
    (hS : ComputedSMatrix eig c layers S) (hq : ∀ i, S.startLayer.eigenvalues i ≠ 0) (hv : IsUnit S.endLayer.eigenvectors.det) :
    ∃ S', ComputedSMatrix eig c.reverse (layers.map StackLayer.transpose) S' ∧
      IsUnit (pairing S.startLayer S'.startLayer S.startThickness).det ∧ IsUnit (pairing S.endLayer S'.endLayer S.endThickness).det ∧
      ReciprocalSMatrices (pairing S.startLayer S'.startLayer S.startThickness) (pairing S.endLayer S'.endLayer S.endThickness) S S' := by
  obtain ⟨⟨p, hp0, hr0⟩, pN, hpN, hrN⟩ := hS.ends
  obtain ⟨S', solved, solved', hS', hs, hs', hpair, k, k'⟩ := stack_reciprocal he hG hp (by
    intro q hq0 r hr
    have : q = p := Option.mem_unique hq0 hp0
    subst this
    rw [hr0] at hr
    rw [← ok_inj.1 hr]
    exact hq) (by
    intro q hq0 r hr
    have : q = pN := Option.mem_unique hq0 hpN
    subst this
    rw [hrN] at hr
    rw [← ok_inj.1 hr]
    exact hv) hS
  refine ⟨S', hS', ?_, ?_, relations_reciprocal hpair k k'⟩
  · exact (forall₂_head hpair _ k.start _ k'.start).1.pairing_isUnit _
  · exact (forall₂_getLast hpair _ k.finish _ k'.finish).1.pairing_isUnit _

/-- **C89** Uniform first and last layers: the pairing is diagonal in the orders, and couples the two polarisations of one order. -/
theorem C89_uniform_ends (he : IsEig eig) (hG : Function.Injective c.expansion) (hp : ∀ p ∈ layers, p.ConstantTangent c)
    (hfirst : ∀ p ∈ layers.head?, p.Uniform) (hlast : ∀ p ∈ layers.getLast?, p.Uniform)
    (hS : ComputedSMatrix eig c layers S) (hq : ∀ i, S.startLayer.eigenvalues i ≠ 0) :
    ∃ S', ComputedSMatrix eig c.reverse (layers.map StackLayer.transpose) S' ∧
      ReciprocalSMatrices (wavePairing S.startLayer S.startThickness) (wavePairing S.endLayer S.endThickness) S S' := by
  obtain ⟨⟨p, hp0, hr0⟩, pN, hpN, hrN⟩ := hS.ends
  have e1 := uniform_eigenvectors (hfirst p hp0) hr0
  have e2 := uniform_eigenvectors (hlast pN hpN) hrN
  obtain ⟨S', hS', -, -, h⟩ := C89_reciprocity he hG hp hS hq (by rw [e2]; simp)
  refine ⟨S', hS', ?_⟩
  obtain ⟨⟨p', hp0', hr0'⟩, pN', hpN', hrN'⟩ := hS'.ends
  have ht : ∀ p : StackLayer ι, p.Uniform → p.transpose.Uniform := by
    rintro ⟨nx, ny, med, d⟩ ⟨h1, h2, ε, f, h3⟩
    refine ⟨h1, h2, ε, f, ?_⟩
    simp only at h3
    simp only [StackLayer.transpose, h3]
    rfl
  have e1' : S'.startLayer.eigenvectors = 1 := by
    rw [List.head?_map, Option.mem_def, Option.map_eq_some_iff] at hp0'
    obtain ⟨q, hq', rfl⟩ := hp0'
    exact uniform_eigenvectors (ht _ (hfirst q hq')) hr0'
  have e2' : S'.endLayer.eigenvectors = 1 := by
    rw [List.getLast?_map, Option.mem_def, Option.map_eq_some_iff] at hpN'
    obtain ⟨q, hq', rfl⟩ := hpN'
    exact uniform_eigenvectors (ht _ (hlast q hq')) hrN'
  have w0 : pairing S.startLayer S'.startLayer S.startThickness = wavePairing S.startLayer S.startThickness := by
    unfold pairing wavePairing
    rw [e1, e1', transpose_one, Matrix.one_mul, Matrix.mul_one]
  have wN : pairing S.endLayer S'.endLayer S.endThickness = wavePairing S.endLayer S.endThickness := by
    unfold pairing wavePairing
    rw [e2, e2', transpose_one, Matrix.one_mul, Matrix.mul_one]
  rwa [w0, wN] at h

/-! ### The zeroth order at normal incidence -/

/-- The pairing of the zeroth order at normal incidence. -/
theorem wavePairing_zero {ε : ℂ} {r : LayerSolveResult ι} (h : eigensolveUniformIsotropic c.wavelength c.inPlaneWavevector c.lattice ε c.expansion = .ok r)
    (hk : c.inPlaneWavevector = 0) {i : ι} (hi : c.expansion i = 0) (d : ℝ) {x : ι ⊕ ι} (hx : x.elim id id = i) (y : ι ⊕ ι) :
    wavePairing r d x y = (if x = y then (omega r : ℂ) * Complex.exp (Complex.I * r.eigenvalues x * d) / r.eigenvalues x else 0) ∧
    wavePairing r d y x = (if x = y then (omega r : ℂ) * Complex.exp (Complex.I * r.eigenvalues x * d) / r.eigenvalues x else 0) := by
  obtain ⟨k, w, -, hw, hε0, hr⟩ := eigensolveUniformIsotropic_ok_iff.1 h
  have hη : r.zPermittivityMatrix⁻¹ = (ε⁻¹) • (1 : Matrix ι ι ℂ) := by
    rw [hr]
    exact Matrix.inv_eq_right_inv (by simp [smul_smul, hε0])
  have hM : r.transversePermeabilityMatrix = 1 := by rw [hr]
  have hω : (omega r : ℂ) ≠ 0 := omega_ne_zero (uniform_solvedFor h).wellPosed
  have hki : orderWavevector r i = 0 := by
    have e1 : r.inPlaneWavevector = 0 := by rw [hr]; exact hk
    have e2 : r.expansion i = 0 := by rw [hr]; exact hi
    simp [orderWavevector, e1, e2]
  have hX : ∀ y, magneticToElectric r x y = (if x = y then (omega r : ℂ) ^ 2 else 0) ∧ magneticToElectric r y x = (if x = y then (omega r : ℂ) ^ 2 else 0) := by
    intro y
    unfold magneticToElectric
    simp only [hη, hM]
    rcases x with x | x <;> rcases y with y | y <;> simp only [Sum.elim_inl, Sum.elim_inr, id] at hx <;> subst hx <;> by_cases hxy : x = y <;>
      simp [hxy, Ne.symm, Matrix.mul_smul, Matrix.smul_mul, Matrix.one_apply, Matrix.diagonal_apply, hki, eq_comm (a := y)]
    all_goals (subst hxy; simp [hki])
  unfold wavePairing
  rw [mul_diagonal, mul_diagonal, (hX y).1, (hX y).2]
  by_cases hxy : x = y
  · subst hxy
    simp only [if_true]
    constructor <;> field_simp
  · simp [hxy]

theorem wavePairing_zero_mul {p : StackLayer ι} (hu : p.Uniform) {r : LayerSolveResult ι} (h : p.solve eig c = .ok r)
    (hk : c.inPlaneWavevector = 0) {i : ι} (hi : c.expansion i = 0) (d : ℝ) {x y : ι ⊕ ι} (hx : x.elim id id = i) (hy : y.elim id id = i) (A : ModeMatrix ι) :
    (omega r : ℂ) = (2 * Real.pi / c.wavelength : ℝ) ∧ (omega r : ℂ) ≠ 0 ∧
    (wavePairing r d * A) x y = (omega r : ℂ) * (Complex.exp (Complex.I * r.eigenvalues (.inl i) * d) / r.eigenvalues (.inl i)) * A x y ∧
    (A * wavePairing r d) x y = (omega r : ℂ) * (Complex.exp (Complex.I * r.eigenvalues (.inl i) * d) / r.eigenvalues (.inl i)) * A x y := by
  obtain ⟨nx, ny, med, t⟩ := p
  obtain ⟨h1, h2, ε, f, h3⟩ := hu
  simp only at h1 h2 h3
  subst h1
  subst h2
  simp only [StackLayer.solve, h3, eigensolveIsotropicMedia, and_self, dite_true] at h
  obtain ⟨k, w, -, hw, hε0, hr⟩ := eigensolveUniformIsotropic_ok_iff.1 h
  have hqs : ∀ x : ι ⊕ ι, r.eigenvalues x = r.eigenvalues (.inl (x.elim id id)) := by
    intro x
    rcases x with x | x <;> rw [hr] <;> rfl
  refine ⟨by rw [hr]; rfl, omega_ne_zero (uniform_solvedFor h).wellPosed, ?_, ?_⟩
  · rw [Matrix.mul_apply, Finset.sum_eq_single x]
    · rw [(wavePairing_zero h hk hi d hx x).1, if_pos rfl, hqs x, hx]
      ring
    · intro b _ hb
      rw [(wavePairing_zero h hk hi d hx b).1, if_neg hb.symm, zero_mul]
    · simp
  · rw [Matrix.mul_apply, Finset.sum_eq_single y]
    · rw [(wavePairing_zero h hk hi d hy y).2, if_pos rfl, hqs y, hy]
      ring
    · intro b _ hb
      rw [(wavePairing_zero h hk hi d hy b).2, if_neg hb.symm, mul_zero]
    · simp

/-- **C89** The zeroth order at normal incidence, with uniform first and last layers: reflection from polarisation `x` to `y` is that of the reciprocal
calculation from `y` to `x`, and transmission is that from the other side, up to the ratio of the propagation constants. -/
theorem C89_normal_incidence (he : IsEig eig) (hG : Function.Injective c.expansion) (hp : ∀ p ∈ layers, p.ConstantTangent c)
    (hfirst : ∀ p ∈ layers.head?, p.Uniform) (hlast : ∀ p ∈ layers.getLast?, p.Uniform)
    (hS : ComputedSMatrix eig c layers S) (hq : ∀ i, S.startLayer.eigenvalues i ≠ 0) (hk : c.inPlaneWavevector = 0) {i : ι} (hi : c.expansion i = 0) :
    ∃ S', ComputedSMatrix eig c.reverse (layers.map StackLayer.transpose) S' ∧ ∀ x y : ι ⊕ ι, x.elim id id = i → y.elim id id = i →
      S'.s21 y x = S.s21 x y ∧ S'.s12 y x = S.s12 x y ∧
      Complex.exp (Complex.I * S.startLayer.eigenvalues (.inl i) * S.startThickness) / S.startLayer.eigenvalues (.inl i) * S.s22 x y =
        Complex.exp (Complex.I * S.endLayer.eigenvalues (.inl i) * S.endThickness) / S.endLayer.eigenvalues (.inl i) * S'.s11 y x ∧
      Complex.exp (Complex.I * S.endLayer.eigenvalues (.inl i) * S.endThickness) / S.endLayer.eigenvalues (.inl i) * S.s11 x y =
        Complex.exp (Complex.I * S.startLayer.eigenvalues (.inl i) * S.startThickness) / S.startLayer.eigenvalues (.inl i) * S'.s22 y x := by
  obtain ⟨S', hS', h⟩ := C89_uniform_ends he hG hp hfirst hlast hS hq
  refine ⟨S', hS', fun x y hx hy => ?_⟩
  obtain ⟨⟨p, hp0, hr0⟩, pN, hpN, hrN⟩ := hS.ends
  have key0 := fun A => wavePairing_zero_mul (hfirst p hp0) hr0 hk hi S.startThickness hx hy A
  have keyN := fun A => wavePairing_zero_mul (hlast pN hpN) hrN hk hi S.endThickness hx hy A
  have hqN : S.endLayer.eigenvalues (.inl i) ≠ 0 := by
    obtain ⟨solved, hs, hS1⟩ := hS
    have hc := solved_complete hs hS1 (by
      intro q hq0 r hr
      have : q = p := Option.mem_unique hq0 hp0
      subst this
      rw [hr0] at hr
      rw [← ok_inj.1 hr]
      exact hq) (fun q hq0 r hr => by rw [uniform_eigenvectors (hlast q hq0) hr]; simp)
    obtain ⟨q, hq1, hq2⟩ := forall₂_getLast_mem hs hpN
    rw [hrN] at hq2
    rw [ok_inj.1 hq2]
    exact (hc _ hq1).2 _
  have f0 : Complex.exp (Complex.I * S.startLayer.eigenvalues (.inl i) * S.startThickness) / S.startLayer.eigenvalues (.inl i) ≠ 0 :=
    div_ne_zero (Complex.exp_ne_zero _) (hq _)
  have fN : Complex.exp (Complex.I * S.endLayer.eigenvalues (.inl i) * S.endThickness) / S.endLayer.eigenvalues (.inl i) ≠ 0 :=
    div_ne_zero (Complex.exp_ne_zero _) hqN
  have hω : (omega S.endLayer : ℂ) = omega S.startLayer := (keyN 0).1.trans (key0 0).1.symm
  have hω0 := (key0 0).2.1
  have e1 := congrFun (congrFun h.frontReflection x) y
  have e2 := congrFun (congrFun h.backReflection x) y
  have e3 := congrFun (congrFun h.backTransmission x) y
  have e4 := congrFun (congrFun h.frontTransmission x) y
  rw [(key0 _).2.2.1, (key0 _).2.2.2] at e1
  rw [(keyN _).2.2.1, (keyN _).2.2.2, hω] at e2
  rw [(key0 _).2.2.1, (keyN _).2.2.2, hω] at e3
  rw [(keyN _).2.2.1, (key0 _).2.2.2, hω] at e4
  rw [transpose_apply] at e1 e2 e3 e4
  refine ⟨?_, ?_, mul_left_cancel₀ hω0 (by linear_combination e3), mul_left_cancel₀ hω0 (by linear_combination e4)⟩
  · exact (mul_left_cancel₀ (mul_ne_zero hω0 f0) e1).symm
  · exact (mul_left_cancel₀ (mul_ne_zero hω0 fN) e2).symm

/-- **C89** Isotropic structures (FFT formulation) at normal incidence, with orders in pairs `G`, `-G`: in the zeroth order, as much of either polarisation is converted to the
other in reflection, and transmission is the transpose of transmission in the opposite direction, whatever the shape of the structure. -/
theorem C89_zeroth_order (he : IsEig eig) (hG : Function.Injective c.expansion) {π : Equiv.Perm ι} (hπ : ∀ i, c.expansion (π i) = -c.expansion i)
    (hk : c.inPlaneWavevector = 0) (hl : ∀ p ∈ layers, ∃ ε, p.medium = .isotropic ε .fft)
    (hfirst : ∀ p ∈ layers.head?, p.Uniform) (hlast : ∀ p ∈ layers.getLast?, p.Uniform)
    (hS : ComputedSMatrix eig c layers S) (hq : ∀ i, S.startLayer.eigenvalues i ≠ 0) {i : ι} (hi : c.expansion i = 0) :
    ∀ x y : ι ⊕ ι, x.elim id id = i → y.elim id id = i →
      S.s21 y x = S.s21 x y ∧ S.s12 y x = S.s12 x y ∧
      Complex.exp (Complex.I * S.startLayer.eigenvalues (.inl i) * S.startThickness) / S.startLayer.eigenvalues (.inl i) * S.s22 x y =
        Complex.exp (Complex.I * S.endLayer.eigenvalues (.inl i) * S.endThickness) / S.endLayer.eigenvalues (.inl i) * S.s11 y x := by
  have hf : ∀ p ∈ layers, p.medium.formulation = .fft := by
    intro p hp
    obtain ⟨ε, hε⟩ := hl p hp
    rw [hε]
    rfl
  obtain ⟨S', hS', h⟩ := C89_normal_incidence he hG (fun p hp => .inr (.inl (hf p hp))) hfirst hlast hS hq hk hi
  have ht : layers.map StackLayer.transpose = layers := by
    conv_rhs => rw [← List.map_id layers]
    refine List.map_congr_left fun p hp => ?_
    obtain ⟨ε, hε⟩ := hl p hp
    obtain ⟨nx, ny, med, t⟩ := p
    simp only at hε
    simp only [StackLayer.transpose, hε, id, Medium.transpose]
  rw [ht] at hS'
  obtain ⟨S2, hS2, h2⟩ := C87_relabelling he π 0 (c := c) (c' := c.reverse) rfl rfl (by
    intro j
    simp [Setup.reverse, hπ]) (by simp [Setup.reverse, hk, dot]) (by simp [Setup.reverse, hk, dot]) (by
    intro p hp hn
    obtain ⟨solved, hs, -⟩ := hS
    obtain ⟨r, hr⟩ := forall₂_solve_mem hs p hp
    exact resolves_reverse (solve_resolves hr hn)) hf hfirst hlast hS
  have e := hS2.unique hS'
  subst e
  have hπi : π i = i := hG (by rw [hπ, hi, neg_zero])
  intro x y hx hy
  have hm : ∀ x : ι ⊕ ι, x.elim id id = i → x.map π π = x := by
    rintro (x | x) hx <;> simp only [Sum.elim_inl, Sum.elim_inr, id] at hx <;> subst hx <;> simp [hπi]
  obtain ⟨a1, a2, a3, -⟩ := h x y hx hy
  obtain ⟨b1, b2, b3, b4⟩ := h2 y x
  rw [hm x hx, hm y hy] at b1 b2 b3 b4
  exact ⟨b3 ▸ a1, b2 ▸ a2, b1 ▸ a3⟩

/-- **C89** Isotropic structures (FFT formulation) which do not change under a half turn, at any incidence: the scattering matrix is reciprocal to itself. -/
theorem C89_half_turn (he : IsEig eig) (hG : Function.Injective c.expansion)
    (hl : ∀ p ∈ layers, ∃ ε, p.medium = .isotropic ε .fft ∧ ∀ r s, ε (flipIndex r) (flipIndex s) = ε r s)
    (hfirst : ∀ p ∈ layers.head?, p.Uniform) (hlast : ∀ p ∈ layers.getLast?, p.Uniform)
    (hS : ComputedSMatrix eig c layers S) (hq : ∀ i, S.startLayer.eigenvalues i ≠ 0) :
    ReciprocalSMatrices (wavePairing S.startLayer S.startThickness) (wavePairing S.endLayer S.endThickness) S S := by
  obtain ⟨S', hS', h⟩ := C89_uniform_ends he hG (fun p hp => .inr (.inl (by obtain ⟨ε, hε, -⟩ := hl p hp; rw [hε]; rfl))) hfirst hlast hS hq
  have ht : layers.map StackLayer.transpose = layers := by
    conv_rhs => rw [← List.map_id layers]
    refine List.map_congr_left fun p hp => ?_
    obtain ⟨ε, hε, -⟩ := hl p hp
    obtain ⟨nx, ny, med, t⟩ := p
    simp only at hε
    simp only [StackLayer.transpose, hε, id, Medium.transpose]
  rw [ht] at hS'
  have hset : (Redescription.halfTurn (Equiv.refl ι)).SetupImage c c.reverse := by
    refine ⟨?_, ?_, ?_, ?_, ?_, ?_⟩ <;> simp [Redescription.halfTurn, Redescription.rotate, Setup.reverse, dot]
    exact fun i => rfl
  have himg : List.Forall₂ ((Redescription.halfTurn (Equiv.refl ι)).Image c c.reverse) layers layers := by
    have : List.Forall₂ ((Redescription.halfTurn (Equiv.refl ι)).Image c c.reverse) layers (layers.map id) := by
      refine forall₂_map_of_mem fun p hp => ?_
      obtain ⟨solved, h, -⟩ := hS
      obtain ⟨r, hr⟩ := forall₂_solve_mem h p hp
      have hR := solve_resolves hr
      obtain ⟨nx, ny, medium, d⟩ := p
      obtain ⟨ε, hε, hsym⟩ : ∃ ε : Grid nx ny, medium = .isotropic ε .fft ∧ ∀ r s, ε (flipIndex r) (flipIndex s) = ε r s := hl _ hp
      subst hε
      by_cases hn : nx = 1 ∧ ny = 1
      · obtain ⟨rfl, rfl⟩ := hn
        have := LayerImage.uniformIsotropic (scale := 1) (O := -1) (grids := fun γ => (Redescription.halfTurn (Equiv.refl ι)).GridImage c.reverse γ) (c := c) (c' := c.reverse) ε .fft .fft d
        rw [one_mul] at this
        exact this
      · have hγ : (Redescription.halfTurn (Equiv.refl ι)).GridImage c.reverse (fun q : Fin nx × Fin ny => (flipIndex q.1, flipIndex q.2)) := by
          refine ⟨fun q => ⟨(flipIndex q.1, flipIndex q.2), by simp [flipIndex_flipIndex]⟩, resolves_reverse (hR hn), fun q => ?_⟩
          obtain ⟨z, hz⟩ := flip_div q.1
          obtain ⟨w, hw⟩ := flip_div q.2
          exact ⟨(z, w), by simp [Redescription.halfTurn, hz], by simp [Redescription.halfTurn, hw]⟩
        have e : ε.pull (fun q : Fin nx × Fin ny => (flipIndex q.1, flipIndex q.2)) = ε := by
          ext r s
          exact hsym r s
        have := LayerImage.isotropic (scale := 1) (O := -1) (grids := fun γ => (Redescription.halfTurn (Equiv.refl ι)).GridImage c.reverse γ) (c := c) (c' := c.reverse) _ hγ hn hn ε .fft .fft trivial d
        rw [e, one_mul] at this
        exact this
    rwa [List.map_id] at this
  obtain ⟨S2, hS2, k1, k2, k3, k4⟩ := C84_uniform_ends he hset himg hfirst hlast hS
  have e := hS2.unique hS'
  subst e
  have hQ : (Redescription.halfTurn (Equiv.refl ι)).fieldMatrix c = -1 := by
    ext a b
    rcases a with a | a <;> rcases b with b | b <;>
      simp [Redescription.fieldMatrix, Redescription.halfTurn, Redescription.phase, Matrix.one_apply, apply_ite (Neg.neg : ℂ → ℂ)]
  rw [hQ] at k1 k2 k3 k4
  simp only [Matrix.mul_neg, Matrix.neg_mul, neg_inj, Matrix.mul_one, Matrix.one_mul] at k1 k2 k3 k4
  obtain ⟨h1, h2, h3, h4⟩ := h
  rw [k1, k2, k3, k4] at *
  exact ⟨h1, h2, h3, h4⟩

/-! ### Examples -/

namespace SymmetryExample

theorem start_nonzero {S : ScatteringMatrix (Fin 3)} {eig} (hS : ComputedSMatrix eig setup stack S) : ∀ i, S.startLayer.eigenvalues i ≠ 0 := by
  obtain ⟨⟨p, hp, hr⟩, -⟩ := hS.ends
  simp only [stack, List.head?_cons, Option.mem_def, Option.some.injEq] at hp
  subst hp
  simp only [StackLayer.solve, eigensolveIsotropicMedia, and_self, dite_true] at hr
  have hl : (0 : ℝ) < setup.wavelength := by simp only [setup]; have := Real.pi_pos; positivity
  exact (C81_uniform_absorbing hl hr (by simp)).outwardLayer.modes.2

theorem constantTangent : ∀ p ∈ stack, p.ConstantTangent setup := fun p hp => .inr (.inl (fft p hp))

/-- C89: the hypotheses hold for an absorbing grating. -/
example : ∃ eig S S', ComputedSMatrix eig setup stack S ∧ ComputedSMatrix eig setup.reverse (stack.map StackLayer.transpose) S' ∧
    ReciprocalSMatrices (wavePairing S.startLayer S.startThickness) (wavePairing S.endLayer S.endThickness) S S' ∧ S.s21 (.inl 0) (.inr 0) = S.s21 (.inr 0) (.inl 0) ∧
    ReciprocalSMatrices (wavePairing S.startLayer S.startThickness) (wavePairing S.endLayer S.endThickness) S S := by
  obtain ⟨eig, he, S, hS⟩ := computed
  obtain ⟨S', hS', h⟩ := C89_uniform_ends he injective constantTangent uniform_ends.1 uniform_ends.2 hS (start_nonzero hS)
  have hfl : ∀ p ∈ stack, ∃ ε, p.medium = .isotropic ε .fft ∧ ∀ r s, ε (flipIndex r) (flipIndex s) = ε r s := by
    intro p hp
    simp only [stack, List.mem_cons, List.not_mem_nil, or_false] at hp
    rcases hp with rfl | rfl | rfl
    · exact ⟨_, rfl, fun r s => rfl⟩
    · refine ⟨_, rfl, fun r s => ?_⟩
      fin_cases r <;> rfl
    · exact ⟨_, rfl, fun r s => rfl⟩
  refine ⟨eig, S, S', hS, hS', h, ?_, C89_half_turn he injective hfl uniform_ends.1 uniform_ends.2 hS (start_nonzero hS)⟩
  exact (C89_zeroth_order he injective (π := Equiv.swap 1 2) (by intro i; fin_cases i <;> simp [setup, Equiv.swap_apply_def]) rfl
    (fun p hp => by obtain ⟨ε, h, -⟩ := hfl p hp; exact ⟨ε, h⟩) uniform_ends.1 uniform_ends.2 hS (start_nonzero hS) (i := 0) rfl (.inr 0) (.inl 0) rfl rfl).1

/-- C89: a layer in a vector formulation whose tangent field is the same everywhere. -/
example : StackLayer.ConstantTangent setup ⟨6, 1, .isotropic grating (.vector fun _ _ _ => .ok (Matrix.of fun _ _ => 3 / 5, Matrix.of fun _ _ => 4 / 5)), 1⟩ :=
  .inr (.inr ⟨grating, _, rfl, 3 / 5, 4 / 5, rfl, by simp⟩)

/-- C89: fields of all excitations from the front of the grating, and of all excitations of the reciprocal one from the back, at two depths. -/
example : ∃ (st st' : List (LayerState (Fin 3) (Fin 3 ⊕ Fin 3))) (h : st.length = 3) (h' : st'.length = 3) (e m e' m' f g f' g' : ModeMatrix (Fin 3)),
    Consistent st ∧ Consistent st' ∧ st[0].a = 1 ∧ st'[2].b = 1 ∧ FieldsAt st[0] 0 e m ∧ FieldsAt st'[0] 0 e' m' ∧ FieldsAt st[1] (1 / 2) f g ∧
    FieldsAt st'[1] (1 / 2) f' g' ∧ lorentz e m e' m' = lorentz f g f' g' := by
  obtain ⟨eig, he, S, hS⟩ := computed
  have hq := start_nonzero hS
  obtain ⟨⟨p0, hp0, hr0⟩, pN, hpN, hrN⟩ := hS.ends
  have hfirst : ∀ p ∈ stack.head?, ∀ r, p.solve eig setup = .ok r → ∀ i, r.eigenvalues i ≠ 0 := by
    intro q hq0 r hr
    have : q = p0 := Option.mem_unique hq0 hp0
    subst this
    rw [hr0] at hr
    rw [← ok_inj.1 hr]
    exact hq
  have hlast : ∀ p ∈ stack.getLast?, ∀ r, p.solve eig setup = .ok r → IsUnit r.eigenvectors.det := fun q hq0 r hr => by
    rw [uniform_eigenvectors (uniform_ends.2 q hq0) hr]; simp
  obtain ⟨S', solved, solved', hS', hs, hs', hpair, k, k'⟩ := stack_reciprocal he injective constantTangent hfirst hlast hS
  have hc : ∀ r ∈ solved, CompleteModes r := by
    obtain ⟨solved2, h1, h2⟩ := hS
    rw [forall₂_solve_unique hs h1]
    exact solved_complete h1 h2 hfirst hlast
  obtain ⟨st, first, last, hg, hst, hf, hl, ha, hb⟩ := k.complete (1 : Matrix (Fin 3 ⊕ Fin 3) (Fin 3 ⊕ Fin 3) ℂ) 0
  obtain ⟨st', first', last', hg', hst', hf', hl', ha', hb'⟩ := k'.complete (0 : Matrix (Fin 3 ⊕ Fin 3) (Fin 3 ⊕ Fin 3) ℂ) 1
  have n1 : st.length = 3 := by
    have := congrArg List.length hg
    rw [geometry, List.length_map, List.length_zip, ← hs.length_eq] at this
    simpa [stack] using this
  have n2 : st'.length = 3 := by
    have := congrArg List.length hg'
    rw [geometry, List.length_map, List.length_zip, ← hs'.length_eq] at this
    simpa [stack] using this
  have hrec : ∀ (n : ℕ) (h : n < st.length) (h' : n < st'.length), Reciprocal st[n].layer st'[n].layer := by
    intro n h h'
    have hpair' := hpair
    rw [← hg, ← hg'] at hpair'
    have := (List.forall₂_iff_get.1 hpair').2 n (by simpa [geometry] using h) (by simpa [geometry] using h')
    exact (by simpa [geometry, ReciprocalPair] using this : _ ∧ _).1
  have hF : ∀ (n : ℕ) (h : n < st.length) (h' : n < st'.length) (z : ℝ), ∃ e m e' m', FieldsAt st[n] z e m ∧ FieldsAt st'[n] z e' m' := by
    intro n h h' z
    have r := hrec n h h'
    obtain ⟨E, hE⟩ := r.solved
    obtain ⟨E', hE'⟩ := r.solved'
    exact ⟨_, _, _, _, ⟨hE.wellPosed, r.complete.2, rfl, rfl⟩, ⟨hE'.wellPosed, r.complete'.2, rfl, rfl⟩⟩
  obtain ⟨e, m, e', m', h1, h1'⟩ := hF 0 (by omega) (by omega) 0
  obtain ⟨f, g, f', g', h2, h2'⟩ := hF 1 (by omega) (by omega) (1 / 2)
  refine ⟨st, st', n1, n2, e, m, e', m', f, g, f', g', hst, hst', ?_, ?_, h1, h1', h2, h2', C89_lorentz_invariant he injective constantTangent hs hs' hc hg hst hg' hst'
    (by omega) (by omega) (by omega) (by omega) h1 h1' h2 h2'⟩
  · rw [List.head?_eq_getElem?, List.getElem?_eq_getElem (by omega), Option.some.injEq] at hf
    rw [hf, ha]
  · rw [List.getLast?_eq_getElem?, List.getElem?_eq_getElem (by omega), Option.some.injEq] at hl'
    simp only [n2] at hl'
    rw [hl', hb']

end SymmetryExample

end Fmmax
