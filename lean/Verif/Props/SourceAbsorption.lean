import Verif.Props.SourcePowerAbsorbing
import Verif.Props.Absorption

/-! Property theorems C122: the power of sources, radiated and absorbed.

`displacementPower` is from `Verif/Spec/SourcePower.lean`; `absorptionDensity`, `SampledMedium` and `MaxwellCompletion` are from
`Verif/Spec/Absorption.lean`. -/

set_option linter.unusedSectionVars false

namespace Fmmax

open Spec Matrix

variable {ι : Type} [Fintype ι] [DecidableEq ι] {β : Type}
variable {eig : Matrix (ι ⊕ ι) (ι ⊕ ι) ℂ → (ι ⊕ ι → ℂ) × Matrix (ι ⊕ ι) (ι ⊕ ι) ℂ} {c : Setup ι}

/-- `A` is the power absorbed in the layers, with amplitudes `xs`: the integral over the layers of the local absorption of the fields that
`fields_from_wave_amplitudes` and `fields_on_grid` compute (z components from the Maxwell equations, as in C95). -/
def IsAbsorbedPower (c : Setup ι) (layers : List (StackLayer ι)) (solved : List (LayerSolveResult ι))
    (xs : List (Matrix (ι ⊕ ι) β ℂ × Matrix (ι ⊕ ι) β ℂ)) {mx my : Fin layers.length → ℕ} (ε μ : ∀ n, TensorComponents (mx n) (my n))
    (A : β → ℝ) : Prop :=
  ∃ (_ : solved.length = layers.length) (_ : xs.length = layers.length) (F F' : Fin layers.length → ℝ → Fields (Matrix ι β ℂ))
    (g : ∀ n, ℝ → Fields (Fin (1 * mx n) × Fin (1 * my n) → β → ℂ)),
    (∀ n z, reportedFields solved[n] layers[n].thickness xs[n].1 xs[n].2 z = .ok (F n z) ∧
      (∃ xy, fieldsOnGrid (F' n z) solved[n] (mx n, my n) (1, 1) = .ok (g n z, xy)) ∧
      MaxwellCompletion (orderWavevector solved[n]) (2 * Real.pi / c.wavelength) c.expansion (ε n).zz (μ n).zz (F n z) (F' n z)) ∧
    ∀ x, A x = ∑ n : Fin layers.length, 2 * Real.pi / c.wavelength * ∫ z in (0 : ℝ)..layers[n].thickness, absorptionDensity (ε n) (μ n) (g n z) x

theorem solved_regular (he : IsEig eig) (hG : Function.Injective c.expansion) {layers : List (StackLayer ι)} {solved : List (LayerSolveResult ι)}
    (hs : List.Forall₂ (fun p r => p.solve eig c = .ok r) layers solved) (hq : ∀ r ∈ solved, ∀ i, r.eigenvalues i ≠ 0)
    {mx my : Fin layers.length → ℕ} {ε μ : ∀ n, TensorComponents (mx n) (my n)}
    (hm : ∀ n : Fin layers.length, SampledMedium c layers[n] (mx n) (my n) (ε n) (μ n)) :
    Regular c.wavelength (solved.zip (layers.map StackLayer.thickness)) ∧ ∀ r ∈ solved, WellPosed r := by
  have l1 : solved.length = layers.length := hs.length_eq.symm
  have key : ∀ r ∈ solved, r.wavelength = c.wavelength ∧ WellPosed r := by
    intro r hr
    obtain ⟨n, hn, rfl⟩ := List.getElem_of_mem hr
    have := SampledMedium.convolutionLayer he hG (hm ⟨n, by omega⟩) (hs.get (by omega) hn)
    exact ⟨this.wavelength, this.solved.wellPosed⟩
  exact ⟨fun p hp => ⟨(key _ (List.of_mem_zip hp).1).1, hq _ (List.of_mem_zip hp).1⟩, fun r hr => (key r hr).2⟩

theorem part_absorption (he : IsEig eig) (hG : Function.Injective c.expansion) {layers : List (StackLayer ι)} {solved : List (LayerSolveResult ι)}
    (hs : List.Forall₂ (fun p r => p.solve eig c = .ok r) layers solved) (hq : ∀ r ∈ solved, ∀ i, r.eigenvalues i ≠ 0)
    {ps : List (ScatteringMatrix ι × ScatteringMatrix ι)} (h : stackSMatricesInterior solved (layers.map StackLayer.thickness) = .ok ps)
    {mx my : Fin layers.length → ℕ} {ε μ : ∀ n, TensorComponents (mx n) (my n)}
    (hm : ∀ n : Fin layers.length, SampledMedium c layers[n] (mx n) (my n) (ε n) (μ n))
    {st : List (LayerState ι β)} {first last : LayerState ι β} (hg : geometry st = solved.zip (layers.map StackLayer.thickness))
    (hc : Consistent st) (hf : st.head? = some first) (hl : st.getLast? = some last) :
    ∃ A, IsAbsorbedPower c layers solved (st.map fun x => (x.a, x.b)) ε μ A ∧
      ∀ x, stateFlux first x 0 - stateFlux last x last.thickness = A x := by
  obtain ⟨hreg, hw⟩ := solved_regular he hG hs hq hm
  have hx := C40_recovers_consistent_amplitudes hreg h hg hc hf hl
  obtain ⟨l0, l1, l2, F, F', g, J, hJ, hbal⟩ := C95_balance he hG hs hq h hx hm
  refine ⟨_, ⟨l1, l2, F, F', g, fun n z => ⟨(hJ n z).1, (hJ n z).2.2⟩, fun x => rfl⟩, fun x => ?_⟩
  rw [← hbal x]
  have l3 : st.length = layers.length := by simpa using l2
  have hJ' : ∀ (n : Fin layers.length) z, J n z x = stateFlux (st[n.1]'(by omega)) x z := by
    intro n z
    have h1 := (hJ n z).2.1
    obtain ⟨e1, e2⟩ := getElem_of_geometry hg n.1 (by omega) (by omega) (by simp)
    rw [List.getElem_map] at e2
    have h2 := hq (solved[n.1]'(by omega)) (List.getElem_mem (by omega))
    have hw' := hw (solved[n.1]'(by omega)) (List.getElem_mem (by omega))
    simp only [Fin.getElem_fin, List.getElem_map] at h1
    rw [← e1] at h1 h2 hw'
    rw [← e2] at h1
    exact reportedFlux_state hw' h2 h1
  rw [List.head?_eq_getElem?, List.getElem?_eq_getElem (by omega), Option.some_inj] at hf
  rw [List.getLast?_eq_getElem?, List.getElem?_eq_getElem (by omega), Option.some_inj] at hl
  have e2 := (getElem_of_geometry hg (layers.length - 1) (by omega) (by omega) (by simp; omega)).2
  rw [List.getElem_map] at e2
  rw [hJ', hJ', ← e2]
  simp only [← l3, hf, hl]

theorem outgoing_flux {l : LayerSolveResult ι} {d : ℝ} (a : Matrix (ι ⊕ ι) β ℂ) (c : β) :
    stateFlux (⟨l, d, 0, a⟩ : LayerState ι β) c 0 = -netFlux (electricModes l * (propagator l d * a)) (l.eigenvectors * (propagator l d * a)) c ∧
      stateFlux (⟨l, d, a, 0⟩ : LayerState ι β) c d = netFlux (electricModes l * (propagator l d * a)) (l.eigenvectors * (propagator l d * a)) c := by
  constructor
  · unfold stateFlux netFlux
    rw [← Finset.sum_neg_distrib]
    refine Finset.sum_congr rfl fun i _ => ?_
    simp [electricAt, magneticAt]
  · simp [stateFlux, electricAt, magneticAt]

/-- **C122** The energy balance of a source: the power delivered by the currents is the sum of the powers of the waves which leave the first and the
last layer at their outer ends, and of the powers absorbed in the layers before and after the source, computed from the interior amplitudes. -/
theorem C122_absorbed (he : IsEig eig) (hG : Function.Injective c.expansion) {before after : List (StackLayer ι)}
    {solvedB solvedA : List (LayerSolveResult ι)} (hsB : List.Forall₂ (fun p r => p.solve eig c = .ok r) before solvedB)
    (hsA : List.Forall₂ (fun p r => p.solve eig c = .ok r) after solvedA) (hq : ∀ r ∈ solvedB ++ solvedA, ∀ i, r.eigenvalues i ≠ 0)
    {sb sa : ScatteringMatrix ι} {ib ia : List (ScatteringMatrix ι × ScatteringMatrix ι)}
    (h1 : stackSMatrix solvedB (before.map StackLayer.thickness) = .ok sb) (h2 : stackSMatrix solvedA (after.map StackLayer.thickness) = .ok sa)
    (h3 : stackSMatricesInterior solvedB (before.map StackLayer.thickness) = .ok ib)
    (h4 : stackSMatricesInterior solvedA (after.map StackLayer.thickness) = .ok ia)
    {mx my : Fin before.length → ℕ} {ε μ : ∀ n, TensorComponents (mx n) (my n)}
    (hmB : ∀ n : Fin before.length, SampledMedium c before[n] (mx n) (my n) (ε n) (μ n))
    {mx' my' : Fin after.length → ℕ} {ε' μ' : ∀ n, TensorComponents (mx' n) (my' n)}
    (hmA : ∀ n : Fin after.length, SampledMedium c after[n] (mx' n) (my' n) (ε' n) (μ' n))
    {jx jy jz : Matrix ι β ℂ} {R : SourceAmplitudes ι β} (h : amplitudesForSource jx jy jz sb sa = .ok R) :
    ∃ xs ys F F' P P' A A',
      stackAmplitudesInteriorWithSource ib ia R.backwardBeforeEnd R.forwardAfterStart = .ok (xs ++ ys) ∧
      IsAbsorbedPower c before solvedB xs ε μ A ∧ IsAbsorbedPower c after solvedA ys ε' μ' A' ∧
      reportedFields sb.endLayer sb.endThickness R.forwardBeforeStart R.backwardBeforeEnd sb.endThickness = .ok F ∧
      reportedFields sa.startLayer sa.startThickness R.forwardAfterStart R.backwardAfterEnd 0 = .ok F' ∧
      forwardPower sb.startLayer (propagateAmplitude R.backward0End (fun _ => sb.startThickness) sb.startLayer) = .ok P ∧
      forwardPower sa.endLayer (propagateAmplitude R.forwardNStart (fun _ => sa.endThickness) sa.endLayer) = .ok P' ∧
      ∀ x, P x + P' x + A x + A' x = displacementPower sb.endLayer F F' jx jy jz x ∧
        (jz = 0 → P x + P' x + A x + A' x = sourcePower F F' jx jy jz x) := by
  have hqB : ∀ r ∈ solvedB, ∀ i, r.eigenvalues i ≠ 0 := fun r hr => hq r (List.mem_append_left _ hr)
  have hqA : ∀ r ∈ solvedA, ∀ i, r.eigenvalues i ≠ 0 := fun r hr => hq r (List.mem_append_right _ hr)
  obtain ⟨regB, wB⟩ := solved_regular he hG hsB hqB hmB
  obtain ⟨regA, wA⟩ := solved_regular he hG hsA hqA hmA
  obtain ⟨st, st', first, s, t, last, hE, r1, r2, r3, r4⟩ := emission_of regB regA h1 h2 h
  obtain ⟨A, hA, fA⟩ := part_absorption he hG hsB hqB h3 hmB hE.geometry_before hE.consistent_before hE.head_before hE.last_before
  obtain ⟨A', hA', fA'⟩ := part_absorption he hG hsA hqA h4 hmA hE.geometry_after hE.consistent_after hE.head_after hE.last_after
  obtain ⟨F, F', J, J', k1, k2, k3, k4, -, -, k5⟩ := C122_work_any regB regA h1 h2 h
  have x1 := C40_recovers_consistent_amplitudes regB h3 hE.geometry_before hE.consistent_before hE.head_before hE.last_before
  have x2 := C40_recovers_consistent_amplitudes regA h4 hE.geometry_after hE.consistent_after hE.head_after hE.last_after
  have memB : ∀ y ∈ st, y.layer ∈ solvedB := fun y hy => by
    have : (y.layer, y.thickness) ∈ solvedB.zip (before.map StackLayer.thickness) := by
      rw [← hE.geometry_before]; exact List.mem_map_of_mem hy
    exact (List.of_mem_zip this).1
  have memA : ∀ y ∈ st', y.layer ∈ solvedA := fun y hy => by
    have : (y.layer, y.thickness) ∈ solvedA.zip (after.map StackLayer.thickness) := by
      rw [← hE.geometry_after]; exact List.mem_map_of_mem hy
    exact (List.of_mem_zip this).1
  have m1 := memB _ (List.mem_of_head? hE.head_before)
  have m2 := memB _ (List.mem_of_getLast? hE.last_before)
  have m3 := memA _ (List.mem_of_head? hE.head_after)
  have m4 := memA _ (List.mem_of_getLast? hE.last_after)
  subst r1 r2 r3 r4
  dsimp only at m1 m2 m3 m4 fA fA' x1 x2
  have j1 := fun x => reportedFlux_state (s := ⟨sb.endLayer, sb.endThickness, R.forwardBeforeStart, R.backwardBeforeEnd⟩) (wB _ m2) (hqB _ m2) k3 (x := x)
  have j2 := fun x => reportedFlux_state (s := ⟨sa.startLayer, sa.startThickness, R.forwardAfterStart, R.backwardAfterEnd⟩) (wA _ m3) (hqA _ m3) k4 (x := x)
  refine ⟨_, _, F, F', _, _, A, A', ?_, hA, hA', k1, k2, forwardPower_eq (wB _ m1) (hqB _ m1) _, forwardPower_eq (wA _ m4) (hqA _ m4) _, fun x => ?_⟩
  · simp only [stackAmplitudesInteriorWithSource, bind_eq_ok, ok_inj]
    exact ⟨_, x1, _, x2, rfl⟩
  · have main : netFlux (electricModes sb.startLayer * propagateAmplitude R.backward0End (fun _ => sb.startThickness) sb.startLayer)
        (sb.startLayer.eigenvectors * propagateAmplitude R.backward0End (fun _ => sb.startThickness) sb.startLayer) x +
        netFlux (electricModes sa.endLayer * propagateAmplitude R.forwardNStart (fun _ => sa.endThickness) sa.endLayer)
          (sa.endLayer.eigenvectors * propagateAmplitude R.forwardNStart (fun _ => sa.endThickness) sa.endLayer) x + A x + A' x =
        displacementPower sb.endLayer F F' jx jy jz x := by
      have a1 := fA x
      have a2 := fA' x
      rw [(outgoing_flux _ _).1] at a1
      rw [(outgoing_flux _ _).2] at a2
      rw [propagateAmplitude_const, propagateAmplitude_const, ← k5 x, j1, j2]
      linarith
    refine ⟨main, fun hz => main.trans ?_⟩
    subst hz
    simp [displacementPower, sourcePower]

/-- **C122** The absorbed power is not negative where the material has no gain at any grid point, and zero where it is lossless at all of them. -/
theorem C122_absorbed_sign (hl : 0 < c.wavelength) {layers : List (StackLayer ι)} {solved : List (LayerSolveResult ι)}
    {xs : List (Matrix (ι ⊕ ι) β ℂ × Matrix (ι ⊕ ι) β ℂ)} {mx my : Fin layers.length → ℕ} {ε μ : ∀ n, TensorComponents (mx n) (my n)} {A : β → ℝ}
    (h : IsAbsorbedPower c layers solved xs ε μ A) (hd : ∀ p ∈ layers, 0 ≤ p.thickness) :
    ((∀ n r s x y z, 0 ≤ tensorLoss (ε n) r s x y z ∧ 0 ≤ tensorLoss (μ n) r s x y z) → ∀ x, 0 ≤ A x) ∧
    ((∀ n r s x y z, tensorLoss (ε n) r s x y z = 0 ∧ tensorLoss (μ n) r s x y z = 0) → ∀ x, A x = 0) := by
  obtain ⟨_, _, F, F', g, -, hA⟩ := h
  have hpi := Real.pi_pos
  constructor
  · intro hp x
    rw [hA]
    refine Finset.sum_nonneg fun n _ => mul_nonneg (by positivity) ?_
    refine intervalIntegral.integral_nonneg (hd _ (List.getElem_mem _)) fun z _ => ?_
    unfold absorptionDensity
    exact div_nonneg (Finset.sum_nonneg fun p _ => add_nonneg (hp n _ _ _ _ _).1 (hp n _ _ _ _ _).2) (by positivity)
  · intro hp x
    rw [hA]
    refine Finset.sum_eq_zero fun n _ => ?_
    simp [absorptionDensity, (hp n _ _ _ _ _).1, (hp n _ _ _ _ _).2]

/-- An isotropic permittivity absorbs where its imaginary part is not negative; vacuum permeability neither absorbs nor amplifies. -/
theorem isotropic_tensorLoss {nx ny : ℕ} (ε : Grid nx ny) (f : Formulation nx ny ι) (r : Fin nx) (s : Fin ny) (x y z : ℂ) :
    tensorLoss (Medium.isotropic ε f).permittivity r s x y z = (ε r s).im * (‖x‖ ^ 2 + ‖y‖ ^ 2 + ‖z‖ ^ 2) ∧
      tensorLoss (Medium.isotropic ε f).permeability r s x y z = 0 := by
  constructor <;>
  simp only [tensorLoss, Medium.permittivity, Medium.permeability, Matrix.zero_apply, zero_mul, add_zero, zero_add, one_mul, ← Complex.normSq_eq_norm_sq,
    Complex.normSq_apply, Complex.add_im, Complex.mul_im, Complex.mul_re, Complex.star_def, Complex.conj_re, Complex.conj_im] <;> ring

/-- C122: absorbing and lossless patterns meet the conditions of `C122_absorbed_sign`. -/
example (f : Formulation 3 5 ι) : (∀ r s x y z, 0 ≤ tensorLoss (Medium.isotropic (Matrix.of fun _ _ => 2 + Complex.I) f).permittivity r s x y z ∧
    0 ≤ tensorLoss (Medium.isotropic (Matrix.of fun _ _ => 2 + Complex.I) f).permeability r s x y z) ∧
    ∀ r s x y z, tensorLoss (Medium.isotropic (Matrix.of fun _ _ => 2) f).permittivity r s x y z = 0 := by
  refine ⟨fun r s x y z => ⟨?_, ?_⟩, fun r s x y z => ?_⟩
  · rw [(isotropic_tensorLoss _ f r s x y z).1]
    simp
    positivity
  · rw [(isotropic_tensorLoss _ f r s x y z).2]
  · rw [(isotropic_tensorLoss _ f r s x y z).1]
    simp

/-! ### Example -/

/-- C122: the hypotheses of `C122_absorbed` are met, for all currents: an absorbing medium before, and two of them after the source; two orders. -/
example (jx jy jz : Matrix (Fin 2) (Fin 3) ℂ) : ∃ (eig : Matrix (Fin 2 ⊕ Fin 2) (Fin 2 ⊕ Fin 2) ℂ → (Fin 2 ⊕ Fin 2 → ℂ) × Matrix (Fin 2 ⊕ Fin 2) (Fin 2 ⊕ Fin 2) ℂ)
    (c : Setup (Fin 2)) (before after : List (StackLayer (Fin 2))) (sB sA : List (LayerSolveResult (Fin 2))) (sb sa : ScatteringMatrix (Fin 2))
    (ib ia : List (ScatteringMatrix (Fin 2) × ScatteringMatrix (Fin 2))) (R : SourceAmplitudes (Fin 2) (Fin 3)),
    IsEig eig ∧ Function.Injective c.expansion ∧ before.length = 1 ∧ after.length = 2 ∧ List.Forall₂ (fun p r => p.solve eig c = .ok r) before sB ∧
      List.Forall₂ (fun p r => p.solve eig c = .ok r) after sA ∧ (∀ r ∈ sB ++ sA, ∀ i, r.eigenvalues i ≠ 0) ∧
      stackSMatrix sB (before.map StackLayer.thickness) = .ok sb ∧ stackSMatrix sA (after.map StackLayer.thickness) = .ok sa ∧
      stackSMatricesInterior sB (before.map StackLayer.thickness) = .ok ib ∧ stackSMatricesInterior sA (after.map StackLayer.thickness) = .ok ia ∧
      (∀ p ∈ before ++ after, ∃ ε μ : TensorComponents 3 1, SampledMedium c p 3 1 ε μ) ∧ amplitudesForSource jx jy jz sb sa = .ok R := by
  obtain ⟨eig, he⟩ := exists_isEig (Fin 2 ⊕ Fin 2)
  let c : Setup (Fin 2) := { wavelength := 2 * Real.pi, inPlaneWavevector := (0, 0), lattice := unitLattice, expansion := ![(0, 0), (1, 0)] }
  have hl : 0 < c.wavelength := by have := Real.pi_pos; simp only [c]; positivity
  have hlat : Independent c.lattice.u c.lattice.v := by norm_num [c, unitLattice, Independent]
  obtain ⟨sB, f1, g1, w1⟩ := uniform_solved (eig := eig) (c := c) hl hlat [(2 + Complex.I, 1)] (by simp)
  obtain ⟨sA, f2, g2, w2⟩ := uniform_solved (eig := eig) (c := c) hl hlat [(3 + Complex.I, 2), (2 + Complex.I, 3)] (by simp)
  have hR : Resolves 3 1 c.expansion := by
    refine ⟨⟨0⟩, fun i => ?_⟩
    fin_cases i <;> simp [c]
  have nB : sB ≠ [] := by rintro rfl; simpa using f1.length_eq
  have nA : sA ≠ [] := by rintro rfl; simpa using f2.length_eq
  obtain ⟨sb, sa, ib, ia, k1, k2, k3, k4, k5⟩ := C97_absorbing (before := sB) (after := sA) (db := [1]) (da := [2, 3]) (lam := c.wavelength) nB nA
    (by simpa using f1.length_eq.symm) (by simpa using f2.length_eq.symm)
    (by intro l hl; rcases List.mem_append.1 hl with h | h; exacts [w1 l h, w2 l h])
    (by intro l hl; rcases List.mem_append.1 hl with h | h; exacts [g1 l h, g2 l h]) (by norm_num)
  obtain ⟨R, -, -, -, hR', -⟩ := k5 jx jy jz (List.replicate (sB.length + sA.length) 1) (fun _ : Unit => (0, 0)) (by simp)
  refine ⟨eig, c, _, _, sB, sA, sb, sa, ib, ia, R, he, ?_, rfl, rfl, f1, f2, ?_, k1, k2, k3, k4, ?_, hR'⟩
  · intro i j hij
    fin_cases i <;> fin_cases j <;> simp_all [c]
  · intro l hl
    rcases List.mem_append.1 hl with h | h
    exacts [(g1 l h).modes.2, (g2 l h).modes.2]
  · intro p hp
    simp only [List.map_cons, List.map_nil, List.cons_append, List.nil_append, List.mem_cons, List.not_mem_nil, or_false] at hp
    rcases hp with rfl | rfl | rfl
    all_goals exact ⟨_, _, SampledMedium.uniform (.isotropic _ .fft) _ hR⟩

end Fmmax
