import Verif.Props.Radiation

/-! Property theorems C81, continued: absorbing layers between layers without absorption. -/

set_option linter.unusedSectionVars false

namespace Fmmax

open Spec Matrix

variable {ι : Type} [Fintype ι] [DecidableEq ι] {β : Type}

/-- No electric field in an absorbing layer means no amplitudes. -/
theorem AbsorbingLayer.amplitudes_zero {s : LayerState ι β} (h : AbsorbingLayer s.layer) {c : β} {z₁ z₂ : ℝ} (hz : z₁ < z₂)
    (h1 : ∀ i, electricAt s.layer s.thickness s.a s.b z₁ i c = 0) (h2 : ∀ i, electricAt s.layer s.thickness s.a s.b z₂ i c = 0) (i : ι ⊕ ι) :
    s.a i c = 0 ∧ s.b i c = 0 := by
  obtain ⟨E, hs, -⟩ := h.solved
  have key : ∀ {z : ℝ}, (∀ i, electricAt s.layer s.thickness s.a s.b z i c = 0) → Complex.exp (Complex.I * s.layer.eigenvalues i * z) * s.a i c =
      Complex.exp (Complex.I * s.layer.eigenvalues i * (s.thickness - z : ℝ)) * s.b i c := by
    intro z hz
    have := column_eq_zero (electricModes_isUnit hs h.modes).2 (c := c) hz i
    rw [Matrix.sub_apply, propagator_apply, propagator_apply] at this
    exact sub_eq_zero.1 this
  have norms : ∀ z : ℝ, ‖Complex.exp (Complex.I * s.layer.eigenvalues i * z)‖ = Real.exp (-((s.layer.eigenvalues i).im * z)) := by
    intro z
    rw [Complex.norm_exp]
    simp
  have hd := h.decay i
  have n1 := congrArg norm (key h1)
  have n2 := congrArg norm (key h2)
  rw [norm_mul, norm_mul, norms, norms] at n1 n2
  have ha : s.a i c = 0 := by
    by_contra hne
    have hp : 0 < ‖s.a i c‖ := norm_pos_iff.2 hne
    have e1 : Real.exp (-((s.layer.eigenvalues i).im * z₂)) < Real.exp (-((s.layer.eigenvalues i).im * z₁)) :=
      Real.exp_lt_exp.2 (by nlinarith)
    have e2 : Real.exp (-((s.layer.eigenvalues i).im * (s.thickness - z₁))) < Real.exp (-((s.layer.eigenvalues i).im * (s.thickness - z₂))) :=
      Real.exp_lt_exp.2 (by nlinarith)
    have hb : 0 ≤ ‖s.b i c‖ := norm_nonneg _
    have := mul_le_mul_of_nonneg_right e2.le hb
    have := mul_lt_mul_of_pos_right e1 hp
    linarith
  refine ⟨ha, ?_⟩
  have := key h1
  rw [ha, mul_zero] at this
  exact (mul_eq_zero.1 this.symm).resolve_left (Complex.exp_ne_zero _)

/-- Stacks whose second layer is absorbing have no resonances. -/
theorem no_resonance_second {s t : LayerState ι β} {rest : List (LayerState ι β)} {last : LayerState ι β} (hc : Consistent (s :: t :: rest))
    (hl : (s :: t :: rest).getLast? = some last) (h0 : OutwardLayer s.layer) (h1 : AbsorbingLayer t.layer) (hd : 0 < t.thickness)
    (hL : ∀ u ∈ s :: t :: rest, PassiveLayer u.layer ∧ CompleteModes u.layer ∧ 0 ≤ u.thickness) (hN : OutwardLayer last.layer) (c : β)
    (ha : ∀ i, s.a i c = 0) (hb : ∀ i, last.b i c = 0) : ∀ u ∈ s :: t :: rest, ∀ i, u.a i c = 0 ∧ u.b i c = 0 := by
  have hwp : ∀ u ∈ s :: t :: rest, WellPosed u.layer := fun u hu => (hL u hu).1.2.choose_spec.1.wellPosed
  have hst : Interface s t := (List.isChain_cons_cons.1 hc).1
  have hsf : stateFlux s c s.thickness ≤ 0 := by
    rw [stateFlux_backward ha, neg_nonpos]
    exact h0.outward s.b _ _ c (fieldsAt_eq.2 ⟨hwp s (by simp), h0.modes.2, rfl, rfl⟩)
  have hlast : last ∈ s :: t :: rest := List.mem_of_getLast? hl
  have hlf : 0 ≤ stateFlux last c 0 := by
    rw [stateFlux_outgoing hb]
    exact hN.outward last.a _ _ c (fieldsAt_eq.2 ⟨hwp last hlast, hN.modes.2, rfl, rfl⟩)
  have ht0 : stateFlux t c 0 ≤ 0 := by rw [← (interface_flux hst c).2.2]; exact hsf
  have htz : ∀ i, t.a i c = 0 ∧ t.b i c = 0 := by
    rcases List.eq_nil_or_concat rest with rfl | ⟨mid, u, rfl⟩
    · have : t = last := by simpa using hl
      subst this
      rw [stateFlux_outgoing hb] at ht0
      exact fun i => ⟨h1.flux_pos ht0 i, hb i⟩
    · have : u = last := by
        rw [List.concat_eq_append, ← List.cons_append, ← List.cons_append, List.getLast?_append] at hl
        simpa using hl
      subst this
      have hp := stack_flux_antitone c hc (fun u hu => (hL u hu).1) (fun u hu => (hL u hu).2.2)
      rw [List.pairwise_cons, List.pairwise_cons] at hp
      have hle := (hp.2.1 u (by simp)).2 t.thickness 0 le_rfl le_rfl
      have hanti := stateFlux_antitone (s := t) h1.passiveLayer h1.modes.2 c
      have hzero : ∀ z, 0 ≤ z → z ≤ t.thickness → stateFlux t c z = 0 := fun z z0 z1 =>
        le_antisymm ((hanti z0).trans ht0) ((hlf.trans hle).trans (hanti z1))
      have hder : ∀ z, 0 < z → z < t.thickness → HasDerivAt (stateFlux t c) 0 z := by
        intro z z0 z1
        refine (hasDerivAt_const z (0 : ℝ)).congr_of_eventuallyEq ?_
        filter_upwards [lt_mem_nhds z0, gt_mem_nhds z1] with y y0 y1
        exact hzero y y0.le y1.le
      exact AbsorbingLayer.amplitudes_zero h1 (z₁ := t.thickness / 3) (z₂ := t.thickness / 2) (by linarith)
        (h1.stationary rfl (hder _ (by linarith) (by linarith))) (h1.stationary rfl (hder _ (by linarith) (by linarith)))
  have hrest := zero_propagates c rest t (List.isChain_cons_cons.1 hc).2
    (fun u hu => ⟨(hL u (List.mem_cons_of_mem _ hu)).1.2.imp fun _ h => h.1, (hL u (List.mem_cons_of_mem _ hu)).2.1⟩) htz
  intro u hu
  rw [List.mem_cons] at hu
  rcases hu with rfl | hu
  · obtain ⟨e, m, f1, f2⟩ := hst
    obtain ⟨-, -, e1, m1⟩ := fieldsAt_eq.1 f1
    obtain ⟨-, -, e2, m2⟩ := fieldsAt_eq.1 f2
    obtain ⟨E, hs, -⟩ := (hL u (by simp)).1.2
    have hz : ∀ (A : ModeMatrix ι) (z z' : ℝ) (σ : ℂ) i, (A * (propagator t.layer z * t.a + σ • (propagator t.layer z' * t.b))) i c = 0 := by
      intro A z z' σ i
      rw [Matrix.mul_apply]
      refine Finset.sum_eq_zero fun j _ => ?_
      rw [Matrix.add_apply, Matrix.smul_apply, propagator_apply, propagator_apply, (htz j).1, (htz j).2]
      simp
    exact amplitudes_eq_zero hs (hL u (by simp)).2.1 (z := u.thickness)
      (fun i => by
        rw [← e1, e2]
        have := hz (electricModes t.layer) 0 (t.thickness - 0) (-1) i
        rwa [neg_one_smul, ← sub_eq_add_neg] at this)
      (fun i => by
        rw [← m1, m2]
        have := hz t.layer.eigenvectors 0 (t.thickness - 0) 1 i
        rwa [one_smul] at this)
  · exact hrest u hu

/-- **C81** An absorbing layer next to the first layer is enough: the first layer, and the layers behind the absorbing one, need not absorb.
In particular an absorbing slab in front of a lossless medium and behind another one has a finite S-matrix. -/
theorem C81_absorbing_second {lam : ℝ} {l0 l1 : LayerSolveResult ι} {ls : List (LayerSolveResult ι)} {d0 d1 : ℝ} {ds : List ℝ}
    (hlen : ls.length = ds.length) (hlam : ∀ l ∈ l0 :: l1 :: ls, l.wavelength = lam) (h0 : OutwardLayer l0) (h1 : AbsorbingLayer l1)
    (hL : ∀ l ∈ ls, OutwardLayer l) (hd0 : 0 ≤ d0) (hd1 : 0 < d1) (hd : ∀ d ∈ ds, 0 ≤ d) :
    ∃ S, stackSMatrix (l0 :: l1 :: ls) (d0 :: d1 :: ds) = .ok S ∧ stackSMatrixScan (l0 :: l1 :: ls) (d0 :: d1 :: ds) = .ok S := by
  have hO : ∀ l ∈ l0 :: l1 :: ls, OutwardLayer l := by
    intro l hl
    simp only [List.mem_cons] at hl
    rcases hl with rfl | rfl | hl
    · exact h0
    · exact h1.outwardLayer
    · exact hL l hl
  have hD : ∀ d ∈ d0 :: d1 :: ds, 0 ≤ d := by
    intro d hm
    simp only [List.mem_cons] at hm
    rcases hm with rfl | rfl | hm
    · exact hd0
    · exact hd1.le
    · exact hd d hm
  have key : ∃ S, stackSMatrix (l0 :: l1 :: ls) (d0 :: d1 :: ds) = .ok S := by
    rw [C81_succeeds_iff (lam := lam) (by simp) (by simpa using hlen)]
    · intro n hn st first last hg hc hf hl ha hb
      cases n with
      | zero =>
        have := noResonance_single (l0, d0)
        exact this st first last (by simpa using hg) hc hf hl ha hb
      | succ n =>
        have hmem : ∀ s ∈ st, s.layer ∈ l0 :: l1 :: ls ∧ s.thickness ∈ d0 :: d1 :: ds := by
          intro s hs
          have h1 : (s.layer, s.thickness) ∈ geometry st := List.mem_map_of_mem hs
          rw [hg] at h1
          exact List.of_mem_zip (List.mem_of_mem_take h1)
        rcases st with _ | ⟨s, _ | ⟨t, rest⟩⟩
        · simp at hf
        · simp [geometry] at hg
        simp only [List.head?_cons, Option.some.injEq] at hf
        subst hf
        simp only [geometry, List.map_cons, List.zip_cons_cons, List.take_succ_cons, List.cons.injEq, Prod.mk.injEq] at hg
        obtain ⟨⟨g1, g2⟩, ⟨g3, g4⟩, -⟩ := hg
        have := no_resonance_second hc hl (by rw [g1]; exact h0) (by rw [g3]; exact h1) (by rw [g4]; exact hd1)
          (fun s hs => ⟨(hO _ (hmem s hs).1).passive, (hO _ (hmem s hs).1).modes, hD _ (hmem s hs).2⟩)
          (hO _ (hmem last (List.mem_of_getLast? hl)).1) () (fun i => by rw [ha]; rfl) (fun i => by rw [hb]; rfl)
        intro s hs
        constructor
        · ext i c
          exact (this s hs i).1
        · ext i c
          exact (this s hs i).2
    · intro l hl
      exact ⟨hlam l hl, (hO l hl).modes.2⟩
    · intro l hl
      obtain ⟨-, E, hs, -⟩ := (hO l hl).passive
      refine ⟨hs.wellPosed, ?_⟩
      rw [Matrix.det_mul]
      exact (electricModes_isUnit hs (hO l hl).modes).1.mul (hO l hl).modes.1
  obtain ⟨S, hS⟩ := key
  exact ⟨S, hS, by rw [← hS]; exact (stackSMatrix_eq_scan _ _).symm⟩

/-- **C81** An absorbing slab between two layers without gain: the S-matrix and all S-matrices of leading and trailing parts are finite. -/
theorem C81_absorbing_slab {lam : ℝ} {l0 l1 l2 : LayerSolveResult ι} {d0 d1 d2 : ℝ} (hlam : ∀ l ∈ [l0, l1, l2], l.wavelength = lam)
    (h0 : OutwardLayer l0) (h1 : AbsorbingLayer l1) (h2 : OutwardLayer l2) (hd0 : 0 ≤ d0) (hd1 : 0 < d1) (hd2 : 0 ≤ d2) :
    ∃ S ps, stackSMatrix [l0, l1, l2] [d0, d1, d2] = .ok S ∧ stackSMatricesInterior [l0, l1, l2] [d0, d1, d2] = .ok ps := by
  obtain ⟨S, hS, -⟩ := C81_absorbing_second (ls := [l2]) (ds := [d2]) rfl hlam h0 h1 (by simpa using h2) hd0 hd1 (by simpa using hd2)
  obtain ⟨R, hR, -⟩ := C81_absorbing_second (l0 := l2) (l1 := l1) (ls := [l0]) (d0 := d2) (d1 := d1) (ds := [d0]) (lam := lam) rfl
    (by intro l hl; exact hlam l (by simp only [List.mem_cons, List.not_mem_nil, or_false] at hl ⊢; tauto)) h2 h1 (by simpa using h0) hd2 hd1 (by simpa using hd0)
  obtain ⟨ss, hss, -⟩ := stackSMatrix_eq_ok hS
  obtain ⟨rs, hrs, -⟩ := stackSMatrix_eq_ok hR
  refine ⟨S, ss.zip (rs.reverse.map ScatteringMatrix.reverse), hS, ?_⟩
  unfold stackSMatricesInterior
  rw [hss]
  simp only [List.reverse_cons, List.reverse_nil, List.nil_append, List.cons_append]
  rw [hrs]
  rfl

/-- An absorbing pattern and vacuum, at normal incidence. -/
theorem example_slab : ∃ (eig : Matrix (Fin 1 ⊕ Fin 1) (Fin 1 ⊕ Fin 1) ℂ → (Fin 1 ⊕ Fin 1 → ℂ) × Matrix (Fin 1 ⊕ Fin 1) (Fin 1 ⊕ Fin 1) ℂ)
    (r v : LayerSolveResult (Fin 1)), IsEig eig ∧
    eigensolveIsotropicMedia eig (2 * Real.pi) (0, 0) unitLattice examplePattern (fun _ : Fin 1 => (0, 0)) .fft = .ok r ∧
    eigensolveUniformIsotropic (2 * Real.pi) (0, 0) unitLattice 1 (fun _ : Fin 1 => (0, 0)) = .ok v ∧
    AbsorbingLayer r ∧ OutwardLayer v ∧ r.wavelength = 2 * Real.pi ∧ v.wavelength = 2 * Real.pi ∧ (∀ i, (v.eigenvalues i).im = 0) := by
  obtain ⟨eig, r, he, hr, hv⟩ := example_absorbing_pattern
  have hl : (0 : ℝ) < 2 * Real.pi := by have := Real.pi_pos; positivity
  have ha := C81_isotropic_absorbing he hl (fun _ _ _ => Subsingleton.elim _ _) ⟨⟨0⟩, by simp⟩ hr (by intro r s; simp [examplePattern]) hv
  obtain ⟨v, hv⟩ := (C22_uniform_succeeds_iff (2 * Real.pi) (0, 0) unitLattice 1 (fun _ : Fin 1 => (0, 0))).2
    ⟨hl.ne', one_ne_zero, by norm_num [unitLattice]⟩
  have hw : r.wavelength = 2 * Real.pi := by
    have h := hr
    unfold eigensolveIsotropicMedia at h
    rw [dif_neg (by norm_num)] at h
    unfold eigensolvePatternedIsotropic at h
    obtain ⟨m, hm, h⟩ := bind_eq_ok.1 h
    exact (numerical_solvedFor he h).2.1
  have hroot : ∀ i, v.eigenvalues i ^ 2 = 1 ∧ 0 ≤ (v.eigenvalues i).im := by
    obtain ⟨k, w, hk, hw, -, rfl⟩ := eigensolveUniformIsotropic_ok_iff.1 hv
    intro i
    have h1 := selectEigenvaluesSign_forward (1 * (w : ℂ) ^ 2 - ((k (i.elim id id)).1 : ℂ) ^ 2 - ((k (i.elim id id)).2 : ℂ) ^ 2)
    have hk0 : ∀ i, k i = (0, 0) := by
      obtain ⟨R, -, h⟩ := bind_eq_ok.1 hk
      rw [ok_inj] at h
      intro i
      rw [← h]
      simp
    have hw1 : w = 1 := by
      unfold angularFrequency at hw
      split_ifs at hw
      rw [ok_inj] at hw
      rw [← hw]
      exact div_self hl.ne'
    refine ⟨?_, h1.2.1⟩
    have := h1.1
    simp only [hk0, hw1] at this ⊢
    simpa using this
  have hq : ∀ i, v.eigenvalues i ≠ 0 := by
    intro i h0
    have := (hroot i).1
    rw [h0] at this
    norm_num at this
  refine ⟨eig, r, v, he, hr, hv, ha, C81_uniform_outward hl hv (by simp) hq, hw, ?_, fun i => ?_⟩
  · obtain ⟨k, w, -, -, -, rfl⟩ := eigensolveUniformIsotropic_ok_iff.1 hv
    rfl
  · have := (hroot i).1
    rcases (mul_self_eq_one_iff.1 ((sq _).symm.trans this)) with h | h <;> rw [h] <;> simp

example : ∃ r v S ps, AbsorbingLayer r ∧ OutwardLayer (ι := Fin 1) v ∧ v.zPermittivityMatrix = 1 ∧
    stackSMatrix [v, r, v] [1, 2, 3] = .ok S ∧ stackSMatricesInterior [v, r, v] [1, 2, 3] = .ok ps := by
  obtain ⟨eig, r, v, he, hr, hv, ha, ho, hw, hw', -⟩ := example_slab
  obtain ⟨S, ps, hS, hp⟩ := C81_absorbing_slab (lam := 2 * Real.pi) (l0 := v) (l1 := r) (l2 := v) (d0 := 1) (d1 := 2) (d2 := 3) (by simp [hw, hw']) ho ha ho
    zero_le_one two_pos (by norm_num)
  refine ⟨r, v, S, ps, ha, ho, ?_, hS, hp⟩
  obtain ⟨k, w, -, -, -, rfl⟩ := eigensolveUniformIsotropic_ok_iff.1 hv
  simp

end Fmmax
