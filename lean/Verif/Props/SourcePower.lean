import Verif.Spec.SourcePower
import Verif.Props.Emission
import Verif.Props.EmissionReciprocity
import Verif.Props.TwoSided

/-! Property theorems C122: the power emitted by sources.

`sourcePower` is from `Verif/Spec/SourcePower.lean`, `LosslessLayer` and `PassiveLayer` from `Verif/Spec/Maxwell.lean`, `Regular` from
`Verif/Spec/SMatrix.lean`.  `reportedFields` and `reportedFlux` are `colocate_amplitudes` followed by `fields_from_wave_amplitudes`, or by
`amplitude_poynting_flux` and the sum over orders and directions; `forwardPower` is the sum over orders of the forward flux of
`amplitude_poynting_flux` for forward amplitudes alone. -/

set_option linter.unusedSectionVars false

namespace Fmmax

open Spec Matrix

variable {ι : Type} [Fintype ι] [DecidableEq ι] {β : Type}

/-! ### The jump of the flux -/

theorem fieldsOf_ez (l : LayerSolveResult ι) (e h : Matrix (ι ⊕ ι) β ℂ) (i : ι) (c : β) :
    (fieldsOf l e h).ez i c = -∑ j, l.inverseZPermittivityMatrix i j *
      (((orderWavevector l j).1 / omega l : ℂ) * h (.inr j) c - ((orderWavevector l j).2 / omega l : ℂ) * h (.inl j) c) := by
  simp only [fieldsOf, of_apply, Matrix.mul_apply, Matrix.neg_apply, Finset.sum_div, ← Finset.sum_neg_distrib]
  refine Finset.sum_congr rfl fun j _ => ?_
  by_cases h0 : (omega l : ℂ) = 0
  · simp [h0]
  · have := Complex.I_ne_zero
    field_simp

/-- The work of a vertical current is the pairing of the jump of the electric field with the magnetic field. -/
theorem vertical_work {l : LayerSolveResult ι} (hη : l.inverseZPermittivityMatrix.IsHermitian) (jz : Matrix ι β ℂ) (e h : Matrix (ι ⊕ ι) β ℂ)
    (c : β) : ∑ i, star (jz i c) * (fieldsOf l e h).ez i c = -∑ k, star (jumpE l jz k c) * h k c := by
  have hk : ∀ x y : ℝ, star ((x / y : ℂ)) = x / y := fun x y => by
    rw [← Complex.ofReal_div]; exact Complex.conj_ofReal _
  have e1 : ∑ k, star (jumpE l jz k c) * h k c = ∑ j, star ((l.inverseZPermittivityMatrix * jz) j c) *
      (((orderWavevector l j).1 / omega l : ℂ) * h (.inr j) c - ((orderWavevector l j).2 / omega l : ℂ) * h (.inl j) c) := by
    rw [Fintype.sum_sum_type, ← Finset.sum_add_distrib]
    refine Finset.sum_congr rfl fun j _ => ?_
    simp only [jumpE, fromRows_apply_inl, fromRows_apply_inr, Matrix.neg_apply, of_apply, star_neg, star_mul', hk]
    ring
  rw [e1]
  simp only [fieldsOf_ez, mul_neg, Finset.sum_neg_distrib, Matrix.mul_apply, star_sum, Finset.sum_mul, Finset.mul_sum, star_mul']
  rw [Finset.sum_comm]
  congr 1
  refine Finset.sum_congr rfl fun j _ => Finset.sum_congr rfl fun i _ => ?_
  rw [← hη.apply i j]
  ring

theorem flux_jump {l l' : LayerSolveResult ι} {jx jy jz : Matrix ι β ℂ}
    (hz : jz = 0 ∨ l = l' ∧ l.inverseZPermittivityMatrix.IsHermitian) (e m : Matrix (ι ⊕ ι) β ℂ) (c : β) :
    netFlux (e + jumpE l jz) (m + jumpH jx jy) c - netFlux e m c =
      sourcePower (fieldsOf l e m) (fieldsOf l' (e + jumpE l jz) (m + jumpH jx jy)) jx jy jz c := by
  have hzz : (∑ i, star (jz i c) * (((fieldsOf l e m).ez i c + (fieldsOf l' (e + jumpE l jz) (m + jumpH jx jy)).ez i c) / 2)) =
      -∑ k, star (jumpE l jz k c) * (m k c + jumpH jx jy k c / 2) := by
    rcases hz with rfl | ⟨rfl, hη⟩
    · have : jumpE l (0 : Matrix ι β ℂ) = 0 := by
        unfold jumpE
        ext (i | i) b <;> simp
      simp [this]
    · have h1 := vertical_work hη jz e m c
      have h2 := vertical_work hη jz (e + jumpE l jz) (m + jumpH jx jy) c
      have e1 : (∑ i, star (jz i c) * (((fieldsOf l e m).ez i c + (fieldsOf l (e + jumpE l jz) (m + jumpH jx jy)).ez i c) / 2)) =
          ((∑ i, star (jz i c) * (fieldsOf l e m).ez i c) + ∑ i, star (jz i c) * (fieldsOf l (e + jumpE l jz) (m + jumpH jx jy)).ez i c) / 2 := by
        rw [← Finset.sum_add_distrib, Finset.sum_div]
        exact Finset.sum_congr rfl fun i _ => by ring
      rw [e1, h1, h2, ← neg_add, ← Finset.sum_add_distrib, neg_div, Finset.sum_div]
      congr 1
      refine Finset.sum_congr rfl fun k _ => ?_
      rw [Matrix.add_apply]
      ring
  have hxy : (∑ i, (star (jx i c) * (((fieldsOf l e m).ex i c + (fieldsOf l' (e + jumpE l jz) (m + jumpH jx jy)).ex i c) / 2) +
      star (jy i c) * (((fieldsOf l e m).ey i c + (fieldsOf l' (e + jumpE l jz) (m + jumpH jx jy)).ey i c) / 2))) =
      -∑ k, star (jumpH jx jy k c) * (e k c + jumpE l jz k c / 2) := by
    rw [Fintype.sum_sum_type, ← Finset.sum_add_distrib, ← Finset.sum_neg_distrib]
    refine Finset.sum_congr rfl fun i _ => ?_
    simp only [fieldsOf, jumpH, of_apply, fromRows_apply_inl, fromRows_apply_inr, Matrix.neg_apply, Matrix.add_apply, star_neg]
    ring
  unfold sourcePower
  rw [← Complex.re_sum, Finset.sum_add_distrib, hzz, hxy, ← neg_add, Complex.neg_re, neg_neg, Complex.add_re, Complex.re_sum, Complex.re_sum]
  unfold netFlux
  rw [← Finset.sum_sub_distrib, ← Finset.sum_add_distrib]
  refine Finset.sum_congr rfl fun k _ => ?_
  rw [Matrix.add_apply, Matrix.add_apply]
  generalize e k c = x
  generalize m k c = y
  generalize jumpE l jz k c = u
  generalize jumpH jx jy k c = v
  simp [Complex.mul_re]
  ring

/-! ### Power of sources -/

theorem emission_of {lam : ℝ} {before after : List (LayerSolveResult ι)} {db da : List ℝ} (hb : Regular lam (before.zip db))
    (ha : Regular lam (after.zip da)) {sb sa : ScatteringMatrix ι} (h1 : stackSMatrix before db = .ok sb)
    (h2 : stackSMatrix after da = .ok sa) {jx jy jz : Matrix ι β ℂ} {R : SourceAmplitudes ι β}
    (h : amplitudesForSource jx jy jz sb sa = .ok R) :
    ∃ st st' first s t last, IsEmission (before.zip db) (after.zip da) jx jy jz st st' first s t last ∧
      first = ⟨sb.startLayer, sb.startThickness, 0, R.backward0End⟩ ∧
      s = ⟨sb.endLayer, sb.endThickness, R.forwardBeforeStart, R.backwardBeforeEnd⟩ ∧
      t = ⟨sa.startLayer, sa.startThickness, R.forwardAfterStart, R.backwardAfterEnd⟩ ∧
      last = ⟨sa.endLayer, sa.endThickness, R.forwardNStart, 0⟩ := by
  have Sb := stackSMatrix_spec hb h1
  have Sa := stackSMatrix_spec ha h2
  have hlam : sb.endLayer.wavelength = sa.startLayer.wavelength := by
    rw [(hb _ (List.mem_of_getLast? Sb.finish)).1, (ha _ (List.mem_of_head? Sa.start)).1]
  obtain ⟨st, st', first, s, t, last, hE, e1, e2, e3, e4, e5, e6⟩ := C49_source_sound Sb Sa hlam h
  have g1 := (states_head hE.head_before).symm.trans ((congrArg List.head? hE.geometry_before).trans Sb.start)
  have g2 := (states_getLast hE.last_before).symm.trans ((congrArg List.getLast? hE.geometry_before).trans Sb.finish)
  have g3 := (states_head hE.head_after).symm.trans ((congrArg List.head? hE.geometry_after).trans Sa.start)
  have g4 := (states_getLast hE.last_after).symm.trans ((congrArg List.getLast? hE.geometry_after).trans Sa.finish)
  simp only [Option.some.injEq, Prod.mk.injEq] at g1 g2 g3 g4
  refine ⟨st, st', first, s, t, last, hE, ?_, ?_, ?_, ?_⟩
  · rw [← g1.1, ← g1.2, ← hE.no_incoming_before, ← e1]
  · rw [← g2.1, ← g2.2, ← e2, ← e3]
  · rw [← g3.1, ← g3.2, ← e4, ← e5]
  · rw [← g4.1, ← g4.2, ← hE.no_incoming_after, ← e6]

/-- **C122** Across a source the total flux grows by the power which the currents deliver to the fields.  (With vertical currents, the
layers next to the source are the same and their inverse z-permittivity matrix is Hermitian.) -/
theorem C122_work {lam : ℝ} {before after : List (LayerSolveResult ι)} {db da : List ℝ} (hb : Regular lam (before.zip db))
    (ha : Regular lam (after.zip da)) {sb sa : ScatteringMatrix ι} (h1 : stackSMatrix before db = .ok sb)
    (h2 : stackSMatrix after da = .ok sa) {jx jy jz : Matrix ι β ℂ}
    (hz : jz = 0 ∨ sb.endLayer = sa.startLayer ∧ sb.endLayer.inverseZPermittivityMatrix.IsHermitian) {R : SourceAmplitudes ι β}
    (h : amplitudesForSource jx jy jz sb sa = .ok R) :
    ∃ F F' J J',
      reportedFields sb.endLayer sb.endThickness R.forwardBeforeStart R.backwardBeforeEnd sb.endThickness = .ok F ∧
      reportedFields sa.startLayer sa.startThickness R.forwardAfterStart R.backwardAfterEnd 0 = .ok F' ∧
      reportedFlux sb.endLayer sb.endThickness R.forwardBeforeStart R.backwardBeforeEnd sb.endThickness = .ok J ∧
      reportedFlux sa.startLayer sa.startThickness R.forwardAfterStart R.backwardAfterEnd 0 = .ok J' ∧
      ∀ c, J' c - J c = sourcePower F F' jx jy jz c := by
  obtain ⟨st, st', first, s, t, last, hE, -, rfl, rfl, -⟩ := emission_of hb ha h1 h2 h
  obtain ⟨e, m, k1, k2⟩ := sourceJump_eq hE.jump
  obtain ⟨w1, q1, i1, i2⟩ := fieldsAt_eq.1 k1
  obtain ⟨w2, q2, i3, i4⟩ := fieldsAt_eq.1 k2
  refine ⟨_, _, _, _, reportedFields_eq_ok.2 ⟨w1, q1, rfl⟩, reportedFields_eq_ok.2 ⟨w2, q2, rfl⟩, reportedFlux_eq w1 q1 _ _ _ _,
    reportedFlux_eq w2 q2 _ _ _ _, fun c => ?_⟩
  unfold stateFlux
  dsimp only at i1 i2 i3 i4 ⊢
  rw [← i1, ← i2, ← i3, ← i4]
  exact flux_jump hz e m c

theorem ends_flux {l : LayerSolveResult ι} {d : ℝ} (a : Matrix (ι ⊕ ι) β ℂ) (c : β) :
    stateFlux (⟨l, d, 0, a⟩ : LayerState ι β) c d = -netFlux (electricModes l * a) (l.eigenvectors * a) c ∧
      stateFlux (⟨l, d, a, 0⟩ : LayerState ι β) c 0 = netFlux (electricModes l * a) (l.eigenvectors * a) c := by
  have h1 := stateFlux_backward (s := (⟨l, d, 0, a⟩ : LayerState ι β)) (c := c) (fun _ => rfl)
  have h2 := stateFlux_outgoing (s := (⟨l, d, a, 0⟩ : LayerState ι β)) (c := c) (fun _ => rfl)
  rw [stateFlux_forward, propagator_zero, Matrix.one_mul] at h1 h2
  exact ⟨h1, h2⟩

/-- **C122** In lossless structures the power radiated to both sides is the power delivered by the currents. -/
theorem C122_radiated {lam : ℝ} {before after : List (LayerSolveResult ι)} {db da : List ℝ} (hb : Regular lam (before.zip db))
    (ha : Regular lam (after.zip da)) {sb sa : ScatteringMatrix ι} (h1 : stackSMatrix before db = .ok sb)
    (h2 : stackSMatrix after da = .ok sa) (hL : ∀ l ∈ before ++ after, LosslessLayer l) {jx jy jz : Matrix ι β ℂ}
    (hz : jz = 0 ∨ sb.endLayer = sa.startLayer ∧ sb.endLayer.inverseZPermittivityMatrix.IsHermitian) {R : SourceAmplitudes ι β}
    (h : amplitudesForSource jx jy jz sb sa = .ok R) :
    ∃ F F' P P',
      reportedFields sb.endLayer sb.endThickness R.forwardBeforeStart R.backwardBeforeEnd sb.endThickness = .ok F ∧
      reportedFields sa.startLayer sa.startThickness R.forwardAfterStart R.backwardAfterEnd 0 = .ok F' ∧
      forwardPower sb.startLayer R.backward0End = .ok P ∧ forwardPower sa.endLayer R.forwardNStart = .ok P' ∧
      ∀ c, P c + P' c = sourcePower F F' jx jy jz c := by
  obtain ⟨F, F', J, J', k1, k2, k3, k4, k5⟩ := C122_work hb ha h1 h2 hz h
  obtain ⟨st, st', first, s, t, last, hE, r1, r2, r3, r4⟩ := emission_of hb ha h1 h2 h
  have mem : ∀ x ∈ st, x.layer ∈ before ∧ ∀ i, x.layer.eigenvalues i ≠ 0 := fun x hx => by
    have hm : (x.layer, x.thickness) ∈ before.zip db := by rw [← hE.geometry_before]; exact List.mem_map_of_mem hx
    exact ⟨(List.of_mem_zip hm).1, (hb _ hm).2⟩
  have mem' : ∀ x ∈ st', x.layer ∈ after ∧ ∀ i, x.layer.eigenvalues i ≠ 0 := fun x hx => by
    have hm : (x.layer, x.thickness) ∈ after.zip da := by rw [← hE.geometry_after]; exact List.mem_map_of_mem hx
    exact ⟨(List.of_mem_zip hm).1, (ha _ hm).2⟩
  have m1 := List.mem_of_head? hE.head_before
  have m2 := List.mem_of_getLast? hE.last_before
  have m3 := List.mem_of_head? hE.head_after
  have m4 := List.mem_of_getLast? hE.last_after
  have w : ∀ x ∈ st, WellPosed x.layer := fun x hx => by
    obtain ⟨E, hE, -⟩ := hL _ (List.mem_append_left _ (mem x hx).1)
    exact hE.wellPosed
  have w' : ∀ x ∈ st', WellPosed x.layer := fun x hx => by
    obtain ⟨E, hE, -⟩ := hL _ (List.mem_append_right _ (mem' x hx).1)
    exact hE.wellPosed
  have p1 := forwardPower_eq (w _ m1) (mem _ m1).2 R.backward0End
  have p4 := forwardPower_eq (w' _ m4) (mem' _ m4).2 R.forwardNStart
  have p2 := reportedFlux_eq (w _ m2) (mem _ m2).2 sb.endThickness R.forwardBeforeStart R.backwardBeforeEnd sb.endThickness
  have p3 := reportedFlux_eq (w' _ m3) (mem' _ m3).2 sa.startThickness R.forwardAfterStart R.backwardAfterEnd 0
  refine ⟨F, F', _, _, k1, k2, by rw [r1] at p1; exact p1, by rw [r4] at p4; exact p4, fun c => ?_⟩
  rw [← k5 c]
  obtain ⟨I, hI⟩ := stack_flux_const c st hE.consistent_before fun x hx => hL _ (List.mem_append_left _ (mem x hx).1)
  obtain ⟨I', hI'⟩ := stack_flux_const c st' hE.consistent_after fun x hx => hL _ (List.mem_append_right _ (mem' x hx).1)
  have f1 := hI _ m1 (mem _ m1).2 sb.startThickness
  have f2 := hI _ m2 (mem _ m2).2 sb.endThickness
  have f3 := hI' _ m3 (mem' _ m3).2 0
  have f4 := hI' _ m4 (mem' _ m4).2 0
  subst r1 r2 r3 r4
  dsimp only at p2 p3
  rw [p2] at k3
  rw [p3] at k4
  cases k3
  cases k4
  rw [(ends_flux _ _).1] at f1
  rw [(ends_flux _ _).2] at f4
  dsimp only at f1 f2 f3 f4 ⊢
  rw [f2, f3, ← f1, ← f4]
  ring

/-- **C122** In structures without gain the power radiated to both sides is at most the power delivered by the currents.  If forward waves
in the outer layers do not carry energy backward, both radiated powers and hence the delivered power are non-negative. -/
theorem C122_passive {lam : ℝ} {before after : List (LayerSolveResult ι)} {db da : List ℝ} (hb : Regular lam (before.zip db))
    (ha : Regular lam (after.zip da)) {sb sa : ScatteringMatrix ι} (h1 : stackSMatrix before db = .ok sb)
    (h2 : stackSMatrix after da = .ok sa) (hL : ∀ l ∈ before ++ after, PassiveLayer l) (hd : ∀ d ∈ db ++ da, 0 ≤ d)
    {jx jy jz : Matrix ι β ℂ}
    (hz : jz = 0 ∨ sb.endLayer = sa.startLayer ∧ sb.endLayer.inverseZPermittivityMatrix.IsHermitian) {R : SourceAmplitudes ι β}
    (h : amplitudesForSource jx jy jz sb sa = .ok R) :
    ∃ F F' P P',
      reportedFields sb.endLayer sb.endThickness R.forwardBeforeStart R.backwardBeforeEnd sb.endThickness = .ok F ∧
      reportedFields sa.startLayer sa.startThickness R.forwardAfterStart R.backwardAfterEnd 0 = .ok F' ∧
      forwardPower sb.startLayer R.backward0End = .ok P ∧ forwardPower sa.endLayer R.forwardNStart = .ok P' ∧
      (∀ c, P c + P' c ≤ sourcePower F F' jx jy jz c) ∧
      (OutwardLayer sb.startLayer → OutwardLayer sa.endLayer → ∀ c, 0 ≤ P c ∧ 0 ≤ P' c ∧ 0 ≤ sourcePower F F' jx jy jz c) := by
  obtain ⟨F, F', J, J', k1, k2, k3, k4, k5⟩ := C122_work hb ha h1 h2 hz h
  obtain ⟨st, st', first, s, t, last, hE, r1, r2, r3, r4⟩ := emission_of hb ha h1 h2 h
  have mem : ∀ x ∈ st, x.layer ∈ before ∧ x.thickness ∈ db ∧ ∀ i, x.layer.eigenvalues i ≠ 0 := fun x hx => by
    have hm : (x.layer, x.thickness) ∈ before.zip db := by rw [← hE.geometry_before]; exact List.mem_map_of_mem hx
    exact ⟨(List.of_mem_zip hm).1, (List.of_mem_zip hm).2, (hb _ hm).2⟩
  have mem' : ∀ x ∈ st', x.layer ∈ after ∧ x.thickness ∈ da ∧ ∀ i, x.layer.eigenvalues i ≠ 0 := fun x hx => by
    have hm : (x.layer, x.thickness) ∈ after.zip da := by rw [← hE.geometry_after]; exact List.mem_map_of_mem hx
    exact ⟨(List.of_mem_zip hm).1, (List.of_mem_zip hm).2, (ha _ hm).2⟩
  have m1 := List.mem_of_head? hE.head_before
  have m2 := List.mem_of_getLast? hE.last_before
  have m3 := List.mem_of_head? hE.head_after
  have m4 := List.mem_of_getLast? hE.last_after
  have v : ∀ x ∈ st, PassiveLayer x.layer ∧ 0 ≤ x.thickness := fun x hx =>
    ⟨hL _ (List.mem_append_left _ (mem x hx).1), hd _ (List.mem_append_left _ (mem x hx).2.1)⟩
  have v' : ∀ x ∈ st', PassiveLayer x.layer ∧ 0 ≤ x.thickness := fun x hx =>
    ⟨hL _ (List.mem_append_right _ (mem' x hx).1), hd _ (List.mem_append_right _ (mem' x hx).2.1)⟩
  have w : ∀ {l : LayerSolveResult ι}, PassiveLayer l → WellPosed l := fun hp => by
    obtain ⟨-, E, hE, -⟩ := hp
    exact hE.wellPosed
  have p1 := forwardPower_eq (w (v _ m1).1) (mem _ m1).2.2 R.backward0End
  have p4 := forwardPower_eq (w (v' _ m4).1) (mem' _ m4).2.2 R.forwardNStart
  have p2 := reportedFlux_eq (w (v _ m2).1) (mem _ m2).2.2 sb.endThickness R.forwardBeforeStart R.backwardBeforeEnd sb.endThickness
  have p3 := reportedFlux_eq (w (v' _ m3).1) (mem' _ m3).2.2 sa.startThickness R.forwardAfterStart R.backwardAfterEnd 0
  have le : ∀ c, stateFlux s c s.thickness ≤ stateFlux first c first.thickness := fun c => by
    have hp := stack_flux_antitone c hE.consistent_before (fun x hx => (v x hx).1) fun x hx => (v x hx).2
    have hf := hE.head_before
    cases hst : st with
    | nil => rw [hst] at hf; simp at hf
    | cons x rest =>
      rw [hst] at hf hp m2
      simp only [List.head?_cons, Option.some.injEq] at hf
      subst hf
      rcases List.mem_cons.1 m2 with rfl | m
      · exact le_rfl
      · exact ((List.pairwise_cons.1 hp).1 s m).2 _ _ le_rfl (v s (by rw [hst]; exact m2)).2
  have le' : ∀ c, stateFlux last c 0 ≤ stateFlux t c 0 := fun c => by
    have hp := stack_flux_antitone c hE.consistent_after (fun x hx => (v' x hx).1) fun x hx => (v' x hx).2
    have hf := hE.head_after
    have h0 := (v' t m3).2
    cases hst : st' with
    | nil => rw [hst] at hf; simp at hf
    | cons x rest =>
      rw [hst] at hf hp m4
      simp only [List.head?_cons, Option.some.injEq] at hf
      subst hf
      rcases List.mem_cons.1 m4 with rfl | m
      · exact le_rfl
      · exact ((List.pairwise_cons.1 hp).1 last m).2 _ _ h0 le_rfl
  subst r1 r2 r3 r4
  dsimp only at p1 p2 p3 p4 le le'
  rw [p2] at k3
  rw [p3] at k4
  cases k3
  cases k4
  have main : ∀ c, netFlux (electricModes sb.startLayer * R.backward0End) (sb.startLayer.eigenvectors * R.backward0End) c +
      netFlux (electricModes sa.endLayer * R.forwardNStart) (sa.endLayer.eigenvectors * R.forwardNStart) c ≤
      sourcePower F F' jx jy jz c := fun c => by
    have f1 := le c
    have f2 := le' c
    rw [(ends_flux _ _).1] at f1
    rw [(ends_flux _ _).2] at f2
    rw [← k5 c]
    linarith
  refine ⟨F, F', _, _, k1, k2, p1, p4, main, fun o o' c => ?_⟩
  have pos : ∀ {l : LayerSolveResult ι} (_ : OutwardLayer l) (a : Matrix (ι ⊕ ι) β ℂ), 0 ≤ netFlux (electricModes l * a) (l.eigenvectors * a) c := by
    intro l ho a
    refine ho.outward a _ _ c (fieldsAt_eq.2 ⟨w ho.passive, ho.modes.2, ?_, ?_⟩)
    · simp [electricAt]
    · simp [magneticAt]
  have a1 := pos o R.backward0End
  have a2 := pos o' R.forwardNStart
  exact ⟨a1, a2, (add_nonneg a1 a2).trans (main c)⟩

/-! ### Sources in a homogeneous medium -/

/-- A source inside one layer: amplitudes exist for all currents. -/
theorem homogeneous_source {l : LayerSolveResult ι} {E : ModeMatrix ι} (hs : SolvedFor l E) (hm : CompleteModes l) (d d' : ℝ)
    (jx jy jz : Matrix ι β ℂ) : ∃ R, amplitudesForSource jx jy jz (identitySMatrix l d) (identitySMatrix l d') = .ok R := by
  have hM := (emissionMatrix_eq_ok (Sb := identitySMatrix l d) (Sa := identitySMatrix l d')).2
    ⟨⟨hs.wellPosed, hm.2⟩, ⟨hs.wellPosed, hm.2⟩, rfl⟩
  have hX := (polarizationTerms_eq_ok (jx := jx) (jy := jy) (jz := jz) (l := (identitySMatrix l d).endLayer)).2 ⟨hs.wellPosed.2.1, rfl⟩
  have hA : IsUnit ((omega l : ℂ) • electricModes l).det := by
    rw [Matrix.det_smul]
    exact ((isUnit_iff_ne_zero.2 (omega_ne_zero hs.wellPosed)).pow _).mul (electricModes_isUnit hs hm).2
  have hu : IsUnit (Matrix.fromBlocks ((omega l : ℂ) • electricModes l) ((omega l : ℂ) • electricModes l) l.eigenvectors
      (-l.eigenvectors)).det := by
    set A := (omega l : ℂ) • electricModes l
    refine Matrix.isUnit_det_of_right_inverse (B := Matrix.fromBlocks ((1 / 2 : ℂ) • A⁻¹) ((1 / 2 : ℂ) • l.eigenvectors⁻¹) ((1 / 2 : ℂ) • A⁻¹)
      (-((1 / 2 : ℂ) • l.eigenvectors⁻¹))) ?_
    rw [Matrix.fromBlocks_multiply]
    simp only [Matrix.mul_smul, Matrix.mul_neg, Matrix.neg_mul, neg_neg, Matrix.mul_nonsing_inv _ hA, Matrix.mul_nonsing_inv _ hm.1, ← add_smul,
      add_neg_cancel]
    have half : (1 / 2 : ℂ) • (1 : ModeMatrix ι) + (1 / 2 : ℂ) • 1 = 1 := by rw [← add_smul]; norm_num
    norm_num [Matrix.fromBlocks_one] at half ⊢
    rw [half, Matrix.fromBlocks_one]
  have e : ∀ x : ℝ, propagator l x * (0 : ModeMatrix ι) = 0 := fun x => Matrix.mul_zero _
  simp only [identitySMatrix, e, sub_zero, add_zero, Matrix.mul_one] at hM
  unfold amplitudesForSource
  exact ⟨_, bind_eq_ok.2 ⟨_, hX, bind_eq_ok.2 ⟨_, hM, bind_eq_ok.2 ⟨_, solve_of_isUnit _ hu, rfl⟩⟩⟩⟩

/-- **C122** Sources with any currents in a uniform medium with real permittivity, without orders at grazing: the calculation succeeds, and
the powers radiated to both sides are non-negative and add up to the power delivered by the currents. -/
theorem C122_homogeneous {wavelength : ℝ} (hl : 0 < wavelength) {inPlane : ℝ × ℝ} {lat : LatticeVectors} {ε : ℂ} (hε : ε.im = 0)
    {G : ι → ℤ × ℤ} {r : LayerSolveResult ι} (hr : eigensolveUniformIsotropic wavelength inPlane lat ε G = .ok r)
    (hq : ∀ i, r.eigenvalues i ≠ 0) (d d' : ℝ) (jx jy jz : Matrix ι β ℂ) :
    ∃ sb sa R F F' P P', stackSMatrix [r] [d] = .ok sb ∧ stackSMatrix [r] [d'] = .ok sa ∧ amplitudesForSource jx jy jz sb sa = .ok R ∧
      reportedFields r d R.forwardBeforeStart R.backwardBeforeEnd d = .ok F ∧
      reportedFields r d' R.forwardAfterStart R.backwardAfterEnd 0 = .ok F' ∧
      forwardPower r R.backward0End = .ok P ∧ forwardPower r R.forwardNStart = .ok P' ∧
      ∀ c, 0 ≤ P c ∧ 0 ≤ P' c ∧ P c + P' c = sourcePower F F' jx jy jz c := by
  obtain ⟨k, w, -, -, -, e⟩ := eigensolveUniformIsotropic_ok_iff.1 hr
  have hm : CompleteModes r := ⟨by rw [e]; simp, hq⟩
  have hη : r.inverseZPermittivityMatrix.IsHermitian := by
    rw [e]
    show ((1 / ε) • (1 : Matrix ι ι ℂ)).IsHermitian
    unfold Matrix.IsHermitian
    have hstar : star ε = ε := Complex.conj_eq_iff_im.2 hε
    rw [Matrix.conjTranspose_smul, Matrix.conjTranspose_one, star_div₀, star_one, hstar]
  obtain ⟨R, hR⟩ := homogeneous_source (uniform_solvedFor hr) hm d d' jx jy jz
  have hlam : r.wavelength = wavelength := by rw [e]
  have reg : ∀ x : ℝ, Regular wavelength ([r].zip [x]) := fun x => by simp [Regular, hlam, hq]
  have hL := C42_uniform_lossless hr hε
  obtain ⟨F, F', P, P', h1, h2, h3, h4, h5⟩ := C122_radiated (reg d) (reg d') rfl rfl (by simp [hL]) (.inr ⟨rfl, hη⟩) hR
  have ho := C81_uniform_outward hl hr hε.ge hq
  refine ⟨_, _, R, F, F', P, P', rfl, rfl, hR, h1, h2, h3, h4, fun c => ?_⟩
  have p3 := forwardPower_eq (uniform_solvedFor hr).wellPosed hq R.backward0End
  have p4 := forwardPower_eq (uniform_solvedFor hr).wellPosed hq R.forwardNStart
  have pos : ∀ a : Matrix (ι ⊕ ι) β ℂ, 0 ≤ netFlux (electricModes r * a) (r.eigenvectors * a) c := by
    intro a
    refine ho.outward a _ _ c (fieldsAt_eq.2 ⟨(uniform_solvedFor hr).wellPosed, ho.modes.2, ?_, ?_⟩)
    · simp [electricAt]
    · simp [magneticAt]
  refine ⟨?_, ?_, h5 c⟩
  · have h3' : forwardPower r R.backward0End = .ok P := h3
    rw [p3] at h3'
    cases h3'
    exact pos _
  · have h4' : forwardPower r R.forwardNStart = .ok P' := h4
    rw [p4] at h4'
    cases h4'
    exact pos _

/-! ### Examples -/

/-- C122: any currents, with vertical ones, in a dielectric at oblique incidence. -/
example (jx jy jz : Matrix (Fin 1) (Fin 2) ℂ) : ∃ (r : LayerSolveResult (Fin 1)) (sb sa : ScatteringMatrix (Fin 1)) (R : SourceAmplitudes (Fin 1) (Fin 2))
    (F F' : Fields (Matrix (Fin 1) (Fin 2) ℂ)) (P P' : Fin 2 → ℝ), stackSMatrix [r] [1] = .ok sb ∧ stackSMatrix [r] [2] = .ok sa ∧
      amplitudesForSource jx jy jz sb sa = .ok R ∧ (∀ i, orderWavevector r i = (Real.sqrt 2, 0)) ∧
      ∀ c, 0 ≤ P c ∧ 0 ≤ P' c ∧ P c + P' c = sourcePower F F' jx jy jz c := by
  have hl : (0 : ℝ) < 2 * Real.pi := by have := Real.pi_pos; positivity
  obtain ⟨r, hr⟩ := (C22_uniform_succeeds_iff (2 * Real.pi) (Real.sqrt 2, 0) unitLattice 3 (fun _ : Fin 1 => (0, 0))).2
    ⟨hl.ne', by norm_num, by norm_num [unitLattice]⟩
  obtain ⟨-, -, -, hk, h5⟩ := uniform_single hr
  have hq : ∀ i, r.eigenvalues i ≠ 0 := fun i h0 => by
    have := (h5 i).1
    rw [h0] at this
    norm_num at this
  obtain ⟨sb, sa, R, F, F', P, P', h1, h2, h3, -, -, -, -, h4⟩ := C122_homogeneous hl (by simp) hr hq 1 2 jx jy jz
  exact ⟨r, sb, sa, R, F, F', P, P', h1, h2, h3, hk, h4⟩

/-- C122: in-plane currents at an interface in a lossless stack. -/
example (jx jy : Matrix (Fin 1) (Fin 2) ℂ) : ∃ (R : SourceAmplitudes (Fin 1) (Fin 2)) (F F' : Fields (Matrix (Fin 1) (Fin 2) ℂ)) (P P' : Fin 2 → ℝ),
    amplitudesForSource jx jy 0 Examples.exS2 Examples.exS2 = .ok R ∧ forwardPower (Examples.exLayer 1) R.backward0End = .ok P ∧
      forwardPower (Examples.exLayer 2) R.forwardNStart = .ok P' ∧ (∀ c, P c + P' c = sourcePower F F' jx jy 0 c) ∧
      ∃ J J', reportedFlux (Examples.exLayer 2) Real.pi R.forwardBeforeStart R.backwardBeforeEnd Real.pi = .ok J ∧
        reportedFlux (Examples.exLayer 1) Real.pi R.forwardAfterStart R.backwardAfterEnd 0 = .ok J' ∧
        ∀ c, J' c - J c = sourcePower F F' jx jy 0 c := by
  obtain ⟨R, hR⟩ := exampleSource jx jy 0
  have reg : Regular (2 * Real.pi) ([Examples.exLayer 1, Examples.exLayer 2].zip [Real.pi, Real.pi]) :=
    Examples.exRegular [1, 2] (by simp) [Real.pi, Real.pi]
  have hL : ∀ l ∈ [Examples.exLayer 1, Examples.exLayer 2] ++ [Examples.exLayer 1, Examples.exLayer 2], LosslessLayer l := by
    intro l hl
    refine exLayers_lossless l ?_
    simp only [List.cons_append, List.nil_append, List.mem_cons, List.not_mem_nil, or_false] at hl ⊢
    tauto
  obtain ⟨F, F', P, P', h1, h2, h3, h4, h5⟩ := C122_radiated reg reg Examples.exStack2 Examples.exStack2 hL (.inl rfl) hR
  obtain ⟨F₁, F₁', J, J', k1, k2, k3, k4, k5⟩ := C122_work reg reg Examples.exStack2 Examples.exStack2 (.inl rfl) hR
  rw [h1] at k1
  rw [h2] at k2
  cases k1
  cases k2
  exact ⟨R, F, F', P, P', hR, h3, h4, h5, J, J', k3, k4, k5⟩

/-- C122: in-plane currents between absorbing media: the delivered power is not negative. -/
example (jx jy : Matrix (Fin 2) (Fin 3) ℂ) : ∃ (u v : LayerSolveResult (Fin 2)) (sb sa : ScatteringMatrix (Fin 2)) (R : SourceAmplitudes (Fin 2) (Fin 3))
    (F F' : Fields (Matrix (Fin 2) (Fin 3) ℂ)) (P P' : Fin 3 → ℝ), stackSMatrix [u] [1] = .ok sb ∧ stackSMatrix [v, u] [2, 3] = .ok sa ∧
      amplitudesForSource jx jy 0 sb sa = .ok R ∧ (∀ c, P c + P' c ≤ sourcePower F F' jx jy 0 c) ∧ ∀ c, 0 ≤ sourcePower F F' jx jy 0 c := by
  obtain ⟨u, v, h1, h2, h3, h4⟩ := EmissionExample.halfSpaces
  obtain ⟨Sb, Sa, ib, ia, k1, k2, k3, k4, k5⟩ := C97_absorbing (before := [u]) (after := [v, u]) (db := [1]) (da := [2, 3]) (lam := 2 * Real.pi)
    (by simp) (by simp) rfl rfl (by simp [h3, h4]) (by simp [h1, h2]) (by norm_num)
  obtain ⟨R, -, -, -, hR, -⟩ := k5 jx jy 0 [1, 1, 1] (fun _ : Unit => (0, 0)) rfl
  have r1 : Regular (2 * Real.pi) ([u].zip [1]) := by simp [Regular, h3, h1.modes.2]
  have r2 : Regular (2 * Real.pi) ([v, u].zip [2, 3]) := by simp [Regular, h3, h4, h1.modes.2, h2.modes.2]
  obtain ⟨F, F', P, P', -, -, -, -, h5, h6⟩ := C122_passive r1 r2 k1 k2 (by simp [h1.outwardLayer.passive, h2.outwardLayer.passive]) (by norm_num)
    (.inl rfl) hR
  have s1 := (stackSMatrix_spec r1 k1).start
  have s2 := (stackSMatrix_spec r2 k2).finish
  simp only [List.zip_cons_cons, List.zip_nil_right, List.head?_cons, List.getLast?_cons_cons, List.getLast?_singleton, Option.some.injEq,
    Prod.mk.injEq] at s1 s2
  exact ⟨u, v, Sb, Sa, R, F, F', P, P', k1, k2, hR, h5,
    fun c => (h6 (by rw [← s1.1]; exact h1.outwardLayer) (by rw [← s2.1]; exact h1.outwardLayer) c).2.2⟩

end Fmmax
