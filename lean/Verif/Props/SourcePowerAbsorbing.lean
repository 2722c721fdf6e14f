import Verif.Props.SourcePower

/-! Property theorems C122: the power of vertical currents in absorbing layers.

`sourcePower`, `verticalDisplacement` and `displacementPower` are from `Verif/Spec/SourcePower.lean`. -/

set_option linter.unusedSectionVars false

namespace Fmmax

open Spec Matrix

variable {ι : Type} [Fintype ι] [DecidableEq ι] {β : Type}

theorem vertical_work_displacement (l l' : LayerSolveResult ι) (jz : Matrix ι β ℂ) (e h : Matrix (ι ⊕ ι) β ℂ) (c : β) :
    ∑ i, star (∑ j, l.inverseZPermittivityMatrix i j * jz j c) * verticalDisplacement l (fieldsOf l' e h) i c =
      -∑ k, star (jumpE l jz k c) * h k c := by
  have hk : ∀ x y : ℝ, star ((x / y : ℂ)) = x / y := fun x y => by
    rw [← Complex.ofReal_div]; exact Complex.conj_ofReal _
  rw [Fintype.sum_sum_type, ← Finset.sum_add_distrib, ← Finset.sum_neg_distrib]
  refine Finset.sum_congr rfl fun j _ => ?_
  simp only [jumpE, fromRows_apply_inl, fromRows_apply_inr, Matrix.neg_apply, of_apply, star_neg, star_mul', hk, verticalDisplacement, fieldsOf,
    Matrix.mul_apply]
  ring

theorem flux_jump_displacement (l l' : LayerSolveResult ι) (jx jy jz : Matrix ι β ℂ) (e m : Matrix (ι ⊕ ι) β ℂ) (c : β) :
    netFlux (e + jumpE l jz) (m + jumpH jx jy) c - netFlux e m c =
      displacementPower l (fieldsOf l e m) (fieldsOf l' (e + jumpE l jz) (m + jumpH jx jy)) jx jy jz c := by
  have hzz : (∑ i, star (∑ j, l.inverseZPermittivityMatrix i j * jz j c) * ((verticalDisplacement l (fieldsOf l e m) i c +
      verticalDisplacement l (fieldsOf l' (e + jumpE l jz) (m + jumpH jx jy)) i c) / 2)) =
      -∑ k, star (jumpE l jz k c) * (m k c + jumpH jx jy k c / 2) := by
    have h1 := vertical_work_displacement l l jz e m c
    have h2 := vertical_work_displacement l l' jz (e + jumpE l jz) (m + jumpH jx jy) c
    have e1 : (∑ i, star (∑ j, l.inverseZPermittivityMatrix i j * jz j c) * ((verticalDisplacement l (fieldsOf l e m) i c +
        verticalDisplacement l (fieldsOf l' (e + jumpE l jz) (m + jumpH jx jy)) i c) / 2)) =
        ((∑ i, star (∑ j, l.inverseZPermittivityMatrix i j * jz j c) * verticalDisplacement l (fieldsOf l e m) i c) +
          ∑ i, star (∑ j, l.inverseZPermittivityMatrix i j * jz j c) *
            verticalDisplacement l (fieldsOf l' (e + jumpE l jz) (m + jumpH jx jy)) i c) / 2 := by
      rw [← Finset.sum_add_distrib, Finset.sum_div]
      exact Finset.sum_congr rfl fun i _ => by ring
    rw [e1, h1, h2, ← neg_add, ← Finset.sum_add_distrib, neg_div, Finset.sum_div]
    congr 1
    refine Finset.sum_congr rfl fun k _ => ?_
    rw [Matrix.add_apply]
    ring
  have hxy : (∑ i, (star (jx i c) * (((fieldsOf l e m).ex i c + (fieldsOf l' (e + jumpE l jz) (m + jumpH jx jy)).ex i c) / 2) +
      star (jy i c) * (((fieldsOf l e m).ey i c + (fieldsOf l' (e + jumpE l jz) (m + jumpH jx jy)).ey i c) / 2))) =
      -∑ k, star (jumpH jx jy k c) * (e k c + jumpE l jz k c / 2) := by
    rw [Fintype.sum_sum_type, ← Finset.sum_add_distrib, ← Finset.sum_neg_distrib]
    refine Finset.sum_congr rfl fun i _ => ?_
    simp only [fieldsOf, jumpH, of_apply, fromRows_apply_inl, fromRows_apply_inr, Matrix.neg_apply, Matrix.add_apply, star_neg]
    ring
  unfold displacementPower
  rw [← Complex.re_sum, Finset.sum_add_distrib, hzz, hxy, ← neg_add, Complex.neg_re, neg_neg, Complex.add_re, Complex.re_sum, Complex.re_sum]
  unfold netFlux
  rw [← Finset.sum_sub_distrib, ← Finset.sum_add_distrib]
  refine Finset.sum_congr rfl fun k _ => ?_
  rw [Matrix.add_apply, Matrix.add_apply]
  generalize e k c = x
  generalize m k c = y
  generalize jumpE l jz k c = u
  generalize jumpH jx jy k c = v
  simp [Complex.mul_re]
  ring

theorem fieldsOf_ez_displacement (l : LayerSolveResult ι) (e h : Matrix (ι ⊕ ι) β ℂ) (i : ι) (c : β) :
    (fieldsOf l e h).ez i c = ∑ j, l.inverseZPermittivityMatrix i j * verticalDisplacement l (fieldsOf l e h) j c := by
  rw [fieldsOf_ez, ← Finset.sum_neg_distrib]
  refine Finset.sum_congr rfl fun j _ => ?_
  simp only [verticalDisplacement, fieldsOf, of_apply]
  ring

/-- **C122** Across any source, in any layers, the total flux grows by the work of the currents, where vertical currents `jz` act through `η jz`
on the vertical displacement; the reported vertical field is `η` times the displacement. -/
theorem C122_work_any {lam : ℝ} {before after : List (LayerSolveResult ι)} {db da : List ℝ} (hb : Regular lam (before.zip db))
    (ha : Regular lam (after.zip da)) {sb sa : ScatteringMatrix ι} (h1 : stackSMatrix before db = .ok sb)
    (h2 : stackSMatrix after da = .ok sa) {jx jy jz : Matrix ι β ℂ} {R : SourceAmplitudes ι β}
    (h : amplitudesForSource jx jy jz sb sa = .ok R) :
    ∃ F F' J J',
      reportedFields sb.endLayer sb.endThickness R.forwardBeforeStart R.backwardBeforeEnd sb.endThickness = .ok F ∧
      reportedFields sa.startLayer sa.startThickness R.forwardAfterStart R.backwardAfterEnd 0 = .ok F' ∧
      reportedFlux sb.endLayer sb.endThickness R.forwardBeforeStart R.backwardBeforeEnd sb.endThickness = .ok J ∧
      reportedFlux sa.startLayer sa.startThickness R.forwardAfterStart R.backwardAfterEnd 0 = .ok J' ∧
      (∀ i c, F.ez i c = ∑ j, sb.endLayer.inverseZPermittivityMatrix i j * verticalDisplacement sb.endLayer F j c) ∧
      (∀ i c, F'.ez i c = ∑ j, sa.startLayer.inverseZPermittivityMatrix i j * verticalDisplacement sa.startLayer F' j c) ∧
      ∀ c, J' c - J c = displacementPower sb.endLayer F F' jx jy jz c := by
  obtain ⟨st, st', first, s, t, last, hE, -, rfl, rfl, -⟩ := emission_of hb ha h1 h2 h
  obtain ⟨e, m, k1, k2⟩ := sourceJump_eq hE.jump
  obtain ⟨w1, q1, i1, i2⟩ := fieldsAt_eq.1 k1
  obtain ⟨w2, q2, i3, i4⟩ := fieldsAt_eq.1 k2
  refine ⟨_, _, _, _, reportedFields_eq_ok.2 ⟨w1, q1, rfl⟩, reportedFields_eq_ok.2 ⟨w2, q2, rfl⟩, reportedFlux_eq w1 q1 _ _ _ _,
    reportedFlux_eq w2 q2 _ _ _ _, fun i c => fieldsOf_ez_displacement _ _ _ i c, fun i c => fieldsOf_ez_displacement _ _ _ i c, fun c => ?_⟩
  unfold stateFlux
  dsimp only at i1 i2 i3 i4 ⊢
  rw [← i1, ← i2, ← i3, ← i4]
  exact flux_jump_displacement _ _ jx jy jz e m c

/-- **C122** In a uniform medium with complex permittivity `ε`, the work of vertical currents enters the balance of the flux with the phase
`ε / ε*`: `J' - J = -Re ∫ (jx* Ex + jy* Ey + (ε / ε*) jz* Ez)`. The balance with the work itself, in `C122_work`, is that of real `ε`. -/
theorem C122_work_complex {lam : ℝ} {before after : List (LayerSolveResult ι)} {db da : List ℝ} (hb : Regular lam (before.zip db))
    (ha : Regular lam (after.zip da)) {sb sa : ScatteringMatrix ι} (h1 : stackSMatrix before db = .ok sb)
    (h2 : stackSMatrix after da = .ok sa) {jx jy jz : Matrix ι β ℂ} {R : SourceAmplitudes ι β}
    (h : amplitudesForSource jx jy jz sb sa = .ok R) (hs : sb.endLayer = sa.startLayer) {ε : ℂ} (hε : ε ≠ 0)
    (hη : sb.endLayer.inverseZPermittivityMatrix = (1 / ε) • (1 : Matrix ι ι ℂ)) :
    ∃ F F' J J',
      reportedFields sb.endLayer sb.endThickness R.forwardBeforeStart R.backwardBeforeEnd sb.endThickness = .ok F ∧
      reportedFields sa.startLayer sa.startThickness R.forwardAfterStart R.backwardAfterEnd 0 = .ok F' ∧
      reportedFlux sb.endLayer sb.endThickness R.forwardBeforeStart R.backwardBeforeEnd sb.endThickness = .ok J ∧
      reportedFlux sa.startLayer sa.startThickness R.forwardAfterStart R.backwardAfterEnd 0 = .ok J' ∧
      ∀ c, J' c - J c = -∑ i, (star (jx i c) * ((F.ex i c + F'.ex i c) / 2) + star (jy i c) * ((F.ey i c + F'.ey i c) / 2) +
        ε / star ε * (star (jz i c) * ((F.ez i c + F'.ez i c) / 2))).re := by
  obtain ⟨F, F', J, J', k1, k2, k3, k4, k5, k6, k7⟩ := C122_work_any hb ha h1 h2 h
  refine ⟨F, F', J, J', k1, k2, k3, k4, fun c => ?_⟩
  rw [← hs] at k6
  have row : ∀ (i : ι) (f : ι → ℂ), ∑ j, sb.endLayer.inverseZPermittivityMatrix i j * f j = f i / ε := by
    intro i f
    rw [hη]
    simp [Matrix.one_apply, div_eq_inv_mul]
  have hse : star ε ≠ 0 := star_ne_zero.2 hε
  rw [k7 c]
  unfold displacementPower
  congr 1
  refine Finset.sum_congr rfl fun i _ => ?_
  rw [k5, k6, row, row, row, star_div₀]
  congr 2
  field_simp

/-- **C122** In any lossless structure the power radiated to both sides is the power delivered by the currents, vertical ones acting through
`η jz` on the vertical displacement. The layers next to the source may differ. -/
theorem C122_radiated_any {lam : ℝ} {before after : List (LayerSolveResult ι)} {db da : List ℝ} (hb : Regular lam (before.zip db))
    (ha : Regular lam (after.zip da)) {sb sa : ScatteringMatrix ι} (h1 : stackSMatrix before db = .ok sb)
    (h2 : stackSMatrix after da = .ok sa) (hL : ∀ l ∈ before ++ after, LosslessLayer l) {jx jy jz : Matrix ι β ℂ}
    {R : SourceAmplitudes ι β}
    (h : amplitudesForSource jx jy jz sb sa = .ok R) :
    ∃ F F' P P',
      reportedFields sb.endLayer sb.endThickness R.forwardBeforeStart R.backwardBeforeEnd sb.endThickness = .ok F ∧
      reportedFields sa.startLayer sa.startThickness R.forwardAfterStart R.backwardAfterEnd 0 = .ok F' ∧
      forwardPower sb.startLayer R.backward0End = .ok P ∧ forwardPower sa.endLayer R.forwardNStart = .ok P' ∧
      ∀ c, P c + P' c = displacementPower sb.endLayer F F' jx jy jz c := by
  obtain ⟨F, F', J, J', k1, k2, k3, k4, -, -, k5⟩ := C122_work_any hb ha h1 h2 h
  obtain ⟨st, st', first, s, t, last, hE, r1, r2, r3, r4⟩ := emission_of hb ha h1 h2 h
  have mem : ∀ x ∈ st, x.layer ∈ before ∧ ∀ i, x.layer.eigenvalues i ≠ 0 := fun x hx => by
    have hm : (x.layer, x.thickness) ∈ before.zip db := by rw [← hE.geometry_before]; exact List.mem_map_of_mem hx
    exact ⟨(List.of_mem_zip hm).1, (hb _ hm).2⟩
  have mem' : ∀ x ∈ st', x.layer ∈ after ∧ ∀ i, x.layer.eigenvalues i ≠ 0 := fun x hx => by
    have hm : (x.layer, x.thickness) ∈ after.zip da := by rw [← hE.geometry_after]; exact List.mem_map_of_mem hx
    exact ⟨(List.of_mem_zip hm).1, (ha _ hm).2⟩
  have m1 := List.mem_of_head? hE.head_before
  have m2 := List.mem_of_getLast? hE.last_before
  have m3 := List.mem_of_head? hE.head_after
  have m4 := List.mem_of_getLast? hE.last_after
  have w : ∀ x ∈ st, WellPosed x.layer := fun x hx => by
    obtain ⟨E, hE, -⟩ := hL _ (List.mem_append_left _ (mem x hx).1)
    exact hE.wellPosed
  have w' : ∀ x ∈ st', WellPosed x.layer := fun x hx => by
    obtain ⟨E, hE, -⟩ := hL _ (List.mem_append_right _ (mem' x hx).1)
    exact hE.wellPosed
  have p1 := forwardPower_eq (w _ m1) (mem _ m1).2 R.backward0End
  have p4 := forwardPower_eq (w' _ m4) (mem' _ m4).2 R.forwardNStart
  have p2 := reportedFlux_eq (w _ m2) (mem _ m2).2 sb.endThickness R.forwardBeforeStart R.backwardBeforeEnd sb.endThickness
  have p3 := reportedFlux_eq (w' _ m3) (mem' _ m3).2 sa.startThickness R.forwardAfterStart R.backwardAfterEnd 0
  refine ⟨F, F', _, _, k1, k2, by rw [r1] at p1; exact p1, by rw [r4] at p4; exact p4, fun c => ?_⟩
  rw [← k5 c]
  obtain ⟨I, hI⟩ := stack_flux_const c st hE.consistent_before fun x hx => hL _ (List.mem_append_left _ (mem x hx).1)
  obtain ⟨I', hI'⟩ := stack_flux_const c st' hE.consistent_after fun x hx => hL _ (List.mem_append_right _ (mem' x hx).1)
  have f1 := hI _ m1 (mem _ m1).2 sb.startThickness
  have f2 := hI _ m2 (mem _ m2).2 sb.endThickness
  have f3 := hI' _ m3 (mem' _ m3).2 0
  have f4 := hI' _ m4 (mem' _ m4).2 0
  subst r1 r2 r3 r4
  dsimp only at p2 p3
  rw [p2] at k3
  rw [p3] at k4
  cases k3
  cases k4
  rw [(ends_flux _ _).1] at f1
  rw [(ends_flux _ _).2] at f4
  dsimp only at f1 f2 f3 f4 ⊢
  rw [f2, f3, ← f1, ← f4]
  ring

/-- **C122** In any structure without gain the power radiated to both sides is at most the power delivered by the currents, vertical ones
acting through `η jz` on the vertical displacement.  If forward waves
in the outer layers do not carry energy backward, both radiated powers and hence the delivered power are non-negative. -/
theorem C122_passive_any {lam : ℝ} {before after : List (LayerSolveResult ι)} {db da : List ℝ} (hb : Regular lam (before.zip db))
    (ha : Regular lam (after.zip da)) {sb sa : ScatteringMatrix ι} (h1 : stackSMatrix before db = .ok sb)
    (h2 : stackSMatrix after da = .ok sa) (hL : ∀ l ∈ before ++ after, PassiveLayer l) (hd : ∀ d ∈ db ++ da, 0 ≤ d)
    {jx jy jz : Matrix ι β ℂ}
    {R : SourceAmplitudes ι β}
    (h : amplitudesForSource jx jy jz sb sa = .ok R) :
    ∃ F F' P P',
      reportedFields sb.endLayer sb.endThickness R.forwardBeforeStart R.backwardBeforeEnd sb.endThickness = .ok F ∧
      reportedFields sa.startLayer sa.startThickness R.forwardAfterStart R.backwardAfterEnd 0 = .ok F' ∧
      forwardPower sb.startLayer R.backward0End = .ok P ∧ forwardPower sa.endLayer R.forwardNStart = .ok P' ∧
      (∀ c, P c + P' c ≤ displacementPower sb.endLayer F F' jx jy jz c) ∧
      (OutwardLayer sb.startLayer → OutwardLayer sa.endLayer → ∀ c, 0 ≤ P c ∧ 0 ≤ P' c ∧ 0 ≤ displacementPower sb.endLayer F F' jx jy jz c) := by
  obtain ⟨F, F', J, J', k1, k2, k3, k4, -, -, k5⟩ := C122_work_any hb ha h1 h2 h
  obtain ⟨st, st', first, s, t, last, hE, r1, r2, r3, r4⟩ := emission_of hb ha h1 h2 h
  have mem : ∀ x ∈ st, x.layer ∈ before ∧ x.thickness ∈ db ∧ ∀ i, x.layer.eigenvalues i ≠ 0 := fun x hx => by
    have hm : (x.layer, x.thickness) ∈ before.zip db := by rw [← hE.geometry_before]; exact List.mem_map_of_mem hx
    exact ⟨(List.of_mem_zip hm).1, (List.of_mem_zip hm).2, (hb _ hm).2⟩
  have mem' : ∀ x ∈ st', x.layer ∈ after ∧ x.thickness ∈ da ∧ ∀ i, x.layer.eigenvalues i ≠ 0 := fun x hx => by
    have hm : (x.layer, x.thickness) ∈ after.zip da := by rw [← hE.geometry_after]; exact List.mem_map_of_mem hx
    exact ⟨(List.of_mem_zip hm).1, (List.of_mem_zip hm).2, (ha _ hm).2⟩
  have m1 := List.mem_of_head? hE.head_before
  have m2 := List.mem_of_getLast? hE.last_before
  have m3 := List.mem_of_head? hE.head_after
  have m4 := List.mem_of_getLast? hE.last_after
  have v : ∀ x ∈ st, PassiveLayer x.layer ∧ 0 ≤ x.thickness := fun x hx =>
    ⟨hL _ (List.mem_append_left _ (mem x hx).1), hd _ (List.mem_append_left _ (mem x hx).2.1)⟩
  have v' : ∀ x ∈ st', PassiveLayer x.layer ∧ 0 ≤ x.thickness := fun x hx =>
    ⟨hL _ (List.mem_append_right _ (mem' x hx).1), hd _ (List.mem_append_right _ (mem' x hx).2.1)⟩
  have w : ∀ {l : LayerSolveResult ι}, PassiveLayer l → WellPosed l := fun hp => by
    obtain ⟨-, E, hE, -⟩ := hp
    exact hE.wellPosed
  have p1 := forwardPower_eq (w (v _ m1).1) (mem _ m1).2.2 R.backward0End
  have p4 := forwardPower_eq (w (v' _ m4).1) (mem' _ m4).2.2 R.forwardNStart
  have p2 := reportedFlux_eq (w (v _ m2).1) (mem _ m2).2.2 sb.endThickness R.forwardBeforeStart R.backwardBeforeEnd sb.endThickness
  have p3 := reportedFlux_eq (w (v' _ m3).1) (mem' _ m3).2.2 sa.startThickness R.forwardAfterStart R.backwardAfterEnd 0
  have le : ∀ c, stateFlux s c s.thickness ≤ stateFlux first c first.thickness := fun c => by
    have hp := stack_flux_antitone c hE.consistent_before (fun x hx => (v x hx).1) fun x hx => (v x hx).2
    have hf := hE.head_before
    cases hst : st with
    | nil => rw [hst] at hf; simp at hf
    | cons x rest =>
      rw [hst] at hf hp m2
      simp only [List.head?_cons, Option.some.injEq] at hf
      subst hf
      rcases List.mem_cons.1 m2 with rfl | m
      · exact le_rfl
      · exact ((List.pairwise_cons.1 hp).1 s m).2 _ _ le_rfl (v s (by rw [hst]; exact m2)).2
  have le' : ∀ c, stateFlux last c 0 ≤ stateFlux t c 0 := fun c => by
    have hp := stack_flux_antitone c hE.consistent_after (fun x hx => (v' x hx).1) fun x hx => (v' x hx).2
    have hf := hE.head_after
    have h0 := (v' t m3).2
    cases hst : st' with
    | nil => rw [hst] at hf; simp at hf
    | cons x rest =>
      rw [hst] at hf hp m4
      simp only [List.head?_cons, Option.some.injEq] at hf
      subst hf
      rcases List.mem_cons.1 m4 with rfl | m
      · exact le_rfl
      · exact ((List.pairwise_cons.1 hp).1 last m).2 _ _ h0 le_rfl
  subst r1 r2 r3 r4
  dsimp only at p1 p2 p3 p4 le le'
  rw [p2] at k3
  rw [p3] at k4
  cases k3
  cases k4
  have main : ∀ c, netFlux (electricModes sb.startLayer * R.backward0End) (sb.startLayer.eigenvectors * R.backward0End) c +
      netFlux (electricModes sa.endLayer * R.forwardNStart) (sa.endLayer.eigenvectors * R.forwardNStart) c ≤
      displacementPower sb.endLayer F F' jx jy jz c := fun c => by
    have f1 := le c
    have f2 := le' c
    rw [(ends_flux _ _).1] at f1
    rw [(ends_flux _ _).2] at f2
    rw [← k5 c]
    linarith
  refine ⟨F, F', _, _, k1, k2, p1, p4, main, fun o o' c => ?_⟩
  have pos : ∀ {l : LayerSolveResult ι} (_ : OutwardLayer l) (a : Matrix (ι ⊕ ι) β ℂ), 0 ≤ netFlux (electricModes l * a) (l.eigenvectors * a) c := by
    intro l ho a
    refine ho.outward a _ _ c (fieldsAt_eq.2 ⟨w ho.passive, ho.modes.2, ?_, ?_⟩)
    · simp [electricAt]
    · simp [magneticAt]
  have a1 := pos o R.backward0End
  have a2 := pos o' R.forwardNStart
  exact ⟨a1, a2, (add_nonneg a1 a2).trans (main c)⟩

/-- **C122**, finding: a vertical current in an absorbing medium. The total flux grows by 1/4 across the source, but the power of the current,
computed from the reported fields on its two sides, is zero: the power in the field inside the sheet is not accessible. -/
theorem C122_finding_vertical_absorbing : ∃ (r : LayerSolveResult (Fin 1)) (sb sa : ScatteringMatrix (Fin 1)) (R : SourceAmplitudes (Fin 1) (Fin 1))
    (F F' : Fields (Matrix (Fin 1) (Fin 1) ℂ)) (J J' : Fin 1 → ℝ),
    eigensolveUniformIsotropic (2 * Real.pi) (Real.sqrt 2, 0) unitLattice (2 + 2 * Complex.I) (fun _ : Fin 1 => (0, 0)) = .ok r ∧
    stackSMatrix [r] [1] = .ok sb ∧ stackSMatrix [r] [1] = .ok sa ∧ amplitudesForSource 0 0 (Matrix.of fun _ _ => 1) sb sa = .ok R ∧
    reportedFields r 1 R.forwardBeforeStart R.backwardBeforeEnd 1 = .ok F ∧
    reportedFields r 1 R.forwardAfterStart R.backwardAfterEnd 0 = .ok F' ∧
    reportedFlux r 1 R.forwardBeforeStart R.backwardBeforeEnd 1 = .ok J ∧ reportedFlux r 1 R.forwardAfterStart R.backwardAfterEnd 0 = .ok J' ∧
    ∀ c, J' c - J c = 1 / 4 ∧ sourcePower F F' 0 0 (Matrix.of fun _ _ => 1) c = 0 := by
  have hpi := Real.pi_pos
  have hε : (2 + 2 * Complex.I : ℂ) ≠ 0 := by intro h; simpa using congrArg Complex.re h
  have hI : (1 + Complex.I : ℂ) ≠ 0 := by intro h; simpa using congrArg Complex.re h
  obtain ⟨r, hr⟩ := (C22_uniform_succeeds_iff (2 * Real.pi) (Real.sqrt 2, 0) unitLattice (2 + 2 * Complex.I) (fun _ : Fin 1 => (0, 0))).2
    ⟨by positivity, hε, by norm_num [unitLattice]⟩
  obtain ⟨hw, hlam, hφ, hk, hq⟩ := uniform_single hr
  have q1 : ∀ i, r.eigenvalues i = 1 + Complex.I := by
    intro i
    obtain ⟨h1, h2, -⟩ := hq i
    have h3 : (r.eigenvalues i - (1 + Complex.I)) * (r.eigenvalues i + (1 + Complex.I)) = 0 := by
      linear_combination h1 - Complex.I_sq
    rcases mul_eq_zero.1 h3 with h4 | h4
    · exact sub_eq_zero.1 h4
    · exfalso
      rw [eq_neg_of_add_eq_zero_left h4] at h2
      norm_num at h2
  have q0 : ∀ i, r.eigenvalues i ≠ 0 := fun i => by rw [q1]; exact hI
  have hη : r.inverseZPermittivityMatrix = (1 / (2 + 2 * Complex.I)) • (1 : Matrix (Fin 1) (Fin 1) ℂ) := by
    obtain ⟨k, w, -, -, -, e⟩ := eigensolveUniformIsotropic_ok_iff.1 hr
    rw [e]
  have hm : CompleteModes r := ⟨by rw [hφ]; simp, q0⟩
  obtain ⟨R, hR⟩ := homogeneous_source (uniform_solvedFor hr) hm 1 1 (0 : Matrix (Fin 1) (Fin 1) ℂ) 0 (Matrix.of fun _ _ => 1)
  have reg : Regular (2 * Real.pi) ([r].zip [(1 : ℝ)]) := by simp [Regular, hlam, q0]
  have hS : stackSMatrix [r] [(1 : ℝ)] = .ok (identitySMatrix r 1) := rfl
  obtain ⟨st, st', first, s, t, last, hE, p1, p2, p3, p4⟩ := emission_of reg reg hS hS hR
  obtain ⟨F, F', J, J', f1, f2, f3, f4, f5, f6, f7⟩ := C122_work_any reg reg hS hS hR
  have g1 : first = s := by
    have hl : st.length = 1 := by have := congrArg List.length hE.geometry_before; simpa [geometry] using this
    obtain ⟨x, rfl⟩ := List.length_eq_one_iff.1 hl
    have a1 := hE.head_before
    have a2 := hE.last_before
    simp only [List.head?_cons, List.getLast?_singleton, Option.some.injEq] at a1 a2
    rw [← a1, ← a2]
  have g2 : last = t := by
    have hl : st'.length = 1 := by have := congrArg List.length hE.geometry_after; simpa [geometry] using this
    obtain ⟨x, rfl⟩ := List.length_eq_one_iff.1 hl
    have a1 := hE.head_after
    have a2 := hE.last_after
    simp only [List.head?_cons, List.getLast?_singleton, Option.some.injEq] at a1 a2
    rw [← a1, ← a2]
  have z1 : R.forwardBeforeStart = 0 := by
    have := congrArg LayerState.a (g1.symm.trans p1)
    rw [p2] at this
    exact this
  have z2 : R.backwardAfterEnd = 0 := by
    have := congrArg LayerState.b (g2.symm.trans p4)
    rw [p3] at this
    exact this
  obtain ⟨e, m, k1, k2⟩ := sourceJump_eq hE.jump
  obtain ⟨-, -, i1, i2⟩ := fieldsAt_eq.1 k1
  obtain ⟨-, -, i3, i4⟩ := fieldsAt_eq.1 k2
  rw [p2] at i1 i2 i3
  rw [p3] at i3 i4
  have i1' : e = -(electricModes r * R.backwardBeforeEnd) := by
    rw [i1]
    show electricAt r 1 R.forwardBeforeStart R.backwardBeforeEnd 1 = _
    simp [electricAt, z1]
  have i2' : m = R.backwardBeforeEnd := by
    rw [i2]
    show magneticAt r 1 R.forwardBeforeStart R.backwardBeforeEnd 1 = _
    simp [magneticAt, z1, hφ]
  have i3' : e + jumpE r (Matrix.of fun _ _ => 1) = electricModes r * R.forwardAfterStart := by
    refine i3.trans ?_
    show electricAt r 1 R.forwardAfterStart R.backwardAfterEnd 0 = _
    simp [electricAt, z2]
  have i4' : m = R.forwardAfterStart := by
    have hj : jumpH (0 : Matrix (Fin 1) (Fin 1) ℂ) 0 = 0 := by
      unfold jumpH
      ext (i | i) b <;> simp
    rw [hj, add_zero] at i4
    refine i4.trans ?_
    show magneticAt r 1 R.forwardAfterStart R.backwardAfterEnd 0 = _
    simp [magneticAt, z2, hφ]
  have hs2 : ((Real.sqrt 2 : ℝ) : ℂ) ^ 2 = 2 := by
    rw [← Complex.ofReal_pow, Real.sq_sqrt (by norm_num)]
    norm_num
  have key : ∀ i c, m (.inr i) c = Real.sqrt 2 / (2 * (1 + Complex.I)) := by
    intro i c
    have h5 := congrFun (congrFun i3' (.inr i)) c
    rw [i1', ← i2', ← i4', Matrix.add_apply, Matrix.neg_apply, (uniform_electric hr m i c).2.1, hw, hk, q1] at h5
    simp only [jumpE, fromRows_apply_inr, of_apply, hk, hw, hη, Matrix.smul_mul, Matrix.one_mul, Matrix.smul_apply, smul_eq_mul,
      Complex.ofReal_zero, Complex.ofReal_one, hs2] at h5
    have h6 : (1 : ℂ) ^ 2 - 2 / (2 + 2 * Complex.I) = (1 + Complex.I) ^ 2 / (2 + 2 * Complex.I) := by
      field_simp
      linear_combination -Complex.I_sq
    rw [h6] at h5
    field_simp at h5
    rw [eq_div_iff (by simpa using hI)]
    refine mul_left_cancel₀ hI ?_
    linear_combination -h5
  have e1 : F = fieldsOf r e m := by
    have := (reportedFields_eq_ok.1 f1).2.2
    rw [this, i1, i2]
    rfl
  have e2 : ∀ i c, F'.hy i c = m (.inr i) c := by
    intro i c
    have := (reportedFields_eq_ok.1 f2).2.2
    rw [this, i4']
    show magneticAt r 1 R.forwardAfterStart R.backwardAfterEnd 0 (.inr i) c = _
    simp [magneticAt, z2, hφ]
  have d1 : ∀ i c, verticalDisplacement r F i c = -(1 - Complex.I) / 2 := by
    intro i c
    have hy : F.hy i c = m (.inr i) c := by rw [e1]; rfl
    unfold verticalDisplacement
    rw [hy, key, hk, hw]
    simp only [Complex.ofReal_zero, Complex.ofReal_one, zero_mul, sub_zero, div_one]
    field_simp
    linear_combination -hs2 - Complex.I_sq
  have d2 : ∀ i c, verticalDisplacement r F' i c = -(1 - Complex.I) / 2 := by
    intro i c
    unfold verticalDisplacement
    rw [e2, key, hk, hw]
    simp only [Complex.ofReal_zero, Complex.ofReal_one, zero_mul, sub_zero, div_one]
    field_simp
    linear_combination -hs2 - Complex.I_sq
  have hinv : (1 : ℂ) / (2 + 2 * Complex.I) = (1 - Complex.I) / 4 := by
    field_simp
    linear_combination 2 * Complex.I_sq
  rw [hinv] at hη
  refine ⟨r, _, _, R, F, F', J, J', hr, hS, hS, hR, f1, f2, f3, f4, fun c => ⟨?_, ?_⟩⟩
  · rw [f7 c]
    show displacementPower r F F' 0 0 (Matrix.of fun _ _ => 1) c = 1 / 4
    unfold displacementPower
    simp only [Finset.univ_unique, Finset.sum_singleton, d1, d2, hη]
    simp [Complex.mul_re]
    norm_num
  · have f5' : ∀ i c, F.ez i c = ∑ j, r.inverseZPermittivityMatrix i j * verticalDisplacement r F j c := f5
    have f6' : ∀ i c, F'.ez i c = ∑ j, r.inverseZPermittivityMatrix i j * verticalDisplacement r F' j c := f6
    unfold sourcePower
    simp only [f5', f6', Finset.univ_unique, Finset.sum_singleton, d1, d2, hη]
    simp [Complex.mul_re]
    norm_num

/-- C122: the hypotheses of the general balance hold for vertical currents in an absorbing medium. -/
example (jx jy jz : Matrix (Fin 2) (Fin 3) ℂ) : ∃ (u v : LayerSolveResult (Fin 2)) (sb sa : ScatteringMatrix (Fin 2)) (R : SourceAmplitudes (Fin 2) (Fin 3)),
    Regular (2 * Real.pi) ([u].zip [1]) ∧ Regular (2 * Real.pi) ([v, u].zip [2, 3]) ∧ stackSMatrix [u] [1] = .ok sb ∧
      stackSMatrix [v, u] [2, 3] = .ok sa ∧ amplitudesForSource jx jy jz sb sa = .ok R := by
  obtain ⟨u, v, h1, h2, h3, h4⟩ := EmissionExample.halfSpaces
  obtain ⟨Sb, Sa, ib, ia, k1, k2, k3, k4, k5⟩ := C97_absorbing (before := [u]) (after := [v, u]) (db := [1]) (da := [2, 3]) (lam := 2 * Real.pi)
    (by simp) (by simp) rfl rfl (by simp [h3, h4]) (by simp [h1, h2]) (by norm_num)
  obtain ⟨R, -, -, -, hR, -⟩ := k5 jx jy jz [1, 1, 1] (fun _ : Unit => (0, 0)) rfl
  exact ⟨u, v, Sb, Sa, R, by simp [Regular, h3, h1.modes.2], by simp [Regular, h3, h4, h1.modes.2, h2.modes.2], k1, k2, hR⟩

/-- C122: a uniform medium with complex permittivity, as in `C122_work_complex`, with any currents. -/
example (jx jy jz : Matrix (Fin 1) (Fin 2) ℂ) : ∃ (r : LayerSolveResult (Fin 1)) (S : ScatteringMatrix (Fin 1)) (R : SourceAmplitudes (Fin 1) (Fin 2)),
    Regular (2 * Real.pi) ([r].zip [1]) ∧ stackSMatrix [r] [1] = .ok S ∧ amplitudesForSource jx jy jz S S = .ok R ∧
      S.endLayer = S.startLayer ∧ S.endLayer.inverseZPermittivityMatrix = (1 / (2 + 2 * Complex.I)) • (1 : Matrix (Fin 1) (Fin 1) ℂ) := by
  obtain ⟨r, hr⟩ := (C22_uniform_succeeds_iff (2 * Real.pi) (Real.sqrt 2, 0) unitLattice (2 + 2 * Complex.I) (fun _ : Fin 1 => (0, 0))).2
    ⟨by have := Real.pi_pos; positivity, by intro h; simpa using congrArg Complex.re h, by norm_num [unitLattice]⟩
  obtain ⟨hw, hlam, hφ, hk, hq⟩ := uniform_single hr
  have q0 : ∀ i, r.eigenvalues i ≠ 0 := fun i h0 => by
    have := (hq i).1
    rw [h0] at this
    simp at this
  obtain ⟨R, hR⟩ := homogeneous_source (uniform_solvedFor hr) ⟨by rw [hφ]; simp, q0⟩ 1 1 jx jy jz
  refine ⟨r, _, R, by simp [Regular, hlam, q0], rfl, hR, rfl, ?_⟩
  obtain ⟨k, w, -, -, -, e⟩ := eigensolveUniformIsotropic_ok_iff.1 hr
  show r.inverseZPermittivityMatrix = _
  rw [e]

/-- C122: any currents, with vertical ones, between two different layers of a lossless stack. -/
example (jx jy jz : Matrix (Fin 1) (Fin 2) ℂ) : ∃ (R : SourceAmplitudes (Fin 1) (Fin 2)) (F F' : Fields (Matrix (Fin 1) (Fin 2) ℂ)) (P P' : Fin 2 → ℝ),
    amplitudesForSource jx jy jz Examples.exS2 Examples.exS2 = .ok R ∧ forwardPower (Examples.exLayer 1) R.backward0End = .ok P ∧
      forwardPower (Examples.exLayer 2) R.forwardNStart = .ok P' ∧ ∀ c, P c + P' c = displacementPower (Examples.exLayer 2) F F' jx jy jz c := by
  obtain ⟨R, hR⟩ := exampleSource jx jy jz
  have reg : Regular (2 * Real.pi) ([Examples.exLayer 1, Examples.exLayer 2].zip [Real.pi, Real.pi]) :=
    Examples.exRegular [1, 2] (by simp) [Real.pi, Real.pi]
  have hL : ∀ l ∈ [Examples.exLayer 1, Examples.exLayer 2] ++ [Examples.exLayer 1, Examples.exLayer 2], LosslessLayer l := by
    intro l hl
    refine exLayers_lossless l ?_
    simp only [List.cons_append, List.nil_append, List.mem_cons, List.not_mem_nil, or_false] at hl ⊢
    tauto
  obtain ⟨F, F', P, P', h1, h2, h3, h4, h5⟩ := C122_radiated_any reg reg Examples.exStack2 Examples.exStack2 hL hR
  exact ⟨R, F, F', P, P', hR, h3, h4, h5⟩

/-- C122: any currents, with vertical ones, between absorbing media. -/
example (jx jy jz : Matrix (Fin 2) (Fin 3) ℂ) : ∃ (u v : LayerSolveResult (Fin 2)) (sb sa : ScatteringMatrix (Fin 2)) (R : SourceAmplitudes (Fin 2) (Fin 3))
    (F F' : Fields (Matrix (Fin 2) (Fin 3) ℂ)) (P P' : Fin 3 → ℝ), stackSMatrix [u] [1] = .ok sb ∧ stackSMatrix [v, u] [2, 3] = .ok sa ∧
      amplitudesForSource jx jy jz sb sa = .ok R ∧ forwardPower sb.startLayer R.backward0End = .ok P ∧
      forwardPower sa.endLayer R.forwardNStart = .ok P' ∧ (∀ c, P c + P' c ≤ displacementPower sb.endLayer F F' jx jy jz c) ∧
      ∀ c, 0 ≤ P c ∧ 0 ≤ P' c := by
  obtain ⟨u, v, h1, h2, h3, h4⟩ := EmissionExample.halfSpaces
  obtain ⟨Sb, Sa, ib, ia, k1, k2, k3, k4, k5⟩ := C97_absorbing (before := [u]) (after := [v, u]) (db := [1]) (da := [2, 3]) (lam := 2 * Real.pi)
    (by simp) (by simp) rfl rfl (by simp [h3, h4]) (by simp [h1, h2]) (by norm_num)
  obtain ⟨R, -, -, -, hR, -⟩ := k5 jx jy jz [1, 1, 1] (fun _ : Unit => (0, 0)) rfl
  have r1 : Regular (2 * Real.pi) ([u].zip [1]) := by simp [Regular, h3, h1.modes.2]
  have r2 : Regular (2 * Real.pi) ([v, u].zip [2, 3]) := by simp [Regular, h3, h4, h1.modes.2, h2.modes.2]
  obtain ⟨F, F', P, P', -, -, p1, p2, h5, h6⟩ := C122_passive_any r1 r2 k1 k2 (by simp [h1.outwardLayer.passive, h2.outwardLayer.passive])
    (by norm_num) hR
  have s1 := (stackSMatrix_spec r1 k1).start
  have s2 := (stackSMatrix_spec r2 k2).finish
  simp only [List.zip_cons_cons, List.zip_nil_right, List.head?_cons, List.getLast?_cons_cons, List.getLast?_singleton, Option.some.injEq,
    Prod.mk.injEq] at s1 s2
  exact ⟨u, v, Sb, Sa, R, F, F', P, P', k1, k2, hR, p1, p2, h5, fun c =>
    let h := h6 (by rw [← s1.1]; exact h1.outwardLayer) (by rw [← s2.1]; exact h1.outwardLayer) c
    ⟨h.1, h.2.1⟩⟩

end Fmmax
