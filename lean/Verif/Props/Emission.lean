import Verif.Props.Sources
import Verif.Props.Radiation
import Verif.Props.AutoGrid
import Verif.Spec.SupercellEmission

/-! Property C97: sources inside structures; success and bound modes. -/

set_option linter.unusedSectionVars false

namespace Fmmax

open Matrix Spec

variable {ι : Type} [Fintype ι] [DecidableEq ι] {β : Type}

/-- Without currents, tangential fields are continuous at the source plane. -/
theorem sourceJump_zero {s t : LayerState ι β} : SourceJump 0 0 0 s t ↔ Interface s t := by
  unfold SourceJump Interface
  constructor
  · rintro ⟨e, h, e', h', h1, h2, h3⟩
    have he : e' = e := by
      ext (i | i) c
      · have := (h3 i c).2.2.2
        rw [Matrix.mul_zero, Matrix.zero_apply, mul_zero, neg_eq_zero] at this
        exact sub_eq_zero.1 this
      · have := (h3 i c).2.2.1
        rw [Matrix.mul_zero, Matrix.zero_apply, mul_zero] at this
        exact sub_eq_zero.1 this
    have hh : h' = h := by
      ext (i | i) c
      · exact sub_eq_zero.1 (h3 i c).1
      · have := (h3 i c).2.1
        rw [Matrix.zero_apply, neg_zero] at this
        exact sub_eq_zero.1 this
    exact ⟨e, h, h1, by rw [← he, ← hh]; exact h2⟩
  · rintro ⟨e, h, h1, h2⟩
    exact ⟨e, h, e, h, h1, h2, fun i c => by simp⟩

theorem isEmission_zero_noResonance {before after : List (LayerSolveResult ι × ℝ)} (h : NoResonance (before ++ after)) {st st' : List (LayerState ι Unit)}
    {first s t last : LayerState ι Unit} (he : IsEmission before after 0 0 0 st st' first s t last) : s.b = 0 ∧ t.a = 0 := by
  have hne : st' ≠ [] := by
    rintro rfl
    exact absurd he.head_after (by simp)
  have hc : Consistent (st ++ st') := by
    unfold Consistent
    rw [List.isChain_append]
    refine ⟨he.consistent_before, he.consistent_after, fun x hx y hy => ?_⟩
    rw [he.last_before, Option.mem_some_iff] at hx
    rw [he.head_after, Option.mem_some_iff] at hy
    subst hx hy
    exact sourceJump_zero.1 he.jump
  have := h (st ++ st') first last (by rw [geometry_append, he.geometry_before, he.geometry_after]) hc (by rw [List.head?_append, he.head_before]; rfl)
    (by rw [List.getLast?_append, he.last_after]; rfl) he.no_incoming_before he.no_incoming_after
  exact ⟨(this s (List.mem_append_left _ (List.mem_of_getLast? he.last_before))).2, (this t (List.mem_append_right _ (List.mem_of_head? he.head_after))).1⟩

/-- **C97** Let the S-matrices of the layers before and after a source be obtained in any way from the public API, at one wavelength, and let fields in
the layers be finite.  Then `amplitudes_for_source` returns amplitudes, whatever the currents, if and only if the whole structure has no bound mode:
no amplitudes with continuous tangential fields at all interfaces, including the source plane, without incoming waves. -/
theorem C97_succeeds_iff {lam : ℝ} {Sb Sa : ScatteringMatrix ι} {before after : List (LayerSolveResult ι × ℝ)} (hSb : Built Sb before) (hSa : Built Sa after)
    (h : ∀ p ∈ before ++ after, p.1.wavelength = lam ∧ (∀ i, p.1.eigenvalues i ≠ 0) ∧ WellPosed p.1) (jx jy jz : Matrix ι β ℂ) :
    (∃ R, amplitudesForSource jx jy jz Sb Sa = .ok R) ↔ NoResonance (before ++ after) := by
  have hb := hSb.isSMatrix (lam := lam) fun p hp => ⟨(h p (by simp [hp])).1, (h p (by simp [hp])).2.1⟩
  have ha := hSa.isSMatrix (lam := lam) fun p hp => ⟨(h p (by simp [hp])).1, (h p (by simp [hp])).2.1⟩
  have eb := h _ (List.mem_append_left _ (List.mem_of_getLast? hb.finish))
  have ea := h _ (List.mem_append_right _ (List.mem_of_head? ha.start))
  rw [C49_succeeds_iff hb ha (by rw [eb.1, ea.1])]
  constructor
  · rintro ⟨-, -, hn⟩ st'' first last hg hc hf hl h0 h1
    obtain ⟨st, st', rfl, g1, g2⟩ : ∃ st st', st'' = st ++ st' ∧ geometry st = before ∧ geometry st' = after := by
      obtain ⟨st, st', h1, h2, h3⟩ := List.map_eq_append_iff.1 hg
      exact ⟨st, st', h1, h2, h3⟩
    have n1 : st ≠ [] := by
      rintro rfl
      have := hb.finish
      rw [← g1] at this
      simp [geometry] at this
    have n2 : st' ≠ [] := by
      rintro rfl
      have := ha.finish
      rw [← g2] at this
      simp [geometry] at this
    obtain ⟨s, hs⟩ : ∃ s, st.getLast? = some s := ⟨_, List.getLast?_eq_some_getLast n1⟩
    obtain ⟨t, ht⟩ : ∃ t, st'.head? = some t := ⟨_, List.head?_eq_some_head n2⟩
    unfold Consistent at hc
    rw [List.isChain_append] at hc
    obtain ⟨c1, c2, c3⟩ := hc
    have hf' : st.head? = some first := by
      rw [List.head?_append, List.head?_eq_some_head n1] at hf
      rw [List.head?_eq_some_head n1]
      exact hf
    have hl' : st'.getLast? = some last := by
      rw [List.getLast?_append, List.getLast?_eq_some_getLast n2] at hl
      rw [List.getLast?_eq_some_getLast n2]
      exact hl
    obtain ⟨z1, z2⟩ := hn st st' first s t last ⟨g1, g2, c1, c2, hf', hs, ht, hl', h0, h1, sourceJump_zero.2 (c3 s hs t ht)⟩
    intro x hx
    rw [List.mem_append] at hx
    rcases hx with hx | hx
    · exact hb.noResonance st first s g1 c1 hf' hs h0 z1 x hx
    · exact ha.noResonance st' t last g2 c2 ht hl' z2 h1 x hx
  · intro hn
    exact ⟨⟨eb.2.2, eb.2.1⟩, ⟨ea.2.2, ea.2.1⟩, fun st st' first s t last he => isEmission_zero_noResonance hn he⟩

/-- **C97** In structures of absorbing layers every step from solved layers to the fields of a source succeeds, for all currents, numbers of planes and points:
the S-matrices of both parts, the amplitudes emitted by the source, the amplitudes in all layers, and the fields. -/
theorem C97_absorbing {lam : ℝ} {before after : List (LayerSolveResult ι)} {db da : List ℝ} (hb : before ≠ []) (ha : after ≠ []) (hlb : before.length = db.length)
    (hla : after.length = da.length) (hlam : ∀ l ∈ before ++ after, l.wavelength = lam) (hL : ∀ l ∈ before ++ after, AbsorbingLayer l)
    (hd : ∀ d ∈ db ++ da, 0 ≤ d) :
    ∃ sb sa ib ia, stackSMatrix before db = .ok sb ∧ stackSMatrix after da = .ok sa ∧ stackSMatricesInterior before db = .ok ib ∧
      stackSMatricesInterior after da = .ok ia ∧ ∀ {n : ℕ} {γ : Type} (jx jy jz : Matrix ι (Fin n) ℂ) (znum : List ℕ) (xy : γ → ℝ × ℝ),
        znum.length = before.length + after.length → ∃ source amplitudes gs zs, amplitudesForSource jx jy jz sb sa = .ok source ∧
          stackAmplitudesInteriorWithSource ib ia source.backwardBeforeEnd source.forwardAfterStart = .ok amplitudes ∧
          stackFields3d amplitudes (before ++ after) (db ++ da) znum (coordinateSlice xy) = .ok (gs, zs, xy) := by
  obtain ⟨sb, ib, h1, h2, -, -⟩ := C81_absorbing_stack hb hlb (fun l hl => hlam l (by simp [hl])) (fun l hl => hL l (by simp [hl])) (fun d hl => hd d (by simp [hl]))
  obtain ⟨sa, ia, h3, h4, -, -⟩ := C81_absorbing_stack ha hla (fun l hl => hlam l (by simp [hl])) (fun l hl => hL l (by simp [hl])) (fun d hl => hd d (by simp [hl]))
  refine ⟨sb, sa, ib, ia, h1, h3, h2, h4, fun jx jy jz znum xy hz => ?_⟩
  have hmem : ∀ p ∈ before.zip db ++ after.zip da, p.1 ∈ before ++ after ∧ p.2 ∈ db ++ da := by
    intro p hp
    rw [List.mem_append] at hp
    rcases hp with hp | hp
    · exact ⟨List.mem_append_left _ (List.of_mem_zip hp).1, List.mem_append_left _ (List.of_mem_zip hp).2⟩
    · exact ⟨List.mem_append_right _ (List.of_mem_zip hp).1, List.mem_append_right _ (List.of_mem_zip hp).2⟩
  have rb : Regular lam (before.zip db) := fun p hp => ⟨hlam _ (hmem p (by simp [hp])).1, (hL _ (hmem p (by simp [hp])).1).modes.2⟩
  have ra : Regular lam (after.zip da) := fun p hp => ⟨hlam _ (hmem p (by simp [hp])).1, (hL _ (hmem p (by simp [hp])).1).modes.2⟩
  have Sb := stackSMatrix_spec rb h1
  have Sa := stackSMatrix_spec ra h3
  have eb := hL _ (hmem _ (List.mem_append_left _ (List.mem_of_getLast? Sb.finish))).1
  have ea := hL _ (hmem _ (List.mem_append_right _ (List.mem_of_head? Sa.start))).1
  have wl : sb.endLayer.wavelength = sa.startLayer.wavelength := by
    rw [hlam _ (hmem _ (List.mem_append_left _ (List.mem_of_getLast? Sb.finish))).1,
      hlam _ (hmem _ (List.mem_append_right _ (List.mem_of_head? Sa.start))).1]
  obtain ⟨source, hs⟩ := (C49_succeeds_iff Sb Sa wl jx jy jz).2 ⟨⟨eb.wellPosed.1, eb.modes.2⟩, ⟨ea.wellPosed.1, ea.modes.2⟩, fun st st' first s t last he =>
    isEmission_zero_noResonance (absorbing_noResonance fun p hp => ⟨hL _ (hmem p hp).1, hd _ (hmem p hp).2⟩) he⟩
  obtain ⟨st, _, _, g1, -, -, -, -, -, hx⟩ := C40_interior_amplitudes rb h2 0 source.backwardBeforeEnd
  obtain ⟨st', _, _, g2, -, -, -, -, -, hy⟩ := C40_interior_amplitudes ra h4 source.forwardAfterStart 0
  have l1 : st.length = before.length := by
    have := congrArg List.length g1
    simpa [geometry, hlb] using this
  have l2 : st'.length = after.length := by
    have := congrArg List.length g2
    simpa [geometry, hla] using this
  have hfields : ∃ R, stackFields3d ((st.map fun s => (s.a, s.b)) ++ st'.map fun s => (s.a, s.b)) (before ++ after) (db ++ da) znum (coordinateSlice xy) = .ok R := by
    refine (C45_succeeds_iff _ _ _ _ _).2 ⟨by simp [l1, l2], by simp [l1, l2, hlb, hla], by simp [l1, l2, hz], ?_, fun r hr => ?_⟩
    · have := List.length_pos_of_ne_nil hb
      simp only [List.length_append, List.length_map, l1, l2]
      omega
    · have hmem : ∀ (as : List (Matrix (ι ⊕ ι) (Fin _) ℂ × Matrix (ι ⊕ ι) (Fin _) ℂ)) (ls : List (LayerSolveResult ι)) (ds : List ℝ) (zs : List ℕ),
          r ∈ zipRequests as ls ds zs → r.layer ∈ ls := by
        intro as
        induction as with
        | nil => intro ls ds zs h; simp [zipRequests] at h
        | cons a as ih =>
          intro ls ds zs h
          rcases ls with _ | ⟨l, ls⟩ <;> rcases ds with _ | ⟨d, ds⟩ <;> rcases zs with _ | ⟨z, zs⟩ <;> simp only [zipRequests, List.not_mem_nil, List.mem_cons] at h
          rcases h with rfl | h
          · simp
          · exact List.mem_cons_of_mem _ (ih _ _ _ h)
      have hA := hL _ (hmem _ _ _ _ hr)
      unfold layerFields3d coordinateSlice
      simp only [bind_eq_ok, fieldsOnCoordinates_eq_ok, ok_inj]
      exact ⟨_, _, fieldsFromWaveAmplitudes_eq_ok.2 ⟨hA.wellPosed.1, hA.modes.2, rfl⟩, _, ⟨hA.wellPosed.1.2.1, rfl⟩, rfl⟩
  obtain ⟨⟨gs, zs, xy'⟩, hF⟩ := hfields
  have hxy : xy' = xy := by
    obtain ⟨-, -, -, hloop⟩ := stackFields3d_eq_ok.1 hF
    refine stackFieldsLoop_xy (P := fun x => x = xy) _ (fun r _ m F g xy1 h => ?_) hloop (by simp)
    exact (Prod.mk.inj (fieldsOnCoordinates_eq_ok.1 h).2).2
  subst hxy
  refine ⟨source, _, gs, zs, hs, ?_, hF⟩
  simp only [stackAmplitudesInteriorWithSource, bind_eq_ok, ok_inj]
  exact ⟨_, hx, _, hy, rfl⟩

/-- **C49** The amplitudes that `stack_amplitudes_interior_with_source` returns for both parts of a structure, from the two amplitudes next to
the source, are those of the fields emitted by the source: continuous at all interfaces, with the jump of the currents at the source and no
incoming waves. -/
theorem C49_interior_amplitudes {lam : ℝ} {before after : List (LayerSolveResult ι)} {db da : List ℝ} (hb : Regular lam (before.zip db))
    (ha : Regular lam (after.zip da)) {sb sa : ScatteringMatrix ι} {ib ia : List (ScatteringMatrix ι × ScatteringMatrix ι)}
    (h1 : stackSMatrix before db = .ok sb) (h2 : stackSMatrix after da = .ok sa) (h3 : stackSMatricesInterior before db = .ok ib)
    (h4 : stackSMatricesInterior after da = .ok ia) {jx jy jz : Matrix ι β ℂ} {R : SourceAmplitudes ι β}
    (h5 : amplitudesForSource jx jy jz sb sa = .ok R) :
    ∃ st st' first s t last, IsEmission (before.zip db) (after.zip da) jx jy jz st st' first s t last ∧
      stackAmplitudesInteriorWithSource ib ia R.backwardBeforeEnd R.forwardAfterStart = .ok ((st ++ st').map fun x => (x.a, x.b)) := by
  have Sb := stackSMatrix_spec hb h1
  have Sa := stackSMatrix_spec ha h2
  have hlam : sb.endLayer.wavelength = sa.startLayer.wavelength := by
    rw [(hb _ (List.mem_of_getLast? Sb.finish)).1, (ha _ (List.mem_of_head? Sa.start)).1]
  obtain ⟨st, st', first, s, t, last, hE, -, -, e3, e4, -, -⟩ := C49_source_sound Sb Sa hlam h5
  have k1 := C40_recovers_consistent_amplitudes hb h3 hE.geometry_before hE.consistent_before hE.head_before hE.last_before
  have k2 := C40_recovers_consistent_amplitudes ha h4 hE.geometry_after hE.consistent_after hE.head_after hE.last_after
  rw [hE.no_incoming_before, e3] at k1
  rw [hE.no_incoming_after, e4] at k2
  refine ⟨st, st', first, s, t, last, hE, ?_⟩
  simp only [stackAmplitudesInteriorWithSource, bind_eq_ok, ok_inj]
  exact ⟨_, k1, _, k2, by rw [List.map_append]⟩

theorem uniform_solved {eig : Matrix (ι ⊕ ι) (ι ⊕ ι) ℂ → (ι ⊕ ι → ℂ) × Matrix (ι ⊕ ι) (ι ⊕ ι) ℂ} {c : Setup ι} (hl : 0 < c.wavelength)
    (hc : Independent c.lattice.u c.lattice.v) : ∀ (media : List (ℂ × ℝ)), (∀ p ∈ media, 0 < p.1.im) →
      ∃ ls, List.Forall₂ (fun p r => StackLayer.solve eig c p = .ok r) (media.map fun p => ⟨1, 1, .isotropic (Matrix.of fun _ _ => p.1) .fft, p.2⟩) ls ∧
        (∀ l ∈ ls, AbsorbingLayer l) ∧ ∀ l ∈ ls, l.wavelength = c.wavelength := by
  intro media
  induction media with
  | nil => exact fun _ => ⟨[], .nil, by simp, by simp⟩
  | cons p media ih =>
    intro h
    obtain ⟨ls, h1, h2, h3⟩ := ih fun q hq => h q (by simp [hq])
    have hp := h p (by simp)
    obtain ⟨r, hr⟩ := (C22_uniform_succeeds_iff c.wavelength c.inPlaneWavevector c.lattice p.1 c.expansion).2
      ⟨hl.ne', fun h0 => by rw [h0] at hp; simp at hp, hc⟩
    refine ⟨r :: ls, .cons (by simpa [StackLayer.solve, eigensolveIsotropicMedia] using hr) h1, ?_, ?_⟩
    · simpa using ⟨C81_uniform_absorbing hl hr hp, h2⟩
    · obtain ⟨k, w, -, -, -, e⟩ := eigensolveUniformIsotropic_ok_iff.1 hr
      simpa [e] using h3

/-- **C97** Sources of all kinds between uniform absorbing layers: from the permittivities to the fields in space every step succeeds, for any number of layers, orders,
sources, planes and points. -/
theorem C97_uniform_layers {eig : Matrix (ι ⊕ ι) (ι ⊕ ι) ℂ → (ι ⊕ ι → ℂ) × Matrix (ι ⊕ ι) (ι ⊕ ι) ℂ} {c : Setup ι} (hl : 0 < c.wavelength)
    (hc : Independent c.lattice.u c.lattice.v) {before after : List (ℂ × ℝ)} (hb : before ≠ []) (ha : after ≠ []) (h : ∀ p ∈ before ++ after, 0 < p.1.im ∧ 0 ≤ p.2)
    {n : ℕ} {γ : Type} (jx jy jz : Matrix ι (Fin n) ℂ) {znum : List ℕ} (hz : znum.length = before.length + after.length) (xy : γ → ℝ × ℝ) :
    ∃ gs zs, ComputedEmission eig c (before.map fun p => ⟨1, 1, .isotropic (Matrix.of fun _ _ => p.1) .fft, p.2⟩)
      (after.map fun p => ⟨1, 1, .isotropic (Matrix.of fun _ _ => p.1) .fft, p.2⟩) jx jy jz znum xy gs zs := by
  obtain ⟨lb, b1, b2, b3⟩ := uniform_solved (eig := eig) hl hc before fun p hp => (h p (by simp [hp])).1
  obtain ⟨la, a1, a2, a3⟩ := uniform_solved (eig := eig) hl hc after fun p hp => (h p (by simp [hp])).1
  have nb : before.length = lb.length := by simpa using b1.length_eq
  have na : after.length = la.length := by simpa using a1.length_eq
  obtain ⟨sb, sa, ib, ia, k1, k2, k3, k4, k5⟩ := C97_absorbing (before := lb) (after := la) (db := before.map Prod.snd) (da := after.map Prod.snd)
    (by rintro rfl; exact hb (List.length_eq_zero_iff.1 nb)) (by rintro rfl; exact ha (List.length_eq_zero_iff.1 na)) (by simp [nb]) (by simp [na])
    (lam := c.wavelength) (fun l hl => (List.mem_append.1 hl).elim (b3 l) (a3 l)) (fun l hl => (List.mem_append.1 hl).elim (b2 l) (a2 l))
    (fun d hd => by
      rw [← List.map_append, List.mem_map] at hd
      obtain ⟨p, hp, rfl⟩ := hd
      exact (h p hp).2)
  obtain ⟨source, amplitudes, gs, zs, q1, q2, q3⟩ := k5 jx jy jz znum xy (by rw [hz, nb, na])
  refine ⟨gs, zs, lb, la, sb, sa, ib, ia, source, amplitudes, b1, a1, ?_⟩
  simp only [List.map_map]
  exact ⟨k1, k2, k3, k4, q1, q2, q3⟩

namespace EmissionExample

/-- Absorbing half spaces of different media: sources with any currents at their interface. -/
theorem halfSpaces : ∃ u v : LayerSolveResult (Fin 2), AbsorbingLayer u ∧ AbsorbingLayer v ∧ u.wavelength = 2 * Real.pi ∧ v.wavelength = 2 * Real.pi := by
  have hl : (0 : ℝ) < 2 * Real.pi := by have := Real.pi_pos; positivity
  have hε1 : (2 + Complex.I : ℂ) ≠ 0 := by intro h; simpa using congrArg Complex.re h
  have hε2 : (3 + Complex.I : ℂ) ≠ 0 := by intro h; simpa using congrArg Complex.re h
  obtain ⟨u, hu⟩ := (C22_uniform_succeeds_iff (2 * Real.pi) (0, 0) unitLattice (2 + Complex.I) (![(0, 0), (1, 0)] : Fin 2 → ℤ × ℤ)).2
    ⟨hl.ne', hε1, by norm_num [unitLattice]⟩
  obtain ⟨v, hv⟩ := (C22_uniform_succeeds_iff (2 * Real.pi) (0, 0) unitLattice (3 + Complex.I) (![(0, 0), (1, 0)] : Fin 2 → ℤ × ℤ)).2
    ⟨hl.ne', hε2, by norm_num [unitLattice]⟩
  refine ⟨u, v, C81_uniform_absorbing hl hu (by simp), C81_uniform_absorbing hl hv (by simp), ?_, ?_⟩
  · obtain ⟨k, w, -, -, -, hr⟩ := eigensolveUniformIsotropic_ok_iff.1 hu
    rw [hr]
  · obtain ⟨k, w, -, -, -, hr⟩ := eigensolveUniformIsotropic_ok_iff.1 hv
    rw [hr]

/-- C97: permittivities and thicknesses of three absorbing layers, at oblique incidence. -/
example : ∃ (c : Setup (Fin 2)) (before after : List (ℂ × ℝ)), 0 < c.wavelength ∧ Independent c.lattice.u c.lattice.v ∧ before ≠ [] ∧ after ≠ [] ∧
    (∀ p ∈ before ++ after, 0 < p.1.im ∧ 0 ≤ p.2) ∧ [3, 2, 5].length = before.length + after.length :=
  ⟨{ wavelength := 2 * Real.pi, inPlaneWavevector := (1, 2), lattice := unitLattice, expansion := ![(0, 0), (1, 0)] }, [(2 + Complex.I, 1)],
    [(-3 + Complex.I, 2), (2 + Complex.I, 0)], by have := Real.pi_pos; positivity, by norm_num [Independent, unitLattice], by simp, by simp, by simp, rfl⟩

/-- C97: a slab with a source at its lower side, between absorbing media. -/
example : ∃ u v : LayerSolveResult (Fin 2), [u] ≠ [] ∧ [v, u] ≠ [] ∧ (∀ l ∈ [u] ++ [v, u], l.wavelength = 2 * Real.pi) ∧ (∀ l ∈ [u] ++ [v, u], AbsorbingLayer l) ∧
    ∀ d ∈ [(1 : ℝ)] ++ [2, 3], 0 ≤ d := by
  obtain ⟨u, v, h1, h2, h3, h4⟩ := halfSpaces
  exact ⟨u, v, by simp, by simp, by simp [h3, h4], by simp [h1, h2], by norm_num⟩

/-- C49: the amplitudes in these layers, for any currents. -/
example (jx jy jz : Matrix (Fin 2) (Fin 3) ℂ) : ∃ (u v : LayerSolveResult (Fin 2)) (sb sa : ScatteringMatrix (Fin 2))
    (ib ia : List (ScatteringMatrix (Fin 2) × ScatteringMatrix (Fin 2))) (R : SourceAmplitudes (Fin 2) (Fin 3)),
    Regular (2 * Real.pi) ([u].zip [1]) ∧ Regular (2 * Real.pi) ([v, u].zip [2, 3]) ∧ stackSMatrix [u] [1] = .ok sb ∧
      stackSMatrix [v, u] [2, 3] = .ok sa ∧ stackSMatricesInterior [u] [1] = .ok ib ∧ stackSMatricesInterior [v, u] [2, 3] = .ok ia ∧
      amplitudesForSource jx jy jz sb sa = .ok R := by
  obtain ⟨u, v, h1, h2, h3, h4⟩ := halfSpaces
  obtain ⟨Sb, Sa, ib, ia, k1, k2, k3, k4, k5⟩ := C97_absorbing (before := [u]) (after := [v, u]) (db := [1]) (da := [2, 3]) (lam := 2 * Real.pi)
    (by simp) (by simp) rfl rfl (by simp [h3, h4]) (by simp [h1, h2]) (by norm_num)
  obtain ⟨R, -, -, -, hR, -⟩ := k5 jx jy jz [1, 1, 1] (fun _ : Unit => (0, 0)) rfl
  refine ⟨u, v, Sb, Sa, ib, ia, R, ?_, ?_, k1, k2, k3, k4, hR⟩
  · simp [Regular, h3, h1.modes.2]
  · simp [Regular, h3, h4, h1.modes.2, h2.modes.2]

/-- C97: S-matrices of absorbing media, between which every source has amplitudes. -/
example : ∃ (u v : LayerSolveResult (Fin 2)) (Sb Sa : ScatteringMatrix (Fin 2)), Built Sb [(u, 1)] ∧ Built Sa [(v, 2), (u, 3)] ∧
    (∀ p ∈ [(u, (1 : ℝ))] ++ [(v, 2), (u, 3)], p.1.wavelength = 2 * Real.pi ∧ (∀ i, p.1.eigenvalues i ≠ 0) ∧ WellPosed p.1) ∧
    NoResonance ([(u, 1)] ++ [(v, 2), (u, 3)]) := by
  obtain ⟨u, v, h1, h2, h3, h4⟩ := halfSpaces
  obtain ⟨Sb, Sa, -, -, k1, k2, -⟩ := C97_absorbing (before := [u]) (after := [v, u]) (db := [1]) (da := [2, 3]) (lam := 2 * Real.pi) (by simp) (by simp) rfl rfl
    (by simp [h3, h4]) (by simp [h1, h2]) (by norm_num)
  refine ⟨u, v, Sb, Sa, .stack k1, .stack k2, ?_, absorbing_noResonance ?_⟩
  · simp [h3, h4, h1.modes.2, h2.modes.2, h1.wellPosed.1, h2.wellPosed.1]
  · simp [h1, h2]

/-- C97: a source at the surface of the metal of `C81_finding_surface_wave`, where vacuum and metal are half spaces, has no finite amplitudes, whatever the currents
are: the surface wave is a bound mode. -/
example (d : ℝ) (hd : 0 ≤ d) : ∃ (v m : LayerSolveResult (Fin 1)) (Sb Sa : ScatteringMatrix (Fin 1)), Built Sb [(v, 0)] ∧ Built Sa [(m, d)] ∧
    ∀ (jx jy jz : Matrix (Fin 1) Unit ℂ) R, amplitudesForSource jx jy jz Sb Sa ≠ .ok R := by
  obtain ⟨v, m, hv, hm, h1, h2⟩ := C81_finding_surface_wave 0 d 0 hd
  obtain ⟨v1, v2, v3, v4, v5⟩ := uniform_single hv
  obtain ⟨m1, m2, m3, m4, m5⟩ := uniform_single hm
  have qv : ∀ i, v.eigenvalues i ≠ 0 := fun i h0 => by
    have := (v5 i).1
    rw [h0] at this
    norm_num at this
  have qm : ∀ i, m.eigenvalues i ≠ 0 := fun i h0 => by
    have := (m5 i).1
    rw [h0] at this
    norm_num at this
  have hmodes : ∀ p ∈ [(v, (0 : ℝ))] ++ [(m, d)], p.1.wavelength = 2 * Real.pi ∧ (∀ i, p.1.eigenvalues i ≠ 0) ∧ WellPosed p.1 := by
    simp [v2, m2, qv, qm, (uniform_solvedFor hv).wellPosed, (uniform_solvedFor hm).wellPosed]
  obtain ⟨Sb, hb⟩ : ∃ S, stackSMatrix [v] [0] = .ok S := ⟨_, rfl⟩
  obtain ⟨Sa, ha⟩ : ∃ S, stackSMatrix [m] [d] = .ok S := ⟨_, rfl⟩
  refine ⟨v, m, Sb, Sa, .stack hb, .stack ha, fun jx jy jz R hR => ?_⟩
  have hno := (C97_succeeds_iff (.stack hb) (.stack ha) hmodes jx jy jz).1 ⟨R, hR⟩
  have hsucc := (C81_succeeds_iff (lam := 2 * Real.pi) (layers := [v, m, v]) (ds := [0, d, 0]) (by simp) rfl (by simp [v2, m2, qv, qm]) (by
    have cv : CompleteModes v := ⟨by rw [v3]; simp, qv⟩
    have cm : CompleteModes m := ⟨by rw [m3]; simp, qm⟩
    have k1 : IsUnit (magneticToElectric v * v.eigenvectors).det := by rw [Matrix.det_mul]; exact (electricModes_isUnit (uniform_solvedFor hv) cv).1.mul cv.1
    have k2 : IsUnit (magneticToElectric m * m.eigenvectors).det := by rw [Matrix.det_mul]; exact (electricModes_isUnit (uniform_solvedFor hm) cm).1.mul cm.1
    simp only [List.forall_mem_cons]
    exact ⟨⟨(uniform_solvedFor hv).wellPosed, k1⟩, ⟨(uniform_solvedFor hm).wellPosed, k2⟩, ⟨(uniform_solvedFor hv).wellPosed, k1⟩, by simp⟩)).2 (by
    intro n hn
    have : n = 0 ∨ n = 1 ∨ n = 2 := by simp at hn; omega
    rcases this with rfl | rfl | rfl
    · exact noResonance_single _
    · exact hno
    · exact h1)
  exact hsucc.elim h2

end EmissionExample

end Fmmax
