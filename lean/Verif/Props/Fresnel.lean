import Verif.Proofs.Fresnel

/-! Property C93: plane waves in stacks of homogeneous layers. -/

set_option linter.unusedSectionVars false

namespace Fmmax

open Matrix Spec

variable {ι : Type} [Fintype ι] [DecidableEq ι]
variable {eig : Matrix (ι ⊕ ι) (ι ⊕ ι) ℂ → (ι ⊕ ι → ℂ) × Matrix (ι ⊕ ι) (ι ⊕ ι) ℂ}
variable {c : Setup ι} {media : List (ℂ × ℝ)} {S : ScatteringMatrix ι} {k : ι → ℝ × ℝ}

theorem waveColumn_mul (A : ModeMatrix ι) (x : ℂ) (i : ι) (p : ℂ × ℂ) :
    A * (x • waveColumn i p) = Matrix.of fun j (_ : Unit) => (A *ᵥ (x • orderWave i p)) j := by
  ext j u
  simp [waveColumn, Matrix.mul_apply, Matrix.mulVec, dotProduct]

theorem smul_waveColumn (x : ℂ) (i : ι) (p : ℂ × ℂ) : x • waveColumn i p = Matrix.of fun j (_ : Unit) => (x • orderWave i p) j := by
  ext j u
  simp [waveColumn]

theorem of_unit_inj {f g : ι ⊕ ι → ℂ} (h : (Matrix.of fun j (_ : Unit) => f j) = Matrix.of fun j (_ : Unit) => g j) : f = g :=
  funext fun j => congrFun (congrFun h j) ()

/-- **C93** A stack of homogeneous layers acts on plane waves as a transmission line: for each Fourier order and each polarisation, and any incoming
waves from both sides, there is exactly one set of waves with continuous tangential fields, and the scattering matrix yields the amplitudes of its
outgoing waves, without coupling to other orders or to the other polarisation. -/
theorem C93_transmission_line (hS : ComputedSMatrix eig c (media.map homogeneous) S)
    (hk : transverseWavevectors c.inPlaneWavevector c.lattice c.expansion = .ok k)
    (hg : ∀ m ∈ media, ∀ i, m.1 * ((2 * Real.pi / c.wavelength : ℝ) : ℂ) ^ 2 ≠ ((k i).1 : ℂ) ^ 2 + ((k i).2 : ℂ) ^ 2)
    {pol : Polarization} {i : ι} {p : ℂ × ℂ} (hp : pol.Along (k i) p) (hp0 : p ≠ 0) (α β : ℂ) :
    ∃! ws, pol.Waves (2 * Real.pi / c.wavelength) (k i) media ws ∧ ∃ first last, ws.head? = some first ∧ ws.getLast? = some last ∧
      first.a = α ∧ last.b = β ∧
      S.s11 *ᵥ (α • orderWave i p) + S.s12 *ᵥ (β • orderWave i p) = last.a • orderWave i p ∧
      S.s21 *ᵥ (α • orderWave i p) + S.s22 *ᵥ (β • orderWave i p) = first.b • orderWave i p := by
  obtain ⟨solved, hsol, hS⟩ := hS
  rw [List.forall₂_map_left_iff] at hsol
  rw [List.map_map, show (StackLayer.thickness ∘ homogeneous : ℂ × ℝ → ℝ) = Prod.snd from rfl] at hS
  have hreg := not_grazing hsol hk hg
  have hq : ∀ r ∈ solved, ∀ i, r.eigenvalues i ≠ 0 := fun r hr => (hreg r hr).2
  have hM := stackSMatrix_spec (lam := c.wavelength) (fun p hp => hreg _ (List.of_mem_zip hp).1) hS
  -- every set of waves is described by the scattering matrix
  have sound : ∀ ws first last, pol.Waves (2 * Real.pi / c.wavelength) (k i) media ws → ws.head? = some first → ws.getLast? = some last →
      S.s11 *ᵥ (first.a • orderWave i p) + S.s12 *ᵥ (last.b • orderWave i p) = last.a • orderWave i p ∧
      S.s21 *ᵥ (first.a • orderWave i p) + S.s22 *ᵥ (last.b • orderWave i p) = first.b • orderWave i p := by
    intro ws first last hw hf hl
    obtain ⟨L, rfl, h1, h2⟩ := waves_embed hsol hq hk hp hp0 hw
    rw [List.head?_map, Option.map_eq_some_iff] at hf
    rw [List.getLast?_map, Option.map_eq_some_iff] at hl
    obtain ⟨x, hx, rfl⟩ := hf
    obtain ⟨y, hy, rfl⟩ := hl
    obtain ⟨e1, e2⟩ := hM.sound _ (embed x.1 (waveColumn i p) x.2) (embed y.1 (waveColumn i p) y.2) h1 h2 (by simp [hx]) (by simp [hy])
    simp only [embed, waveColumn_mul] at e1 e2
    rw [smul_waveColumn] at e1 e2
    exact ⟨(of_unit_inj e1).symm, (of_unit_inj e2).symm⟩
  obtain ⟨st, first, last, g1, g2, g3, g4, g5, g6⟩ := hM.complete (α • waveColumn i p) (β • waveColumn i p)
  obtain ⟨L, rfl, hw⟩ := waves_project hsol hq hk hp hp0 g1 g2
  rw [List.head?_map, Option.map_eq_some_iff] at g3
  rw [List.getLast?_map, Option.map_eq_some_iff] at g4
  obtain ⟨x, hx, rfl⟩ := g3
  obtain ⟨y, hy, rfl⟩ := g4
  have hdual : waveRow i p * waveColumn i p = 1 := by
    ext
    simp only [waveRow, waveColumn, Matrix.mul_apply, Matrix.of_apply, mul_assoc, ← Finset.mul_sum, sum_orderWave']
    simp only [orderWave, Sum.elim_inl, Sum.elim_inr, if_true, Matrix.one_apply, eq_self_iff_true]
    exact inv_mul_cancel₀ (norm_ne_zero hp0)
  have ea : (project x.1 (waveRow i p) x.2).a = α := by simp [project, g5, Matrix.mul_smul, hdual]
  have eb : (project y.1 (waveRow i p) y.2).b = β := by simp [project, g6, Matrix.mul_smul, hdual]
  refine ⟨_, ⟨hw, _, _, by rw [List.head?_map, hx]; rfl, by rw [List.getLast?_map, hy]; rfl, ea, eb, ?_⟩, ?_⟩
  · have := sound _ _ _ hw (by rw [List.head?_map, hx]; rfl) (by rw [List.getLast?_map, hy]; rfl)
    rwa [ea, eb] at this
  · rintro ws' ⟨hw', f', l', hf', hl', e1, e2, -⟩
    obtain ⟨L1, m1, n1, o1⟩ := waves_embed hsol hq hk hp hp0 hw
    obtain ⟨L2, m2, n2, o2⟩ := waves_embed hsol hq hk hp hp0 hw'
    have key : (L2.map fun x => embed x.1 (waveColumn i p) x.2) = L1.map fun x => embed x.1 (waveColumn i p) x.2 := by
      have f1 : (L1.map Prod.snd).head? = some (project x.1 (waveRow i p) x.2) := by rw [m1, List.head?_map, hx]; rfl
      have l1 : (L1.map Prod.snd).getLast? = some (project y.1 (waveRow i p) y.2) := by rw [m1, List.getLast?_map, hy]; rfl
      rw [← m2, List.head?_map, Option.map_eq_some_iff] at hf'
      rw [← m2, List.getLast?_map, Option.map_eq_some_iff] at hl'
      rw [List.head?_map, Option.map_eq_some_iff] at f1
      rw [List.getLast?_map, Option.map_eq_some_iff] at l1
      obtain ⟨x1, hx1, ex1⟩ := f1
      obtain ⟨y1, hy1, ey1⟩ := l1
      obtain ⟨x2, hx2, ex2⟩ := hf'
      obtain ⟨y2, hy2, ey2⟩ := hl'
      refine hM.unique _ _ (embed x2.1 (waveColumn i p) x2.2) (embed y2.1 (waveColumn i p) y2.2) (embed x1.1 (waveColumn i p) x1.2)
        (embed y1.1 (waveColumn i p) y1.2) n2 n1 o2 o1 (by simp [hx2]) (by simp [hy2]) (by simp [hx1]) (by simp [hy1]) ?_ ?_
      · simp only [embed, ex1, ex2, e1, ea]
      · simp only [embed, ey1, ey2, e2, eb]
    refine sections_ext hw'.1 hw.1 ?_
    rw [← m1, ← m2, List.map_map, List.map_map]
    have := forall₂_of_map_eq key
    refine List.forall₂_eq_eq_eq ▸ ?_
    rw [List.forall₂_map_left_iff, List.forall₂_map_right_iff]
    refine this.imp ?_
    intro a b h
    simp only [embed, LayerState.mk.injEq] at h
    exact Prod.ext (waveColumn_smul_inj hp0 h.2.2.1) (waveColumn_smul_inj hp0 h.2.2.2)

/-! ### Existence -/

theorem exists_along (pol : Polarization) (k : ℝ × ℝ) : ∃ p : ℂ × ℂ, pol.Along k p ∧ p ≠ 0 := by
  by_cases hk : k = 0
  · subst hk
    exact ⟨(1, 0), by cases pol <;> simp [Polarization.Along], by simp⟩
  · have h : k.1 ≠ 0 ∨ k.2 ≠ 0 := by
      by_contra hc
      push Not at hc
      exact hk (Prod.ext hc.1 hc.2)
    cases pol with
    | te => exact ⟨(k.1, k.2), by simp [Polarization.Along, mul_comm], by simpa [Prod.ext_iff, imp_iff_not_or] using h⟩
    | tm => exact ⟨(-k.2, k.1), by simp [Polarization.Along]; ring, by simpa [Prod.ext_iff, imp_iff_not_or] using h.symm⟩

theorem waveRow_mul (i : ι) (p : ℂ × ℂ) (a : Matrix (ι ⊕ ι) Unit ℂ) :
    (waveRow i p * a) () () = (star p.1 * p.1 + star p.2 * p.2)⁻¹ * (star p.1 * a (.inl i) () + star p.2 * a (.inr i) ()) := by
  simp only [waveRow, Matrix.mul_apply, Matrix.of_apply, mul_assoc, ← Finset.mul_sum, sum_orderWave']

theorem vanishes_of_rows {k : ι → ℝ × ℝ} {a : Matrix (ι ⊕ ι) Unit ℂ}
    (h : ∀ (pol : Polarization) (i : ι) (p : ℂ × ℂ), pol.Along (k i) p → p ≠ 0 → (waveRow i p * a) () () = 0) : a = 0 := by
  have key : ∀ (pol : Polarization) (i : ι) (p : ℂ × ℂ), pol.Along (k i) p → p ≠ 0 → star p.1 * a (.inl i) () + star p.2 * a (.inr i) () = 0 := by
    intro pol i p h1 h2
    have := h pol i p h1 h2
    rw [waveRow_mul] at this
    exact (mul_eq_zero.1 this).resolve_left (inv_ne_zero (norm_ne_zero h2))
  have both : ∀ i, a (.inl i) () = 0 ∧ a (.inr i) () = 0 := by
    intro i
    by_cases hk : k i = 0
    · have h1 := key .te i (1, 0) (by simp [Polarization.Along, hk]) (by simp)
      have h2 := key .te i (0, 1) (by simp [Polarization.Along, hk]) (by simp)
      exact ⟨by simpa using h1, by simpa using h2⟩
    · have hn : ((k i).1 ^ 2 + (k i).2 ^ 2 : ℝ) ≠ 0 := by
        intro h0
        have h1 : (k i).1 = 0 := by nlinarith [sq_nonneg (k i).1, sq_nonneg (k i).2]
        have h2 : (k i).2 = 0 := by nlinarith [sq_nonneg (k i).1, sq_nonneg (k i).2]
        exact hk (Prod.ext h1 h2)
      have hn' : (((k i).1 : ℂ) ^ 2 + ((k i).2 : ℂ) ^ 2) ≠ 0 := by exact_mod_cast hn
      have hne : (k i).1 ≠ 0 ∨ (k i).2 ≠ 0 := by
        by_contra hc
        push Not at hc
        exact hk (Prod.ext hc.1 hc.2)
      have h1 := key .te i ((k i).1, (k i).2) (by simp [Polarization.Along, mul_comm]) (by simpa [Prod.ext_iff, imp_iff_not_or] using hne)
      have h2 := key .tm i (-(k i).2, (k i).1) (by simp [Polarization.Along]; ring) (by simpa [Prod.ext_iff, imp_iff_not_or] using hne.symm)
      simp only [← starRingEnd_apply, map_neg, Complex.conj_ofReal] at h1 h2
      constructor
      · refine (mul_eq_zero.1 (?_ : (((k i).1 : ℂ) ^ 2 + ((k i).2 : ℂ) ^ 2) * a (.inl i) () = 0)).resolve_left hn'
        linear_combination ((k i).1 : ℂ) * h1 - ((k i).2 : ℂ) * h2
      · refine (mul_eq_zero.1 (?_ : (((k i).1 : ℂ) ^ 2 + ((k i).2 : ℂ) ^ 2) * a (.inr i) () = 0)).resolve_left hn'
        linear_combination ((k i).2 : ℂ) * h1 + ((k i).1 : ℂ) * h2
  ext j u
  rcases j with j | j
  · exact (both j).1
  · exact (both j).2

theorem noResonance_iff {solved : List (LayerSolveResult ι)} (hsol : List.Forall₂ (fun m r => (homogeneous m).solve eig c = .ok r) media solved)
    (hq : ∀ r ∈ solved, ∀ i, r.eigenvalues i ≠ 0) (hk : transverseWavevectors c.inPlaneWavevector c.lattice c.expansion = .ok k) :
    NoResonance (solved.zip (media.map Prod.snd)) ↔ ∀ (i : ι) (pol : Polarization), pol.NoResonance (2 * Real.pi / c.wavelength) (k i) media := by
  constructor
  · intro h i pol ws first last hw hf hl ha hb w hmem
    obtain ⟨p, hp, hp0⟩ := exists_along pol (k i)
    obtain ⟨L, rfl, h1, h2⟩ := waves_embed hsol hq hk hp hp0 hw
    rw [List.head?_map, Option.map_eq_some_iff] at hf
    rw [List.getLast?_map, Option.map_eq_some_iff] at hl
    obtain ⟨x, hx, rfl⟩ := hf
    obtain ⟨y, hy, rfl⟩ := hl
    obtain ⟨z, hz, rfl⟩ := List.mem_map.1 hmem
    have := h _ (embed x.1 (waveColumn i p) x.2) (embed y.1 (waveColumn i p) y.2) h1 h2 (by simp [hx]) (by simp [hy]) (by simp [embed, ha])
      (by simp [embed, hb]) (embed z.1 (waveColumn i p) z.2) (List.mem_map.2 ⟨z, hz, rfl⟩)
    simp only [embed] at this
    exact ⟨waveColumn_smul_inj hp0 (this.1.trans (zero_smul ℂ _).symm), waveColumn_smul_inj hp0 (this.2.trans (zero_smul ℂ _).symm)⟩
  · intro h st first last hg hc hf hl ha hb s hs
    have key : ∀ (pol : Polarization) (i : ι) (p : ℂ × ℂ), pol.Along (k i) p → p ≠ 0 →
        (waveRow i p * s.a) () () = 0 ∧ (waveRow i p * s.b) () () = 0 := by
      intro pol i p hp hp0
      obtain ⟨L, rfl, hw⟩ := waves_project hsol hq hk hp hp0 hg hc
      rw [List.head?_map, Option.map_eq_some_iff] at hf
      rw [List.getLast?_map, Option.map_eq_some_iff] at hl
      obtain ⟨x, hx, rfl⟩ := hf
      obtain ⟨y, hy, rfl⟩ := hl
      obtain ⟨z, hz, rfl⟩ := List.mem_map.1 hs
      exact h i pol _ (project x.1 (waveRow i p) x.2) (project y.1 (waveRow i p) y.2) hw (by simp [hx]) (by simp [hy]) (by simp [project, ha])
        (by simp [project, hb]) (project z.1 (waveRow i p) z.2) (List.mem_map.2 ⟨z, hz, rfl⟩)
    exact ⟨vanishes_of_rows fun pol i p h1 h2 => (key pol i p h1 h2).1, vanishes_of_rows fun pol i p h1 h2 => (key pol i p h1 h2).2⟩

theorem homogeneous_solvable (hw : c.wavelength ≠ 0) (hk : transverseWavevectors c.inPlaneWavevector c.lattice c.expansion = .ok k)
    (hε : ∀ m ∈ media, m.1 ≠ 0) : ∃ solved, List.Forall₂ (fun m r => (homogeneous m).solve eig c = .ok r) media solved := by
  have hl : c.lattice.u.1 * c.lattice.v.2 - c.lattice.u.2 * c.lattice.v.1 ≠ 0 := by
    unfold transverseWavevectors at hk
    obtain ⟨_, hl, -⟩ := bind_eq_ok.1 hk
    exact (reciprocal_eq_ok.1 hl).1
  induction media with
  | nil => exact ⟨[], .nil⟩
  | cons m media ih =>
    obtain ⟨s, hs⟩ := ih fun x hx => hε x (List.mem_cons_of_mem _ hx)
    obtain ⟨r, hr⟩ := (C22_uniform_succeeds_iff c.wavelength c.inPlaneWavevector c.lattice m.1 c.expansion).2 ⟨hw, hε m (by simp), hl⟩
    exact ⟨r :: s, .cons (by simpa [homogeneous, StackLayer.solve, eigensolveIsotropicMedia] using hr) hs⟩

theorem homogeneous_electric_isUnit {m : ℂ × ℝ} {r : LayerSolveResult ι} (h : (homogeneous m).solve eig c = .ok r) (hq : ∀ i, r.eigenvalues i ≠ 0) :
    IsUnit (magneticToElectric r * r.eigenvectors).det := by
  obtain ⟨hw, hlam, hv, hε, hkr, hroot, hM⟩ := homogeneous_solved h
  rw [hv, Matrix.mul_one, isUnit_iff_ne_zero, Ne, ← Matrix.exists_mulVec_eq_zero_iff]
  rintro ⟨v, hv0, hv⟩
  have hω0 := omega_ne hw
  apply hv0
  have key : ∀ (pol : Polarization) (i : ι) (p : ℂ × ℂ), pol.Along (orderWavevector r i) p → p ≠ 0 →
      (waveRow i p * Matrix.of fun j (_ : Unit) => v j) () () = 0 := by
    intro pol i p hp hp0
    have hω : 2 * Real.pi / c.wavelength = omega r := by rw [omega, hlam]
    have hs : pol.IsSection (2 * Real.pi / c.wavelength) (orderWavevector r i) m
        ⟨pol.impedance (2 * Real.pi / c.wavelength) m.1 (r.eigenvalues (.inl i)), r.eigenvalues (.inl i), m.2⟩ :=
      ⟨by rw [hω]; exact (hroot i).1, rfl, rfl⟩
    have hR := homogeneous_ray h hq hkr hp hp0 hs
    have e : waveRow i p * magneticToElectric r * (Matrix.of fun j (_ : Unit) => v j) = 0 := by
      rw [Matrix.mul_assoc]
      have : magneticToElectric r * (Matrix.of fun j (_ : Unit) => v j) = 0 := by
        ext j u
        simpa [Matrix.mul_apply, Matrix.mulVec, dotProduct] using congrFun hv j
      rw [this, Matrix.mul_zero]
    rw [hR.electric', Matrix.smul_mul, smul_eq_zero] at e
    rcases e with e | e
    · exfalso
      have hz : pol.impedance (2 * Real.pi / c.wavelength) m.1 (r.eigenvalues (.inl i)) ≠ 0 := by
        rw [hω]
        cases pol with
        | te => exact div_ne_zero hω0 (hq _)
        | tm => exact div_ne_zero (hq _) (mul_ne_zero hε hω0)
      exact mul_ne_zero (mul_ne_zero hω0 hR.wavenumber) hz e
    · exact congrFun (congrFun e ()) ()
  have := vanishes_of_rows key
  funext j
  exact congrFun (congrFun this j) ()

/-- **C93** The scattering matrix of a stack of homogeneous layers is obtained exactly if no leading part of the stack has a guided wave or resonance, in any
order and polarisation. -/
theorem C93_succeeds_iff (hne : media ≠ []) (hw : c.wavelength ≠ 0)
    (hk : transverseWavevectors c.inPlaneWavevector c.lattice c.expansion = .ok k) (hε : ∀ m ∈ media, m.1 ≠ 0)
    (hg : ∀ m ∈ media, ∀ i, m.1 * ((2 * Real.pi / c.wavelength : ℝ) : ℂ) ^ 2 ≠ ((k i).1 : ℂ) ^ 2 + ((k i).2 : ℂ) ^ 2) :
    (∃ S, ComputedSMatrix eig c (media.map homogeneous) S) ↔
      ∀ n, n < media.length → ∀ (i : ι) (pol : Polarization), pol.NoResonance (2 * Real.pi / c.wavelength) (k i) (media.take (n + 1)) := by
  obtain ⟨solved, hsol⟩ := homogeneous_solvable (eig := eig) hw hk hε
  have hreg := not_grazing hsol hk hg
  have hlen := hsol.length_eq
  have hne' : solved ≠ [] := by
    rintro rfl
    cases hsol
    exact hne rfl
  have e1 : (∃ S, ComputedSMatrix eig c (media.map homogeneous) S) ↔ ∃ S, stackSMatrix solved (media.map Prod.snd) = .ok S := by
    constructor
    · rintro ⟨S, solved', hsol', hS⟩
      rw [List.forall₂_map_left_iff] at hsol'
      rw [List.map_map, show (StackLayer.thickness ∘ homogeneous : ℂ × ℝ → ℝ) = Prod.snd from rfl] at hS
      obtain rfl : solved = solved' := by
        clear hreg hlen hne' hg hε hne hS
        induction hsol generalizing solved' with
        | nil => cases hsol'; rfl
        | cons h _ ih =>
          cases hsol' with
          | cons h' hs' => rw [ih _ hs', Except.ok.inj (h.symm.trans h')]
      exact ⟨S, hS⟩
    · rintro ⟨S, hS⟩
      refine ⟨S, solved, by rw [List.forall₂_map_left_iff]; exact hsol, ?_⟩
      rw [List.map_map, show (StackLayer.thickness ∘ homogeneous : ℂ × ℝ → ℝ) = Prod.snd from rfl]
      exact hS
  rw [e1, C81_succeeds_iff hne' (by simpa using hlen.symm) hreg, ← hlen]
  · refine forall_congr' fun n => imp_congr_right fun hn => ?_
    have hz : (solved.zip (media.map Prod.snd)).take (n + 1) = (solved.take (n + 1)).zip ((media.take (n + 1)).map Prod.snd) := by
      simp only [List.zip, List.take_zipWith, List.map_take]
    rw [hz]
    exact noResonance_iff (List.forall₂_take _ hsol) (fun r hr => (hreg r (List.mem_of_mem_take hr)).2) hk
  · obtain ⟨M, rfl, rfl, hM⟩ := forall₂_pairs hsol
    intro r hr
    obtain ⟨x, hx, rfl⟩ := List.mem_map.1 hr
    exact ⟨(homogeneous_solved (hM x hx)).1, homogeneous_electric_isUnit (hM x hx) (hreg _ hr).2⟩

/-! ### Fresnel and Airy -/

section coefficients

variable {pol : Polarization} {ω : ℝ} {ε₁ ε₂ q₁ q₂ : ℂ}

theorem impedance_add (hω : (ω : ℂ) ≠ 0) (h1 : ε₁ ≠ 0) (h2 : ε₂ ≠ 0) (hq1 : q₁ ≠ 0) (hq2 : q₂ ≠ 0) :
    pol.impedance ω ε₁ q₁ + pol.impedance ω ε₂ q₂ ≠ 0 ↔ pol.denominator ε₁ q₁ ε₂ q₂ ≠ 0 := by
  cases pol with
  | te =>
    have e : (ω : ℂ) / q₁ + ω / q₂ = ω / (q₁ * q₂) * (q₁ + q₂) := by field_simp; ring
    have : (ω : ℂ) / (q₁ * q₂) ≠ 0 := div_ne_zero hω (mul_ne_zero hq1 hq2)
    simp [Polarization.impedance, Polarization.denominator, e, hω, hq1, hq2]
  | tm =>
    have e : q₁ / (ε₁ * ω) + q₂ / (ε₂ * ω) = 1 / (ε₁ * ε₂ * ω) * (ε₂ * q₁ + ε₁ * q₂) := by field_simp
    simp [Polarization.impedance, Polarization.denominator, e, h1, h2, hω]

theorem reflection_impedance (hω : (ω : ℂ) ≠ 0) (h1 : ε₁ ≠ 0) (h2 : ε₂ ≠ 0) (hq1 : q₁ ≠ 0) (hq2 : q₂ ≠ 0) :
    pol.reflection ε₁ q₁ ε₂ q₂ =
      (pol.impedance ω ε₁ q₁ - pol.impedance ω ε₂ q₂) / (pol.impedance ω ε₁ q₁ + pol.impedance ω ε₂ q₂) := by
  cases pol with
  | te =>
    have e : (ω : ℂ) / q₁ + ω / q₂ = ω / (q₁ * q₂) * (q₁ + q₂) := by field_simp; ring
    have e' : (ω : ℂ) / q₁ - ω / q₂ = ω / (q₁ * q₂) * (q₂ - q₁) := by field_simp
    have : (ω : ℂ) / (q₁ * q₂) ≠ 0 := div_ne_zero hω (mul_ne_zero hq1 hq2)
    simp only [Polarization.impedance, Polarization.reflection, e, e', mul_div_mul_left _ _ this]
  | tm =>
    have e : q₁ / (ε₁ * ω) + q₂ / (ε₂ * ω) = 1 / (ε₁ * ε₂ * ω) * (ε₂ * q₁ + ε₁ * q₂) := by field_simp
    have e' : q₁ / (ε₁ * ω) - q₂ / (ε₂ * ω) = 1 / (ε₁ * ε₂ * ω) * (ε₂ * q₁ - ε₁ * q₂) := by field_simp
    have : 1 / (ε₁ * ε₂ * ω) ≠ 0 := one_div_ne_zero (mul_ne_zero (mul_ne_zero h1 h2) hω)
    simp only [Polarization.impedance, Polarization.reflection, e, e', mul_div_mul_left _ _ this]

theorem transmission_impedance (hω : (ω : ℂ) ≠ 0) (h1 : ε₁ ≠ 0) (h2 : ε₂ ≠ 0) (hq1 : q₁ ≠ 0) (hq2 : q₂ ≠ 0) :
    pol.transmission ε₁ q₁ ε₂ q₂ = 2 * pol.impedance ω ε₁ q₁ / (pol.impedance ω ε₁ q₁ + pol.impedance ω ε₂ q₂) := by
  cases pol with
  | te =>
    have e : (ω : ℂ) / q₁ + ω / q₂ = ω / (q₁ * q₂) * (q₁ + q₂) := by field_simp; ring
    have e' : 2 * ((ω : ℂ) / q₁) = ω / (q₁ * q₂) * (2 * q₂) := by field_simp
    have : (ω : ℂ) / (q₁ * q₂) ≠ 0 := div_ne_zero hω (mul_ne_zero hq1 hq2)
    simp only [Polarization.impedance, Polarization.transmission, e, e', mul_div_mul_left _ _ this]
  | tm =>
    have e : q₁ / (ε₁ * ω) + q₂ / (ε₂ * ω) = 1 / (ε₁ * ε₂ * ω) * (ε₂ * q₁ + ε₁ * q₂) := by field_simp
    have e' : 2 * (q₁ / (ε₁ * ω)) = 1 / (ε₁ * ε₂ * ω) * (2 * ε₂ * q₁) := by field_simp
    have : 1 / (ε₁ * ε₂ * ω) ≠ 0 := one_div_ne_zero (mul_ne_zero (mul_ne_zero h1 h2) hω)
    simp only [Polarization.impedance, Polarization.transmission, e, e', mul_div_mul_left _ _ this]

theorem impedance_ne (hω : (ω : ℂ) ≠ 0) (h1 : ε₁ ≠ 0) (hq1 : q₁ ≠ 0) : pol.impedance ω ε₁ q₁ ≠ 0 := by
  cases pol with
  | te => exact div_ne_zero hω hq1
  | tm => exact div_ne_zero hq1 (mul_ne_zero h1 hω)

/-- Two sections have a resonance exactly where the denominator of the Fresnel coefficients vanishes. -/
theorem pair_noResonance_iff {κ : ℝ × ℝ} {d₁ d₂ : ℝ} (hω : (ω : ℂ) ≠ 0) (h1 : ε₁ ≠ 0) (h2 : ε₂ ≠ 0) (hq1 : q₁ ≠ 0) (hq2 : q₂ ≠ 0)
    (r1 : IsForwardRoot (ε₁ * (ω : ℂ) ^ 2 - (κ.1 : ℂ) ^ 2 - (κ.2 : ℂ) ^ 2) q₁) (r2 : IsForwardRoot (ε₂ * (ω : ℂ) ^ 2 - (κ.1 : ℂ) ^ 2 - (κ.2 : ℂ) ^ 2) q₂) :
    pol.NoResonance ω κ [(ε₁, d₁), (ε₂, d₂)] ↔ pol.denominator ε₁ q₁ ε₂ q₂ ≠ 0 := by
  rw [← impedance_add hω h1 h2 hq1 hq2]
  constructor
  · intro h h0
    have := h [⟨⟨pol.impedance ω ε₁ q₁, q₁, d₁⟩, 0, 1⟩, ⟨⟨pol.impedance ω ε₂ q₂, q₂, d₂⟩, 1, 0⟩] _ _
      ⟨.cons ⟨r1, rfl, rfl⟩ (.cons ⟨r2, rfl, rfl⟩ .nil), by
        simp only [List.isChain_cons_cons, List.isChain_singleton, and_true]
        constructor
        · simp [LineState.electric]
          linear_combination -h0
        · simp [LineState.magnetic]⟩ rfl rfl rfl rfl _ (List.mem_cons_self ..)
    simp at this
  · intro h ws first last hw hf hl ha hb
    obtain ⟨hs, hc⟩ := hw
    cases hs with
    | @cons _ w1 _ _ s1 hs =>
      cases hs with
      | @cons _ w2 _ _ s2 hs =>
        cases hs
        simp only [List.head?_cons, Option.some.injEq, List.getLast?_cons_cons, List.getLast?_singleton] at hf hl
        subst hf hl
        simp only [List.isChain_cons_cons, List.isChain_singleton, and_true] at hc
        obtain ⟨e1, e2⟩ := hc
        have k1 : w1.wavenumber = q₁ := isForwardRoot_unique s1.wavenumber r1
        have k2 : w2.wavenumber = q₂ := isForwardRoot_unique s2.wavenumber r2
        simp [LineState.electric, LineState.magnetic, ha, hb, s1.impedance, s2.impedance, k1, k2] at e1 e2
        rw [e2] at e1
        have e0 : (pol.impedance ω ε₁ q₁ + pol.impedance ω ε₂ q₂) * w2.a = 0 := by linear_combination -e1
        have ea := (mul_eq_zero.1 e0).resolve_left h
        intro w hw
        simp only [List.mem_cons, List.not_mem_nil, or_false] at hw
        rcases hw with rfl | rfl
        · exact ⟨ha, e2.trans ea⟩
        · exact ⟨ea, hb⟩

theorem forward_add_ne {w w' : ℂ} (h : IsForwardRoot w q₁) (h' : IsForwardRoot w' q₂) (hq1 : q₁ ≠ 0) : q₁ + q₂ ≠ 0 := by
  intro h0
  obtain ⟨-, i1, j1⟩ := h
  obtain ⟨-, i2, j2⟩ := h'
  have hi := congrArg Complex.im h0
  have hr := congrArg Complex.re h0
  simp at hi hr
  have e1 : q₁.im = 0 := by linarith
  have e2 : q₂.im = 0 := by linarith
  have := j1 e1
  have := j2 e2
  exact hq1 (Complex.ext (by simp; linarith) e1)

end coefficients

theorem computed_facts (hS : ComputedSMatrix eig c (media.map homogeneous) S) (hne : media ≠ []) : c.wavelength ≠ 0 ∧ ∀ m ∈ media, m.1 ≠ 0 := by
  obtain ⟨solved, hsol, -⟩ := hS
  rw [List.forall₂_map_left_iff] at hsol
  obtain ⟨M, rfl, rfl, hM⟩ := forall₂_pairs hsol
  refine ⟨?_, ?_⟩
  · obtain ⟨x, M, rfl⟩ := List.exists_cons_of_ne_nil (l := M) (by rintro rfl; exact hne rfl)
    obtain ⟨hw, hlam, -⟩ := homogeneous_solved (hM x (by simp))
    rw [← hlam]
    exact hw.1
  · intro m hm
    obtain ⟨x, hx, rfl⟩ := List.mem_map.1 hm
    exact (homogeneous_solved (hM x hx)).2.2.2.1

variable {ε₁ ε₂ ε₃ : ℂ} {d₁ d₂ d₃ : ℝ} {q₁ q₂ q₃ : ι → ℂ}

/-- **C93** An interface between homogeneous media: the scattering matrix is obtained exactly if no order is at grazing incidence on either side and no
order excites a surface wave. -/
theorem C93_interface_succeeds_iff (hw : c.wavelength ≠ 0) (hk : transverseWavevectors c.inPlaneWavevector c.lattice c.expansion = .ok k)
    (h1 : ε₁ ≠ 0) (h2 : ε₂ ≠ 0) (hq1 : ZWavenumbers c k ε₁ q₁) (hq2 : ZWavenumbers c k ε₂ q₂) :
    (∃ S, ComputedSMatrix eig c ([(ε₁, d₁), (ε₂, d₂)].map homogeneous) S) ↔ ∀ i, q₁ i ≠ 0 ∧ q₂ i ≠ 0 ∧ ε₂ * q₁ i + ε₁ * q₂ i ≠ 0 := by
  have hω : ((2 * Real.pi / c.wavelength : ℝ) : ℂ) ≠ 0 := by
    have : 2 * Real.pi / c.wavelength ≠ 0 := div_ne_zero (by positivity) hw
    exact_mod_cast this
  have graze : ∀ {ε : ℂ} {q : ι → ℂ}, ZWavenumbers c k ε q → ∀ i, q i ≠ 0 →
      ε * ((2 * Real.pi / c.wavelength : ℝ) : ℂ) ^ 2 ≠ ((k i).1 : ℂ) ^ 2 + ((k i).2 : ℂ) ^ 2 := by
    intro ε q hq i h0 he
    refine h0 (pow_eq_zero_iff two_ne_zero |>.1 ((hq i).1.trans ?_))
    rw [he]
    ring
  have main : (∀ i, q₁ i ≠ 0 ∧ q₂ i ≠ 0) → ((∃ S, ComputedSMatrix eig c ([(ε₁, d₁), (ε₂, d₂)].map homogeneous) S) ↔ ∀ i, ε₂ * q₁ i + ε₁ * q₂ i ≠ 0) := by
    intro hq
    rw [C93_succeeds_iff (k := k) (by simp) hw hk (by simp [h1, h2])]
    · constructor
      · intro h i
        have := h 1 (by simp) i .tm
        exact (pair_noResonance_iff (d₁ := d₁) (d₂ := d₂) (pol := .tm) hω h1 h2 (hq i).1 (hq i).2 (hq1 i) (hq2 i)).1 this
      · intro h n hn i pol
        have hn' : n = 0 ∨ n = 1 := by simp at hn; omega
        rcases hn' with rfl | rfl
        · intro ws first last hws hf hl ha hb w hmem
          obtain ⟨hs, -⟩ := hws
          simp only [zero_add, List.take_succ_cons, List.take_zero] at hs
          cases hs with
          | @cons _ w1 _ _ s1 hs =>
            cases hs
            simp only [List.head?_cons, Option.some.injEq, List.getLast?_singleton, List.mem_singleton] at hf hl hmem
            subst hf hl hmem
            exact ⟨ha, hb⟩
        · refine (pair_noResonance_iff (d₁ := d₁) (d₂ := d₂) (pol := pol) hω h1 h2 (hq i).1 (hq i).2 (hq1 i) (hq2 i)).2 ?_
          cases pol with
          | te => exact forward_add_ne (hq1 i) (hq2 i) (hq i).1
          | tm => exact h i
    · intro m hm i
      simp only [List.mem_cons, List.not_mem_nil, or_false] at hm
      rcases hm with rfl | rfl
      · exact graze hq1 i (hq i).1
      · exact graze hq2 i (hq i).2
  constructor
  · rintro ⟨S, hS⟩
    have hq : ∀ i, q₁ i ≠ 0 ∧ q₂ i ≠ 0 := by
      obtain ⟨solved, hsol, hS⟩ := hS
      cases hsol with
      | @cons _ l1 _ _ s1 hsol =>
        cases hsol with
        | @cons _ l2 _ _ s2 hsol =>
          cases hsol
          obtain ⟨w1, lam1, v1, -, k1, root1, M1⟩ := homogeneous_solved s1
          obtain ⟨w2, lam2, v2, -, k2, root2, M2⟩ := homogeneous_solved s2
          have e1 : orderWavevector l1 = k := by rw [k1] at hk; exact Except.ok.inj hk
          have e2 : orderWavevector l2 = k := by rw [k2] at hk; exact Except.ok.inj hk
          have f1 : ∀ i, l1.eigenvalues (.inl i) = q₁ i := fun i => isForwardRoot_unique (root1 i).1 (by rw [e1, omega, lam1]; exact hq1 i)
          have f2 : ∀ i, l2.eigenvalues (.inl i) = q₂ i := fun i => isForwardRoot_unique (root2 i).1 (by rw [e2, omega, lam2]; exact hq2 i)
          simp only [stackSMatrix, stackSMatrices, List.map_cons, List.map_nil, List.length_cons, List.length_nil, ne_eq, not_true_eq_false, if_false,
            List.zip_cons_cons, List.zip_nil_right, bind_eq_ok] at hS
          obtain ⟨_, ⟨_, hp, -⟩, -⟩ := hS
          unfold pairSMatrix at hp
          obtain ⟨I, hI, -⟩ := bind_eq_ok.1 hp
          obtain ⟨Ω, Ω', T1, T2, hΩ, -, hne, hu, -⟩ := interfaceMatrices_eq_ok hI
          intro i
          refine ⟨?_, by rw [← f2]; exact hne _⟩
          intro h0
          rw [(omegaScriptK_ok_iff.1 hΩ).2, v1, Matrix.mul_one, isUnit_iff_ne_zero, Ne, ← Matrix.exists_mulVec_eq_zero_iff] at hu
          apply hu
          obtain ⟨p, hp, hp0⟩ := exists_along .tm (orderWavevector l1 i)
          have hp : p.1 * ((orderWavevector l1 i).1 : ℂ) + p.2 * ((orderWavevector l1 i).2 : ℂ) = 0 := hp
          have hsq := (root1 i).1.1
          rw [f1, h0] at hsq
          have hsq' : (omega l1 : ℂ) ^ 2 = ((orderWavevector l1 i).1 : ℂ) ^ 2 / ε₁ + ((orderWavevector l1 i).2 : ℂ) ^ 2 / ε₁ := by
            field_simp
            linear_combination -hsq
          refine ⟨orderWave i p, ?_, ?_⟩
          · intro hz
            refine hp0 (Prod.ext ?_ ?_)
            · simpa [orderWave] using congrFun hz (.inl i)
            · simpa [orderWave] using congrFun hz (.inr i)
          · funext j
            simp only [Matrix.mulVec, dotProduct, sum_orderWave, M1]
            rcases j with j | j <;> by_cases hj : j = i <;> simp [hj, Matrix.diagonal_apply]
            · linear_combination p.1 * hsq' + (((orderWavevector l1 i).1 : ℂ) / ε₁) * hp
            · linear_combination p.2 * hsq' + (((orderWavevector l1 i).2 : ℂ) / ε₁) * hp
    intro i
    exact ⟨(hq i).1, (hq i).2, (main hq).1 ⟨S, hS⟩ i⟩
  · intro h
    exact (main fun i => ⟨(h i).1, (h i).2.1⟩).2 fun i => (h i).2.2

/-- **C93** Fresnel's equations: at an interface between homogeneous media every TE and TM plane wave is reflected and transmitted, from either side, with
the coefficients of Fresnel and the phases of the passage through the layers.  Their denominators do not vanish. -/
theorem C93_fresnel (hS : ComputedSMatrix eig c ([(ε₁, d₁), (ε₂, d₂)].map homogeneous) S)
    (hk : transverseWavevectors c.inPlaneWavevector c.lattice c.expansion = .ok k)
    (hq1 : ZWavenumbers c k ε₁ q₁) (hq2 : ZWavenumbers c k ε₂ q₂) {pol : Polarization} {i : ι} {p : ℂ × ℂ} (hp : pol.Along (k i) p) :
    S.s21 *ᵥ orderWave i p = (pol.reflection ε₁ (q₁ i) ε₂ (q₂ i) * Complex.exp (Complex.I * q₁ i * d₁)) • orderWave i p ∧
    S.s11 *ᵥ orderWave i p = (pol.transmission ε₁ (q₁ i) ε₂ (q₂ i) * Complex.exp (Complex.I * q₁ i * d₁)) • orderWave i p ∧
    S.s12 *ᵥ orderWave i p = (pol.reflection ε₂ (q₂ i) ε₁ (q₁ i) * Complex.exp (Complex.I * q₂ i * d₂)) • orderWave i p ∧
    S.s22 *ᵥ orderWave i p = (pol.transmission ε₂ (q₂ i) ε₁ (q₁ i) * Complex.exp (Complex.I * q₂ i * d₂)) • orderWave i p ∧
    pol.denominator ε₁ (q₁ i) ε₂ (q₂ i) ≠ 0 := by
  obtain ⟨hw, hε⟩ := computed_facts hS (by simp)
  have h1 : ε₁ ≠ 0 := hε (ε₁, d₁) (by simp)
  have h2 : ε₂ ≠ 0 := hε (ε₂, d₂) (by simp)
  have hq := (C93_interface_succeeds_iff hw hk h1 h2 hq1 hq2).1 ⟨S, hS⟩
  have hω : ((2 * Real.pi / c.wavelength : ℝ) : ℂ) ≠ 0 := by
    have : 2 * Real.pi / c.wavelength ≠ 0 := div_ne_zero (by positivity) hw
    exact_mod_cast this
  have hden : pol.denominator ε₁ (q₁ i) ε₂ (q₂ i) ≠ 0 := by
    cases pol with
    | te => exact forward_add_ne (hq1 i) (hq2 i) (hq i).1
    | tm => exact (hq i).2.2
  by_cases hp0 : p = 0
  · have e : orderWave i p = 0 := by
      funext j
      rcases j with j | j <;> simp [orderWave, hp0]
    simp [e, hden]
  have graze : ∀ {ε : ℂ} {q : ι → ℂ}, ZWavenumbers c k ε q → ∀ i, q i ≠ 0 →
      ε * ((2 * Real.pi / c.wavelength : ℝ) : ℂ) ^ 2 ≠ ((k i).1 : ℂ) ^ 2 + ((k i).2 : ℂ) ^ 2 := by
    intro ε q hq i h0 he
    refine h0 (pow_eq_zero_iff two_ne_zero |>.1 ((hq i).1.trans ?_))
    rw [he]
    ring
  have hg : ∀ m ∈ [(ε₁, d₁), (ε₂, d₂)], ∀ i, m.1 * ((2 * Real.pi / c.wavelength : ℝ) : ℂ) ^ 2 ≠ ((k i).1 : ℂ) ^ 2 + ((k i).2 : ℂ) ^ 2 := by
    intro m hm i
    simp only [List.mem_cons, List.not_mem_nil, or_false] at hm
    rcases hm with rfl | rfl
    · exact graze hq1 i (hq i).1
    · exact graze hq2 i (hq i).2.1
  have hZ := (impedance_add (pol := pol) hω h1 h2 (hq i).1 (hq i).2.1).2 hden
  have key : ∀ α β : ℂ, ∃ a b : ℂ,
      pol.impedance (2 * Real.pi / c.wavelength) ε₁ (q₁ i) * (Complex.exp (Complex.I * q₁ i * d₁) * α - b) =
        pol.impedance (2 * Real.pi / c.wavelength) ε₂ (q₂ i) * (a - Complex.exp (Complex.I * q₂ i * d₂) * β) ∧
      Complex.exp (Complex.I * q₁ i * d₁) * α + b = a + Complex.exp (Complex.I * q₂ i * d₂) * β ∧
      S.s11 *ᵥ (α • orderWave i p) + S.s12 *ᵥ (β • orderWave i p) = a • orderWave i p ∧
      S.s21 *ᵥ (α • orderWave i p) + S.s22 *ᵥ (β • orderWave i p) = b • orderWave i p := by
    intro α β
    obtain ⟨ws, ⟨hws, first, last, hf, hl, ha, hb, e1, e2⟩, -⟩ := C93_transmission_line hS hk hg hp hp0 α β
    obtain ⟨hs, hc⟩ := hws
    cases hs with
    | @cons _ w1 _ _ s1 hs =>
      cases hs with
      | @cons _ w2 _ _ s2 hs =>
        cases hs
        simp only [List.head?_cons, Option.some.injEq, List.getLast?_cons_cons, List.getLast?_singleton] at hf hl
        subst hf hl
        simp only [List.isChain_cons_cons, List.isChain_singleton, and_true] at hc
        obtain ⟨j1, j2⟩ := hc
        have k1 : w1.wavenumber = q₁ i := isForwardRoot_unique s1.wavenumber (hq1 i)
        have k2 : w2.wavenumber = q₂ i := isForwardRoot_unique s2.wavenumber (hq2 i)
        have l1 : w1.length = d₁ := s1.length
        have l2 : w2.length = d₂ := s2.length
        simp [LineState.electric, LineState.magnetic, ha, hb, s1.impedance, s2.impedance, k1, k2, l1, l2] at j1 j2
        exact ⟨w2.a, w1.b, by simpa using j1, by simpa using j2, e1, e2⟩
  have hZ' : pol.impedance (2 * Real.pi / c.wavelength) ε₂ (q₂ i) + pol.impedance (2 * Real.pi / c.wavelength) ε₁ (q₁ i) ≠ 0 := by rwa [add_comm]
  rw [reflection_impedance (ω := 2 * Real.pi / c.wavelength) hω h1 h2 (hq i).1 (hq i).2.1,
    transmission_impedance (ω := 2 * Real.pi / c.wavelength) hω h1 h2 (hq i).1 (hq i).2.1,
    reflection_impedance (ω := 2 * Real.pi / c.wavelength) hω h2 h1 (hq i).2.1 (hq i).1,
    transmission_impedance (ω := 2 * Real.pi / c.wavelength) hω h2 h1 (hq i).2.1 (hq i).1]
  generalize pol.impedance (2 * Real.pi / c.wavelength) ε₁ (q₁ i) = Z₁ at *
  generalize pol.impedance (2 * Real.pi / c.wavelength) ε₂ (q₂ i) = Z₂ at *
  generalize Complex.exp (Complex.I * q₁ i * d₁) = E₁ at *
  generalize Complex.exp (Complex.I * q₂ i * d₂) = E₂ at *
  obtain ⟨a, b, j1, j2, m1, m2⟩ := key 1 0
  obtain ⟨a', b', j1', j2', m1', m2'⟩ := key 0 1
  simp only [one_smul, zero_smul, Matrix.mulVec_zero, add_zero, zero_add, mul_one, mul_zero, sub_zero, zero_sub] at *
  refine ⟨?_, ?_, ?_, ?_, hden⟩
  · rw [m2]
    congr 1
    field_simp
    linear_combination -j1 + Z₂ * j2
  · rw [m1]
    congr 1
    field_simp
    linear_combination -j1 - Z₁ * j2
  · rw [m1']
    congr 1
    field_simp
    linear_combination -j1' - Z₁ * j2'
  · rw [m2']
    congr 1
    field_simp
    linear_combination -j1' + Z₂ * j2'

/-- **C93** Airy's formulas: a homogeneous slab between two homogeneous media reflects and transmits TE and TM plane waves with the coefficients that
result from the repeated reflections of Fresnel within the slab, whose series has a finite sum (the denominators do not vanish). -/
theorem C93_airy (hS : ComputedSMatrix eig c ([(ε₁, d₁), (ε₂, d₂), (ε₃, d₃)].map homogeneous) S)
    (hk : transverseWavevectors c.inPlaneWavevector c.lattice c.expansion = .ok k)
    (hq1 : ZWavenumbers c k ε₁ q₁) (hq2 : ZWavenumbers c k ε₂ q₂) (hq3 : ZWavenumbers c k ε₃ q₃) (hq : ∀ i, q₁ i ≠ 0 ∧ q₂ i ≠ 0 ∧ q₃ i ≠ 0)
    {pol : Polarization} {i : ι} {p : ℂ × ℂ} (hp : pol.Along (k i) p) (hp0 : p ≠ 0) (h23 : pol.denominator ε₂ (q₂ i) ε₃ (q₃ i) ≠ 0) :
    let r₁₂ := pol.reflection ε₁ (q₁ i) ε₂ (q₂ i)
    let r₂₃ := pol.reflection ε₂ (q₂ i) ε₃ (q₃ i)
    let t₁₂ := pol.transmission ε₁ (q₁ i) ε₂ (q₂ i)
    let t₂₃ := pol.transmission ε₂ (q₂ i) ε₃ (q₃ i)
    let e := Complex.exp (Complex.I * q₂ i * d₂)
    S.s21 *ᵥ orderWave i p = ((r₁₂ + r₂₃ * e ^ 2) / (1 + r₁₂ * r₂₃ * e ^ 2) * Complex.exp (Complex.I * q₁ i * d₁)) • orderWave i p ∧
    S.s11 *ᵥ orderWave i p = (t₁₂ * t₂₃ * e / (1 + r₁₂ * r₂₃ * e ^ 2) * Complex.exp (Complex.I * q₁ i * d₁)) • orderWave i p ∧
    pol.denominator ε₁ (q₁ i) ε₂ (q₂ i) ≠ 0 ∧ 1 + r₁₂ * r₂₃ * e ^ 2 ≠ 0 := by
  intro r₁₂ r₂₃ t₁₂ t₂₃ e
  obtain ⟨hw, hε⟩ := computed_facts hS (by simp)
  have h1 : ε₁ ≠ 0 := hε (ε₁, d₁) (by simp)
  have h2 : ε₂ ≠ 0 := hε (ε₂, d₂) (by simp)
  have h3 : ε₃ ≠ 0 := hε (ε₃, d₃) (by simp)
  have hω : ((2 * Real.pi / c.wavelength : ℝ) : ℂ) ≠ 0 := by
    have : 2 * Real.pi / c.wavelength ≠ 0 := div_ne_zero (by positivity) hw
    exact_mod_cast this
  have graze : ∀ {ε : ℂ} {q : ι → ℂ}, ZWavenumbers c k ε q → ∀ i, q i ≠ 0 →
      ε * ((2 * Real.pi / c.wavelength : ℝ) : ℂ) ^ 2 ≠ ((k i).1 : ℂ) ^ 2 + ((k i).2 : ℂ) ^ 2 := by
    intro ε q hq i h0 he
    refine h0 (pow_eq_zero_iff two_ne_zero |>.1 ((hq i).1.trans ?_))
    rw [he]
    ring
  have hg : ∀ m ∈ [(ε₁, d₁), (ε₂, d₂), (ε₃, d₃)], ∀ i, m.1 * ((2 * Real.pi / c.wavelength : ℝ) : ℂ) ^ 2 ≠ ((k i).1 : ℂ) ^ 2 + ((k i).2 : ℂ) ^ 2 := by
    intro m hm i
    simp only [List.mem_cons, List.not_mem_nil, or_false] at hm
    rcases hm with rfl | rfl | rfl
    · exact graze hq1 i (hq i).1
    · exact graze hq2 i (hq i).2.1
    · exact graze hq3 i (hq i).2.2
  have h12 : pol.denominator ε₁ (q₁ i) ε₂ (q₂ i) ≠ 0 := by
    have := (C93_succeeds_iff (by simp) hw hk hε hg).1 ⟨S, hS⟩ 1 (by simp) i pol
    exact (pair_noResonance_iff (d₁ := d₁) (d₂ := d₂) hω h1 h2 (hq i).1 (hq i).2.1 (hq1 i) (hq2 i)).1 this
  have key : ∃ b₁ a₂ b₂ a₃ : ℂ,
      pol.impedance (2 * Real.pi / c.wavelength) ε₁ (q₁ i) * (Complex.exp (Complex.I * q₁ i * d₁) - b₁) =
        pol.impedance (2 * Real.pi / c.wavelength) ε₂ (q₂ i) * (a₂ - e * b₂) ∧
      Complex.exp (Complex.I * q₁ i * d₁) + b₁ = a₂ + e * b₂ ∧
      pol.impedance (2 * Real.pi / c.wavelength) ε₂ (q₂ i) * (e * a₂ - b₂) =
        pol.impedance (2 * Real.pi / c.wavelength) ε₃ (q₃ i) * a₃ ∧
      e * a₂ + b₂ = a₃ ∧ S.s11 *ᵥ orderWave i p = a₃ • orderWave i p ∧ S.s21 *ᵥ orderWave i p = b₁ • orderWave i p := by
    obtain ⟨ws, ⟨hws, first, last, hf, hl, ha, hb, e1, e2⟩, -⟩ := C93_transmission_line hS hk hg hp hp0 1 0
    obtain ⟨hs, hc⟩ := hws
    cases hs with
    | @cons _ w1 _ _ s1 hs =>
      cases hs with
      | @cons _ w2 _ _ s2 hs =>
        cases hs with
        | @cons _ w3 _ _ s3 hs =>
          cases hs
          simp only [List.head?_cons, Option.some.injEq, List.getLast?_cons_cons, List.getLast?_singleton] at hf hl
          subst hf hl
          simp only [List.isChain_cons_cons, List.isChain_singleton, and_true] at hc
          obtain ⟨⟨j1, j2⟩, j3, j4⟩ := hc
          have k1 : w1.wavenumber = q₁ i := isForwardRoot_unique s1.wavenumber (hq1 i)
          have k2 : w2.wavenumber = q₂ i := isForwardRoot_unique s2.wavenumber (hq2 i)
          have k3 : w3.wavenumber = q₃ i := isForwardRoot_unique s3.wavenumber (hq3 i)
          have l1 : w1.length = d₁ := s1.length
          have l2 : w2.length = d₂ := s2.length
          simp only [LineState.electric, LineState.magnetic, ha, hb, s1.impedance, s2.impedance, s3.impedance, k1, k2, k3, l1, l2, sub_self, sub_zero,
            Complex.ofReal_zero, mul_zero, Complex.exp_zero, one_mul, mul_one, add_zero] at j1 j2 j3 j4
          simp only [one_smul, zero_smul, Matrix.mulVec_zero, add_zero] at e1 e2
          exact ⟨w1.b, w2.a, w2.b, w3.a, j1, j2, j3, j4, e1, e2⟩
  have hZ12 := (impedance_add (pol := pol) hω h1 h2 (hq i).1 (hq i).2.1).2 h12
  have hZ23 := (impedance_add (pol := pol) hω h2 h3 (hq i).2.1 (hq i).2.2).2 h23
  have hZ1 := impedance_ne (pol := pol) hω h1 (hq i).1
  have er12 : r₁₂ = _ := reflection_impedance (ω := 2 * Real.pi / c.wavelength) hω h1 h2 (hq i).1 (hq i).2.1
  have er23 : r₂₃ = _ := reflection_impedance (ω := 2 * Real.pi / c.wavelength) hω h2 h3 (hq i).2.1 (hq i).2.2
  have et12 : t₁₂ = _ := transmission_impedance (ω := 2 * Real.pi / c.wavelength) hω h1 h2 (hq i).1 (hq i).2.1
  have et23 : t₂₃ = _ := transmission_impedance (ω := 2 * Real.pi / c.wavelength) hω h2 h3 (hq i).2.1 (hq i).2.2
  have hE : Complex.exp (Complex.I * q₁ i * d₁) ≠ 0 := Complex.exp_ne_zero _
  generalize pol.impedance (2 * Real.pi / c.wavelength) ε₁ (q₁ i) = Z₁ at *
  generalize pol.impedance (2 * Real.pi / c.wavelength) ε₂ (q₂ i) = Z₂ at *
  generalize pol.impedance (2 * Real.pi / c.wavelength) ε₃ (q₃ i) = Z₃ at *
  generalize Complex.exp (Complex.I * q₁ i * d₁) = E₁ at *
  clear_value r₁₂ r₂₃ t₁₂ t₂₃ e
  -- the amplitudes in the slab
  have alg : ∀ b₁ a₂ b₂ a₃ : ℂ, Z₁ * (E₁ - b₁) = Z₂ * (a₂ - e * b₂) → E₁ + b₁ = a₂ + e * b₂ → Z₂ * (e * a₂ - b₂) = Z₃ * a₃ → e * a₂ + b₂ = a₃ →
      b₂ = r₂₃ * e * a₂ ∧ a₃ = t₂₃ * e * a₂ ∧ (1 + r₁₂ * r₂₃ * e ^ 2) * a₂ = t₁₂ * E₁ ∧ (1 + r₁₂ * r₂₃ * e ^ 2) * b₁ = (r₁₂ + r₂₃ * e ^ 2) * E₁ := by
    intro b₁ a₂ b₂ a₃ j1 j2 j3 j4
    have f1 : b₂ = r₂₃ * e * a₂ := by
      rw [er23]
      field_simp
      linear_combination -j3 + Z₃ * j4
    have f2 : a₃ = t₂₃ * e * a₂ := by
      rw [et23]
      field_simp
      linear_combination -j3 - Z₂ * j4
    have f3 : (1 + r₁₂ * r₂₃ * e ^ 2) * a₂ = t₁₂ * E₁ := by
      have : a₂ + r₁₂ * e * b₂ = t₁₂ * E₁ := by
        rw [er12, et12]
        field_simp
        linear_combination -j1 - Z₁ * j2
      rw [← this, f1]
      ring
    refine ⟨f1, f2, f3, ?_⟩
    have g : b₁ = r₁₂ * E₁ + (1 - r₁₂) * e * b₂ := by
      rw [er12]
      field_simp
      linear_combination -j1 + Z₂ * j2
    have ht : t₁₂ = 1 + r₁₂ := by
      rw [er12, et12]
      field_simp
      ring
    rw [g, f1]
    rw [ht] at f3
    linear_combination (1 - r₁₂) * e ^ 2 * r₂₃ * f3
  obtain ⟨b₁, a₂, b₂, a₃, j1, j2, j3, j4, m1, m2⟩ := key
  obtain ⟨-, f2, f3, f4⟩ := alg _ _ _ _ j1 j2 j3 j4
  have hne : 1 + r₁₂ * r₂₃ * e ^ 2 ≠ 0 := by
    intro h0
    rw [h0, zero_mul, et12] at f3
    exact mul_ne_zero (div_ne_zero (mul_ne_zero two_ne_zero hZ1) hZ12) hE f3.symm
  refine ⟨?_, ?_, h12, hne⟩
  · rw [m2]
    congr 1
    rw [div_mul_eq_mul_div, eq_div_iff hne]
    linear_combination f4
  · rw [m1, f2]
    congr 1
    rw [div_mul_eq_mul_div, eq_div_iff hne]
    linear_combination t₂₃ * e * f3

/-- **C93** Total internal reflection: a wave that propagates in medium 1 and decays in medium 2, both without loss, is reflected completely. -/
theorem C93_total_reflection {ω κ x₁ x₂ : ℝ} {q r : ℂ} (h1 : κ ^ 2 < x₁ * ω ^ 2) (h2 : x₂ * ω ^ 2 < κ ^ 2)
    (hq : IsForwardRoot (x₁ * (ω : ℂ) ^ 2 - (κ : ℂ) ^ 2) q) (hr : IsForwardRoot (x₂ * (ω : ℂ) ^ 2 - (κ : ℂ) ^ 2) r) (pol : Polarization)
    (hx : x₂ ≠ 0) : ‖pol.reflection x₁ q x₂ r‖ = 1 := by
  have hq' : q.im = 0 ∧ q.re ≠ 0 := by
    have e := hq.1
    have er := congrArg Complex.re e
    have ei := congrArg Complex.im e
    norm_cast at er ei
    simp [sq] at er ei
    have hi : q.im = 0 := by
      by_contra h0
      have : q.re = 0 := by
        have : q.re * q.im = 0 := by linarith
        exact (mul_eq_zero.1 this).resolve_right h0
      rw [this] at er
      nlinarith [sq_nonneg q.im]
    refine ⟨hi, fun h0 => ?_⟩
    rw [hi, h0] at er
    nlinarith
  have hr' : r.re = 0 ∧ r.im ≠ 0 := by
    have e := hr.1
    have er := congrArg Complex.re e
    have ei := congrArg Complex.im e
    norm_cast at er ei
    simp [sq] at er ei
    have hi : r.re = 0 := by
      by_contra h0
      have : r.im = 0 := by
        have : r.re * r.im = 0 := by linarith
        exact (mul_eq_zero.1 this).resolve_left h0
      rw [this] at er
      nlinarith [sq_nonneg r.re]
    refine ⟨hi, fun h0 => ?_⟩
    rw [hi, h0] at er
    nlinarith
  have key : ∀ u v : ℂ, u.im = 0 → v.re = 0 → u.re ≠ 0 → ‖(u - v) / (u + v)‖ = 1 := by
    intro u v hu hv hne
    have hn : ‖u + v‖ ≠ 0 := by
      rw [norm_ne_zero_iff]
      intro h0
      have := congrArg Complex.re h0
      simp [hv] at this
      exact hne this
    rw [norm_div, div_eq_one_iff_eq hn, ← sq_eq_sq₀ (norm_nonneg _) (norm_nonneg _), Complex.sq_norm, Complex.sq_norm, Complex.normSq_apply,
      Complex.normSq_apply]
    simp [hu, hv]
  cases pol with
  | te =>
    have := key q r hq'.1 hr'.1 hq'.2
    simp only [Polarization.reflection]
    rw [← this, norm_div, norm_div, norm_sub_rev]
  | tm =>
    refine key _ _ ?_ ?_ ?_
    · simp [hq'.1]
    · simp [hr'.1]
    · simp [hq'.1, hq'.2, hx]

/-- **C93** Brewster's angle: TM waves that propagate in two transparent media are not reflected exactly if the media are equal or
`κ² (ε₁ + ε₂) = ω² ε₁ ε₂`. -/
theorem C93_brewster {ω κ x₁ x₂ : ℝ} {q r : ℂ} (h1 : 0 < x₁) (h2 : 0 < x₂) (g1 : κ ^ 2 < x₁ * ω ^ 2) (g2 : κ ^ 2 < x₂ * ω ^ 2)
    (hq : IsForwardRoot (x₁ * (ω : ℂ) ^ 2 - (κ : ℂ) ^ 2) q) (hr : IsForwardRoot (x₂ * (ω : ℂ) ^ 2 - (κ : ℂ) ^ 2) r) :
    Polarization.tm.reflection x₁ q x₂ r = 0 ↔ x₁ = x₂ ∨ κ ^ 2 * (x₁ + x₂) = ω ^ 2 * (x₁ * x₂) := by
  have root : ∀ {x : ℝ} {q : ℂ}, κ ^ 2 < x * ω ^ 2 → IsForwardRoot (x * (ω : ℂ) ^ 2 - (κ : ℂ) ^ 2) q →
      q = (Real.sqrt (x * ω ^ 2 - κ ^ 2) : ℝ) := by
    intro x q h hq
    refine isForwardRoot_unique hq ⟨?_, by simp, fun _ => by simp⟩
    rw [← Complex.ofReal_pow, Real.sq_sqrt (by linarith)]
    push_cast
    ring
  have s1 : 0 < Real.sqrt (x₁ * ω ^ 2 - κ ^ 2) := Real.sqrt_pos.2 (by linarith)
  have s2 : 0 < Real.sqrt (x₂ * ω ^ 2 - κ ^ 2) := Real.sqrt_pos.2 (by linarith)
  have t1 := Real.sq_sqrt (show 0 ≤ x₁ * ω ^ 2 - κ ^ 2 by linarith)
  have t2 := Real.sq_sqrt (show 0 ≤ x₂ * ω ^ 2 - κ ^ 2 by linarith)
  rw [root g1 hq, root g2 hr]
  generalize Real.sqrt (x₁ * ω ^ 2 - κ ^ 2) = u at *
  generalize Real.sqrt (x₂ * ω ^ 2 - κ ^ 2) = v at *
  have hd : x₂ * u + x₁ * v ≠ 0 := by positivity
  have hd' : (x₂ * u + x₁ * v : ℂ) ≠ 0 := by exact_mod_cast hd
  simp only [Polarization.reflection, div_eq_zero_iff, hd', or_false]
  have e0 : (x₂ * u - x₁ * v : ℂ) = 0 ↔ x₂ * u - x₁ * v = 0 := by norm_cast
  rw [e0]
  have fac : (x₂ * u - x₁ * v) * (x₂ * u + x₁ * v) = (x₁ - x₂) * (κ ^ 2 * (x₁ + x₂) - ω ^ 2 * (x₁ * x₂)) := by
    linear_combination x₂ ^ 2 * t1 - x₁ ^ 2 * t2
  constructor
  · intro h
    rw [h, zero_mul] at fac
    rcases mul_eq_zero.1 fac.symm with h | h
    · exact .inl (by linarith)
    · exact .inr (by linarith)
  · intro h
    refine (mul_eq_zero.1 (fac.trans ?_)).resolve_right hd
    rcases h with h | h
    · rw [h, sub_self, zero_mul]
    · rw [h, sub_self, mul_zero]

/-! ### Examples -/

/-- Stacks of absorbing media are computed, at all wavevectors. -/
theorem absorbing_media (hw : 0 < c.wavelength) (hk : transverseWavevectors c.inPlaneWavevector c.lattice c.expansion = .ok k) (hne : media ≠ [])
    (hm : ∀ m ∈ media, 0 < m.1.im ∧ 0 ≤ m.2) :
    (∃ S, ComputedSMatrix eig c (media.map homogeneous) S) ∧
      ∀ m ∈ media, ∀ i, m.1 * ((2 * Real.pi / c.wavelength : ℝ) : ℂ) ^ 2 ≠ ((k i).1 : ℂ) ^ 2 + ((k i).2 : ℂ) ^ 2 := by
  have hε : ∀ m ∈ media, m.1 ≠ 0 := by
    intro m h h0
    have := (hm m h).1
    rw [h0] at this
    simp at this
  obtain ⟨solved, hsol⟩ := homogeneous_solvable (eig := eig) hw.ne' hk hε
  refine ⟨?_, ?_⟩
  · have hne' : solved ≠ [] := by
      rintro rfl
      cases hsol
      exact hne rfl
    have hlen := hsol.length_eq
    obtain ⟨M, h1, h2, hM⟩ := forall₂_pairs hsol
    obtain ⟨S, _, hS, -⟩ := C81_absorbing_stack (lam := c.wavelength) (layers := solved) (ds := media.map Prod.snd) hne' (by simpa using hlen.symm)
      (by
        intro l hl
        rw [← h2] at hl
        obtain ⟨x, hx, rfl⟩ := List.mem_map.1 hl
        exact (homogeneous_solved (hM x hx)).2.1)
      (by
        intro l hl
        rw [← h2] at hl
        obtain ⟨x, hx, rfl⟩ := List.mem_map.1 hl
        have h := hM x hx
        refine C81_uniform_absorbing hw (by simpa [homogeneous, StackLayer.solve, eigensolveIsotropicMedia] using h) (hm x.1 ?_).1
        rw [← h1]
        exact List.mem_map.2 ⟨x, hx, rfl⟩)
      (by
        intro d hd
        obtain ⟨m, h, rfl⟩ := List.mem_map.1 hd
        exact (hm m h).2)
    refine ⟨S, solved, by rw [List.forall₂_map_left_iff]; exact hsol, ?_⟩
    rw [List.map_map]
    exact hS
  · intro m h i h0
    have := congrArg Complex.im h0
    have hω : 0 < (2 * Real.pi / c.wavelength) ^ 2 := by positivity
    rw [← Complex.ofReal_pow, ← Complex.ofReal_pow, ← Complex.ofReal_pow, ← Complex.ofReal_add, Complex.im_mul_ofReal, Complex.ofReal_im] at this
    have := mul_pos (hm m h).1 hω
    linarith

namespace FresnelExample

/-- Four orders of an oblique lattice, at oblique incidence. -/
noncomputable def setup : Setup (Fin 4) := { wavelength := 1 / 2, inPlaneWavevector := (1, 2), lattice := obliqueLattice, expansion := exampleExpansion }

theorem wavevectors : ∃ k, transverseWavevectors setup.inPlaneWavevector setup.lattice setup.expansion = .ok k :=
  transverseWavevectors_exists _ _ _ (by norm_num [setup, obliqueLattice])

/-- Three absorbing threeMedia. -/
noncomputable def threeMedia : List (ℂ × ℝ) := [(1 + Complex.I, 1), (3 + 2 * Complex.I, 1 / 2), (2 + Complex.I, 0)]

theorem media_absorbing : ∀ m ∈ threeMedia, 0 < m.1.im ∧ 0 ≤ m.2 := by
  simp [threeMedia]

/-- The hypotheses of `C93_transmission_line` are met, for both polarisations of every order. -/
example : ∃ (eig : Matrix (Fin 4 ⊕ Fin 4) (Fin 4 ⊕ Fin 4) ℂ → _) (S : ScatteringMatrix (Fin 4)) (k : Fin 4 → ℝ × ℝ), IsEig eig ∧
    ComputedSMatrix eig setup (threeMedia.map homogeneous) S ∧
    transverseWavevectors setup.inPlaneWavevector setup.lattice setup.expansion = .ok k ∧
    (∀ m ∈ threeMedia, ∀ i, m.1 * ((2 * Real.pi / setup.wavelength : ℝ) : ℂ) ^ 2 ≠ ((k i).1 : ℂ) ^ 2 + ((k i).2 : ℂ) ^ 2) ∧
    ∀ (pol : Polarization) (i : Fin 4), ∃ p, pol.Along (k i) p ∧ p ≠ 0 := by
  obtain ⟨eig, he⟩ := exists_isEig (Fin 4 ⊕ Fin 4)
  obtain ⟨k, hk⟩ := wavevectors
  obtain ⟨⟨S, hS⟩, hg⟩ := absorbing_media (eig := eig) (by norm_num [setup]) hk (by simp [threeMedia]) media_absorbing
  exact ⟨eig, S, k, he, hS, hk, hg, fun pol i => exists_along pol (k i)⟩

/-- The hypotheses of `C93_airy` are met. -/
example : ∃ (eig : Matrix (Fin 4 ⊕ Fin 4) (Fin 4 ⊕ Fin 4) ℂ → _) (S : ScatteringMatrix (Fin 4)) (k : Fin 4 → ℝ × ℝ) (q₁ q₂ q₃ : Fin 4 → ℂ), IsEig eig ∧
    ComputedSMatrix eig setup (threeMedia.map homogeneous) S ∧
    transverseWavevectors setup.inPlaneWavevector setup.lattice setup.expansion = .ok k ∧
    ZWavenumbers setup k (1 + Complex.I) q₁ ∧ ZWavenumbers setup k (3 + 2 * Complex.I) q₂ ∧ ZWavenumbers setup k (2 + Complex.I) q₃ ∧
    (∀ i, q₁ i ≠ 0 ∧ q₂ i ≠ 0 ∧ q₃ i ≠ 0) ∧ ∀ (pol : Polarization) (i : Fin 4), pol.denominator (3 + 2 * Complex.I) (q₂ i) (2 + Complex.I) (q₃ i) ≠ 0 := by
  obtain ⟨eig, he⟩ := exists_isEig (Fin 4 ⊕ Fin 4)
  obtain ⟨k, hk⟩ := wavevectors
  obtain ⟨⟨S, hS⟩, hg⟩ := absorbing_media (eig := eig) (by norm_num [setup]) hk (by simp [threeMedia]) media_absorbing
  have root : ∀ ε : ℂ, ∃ q : Fin 4 → ℂ, ZWavenumbers setup k ε q := fun ε => ⟨_, fun i => selectEigenvaluesSign_forward _⟩
  obtain ⟨q₁, h1⟩ := root (1 + Complex.I)
  obtain ⟨q₂, h2⟩ := root (3 + 2 * Complex.I)
  obtain ⟨q₃, h3⟩ := root (2 + Complex.I)
  have nz : ∀ {m : ℂ × ℝ} {q : Fin 4 → ℂ}, m ∈ threeMedia → ZWavenumbers setup k m.1 q → ∀ i, q i ≠ 0 := by
    intro m q hm h i h0
    have := (h i).1
    rw [h0] at this
    exact hg m hm i (by linear_combination -this)
  refine ⟨eig, S, k, q₁, q₂, q₃, he, hS, hk, h1, h2, h3, fun i => ⟨nz (m := (1 + Complex.I, 1)) (by simp [threeMedia]) h1 i,
    nz (m := (3 + 2 * Complex.I, 1 / 2)) (by simp [threeMedia]) h2 i, nz (m := (2 + Complex.I, 0)) (by simp [threeMedia]) h3 i⟩, ?_⟩
  -- the second interface alone has no surface wave either
  obtain ⟨⟨S', hS'⟩, -⟩ := absorbing_media (eig := eig) (c := setup) (media := [(3 + 2 * Complex.I, (1 / 2 : ℝ)), (2 + Complex.I, (0 : ℝ))])
    (by norm_num [setup]) hk (by simp) (by simp)
  intro pol i
  obtain ⟨p, hp, -⟩ := exists_along pol (k i)
  exact (C93_fresnel hS' hk h2 h3 hp).2.2.2.2

/-- The hypotheses of `C93_total_reflection` and `C93_brewster` are met: glass to air beyond the critical angle, and air to glass at Brewster's angle. -/
example : (∃ q r : ℂ, IsForwardRoot ((4 : ℝ) * ((1 : ℝ) : ℂ) ^ 2 - ((3 / 2 : ℝ) : ℂ) ^ 2) q ∧ IsForwardRoot ((1 : ℝ) * ((1 : ℝ) : ℂ) ^ 2 - ((3 / 2 : ℝ) : ℂ) ^ 2) r ∧
    ‖Polarization.tm.reflection (4 : ℝ) q (1 : ℝ) r‖ = 1) ∧
    ∃ q r : ℂ, Polarization.tm.reflection (1 : ℝ) q (4 : ℝ) r = 0 ∧ IsForwardRoot ((1 : ℝ) * ((1 : ℝ) : ℂ) ^ 2 - ((Real.sqrt (4 / 5) : ℝ) : ℂ) ^ 2) q := by
  refine ⟨⟨_, _, selectEigenvaluesSign_forward _, selectEigenvaluesSign_forward _, ?_⟩, ⟨_, selectEigenvaluesSign (csqrt ((4 : ℝ) * ((1 : ℝ) : ℂ) ^ 2 - ((Real.sqrt (4 / 5) : ℝ) : ℂ) ^ 2)), ?_,
    selectEigenvaluesSign_forward _⟩⟩
  · exact C93_total_reflection (ω := 1) (κ := 3 / 2) (by norm_num) (by norm_num) (selectEigenvaluesSign_forward _) (selectEigenvaluesSign_forward _) .tm
      (by norm_num)
  · refine (C93_brewster (ω := 1) (κ := Real.sqrt (4 / 5)) (by norm_num) (by norm_num) ?_ ?_ (selectEigenvaluesSign_forward _)
      (selectEigenvaluesSign_forward _)).2 (.inr ?_) <;> rw [Real.sq_sqrt (by norm_num)] <;> norm_num

end FresnelExample

end Fmmax
