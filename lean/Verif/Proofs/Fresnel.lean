import Verif.Spec.Fresnel
import Verif.Props.Fields
import Verif.Props.Radiation
import Verif.Proofs.Intertwine

/-! Plane waves in stacks of homogeneous layers. -/

set_option linter.unusedSectionVars false

namespace Fmmax

open Matrix Spec

variable {ι : Type} [Fintype ι] [DecidableEq ι]

/-- A column and a row which single out one wave of a layer. -/
structure Ray (r : LayerSolveResult ι) (s : LineSection) (P : Matrix (ι ⊕ ι) Unit ℂ) (D : Matrix Unit (ι ⊕ ι) ℂ) : Prop where
  wellPosed : WellPosed r
  eigenvectors : r.eigenvectors = 1
  nonzero : ∀ i, r.eigenvalues i ≠ 0
  dual : D * P = 1
  electric : magneticToElectric r * P = ((omega r : ℂ) * s.wavenumber * s.impedance) • P
  electric' : D * magneticToElectric r = ((omega r : ℂ) * s.wavenumber * s.impedance) • D
  diagonal : ∀ f : ℂ → ℂ, Matrix.diagonal (fun i => f (r.eigenvalues i)) * P = f s.wavenumber • P
  diagonal' : ∀ f : ℂ → ℂ, D * Matrix.diagonal (fun i => f (r.eigenvalues i)) = f s.wavenumber • D
  wavenumber : s.wavenumber ≠ 0

/-- Amplitudes of a wave on a line as amplitudes of all modes. -/
def embed (r : LayerSolveResult ι) (P : Matrix (ι ⊕ ι) Unit ℂ) (w : LineState) : LayerState ι Unit :=
  { layer := r, thickness := w.length, a := w.a • P, b := w.b • P }

/-- The part of the amplitudes that belongs to one wave. -/
def project (s : LineSection) (D : Matrix Unit (ι ⊕ ι) ℂ) (x : LayerState ι Unit) : LineState :=
  { s with a := (D * x.a) () (), b := (D * x.b) () () }

theorem omega_ne {r : LayerSolveResult ι} (h : WellPosed r) : (omega r : ℂ) ≠ 0 := by
  have : omega r ≠ 0 := div_ne_zero (by positivity) h.1
  exact_mod_cast this

theorem Ray.fieldsAt {r : LayerSolveResult ι} {P : Matrix (ι ⊕ ι) Unit ℂ} {D : Matrix Unit (ι ⊕ ι) ℂ} {w : LineState}
    (h : Ray r w.toLineSection P D) (z : ℝ) : FieldsAt (embed r P w) z (w.electric z • P) (w.magnetic z • P) := by
  have hp : ∀ z : ℝ, propagator r z * P = Complex.exp (Complex.I * w.wavenumber * z) • P := fun z =>
    h.diagonal fun q => Complex.exp (Complex.I * q * z)
  have hω := omega_ne h.wellPosed
  have hi : Matrix.diagonal (fun i => ((omega r : ℂ) * r.eigenvalues i)⁻¹) * P = ((omega r : ℂ) * w.wavenumber)⁻¹ • P :=
    h.diagonal fun q => ((omega r : ℂ) * q)⁻¹
  refine ⟨h.wellPosed, h.nonzero, ?_, ?_⟩
  · simp only [embed, h.eigenvectors, Matrix.mul_one, Matrix.mul_smul, hp, Matrix.mul_sub, Matrix.mul_assoc, hi, h.electric, smul_smul, ← sub_smul,
      LineState.electric]
    congr 1
    have := h.wavenumber
    field_simp
  · simp only [embed, h.eigenvectors, Matrix.one_mul, Matrix.mul_smul, hp, smul_smul, ← add_smul, LineState.magnetic]
    congr 1
    ring

theorem Ray.project_fields {s : LineSection} {P : Matrix (ι ⊕ ι) Unit ℂ} {D : Matrix Unit (ι ⊕ ι) ℂ} {x : LayerState ι Unit}
    (h : Ray x.layer s P D) (hd : x.thickness = s.length) {z : ℝ} {e m : Matrix (ι ⊕ ι) Unit ℂ} (hx : FieldsAt x z e m) :
    (D * e) () () = (project s D x).electric z ∧ (D * m) () () = (project s D x).magnetic z := by
  obtain ⟨-, -, he, hm⟩ := hx
  have hp : ∀ z : ℝ, D * propagator x.layer z = Complex.exp (Complex.I * s.wavenumber * z) • D := fun z =>
    h.diagonal' fun q => Complex.exp (Complex.I * q * z)
  have hω := omega_ne h.wellPosed
  have hi : D * Matrix.diagonal (fun i => ((omega x.layer : ℂ) * x.layer.eigenvalues i)⁻¹) = ((omega x.layer : ℂ) * s.wavenumber)⁻¹ • D :=
    h.diagonal' fun q => ((omega x.layer : ℂ) * q)⁻¹
  rw [he, hm, h.eigenvectors, hd]
  simp only [Matrix.mul_one, Matrix.one_mul, ← Matrix.mul_assoc, h.electric', Matrix.smul_mul, hi, Matrix.mul_sub, Matrix.mul_add, hp, Matrix.sub_apply,
    Matrix.add_apply, Matrix.smul_apply, smul_eq_mul, LineState.electric, LineState.magnetic, project]
  have := h.wavenumber
  refine ⟨?_, trivial⟩
  field_simp

theorem Ray.unproject {r : LayerSolveResult ι} {s : LineSection} {P : Matrix (ι ⊕ ι) Unit ℂ} {D : Matrix Unit (ι ⊕ ι) ℂ} (h : Ray r s P D) (c : ℂ) :
    (D * (c • P)) () () = c := by
  rw [Matrix.mul_smul, h.dual]
  simp

/-! ### Uniform layers -/

/-- The wave of an order as a column. -/
def waveColumn (i : ι) (p : ℂ × ℂ) : Matrix (ι ⊕ ι) Unit ℂ := Matrix.of fun j _ => orderWave i p j

/-- The dual row. -/
noncomputable def waveRow (i : ι) (p : ℂ × ℂ) : Matrix Unit (ι ⊕ ι) ℂ :=
  Matrix.of fun _ j => (star p.1 * p.1 + star p.2 * p.2)⁻¹ * orderWave i (star p.1, star p.2) j

theorem sum_orderWave (i : ι) (p : ℂ × ℂ) (f : ι ⊕ ι → ℂ) : ∑ j, f j * orderWave i p j = f (.inl i) * p.1 + f (.inr i) * p.2 := by
  simp [orderWave, Fintype.sum_sum_type]

theorem sum_orderWave' (i : ι) (p : ℂ × ℂ) (f : ι ⊕ ι → ℂ) : ∑ j, orderWave i p j * f j = p.1 * f (.inl i) + p.2 * f (.inr i) := by
  simp [orderWave, Fintype.sum_sum_type]

theorem norm_ne_zero {p : ℂ × ℂ} (hp : p ≠ 0) : star p.1 * p.1 + star p.2 * p.2 ≠ 0 := by
  intro h
  have e : ((Complex.normSq p.1 + Complex.normSq p.2 : ℝ) : ℂ) = 0 := by
    rw [← h]
    push_cast
    rw [Complex.normSq_eq_conj_mul_self, Complex.normSq_eq_conj_mul_self]
    rfl
  have e' : Complex.normSq p.1 + Complex.normSq p.2 = 0 := by exact_mod_cast e
  have h1 := Complex.normSq_nonneg p.1
  have h2 := Complex.normSq_nonneg p.2
  exact hp (Prod.ext (Complex.normSq_eq_zero.1 (by linarith)) (Complex.normSq_eq_zero.1 (by linarith)))

theorem Spec.Polarization.Along.star {pol : Polarization} {k : ℝ × ℝ} {p : ℂ × ℂ} (h : pol.Along k p) : pol.Along k (star p.1, star p.2) := by
  cases pol with
  | te =>
    have := congrArg (starRingEnd ℂ) (show p.1 * k.2 = p.2 * k.1 from h)
    simpa [Polarization.Along] using this
  | tm =>
    have := congrArg (starRingEnd ℂ) (show p.1 * k.1 + p.2 * k.2 = 0 from h)
    simpa [Polarization.Along] using this

section uniform

variable {c : Setup ι} {m : ℂ × ℝ} {r : LayerSolveResult ι} {eig : Matrix (ι ⊕ ι) (ι ⊕ ι) ℂ → (ι ⊕ ι → ℂ) × Matrix (ι ⊕ ι) (ι ⊕ ι) ℂ}

/-- What the solver returns for a homogeneous layer. -/
theorem homogeneous_solved (h : (homogeneous m).solve eig c = .ok r) :
    WellPosed r ∧ r.wavelength = c.wavelength ∧ r.eigenvectors = 1 ∧ m.1 ≠ 0 ∧
    transverseWavevectors c.inPlaneWavevector c.lattice c.expansion = .ok (orderWavevector r) ∧
    (∀ i, IsForwardRoot (m.1 * (omega r : ℂ) ^ 2 - ((orderWavevector r i).1 : ℂ) ^ 2 - ((orderWavevector r i).2 : ℂ) ^ 2) (r.eigenvalues (.inl i)) ∧
      r.eigenvalues (.inr i) = r.eigenvalues (.inl i)) ∧
    magneticToElectric r = Matrix.fromBlocks
      (Matrix.diagonal fun i => (omega r : ℂ) ^ 2 - ((orderWavevector r i).2 : ℂ) ^ 2 / m.1)
      (Matrix.diagonal fun i => ((orderWavevector r i).1 : ℂ) * (orderWavevector r i).2 / m.1)
      (Matrix.diagonal fun i => ((orderWavevector r i).1 : ℂ) * (orderWavevector r i).2 / m.1)
      (Matrix.diagonal fun i => (omega r : ℂ) ^ 2 - ((orderWavevector r i).1 : ℂ) ^ 2 / m.1) := by
  have h : eigensolveUniformIsotropic c.wavelength c.inPlaneWavevector c.lattice m.1 c.expansion = .ok r := by
    simpa [homogeneous, StackLayer.solve, eigensolveIsotropicMedia] using h
  obtain ⟨k, w, hk, hw, hε, hr⟩ := eigensolveUniformIsotropic_ok_iff.1 h
  obtain ⟨hl, rfl⟩ := angularFrequency_eq_ok.1 hw
  have hkr : cellArea r ≠ 0 ∧ k = orderWavevector r := by
    have e : transverseWavevectors r.inPlaneWavevector r.primitiveLatticeVectors r.expansion = .ok k := by
      rw [hr]; exact hk
    exact transverseWavevectors_layer.1 e
  have hlam : r.wavelength = c.wavelength := by rw [hr]
  refine ⟨(uniform_modeEquation h).1, hlam, by rw [hr], hε, hkr.2 ▸ hk, ?_, ?_⟩
  · intro i
    have hω : (omega r : ℂ) = ((2 * Real.pi / c.wavelength : ℝ) : ℂ) := by rw [omega, hlam]
    have e1 : r.eigenvalues (.inl i) = selectEigenvaluesSign (csqrt (m.1 * (omega r : ℂ) ^ 2 - ((orderWavevector r i).1 : ℂ) ^ 2 -
        ((orderWavevector r i).2 : ℂ) ^ 2)) := by
      rw [← hkr.2, hω]
      conv_lhs => rw [hr]
      rfl
    have e2 : r.eigenvalues (.inr i) = r.eigenvalues (.inl i) := by rw [hr]; rfl
    refine ⟨?_, e2⟩
    rw [e1]
    exact selectEigenvaluesSign_forward _
  · have hM : r.transversePermeabilityMatrix = 1 := by rw [hr]
    have hz : r.zPermittivityMatrix⁻¹ = m.1⁻¹ • 1 := by
      rw [hr]
      refine Matrix.inv_eq_right_inv ?_
      rw [Matrix.smul_mul, Matrix.one_mul, smul_smul, mul_inv_cancel₀ hε, one_smul]
    unfold magneticToElectric
    simp only [hz, hM, Matrix.mul_one, Matrix.mul_smul, Matrix.smul_mul, Matrix.diagonal_mul_diagonal]
    ext i j
    rcases i with i | i <;> rcases j with j | j <;>
      simp only [Matrix.sub_apply, Matrix.smul_apply, Matrix.fromBlocks_apply₁₁, Matrix.fromBlocks_apply₁₂,
        Matrix.fromBlocks_apply₂₁, Matrix.fromBlocks_apply₂₂, Matrix.neg_apply, Matrix.diagonal_apply, Matrix.one_apply,
        smul_eq_mul, Sum.inl.injEq, Sum.inr.injEq, reduceCtorEq, if_false] <;>
      by_cases hij : i = j <;> simp [hij] <;> ring

theorem homogeneous_ray (h : (homogeneous m).solve eig c = .ok r) (hq : ∀ i, r.eigenvalues i ≠ 0) {k : ι → ℝ × ℝ}
    (hk : transverseWavevectors c.inPlaneWavevector c.lattice c.expansion = .ok k) {pol : Polarization} {i : ι} {p : ℂ × ℂ} (hp : pol.Along (k i) p)
    (hp0 : p ≠ 0) {s : LineSection} (hs : pol.IsSection (2 * Real.pi / c.wavelength) (k i) m s) : Ray r s (waveColumn i p) (waveRow i p) := by
  obtain ⟨hw, hlam, hv, hε, hkr, hroot, hM⟩ := homogeneous_solved h
  obtain rfl : orderWavevector r = k := by rw [hkr] at hk; exact Except.ok.inj hk
  have hω : (2 * Real.pi / c.wavelength) = omega r := by rw [omega, hlam]
  rw [hω] at hs
  have hq1 : r.eigenvalues (.inl i) = s.wavenumber := isForwardRoot_unique (hroot i).1 hs.wavenumber
  have hq2 : r.eigenvalues (.inr i) = s.wavenumber := (hroot i).2.trans hq1
  have hω0 := omega_ne hw
  have hq0 : s.wavenumber ≠ 0 := hq1 ▸ hq _
  have key : ∀ {p : ℂ × ℂ}, pol.Along (orderWavevector r i) p →
      ((omega r : ℂ) ^ 2 - ((orderWavevector r i).2 : ℂ) ^ 2 / m.1) * p.1 + ((orderWavevector r i).1 : ℂ) * (orderWavevector r i).2 / m.1 * p.2 =
        (omega r : ℂ) * s.wavenumber * s.impedance * p.1 ∧
      ((orderWavevector r i).1 : ℂ) * (orderWavevector r i).2 / m.1 * p.1 + ((omega r : ℂ) ^ 2 - ((orderWavevector r i).1 : ℂ) ^ 2 / m.1) * p.2 =
        (omega r : ℂ) * s.wavenumber * s.impedance * p.2 := by
    intro p hp
    rw [hs.impedance]
    have hsq := hs.wavenumber.1
    cases pol with
    | te =>
      have hp : p.1 * ((orderWavevector r i).2 : ℂ) = p.2 * ((orderWavevector r i).1 : ℂ) := hp
      have e : (omega r : ℂ) * s.wavenumber * ((omega r : ℂ) / s.wavenumber) = (omega r : ℂ) ^ 2 := by field_simp
      simp only [Polarization.impedance, e]
      constructor
      · linear_combination (-(((orderWavevector r i).2 : ℂ) / m.1)) * hp
      · linear_combination (((orderWavevector r i).1 : ℂ) / m.1) * hp
    | tm =>
      have hp : p.1 * ((orderWavevector r i).1 : ℂ) + p.2 * ((orderWavevector r i).2 : ℂ) = 0 := hp
      have e : (omega r : ℂ) * s.wavenumber * (s.wavenumber / (m.1 * (omega r : ℂ))) =
          (omega r : ℂ) ^ 2 - ((orderWavevector r i).1 : ℂ) ^ 2 / m.1 - ((orderWavevector r i).2 : ℂ) ^ 2 / m.1 := by
        field_simp
        rw [hsq]
        ring
      simp only [Polarization.impedance, e]
      constructor
      · linear_combination (((orderWavevector r i).1 : ℂ) / m.1) * hp
      · linear_combination (((orderWavevector r i).2 : ℂ) / m.1) * hp
  refine ⟨hw, hv, hq, ?_, ?_, ?_, ?_, ?_, hq0⟩
  · ext
    simp only [waveRow, waveColumn, Matrix.mul_apply, Matrix.of_apply, mul_assoc, ← Finset.mul_sum, sum_orderWave']
    simp only [orderWave, Sum.elim_inl, Sum.elim_inr, if_true, Matrix.one_apply, eq_self_iff_true]
    exact inv_mul_cancel₀ (norm_ne_zero hp0)
  · ext j u
    simp only [waveColumn, Matrix.mul_apply, Matrix.of_apply, sum_orderWave, Matrix.smul_apply, smul_eq_mul, hM]
    obtain ⟨k1, k2⟩ := key hp
    rcases j with j | j <;> by_cases hj : j = i <;> simp [orderWave, hj, Matrix.diagonal_apply]
    · exact k1
    · exact k2
  · ext u j
    simp only [waveRow, Matrix.mul_apply, Matrix.of_apply, mul_assoc, ← Finset.mul_sum, sum_orderWave', Matrix.smul_apply, smul_eq_mul, hM]
    obtain ⟨k1, k2⟩ := key hp.star
    simp only [← starRingEnd_apply] at k1 k2
    rcases eq_or_ne i (j.elim id id) with hj | hj
    · rcases j with j | j <;> obtain rfl : i = j := hj <;> simp [orderWave, Matrix.diagonal_apply]
      · linear_combination ((starRingEnd ℂ) p.1 * p.1 + (starRingEnd ℂ) p.2 * p.2)⁻¹ * k1
      · linear_combination ((starRingEnd ℂ) p.1 * p.1 + (starRingEnd ℂ) p.2 * p.2)⁻¹ * k2
    · rcases j with j | j <;> have hj : i ≠ j := hj <;> simp [orderWave, hj, hj.symm, Matrix.diagonal_apply]
  · intro f
    ext j u
    simp only [waveColumn, Matrix.diagonal_mul, Matrix.of_apply, Matrix.smul_apply, smul_eq_mul]
    rcases j with j | j <;> by_cases hj : j = i <;> simp [orderWave, hj, hq1, hq2]
  · intro f
    ext u j
    simp only [waveRow, Matrix.mul_diagonal, Matrix.of_apply, Matrix.smul_apply, smul_eq_mul]
    rcases j with j | j <;> by_cases hj : j = i <;> simp [orderWave, hj, hq1, hq2] <;> ring

end uniform

/-! ### Stacks -/

theorem forall₂_pairs {α β : Type} {R : α → β → Prop} {l : List α} {l' : List β} (h : List.Forall₂ R l l') :
    ∃ L : List (α × β), L.map Prod.fst = l ∧ L.map Prod.snd = l' ∧ ∀ x ∈ L, R x.1 x.2 := by
  induction h with
  | nil => exact ⟨[], rfl, rfl, by simp⟩
  | @cons a b l l' h _ ih =>
    obtain ⟨L, h1, h2, h3⟩ := ih
    refine ⟨(a, b) :: L, by simp [h1], by simp [h2], ?_⟩
    intro x hx
    rcases List.mem_cons.1 hx with rfl | hx
    · exact h
    · exact h3 x hx

theorem forall₂_of_map_eq {α β γ : Type} {f : α → γ} {g : β → γ} {l : List α} {l' : List β} (h : l.map f = l'.map g) :
    List.Forall₂ (fun a b => f a = g b) l l' := by
  rw [← List.forall₂_eq_eq_eq, List.forall₂_map_left_iff, List.forall₂_map_right_iff] at h
  exact h

section stack

variable {P : Matrix (ι ⊕ ι) Unit ℂ} {D : Matrix Unit (ι ⊕ ι) ℂ}

theorem embed_chain {L : List (LayerSolveResult ι × LineState)} (h : ∀ x ∈ L, Ray x.1 x.2.toLineSection P D)
    (hc : (L.map Prod.snd).IsChain LineState.Junction) : Consistent (L.map fun x => embed x.1 P x.2) := by
  unfold Consistent
  rw [List.isChain_map] at hc ⊢
  refine hc.imp_of_mem_imp ?_
  intro x y hx hy hj
  refine ⟨_, _, (h x hx).fieldsAt _, ?_⟩
  have := (h y hy).fieldsAt 0
  rw [← hj.1, ← hj.2] at this
  exact this

theorem project_chain {L : List (LineSection × LayerState ι Unit)} (h : ∀ x ∈ L, Ray x.2.layer x.1 P D ∧ x.2.thickness = x.1.length)
    (hc : Consistent (L.map Prod.snd)) : (L.map fun x => project x.1 D x.2).IsChain LineState.Junction := by
  unfold Consistent at hc
  rw [List.isChain_map] at hc ⊢
  refine hc.imp_of_mem_imp ?_
  intro x y hx hy hj
  obtain ⟨e, m, h1, h2⟩ := hj
  obtain ⟨a1, a2⟩ := (h x hx).1.project_fields (h x hx).2 h1
  obtain ⟨b1, b2⟩ := (h y hy).1.project_fields (h y hy).2 h2
  rw [(h x hx).2] at a1 a2
  exact ⟨a1.symm.trans b1, a2.symm.trans b2⟩

variable {c : Setup ι} {media : List (ℂ × ℝ)} {solved : List (LayerSolveResult ι)}
variable {eig : Matrix (ι ⊕ ι) (ι ⊕ ι) ℂ → (ι ⊕ ι → ℂ) × Matrix (ι ⊕ ι) (ι ⊕ ι) ℂ}
variable {k : ι → ℝ × ℝ} {pol : Polarization} {i : ι} {p : ℂ × ℂ}

theorem zip_eq_of_pairs {M : List ((ℂ × ℝ) × LayerSolveResult ι)} :
    (M.map Prod.snd).zip ((M.map Prod.fst).map Prod.snd) = M.map fun x => (x.2, x.1.2) := by
  induction M with
  | nil => rfl
  | cons x M ih => simp only [List.map_cons, List.zip_cons_cons, ih]

theorem waves_embed (hsol : List.Forall₂ (fun m r => (homogeneous m).solve eig c = .ok r) media solved)
    (hq : ∀ r ∈ solved, ∀ i, r.eigenvalues i ≠ 0) (hk : transverseWavevectors c.inPlaneWavevector c.lattice c.expansion = .ok k)
    (hp : pol.Along (k i) p) (hp0 : p ≠ 0) {ws : List LineState} (hw : pol.Waves (2 * Real.pi / c.wavelength) (k i) media ws) :
    ∃ L : List (LayerSolveResult ι × LineState), L.map Prod.snd = ws ∧
      geometry (L.map fun x => embed x.1 (waveColumn i p) x.2) = solved.zip (media.map Prod.snd) ∧
      Consistent (L.map fun x => embed x.1 (waveColumn i p) x.2) := by
  obtain ⟨M, rfl, rfl, hM⟩ := forall₂_pairs hsol
  obtain ⟨h1, h2⟩ := hw
  rw [List.forall₂_map_left_iff] at h1
  obtain ⟨N, rfl, rfl, hN⟩ := forall₂_pairs h1
  refine ⟨N.map fun x => (x.1.2, x.2), by simp, ?_, ?_⟩
  · rw [zip_eq_of_pairs]
    simp only [geometry, List.map_map]
    refine List.map_congr_left fun x hx => ?_
    simp only [Function.comp, embed, (hN x hx).length]
  · refine embed_chain (D := waveRow i p) ?_ (by simpa [List.map_map, Function.comp_def] using h2)
    intro x hx
    obtain ⟨y, hy, rfl⟩ := List.mem_map.1 hx
    have hyM : y.1 ∈ N.map Prod.fst := List.mem_map.2 ⟨y, hy, rfl⟩
    exact homogeneous_ray (hM _ hyM) (hq _ (List.mem_map.2 ⟨_, hyM, rfl⟩)) hk hp hp0 (hN y hy)

theorem waves_project (hsol : List.Forall₂ (fun m r => (homogeneous m).solve eig c = .ok r) media solved)
    (hq : ∀ r ∈ solved, ∀ i, r.eigenvalues i ≠ 0) (hk : transverseWavevectors c.inPlaneWavevector c.lattice c.expansion = .ok k)
    (hp : pol.Along (k i) p) (hp0 : p ≠ 0) {st : List (LayerState ι Unit)} (hg : geometry st = solved.zip (media.map Prod.snd)) (hc : Consistent st) :
    ∃ L : List (LineSection × LayerState ι Unit), L.map Prod.snd = st ∧
      pol.Waves (2 * Real.pi / c.wavelength) (k i) media (L.map fun x => project x.1 (waveRow i p) x.2) := by
  obtain ⟨M, rfl, rfl, hM⟩ := forall₂_pairs hsol
  rw [zip_eq_of_pairs, geometry] at hg
  obtain ⟨N, rfl, rfl, hN⟩ := forall₂_pairs (forall₂_of_map_eq hg.symm)
  have hsec : ∀ y ∈ N, ∃ s : LineSection, pol.IsSection (2 * Real.pi / c.wavelength) (k i) y.1.1 s ∧
      Ray y.2.layer s (waveColumn i p) (waveRow i p) ∧ y.2.thickness = s.length := by
    intro y hy
    have hyM : y.1 ∈ N.map Prod.fst := List.mem_map.2 ⟨y, hy, rfl⟩
    have hr := hM _ hyM
    obtain ⟨-, hlam, -, -, hkr, hroot, -⟩ := homogeneous_solved hr
    obtain rfl : orderWavevector y.1.2 = k := by rw [hkr] at hk; exact Except.ok.inj hk
    have hω : 2 * Real.pi / c.wavelength = omega y.1.2 := by rw [omega, hlam]
    have hs : pol.IsSection (2 * Real.pi / c.wavelength) (orderWavevector y.1.2 i) y.1.1
        ⟨pol.impedance (2 * Real.pi / c.wavelength) y.1.1.1 (y.1.2.eigenvalues (.inl i)), y.1.2.eigenvalues (.inl i), y.1.1.2⟩ :=
      ⟨by rw [hω]; exact (hroot i).1, rfl, rfl⟩
    have e := Prod.mk.inj (hN y hy)
    refine ⟨_, hs, ?_, e.2.symm⟩
    rw [← e.1]
    exact homogeneous_ray hr (hq _ (List.mem_map.2 ⟨_, hyM, rfl⟩)) hk hp hp0 hs
  haveI : Nonempty LineSection := ⟨⟨0, 0, 0⟩⟩
  choose! sec h1 h2 h3 using hsec
  refine ⟨N.map fun y => (sec y, y.2), by simp [List.map_map, Function.comp_def], ?_, ?_⟩
  · rw [List.map_map, List.map_map, List.forall₂_map_left_iff, List.forall₂_map_right_iff]
    rw [List.forall₂_same]
    intro y hy
    exact h1 y hy
  · refine project_chain (P := waveColumn i p) ?_ (by simpa [List.map_map, Function.comp_def] using hc)
    intro x hx
    obtain ⟨y, hy, rfl⟩ := List.mem_map.1 hx
    exact ⟨h2 y hy, h3 y hy⟩

theorem sections_ext {ω : ℝ} {κ : ℝ × ℝ} {media : List (ℂ × ℝ)} {ws ws' : List LineState}
    (h : List.Forall₂ (fun m w => pol.IsSection ω κ m w.toLineSection) media ws)
    (h' : List.Forall₂ (fun m w => pol.IsSection ω κ m w.toLineSection) media ws')
    (e : ws.map (fun w => (w.a, w.b)) = ws'.map fun w => (w.a, w.b)) : ws = ws' := by
  induction h generalizing ws' with
  | nil => cases h'; rfl
  | @cons m w l ws hm _ ih =>
    cases h' with
    | @cons _ w' _ ws' hm' h' =>
      simp only [List.map_cons, List.cons.injEq, Prod.mk.injEq] at e
      rw [ih h' e.2]
      congr 1
      obtain ⟨⟨Z, q, d⟩, a, b⟩ := w
      obtain ⟨⟨Z', q', d'⟩, a', b'⟩ := w'
      have h1 : q = q' := isForwardRoot_unique hm.wavenumber hm'.wavenumber
      have h2 : Z = pol.impedance ω m.1 q := hm.impedance
      have h3 : Z' = pol.impedance ω m.1 q' := hm'.impedance
      have h4 : d = m.2 := hm.length
      have h5 : d' = m.2 := hm'.length
      obtain ⟨⟨rfl, rfl⟩, -⟩ := e
      subst h1 h2 h4
      rw [h3, h5]

theorem waveColumn_smul_inj (hp0 : p ≠ 0) {x y : ℂ} (h : x • waveColumn i p = y • waveColumn i p) : x = y := by
  by_contra hne
  have hz : (x - y) • waveColumn i p = 0 := by rw [sub_smul, h, sub_self]
  have h0 : waveColumn i p = 0 := (smul_eq_zero.1 hz).resolve_left (sub_ne_zero.2 hne)
  refine hp0 (Prod.ext ?_ ?_)
  · simpa [waveColumn, orderWave] using congrFun (congrFun h0 (.inl i)) ()
  · simpa [waveColumn, orderWave] using congrFun (congrFun h0 (.inr i)) ()

theorem not_grazing (hsol : List.Forall₂ (fun m r => (homogeneous m).solve eig c = .ok r) media solved)
    (hk : transverseWavevectors c.inPlaneWavevector c.lattice c.expansion = .ok k)
    (hg : ∀ m ∈ media, ∀ i, m.1 * ((2 * Real.pi / c.wavelength : ℝ) : ℂ) ^ 2 ≠ ((k i).1 : ℂ) ^ 2 + ((k i).2 : ℂ) ^ 2) :
    ∀ r ∈ solved, r.wavelength = c.wavelength ∧ ∀ i, r.eigenvalues i ≠ 0 := by
  obtain ⟨M, rfl, rfl, hM⟩ := forall₂_pairs hsol
  intro r hr
  obtain ⟨x, hx, rfl⟩ := List.mem_map.1 hr
  obtain ⟨-, hlam, -, -, hkr, hroot, -⟩ := homogeneous_solved (hM x hx)
  obtain rfl : orderWavevector x.2 = k := by rw [hkr] at hk; exact Except.ok.inj hk
  refine ⟨hlam, ?_⟩
  have key : ∀ i, x.2.eigenvalues (.inl i) ≠ 0 := by
    intro i h0
    have := (hroot i).1.1
    rw [h0, omega, hlam] at this
    refine hg x.1 (List.mem_map.2 ⟨x, hx, rfl⟩) i ?_
    linear_combination -this
  rintro (i | i)
  · exact key i
  · rw [(hroot i).2]; exact key i

end stack

end Fmmax
