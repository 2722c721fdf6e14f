import Verif.Proofs.ReciprocityStack
import Verif.Props.Emission
import Verif.Props.Superposition
import Verif.Spec.EmissionReciprocity

/-! Reciprocity of emission: the Lorentz form of the fields of two sources. -/

set_option linter.unusedSectionVars false

namespace Fmmax

open Matrix Spec

variable {ι : Type} [Fintype ι] [DecidableEq ι] {β γ : Type} {c : Setup ι}
variable {eig : Matrix (ι ⊕ ι) (ι ⊕ ι) ℂ → (ι ⊕ ι → ℂ) × Matrix (ι ⊕ ι) (ι ⊕ ι) ℂ}

/-- The z components of fields in the layer `l'` of the reciprocal calculation. -/
structure ReciprocalZ (l l' : LayerSolveResult ι) : Prop where
  wavelength : l'.wavelength = l.wavelength
  wavevector : ∀ i, orderWavevector l' i = -orderWavevector l i
  inverse : l'.inverseZPermittivityMatrix = l.inverseZPermittivityMatrixᵀ

theorem ReciprocalZ.symm {l l' : LayerSolveResult ι} (h : ReciprocalZ l l') : ReciprocalZ l' l :=
  ⟨h.wavelength.symm, fun i => by rw [h.wavevector, neg_neg], by rw [h.inverse, transpose_transpose]⟩

/-! ### The jump of the Lorentz form -/

/-- The jump of the tangential fields. -/
noncomputable def jumpH (jx jy : Matrix ι β ℂ) : Matrix (ι ⊕ ι) β ℂ := fromRows jy (-jx)

noncomputable def jumpE (l : LayerSolveResult ι) (jz : Matrix ι β ℂ) : Matrix (ι ⊕ ι) β ℂ :=
  fromRows (-(Matrix.of fun i b => ((orderWavevector l i).2 / omega l : ℂ) * (l.inverseZPermittivityMatrix * jz) i b))
    (Matrix.of fun i b => ((orderWavevector l i).1 / omega l : ℂ) * (l.inverseZPermittivityMatrix * jz) i b)

theorem sourceJump_eq {jx jy jz : Matrix ι β ℂ} {s t : LayerState ι β} (h : SourceJump jx jy jz s t) :
    ∃ e m, FieldsAt s s.thickness e m ∧ FieldsAt t 0 (e + jumpE s.layer jz) (m + jumpH jx jy) := by
  obtain ⟨e, m, e', m', h1, h2, h3⟩ := h
  have k1 : e' = e + jumpE s.layer jz := by
    ext (i | i) b
    · have := (h3 i b).2.2.2
      simp only [jumpE, Matrix.add_apply, fromRows_apply_inl, Matrix.neg_apply, of_apply]
      rw [← this]
      ring
    · have := (h3 i b).2.2.1
      simp only [jumpE, Matrix.add_apply, fromRows_apply_inr, of_apply]
      rw [← this]
      ring
  have k2 : m' = m + jumpH jx jy := by
    ext (i | i) b
    · simp only [jumpH, Matrix.add_apply, fromRows_apply_inl, ← (h3 i b).1]
      ring
    · simp only [jumpH, Matrix.add_apply, fromRows_apply_inr, Matrix.neg_apply, ← (h3 i b).2.1]
      ring
  exact ⟨e, m, h1, k1 ▸ k2 ▸ h2⟩

/-- The reaction is the pairing of the fields with the jump. -/
theorem reaction_eq {l l' : LayerSolveResult ι} (h : ReciprocalZ l l') (e m : Matrix (ι ⊕ ι) γ ℂ) (jx jy jz : Matrix ι β ℂ) :
    reaction (fieldsOf l' e m) jx jy jz = mᵀ * jumpE l jz - eᵀ * jumpH jx jy := by
  have hω : omega l' = omega l := by unfold omega; rw [h.wavelength]
  have k1 : eᵀ * jumpH jx jy = -(fieldsOf l' e m).eyᵀ * jy - (fieldsOf l' e m).exᵀ * jx := by
    ext x y
    simp only [jumpH, Matrix.mul_apply, Matrix.sub_apply, Fintype.sum_sum_type, fromRows_apply_inl, fromRows_apply_inr, transpose_apply, Matrix.neg_apply, fieldsOf, of_apply,
      mul_neg, Finset.sum_neg_distrib, neg_neg]
    ring
  have k2 : mᵀ * jumpE l jz = (fieldsOf l' e m).ezᵀ * jz := by
    have e1 : (fieldsOf l' e m).ez = l'.inverseZPermittivityMatrix * Matrix.of fun i b => ((orderWavevector l i).1 / omega l : ℂ) * m (.inr i) b -
        ((orderWavevector l i).2 / omega l : ℂ) * m (.inl i) b := by
      ext i b
      simp only [fieldsOf, of_apply, Matrix.mul_apply, Matrix.neg_apply, Finset.sum_div, h.wavevector, hω]
      refine Finset.sum_congr rfl fun j _ => ?_
      by_cases h0 : (omega l : ℂ) = 0
      · simp [h0]
      · have := Complex.I_ne_zero
        push_cast [Prod.fst_neg, Prod.snd_neg]
        field_simp
        ring
    rw [e1, h.inverse, transpose_mul, transpose_transpose, Matrix.mul_assoc]
    unfold jumpE
    generalize l.inverseZPermittivityMatrix * jz = w
    ext x y
    simp only [Matrix.mul_apply, Fintype.sum_sum_type, fromRows_apply_inl, fromRows_apply_inr, transpose_apply, Matrix.neg_apply, of_apply, ← Finset.sum_add_distrib]
    refine Finset.sum_congr rfl fun j _ => ?_
    ring
  rw [k1, k2, reaction]
  simp only [Matrix.neg_mul]
  abel

/-! ### Layers -/

theorem numerical_fields {wavelength : ℝ} {k₀ : ℝ × ℝ} {lat : LatticeVectors} {m : FourierMatrices ι} {G : ι → ℤ × ℤ} {r : LayerSolveResult ι}
    (h : numericalEigensolve eig wavelength k₀ lat m G = .ok r) : r.wavelength = wavelength ∧ r.inPlaneWavevector = k₀ ∧ r.primitiveLatticeVectors = lat ∧
      r.expansion = G ∧ r.inverseZPermittivityMatrix = m.inverseZPermittivity ∧ cellArea r ≠ 0 := by
  obtain ⟨k, A, hk, hA, rfl⟩ := numericalEigensolve_ok_iff.1 h
  refine ⟨rfl, rfl, rfl, rfl, rfl, ?_⟩
  have : transverseWavevectors (solvedLayer wavelength k₀ lat m G (fun i => selectEigenvaluesSign (csqrt ((eig A).1 i))) (eig A).2).inPlaneWavevector
    (solvedLayer wavelength k₀ lat m G (fun i => selectEigenvaluesSign (csqrt ((eig A).1 i))) (eig A).2).primitiveLatticeVectors
    (solvedLayer wavelength k₀ lat m G (fun i => selectEigenvaluesSign (csqrt ((eig A).1 i))) (eig A).2).expansion = .ok k := hk
  exact (transverseWavevectors_layer.1 this).1

theorem reciprocalZ_of_fields {r r' : LayerSolveResult ι} (h : r.wavelength = c.wavelength ∧ r.inPlaneWavevector = c.inPlaneWavevector ∧
      r.primitiveLatticeVectors = c.lattice ∧ r.expansion = c.expansion ∧ cellArea r ≠ 0)
    (h' : r'.wavelength = c.reverse.wavelength ∧ r'.inPlaneWavevector = c.reverse.inPlaneWavevector ∧
      r'.primitiveLatticeVectors = c.reverse.lattice ∧ r'.expansion = c.reverse.expansion)
    (hi : r'.inverseZPermittivityMatrix = r.inverseZPermittivityMatrixᵀ) : ReciprocalZ r r' := by
  obtain ⟨a1, a2, a3, a4, a5⟩ := h
  obtain ⟨b1, b2, b3, b4⟩ := h'
  exact ⟨by rw [a1, b1]; rfl, orderWavevector_reverse a5 a2 b2 a3 b3 a4 b4, hi⟩

theorem isotropic_inverseZ {nx ny : ℕ} {lat : LatticeVectors} {ε : Grid nx ny} {G : ι → ℤ × ℤ} {f : Formulation nx ny ι} {m : FourierMatrices ι}
    (h : fourierMatricesPatternedIsotropic lat ε G f = .ok m) : ∃ η, recipGrid ε = .ok η ∧ m.inverseZPermittivity = convolution G η := by
  unfold fourierMatricesPatternedIsotropic at h
  simp only [bind_eq_ok, fourierConvolutionMatrix_ok_iff, ok_inj] at h
  obtain ⟨_, -, η, hη, _, ⟨-, rfl⟩, _, -, rfl⟩ := h
  exact ⟨η, hη, rfl⟩

theorem anisotropic_inverseZ {nx ny : ℕ} {lat : LatticeVectors} {ε μ : TensorComponents nx ny} {G : ι → ℤ × ℤ} {f : Formulation nx ny ι} {x : Grid nx ny} {m : FourierMatrices ι}
    (h : fourierMatricesPatternedAnisotropic lat ε μ G f x = .ok m) : ∃ η, recipGrid ε.zz = .ok η ∧ m.inverseZPermittivity = convolution G η := by
  unfold fourierMatricesPatternedAnisotropic at h
  simp only [bind_eq_ok, fourierConvolutionMatrix_ok_iff, ok_inj] at h
  obtain ⟨_, -, η, hη, _, ⟨-, rfl⟩, _, -, _, -, _, -, _, -, rfl⟩ := h
  exact ⟨η, hη, rfl⟩

theorem layer_reciprocalZ {p : StackLayer ι} {r r' : LayerSolveResult ι} (hr : p.solve eig c = .ok r) (hr' : p.transpose.solve eig c.reverse = .ok r') :
    ReciprocalZ r r' := by
  obtain ⟨nx, ny, med, d⟩ := p
  by_cases hn : nx = 1 ∧ ny = 1
  · obtain ⟨rfl, rfl⟩ := hn
    cases med with
    | isotropic ε f =>
      change eigensolveIsotropicMedia eig c.wavelength c.inPlaneWavevector c.lattice ε c.expansion f = .ok r at hr
      change eigensolveIsotropicMedia eig c.reverse.wavelength c.reverse.inPlaneWavevector c.reverse.lattice ε c.reverse.expansion f = .ok r' at hr'
      unfold eigensolveIsotropicMedia at hr hr'
      rw [dif_pos ⟨rfl, rfl⟩] at hr hr'
      have ha := (uniform_solvedFor hr).wellPosed.2.1
      obtain ⟨k, w, hk, hw, hε, er⟩ := eigensolveUniformIsotropic_ok_iff.1 hr
      obtain ⟨k', w', hk', hw', -, er'⟩ := eigensolveUniformIsotropic_ok_iff.1 hr'
      subst er'
      subst er
      exact reciprocalZ_of_fields ⟨rfl, rfl, rfl, rfl, ha⟩ ⟨rfl, rfl, rfl, rfl⟩ (by simp)
    | anisotropic ε μ f x =>
      change eigensolveGeneralAnisotropicMedia eig c.wavelength c.inPlaneWavevector c.lattice ε μ c.expansion f x = .ok r at hr
      change eigensolveGeneralAnisotropicMedia eig c.reverse.wavelength c.reverse.inPlaneWavevector c.reverse.lattice ε.transpose μ.transpose c.reverse.expansion f x = .ok r' at hr'
      unfold eigensolveGeneralAnisotropicMedia eigensolveUniformAnisotropic at hr hr'
      rw [dif_pos ⟨rfl, rfl⟩] at hr hr'
      obtain ⟨m, hm, hr⟩ := bind_eq_ok.1 hr
      obtain ⟨m', hm', hr'⟩ := bind_eq_ok.1 hr'
      obtain ⟨a1, a2, a3, a4, a5, a6⟩ := numerical_fields hr
      obtain ⟨b1, b2, b3, b4, b5, -⟩ := numerical_fields hr'
      refine reciprocalZ_of_fields ⟨a1, a2, a3, a4, a6⟩ ⟨b1, b2, b3, b4⟩ ?_
      rw [a5, b5]
      unfold fourierMatricesUniformAnisotropic at hm hm'
      split_ifs at hm hm' with h0 h1
      rw [ok_inj] at hm hm'
      rw [← hm, ← hm']
      simp only [diag_const, transpose_smul, transpose_one]
      rfl
  · cases med with
    | isotropic ε f =>
      change eigensolveIsotropicMedia eig c.wavelength c.inPlaneWavevector c.lattice ε c.expansion f = .ok r at hr
      change eigensolveIsotropicMedia eig c.reverse.wavelength c.reverse.inPlaneWavevector c.reverse.lattice ε c.reverse.expansion f = .ok r' at hr'
      unfold eigensolveIsotropicMedia eigensolvePatternedIsotropic at hr hr'
      rw [dif_neg hn] at hr hr'
      obtain ⟨m, hm, hr⟩ := bind_eq_ok.1 hr
      obtain ⟨m', hm', hr'⟩ := bind_eq_ok.1 hr'
      obtain ⟨a1, a2, a3, a4, a5, a6⟩ := numerical_fields hr
      obtain ⟨b1, b2, b3, b4, b5, -⟩ := numerical_fields hr'
      refine reciprocalZ_of_fields ⟨a1, a2, a3, a4, a6⟩ ⟨b1, b2, b3, b4⟩ ?_
      obtain ⟨η, hη, e1⟩ := isotropic_inverseZ hm
      obtain ⟨η', hη', e2⟩ := isotropic_inverseZ hm'
      rw [hη, ok_inj] at hη'
      rw [a5, b5, e1, e2, ← hη']
      exact convolution_reverse _ _
    | anisotropic ε μ f x =>
      change eigensolveGeneralAnisotropicMedia eig c.wavelength c.inPlaneWavevector c.lattice ε μ c.expansion f x = .ok r at hr
      change eigensolveGeneralAnisotropicMedia eig c.reverse.wavelength c.reverse.inPlaneWavevector c.reverse.lattice ε.transpose μ.transpose c.reverse.expansion f x = .ok r' at hr'
      unfold eigensolveGeneralAnisotropicMedia eigensolvePatternedAnisotropic at hr hr'
      rw [dif_neg hn] at hr hr'
      obtain ⟨m, hm, hr⟩ := bind_eq_ok.1 hr
      obtain ⟨m', hm', hr'⟩ := bind_eq_ok.1 hr'
      obtain ⟨a1, a2, a3, a4, a5, a6⟩ := numerical_fields hr
      obtain ⟨b1, b2, b3, b4, b5, -⟩ := numerical_fields hr'
      refine reciprocalZ_of_fields ⟨a1, a2, a3, a4, a6⟩ ⟨b1, b2, b3, b4⟩ ?_
      obtain ⟨η, hη, e1⟩ := anisotropic_inverseZ hm
      obtain ⟨η', hη', e2⟩ := anisotropic_inverseZ hm'
      have hη2 : recipGrid ε.zz = .ok η' := hη'
      rw [hη, ok_inj] at hη2
      rw [a5, b5, e1, e2, ← hη2]
      exact convolution_reverse _ _

/-- Layers of the two calculations. -/
def PairZ (p p' : LayerSolveResult ι × ℝ) : Prop := ReciprocalPair p p' ∧ ReciprocalZ p.1 p'.1

theorem layers_pairZ (he : IsEig eig) (hG : Function.Injective c.expansion) {layers : List (StackLayer ι)} {solved solved' : List (LayerSolveResult ι)}
    (hs : List.Forall₂ (fun p r => p.solve eig c = .ok r) layers solved)
    (hs' : List.Forall₂ (fun p r => p.solve eig c.reverse = .ok r) (layers.map StackLayer.transpose) solved') (hp : ∀ p ∈ layers, p.ConstantTangent c)
    (hc : ∀ p ∈ layers, ∀ r, p.solve eig c = .ok r → CompleteModes r) :
    List.Forall₂ PairZ (solved.zip (layers.map StackLayer.thickness)) (solved'.zip (layers.map StackLayer.thickness)) := by
  induction hs generalizing solved' with
  | nil =>
    cases hs'
    exact .nil
  | @cons p r ps rs hr _ ih =>
    cases hs' with
    | @cons _ r' _ rs' hr' hs' =>
      obtain ⟨r2, h1, h2⟩ := layer_reciprocal he hG (hp p (by simp)) hr (hc p (by simp) r hr)
      have : r2 = r' := by rw [hr'] at h1; exact (ok_inj.1 h1).symm
      subst this
      exact .cons ⟨⟨h2, rfl⟩, layer_reciprocalZ hr hr'⟩ (ih hs' (fun q hq => hp q (by simp [hq])) fun q hq => hc q (by simp [hq]))

/-! ### Two sources -/

theorem fieldsAt_unique {s : LayerState ι β} {z : ℝ} {e m e2 m2 : Matrix (ι ⊕ ι) β ℂ} (h : FieldsAt s z e m) (h2 : FieldsAt s z e2 m2) : e2 = e ∧ m2 = m :=
  ⟨h2.2.2.1.trans h.2.2.1.symm, h2.2.2.2.trans h.2.2.2.symm⟩

theorem forall₂_pair {A A' : List (LayerSolveResult ι × ℝ)} (h : List.Forall₂ PairZ A A') : List.Forall₂ ReciprocalPair A A' := h.imp fun _ _ h => h.1

theorem states_getLast {st : List (LayerState ι β)} {s : LayerState ι β} (h : st.getLast? = some s) : (geometry st).getLast? = some (s.layer, s.thickness) := by
  rw [geometry, List.getLast?_map, h]
  rfl

theorem states_head {st : List (LayerState ι β)} {s : LayerState ι β} (h : st.head? = some s) : (geometry st).head? = some (s.layer, s.thickness) := by
  rw [geometry, List.head?_map, h]
  rfl

theorem geometry_ne {st : List (LayerState ι β)} {A : List (LayerSolveResult ι × ℝ)} (h : geometry st = A) (hA : A ≠ []) : st ≠ [] := by
  rintro rfl
  exact hA h.symm

theorem emission_reciprocal {A B C A' B' C' : List (LayerSolveResult ι × ℝ)} (hA : List.Forall₂ PairZ A A') (hB : List.Forall₂ PairZ B B')
    (hC : List.Forall₂ PairZ C C') (hne : B ≠ []) {jx jy jz : Matrix ι β ℂ} {jx' jy' jz' : Matrix ι γ ℂ} {st st' : List (LayerState ι β)}
    {first s t last : LayerState ι β} (h : IsEmission A (B ++ C) jx jy jz st st' first s t last) {su su' : List (LayerState ι γ)}
    {first' s' t' last' : LayerState ι γ} (h' : IsEmission (A' ++ B') C' jx' jy' jz' su su' first' s' t' last') {v : LayerState ι γ}
    (hv : su[A.length - 1]? = some v) {w : LayerState ι β} (hw : st'[B.length - 1]? = some w) {e1 m1 : Matrix (ι ⊕ ι) γ ℂ} {e2 m2 : Matrix (ι ⊕ ι) β ℂ}
    (f1 : FieldsAt v v.thickness e1 m1) (f2 : FieldsAt w w.thickness e2 m2) :
    reaction (fieldsOf v.layer e1 m1) jx jy jz = (reaction (fieldsOf w.layer e2 m2) jx' jy' jz')ᵀ := by
  obtain ⟨u1, u2, rfl, gu1, gu2⟩ := List.map_eq_append_iff.1 h'.geometry_before
  obtain ⟨t1, t2, rfl, gt1, gt2⟩ := List.map_eq_append_iff.1 h.geometry_after
  change geometry u1 = A' at gu1
  change geometry u2 = B' at gu2
  change geometry t1 = B at gt1
  change geometry t2 = C at gt2
  have gst := h.geometry_before
  have gsu := h'.geometry_after
  -- no part is empty
  have nst : st ≠ [] := by rintro rfl; exact absurd h.head_before (by simp)
  have nsu : su' ≠ [] := by rintro rfl; exact absurd h'.head_after (by simp)
  have lu1 : u1.length = A.length := by
    have := congrArg List.length gu1
    rw [geometry, List.length_map] at this
    rw [this, hA.length_eq]
  have lst : st.length = A.length := by
    have := congrArg List.length gst
    rwa [geometry, List.length_map] at this
  have lt1 : t1.length = B.length := by
    have := congrArg List.length gt1
    rwa [geometry, List.length_map] at this
  have nu1 : u1 ≠ [] := by
    rintro rfl
    have := List.length_pos_of_ne_nil nst
    rw [List.length_nil] at lu1
    omega
  have nB' : B' ≠ [] := by
    rintro rfl
    exact hne (List.forall₂_nil_right_iff.1 hB)
  have nu2 : u2 ≠ [] := geometry_ne gu2 nB'
  have nt1 : t1 ≠ [] := geometry_ne gt1 hne
  have nC : C ≠ [] := by
    rintro rfl
    have := gsu
    rw [List.forall₂_nil_left_iff.1 hC] at this
    exact nsu (List.map_eq_nil_iff.1 this)
  have nt2 : t2 ≠ [] := geometry_ne gt2 nC
  have hv1 : u1.getLast? = some v := by
    rw [List.getElem?_append_left (by have := List.length_pos_of_ne_nil nu1; omega)] at hv
    rw [List.getLast?_eq_getElem?, lu1]
    exact hv
  have hw1 : t1.getLast? = some w := by
    rw [List.getElem?_append_left (by have := List.length_pos_of_ne_nil nt1; omega)] at hw
    rw [List.getLast?_eq_getElem?, lt1]
    exact hw
  obtain ⟨v2, hv2⟩ : ∃ v2, u2.head? = some v2 := ⟨_, List.head?_eq_some_head nu2⟩
  obtain ⟨w2, hw2⟩ : ∃ w2, t2.head? = some w2 := ⟨_, List.head?_eq_some_head nt2⟩
  have hfirst' : u1.head? = some first' := by
    have := h'.head_before
    rwa [List.head?_append_of_ne_nil _ nu1] at this
  have hs' : u2.getLast? = some s' := by
    have := h'.last_before
    rwa [List.getLast?_append_of_ne_nil _ nu2] at this
  have ht : t1.head? = some t := by
    have := h.head_after
    rwa [List.head?_append_of_ne_nil _ nt1] at this
  have hlast : t2.getLast? = some last := by
    have := h.last_after
    rwa [List.getLast?_append_of_ne_nil _ nt2] at this
  have hcu := h'.consistent_before
  have hct := h.consistent_after
  rw [Consistent, List.isChain_append] at hcu hct
  obtain ⟨cu1, cu2, cu3⟩ := hcu
  obtain ⟨ct1, ct2, ct3⟩ := hct
  -- constancy of the Lorentz form
  have rA : List.Forall₂ ReciprocalPair (geometry st) (geometry u1) := by rw [gst, gu1]; exact forall₂_pair hA
  have rB : List.Forall₂ ReciprocalPair (geometry t1) (geometry u2) := by rw [gt1, gu2]; exact forall₂_pair hB
  have rC : List.Forall₂ ReciprocalPair (geometry t2) (geometry su') := by rw [gt2, gsu]; exact forall₂_pair hC
  have kA := stateLorentz_ends h.consistent_before cu1 rA h.head_before h.last_before hfirst' hv1
  have kB := stateLorentz_ends ct1 cu2 rB ht hw1 hv2 hs'
  have kC := stateLorentz_ends ct2 h'.consistent_after rC hw2 hlast h'.head_after h'.last_after
  have zA : stateLorentz first first' = 0 := by
    unfold stateLorentz
    rw [h.no_incoming_before, h'.no_incoming_before]
    simp
  have zC : stateLorentz last last' = 0 := by
    unfold stateLorentz
    rw [h.no_incoming_after, h'.no_incoming_after]
    simp
  rw [zA] at kA
  rw [zC] at kC
  -- pairs of layers
  have pA : PairZ (s.layer, s.thickness) (v.layer, v.thickness) :=
    forall₂_getLast hA _ (by rw [← gst]; exact states_getLast h.last_before) _ (by rw [← gu1]; exact states_getLast hv1)
  have pB : PairZ (w.layer, w.thickness) (s'.layer, s'.thickness) :=
    forall₂_getLast hB _ (by rw [← gt1]; exact states_getLast hw1) _ (by rw [← gu2]; exact states_getLast hs')
  have pB0 : PairZ (t.layer, t.thickness) (v2.layer, v2.thickness) :=
    forall₂_head hB _ (by rw [← gt1]; exact states_head ht) _ (by rw [← gu2]; exact states_head hv2)
  have pC : PairZ (w2.layer, w2.thickness) (t'.layer, t'.thickness) :=
    forall₂_head hC _ (by rw [← gt2]; exact states_head hw2) _ (by rw [← gsu]; exact states_head h'.head_after)
  have dA : v.thickness = s.thickness := pA.1.2
  have dB : s'.thickness = w.thickness := pB.1.2
  -- the first source
  obtain ⟨e, m, g1, g2⟩ := sourceJump_eq h.jump
  obtain ⟨x, y, i1, i2⟩ := cu3 v hv1 v2 hv2
  obtain ⟨rfl, rfl⟩ := fieldsAt_unique f1 i1
  have l1 : lorentz e m x y = 0 := by
    rw [stateLorentz_eq pA.1.1 pA.1.2 g1 (dA ▸ i1), ← kA]
  have l2 : lorentz (e + jumpE s.layer jz) (m + jumpH jx jy) x y = stateLorentz t v2 := stateLorentz_eq pB0.1.1 pB0.1.2 g2 i2
  -- the second source
  obtain ⟨e', m', g1', g2'⟩ := sourceJump_eq h'.jump
  obtain ⟨x', y', i1', i2'⟩ := ct3 w hw1 w2 hw2
  obtain ⟨rfl, rfl⟩ := fieldsAt_unique f2 i1'
  have l3 : lorentz x' y' e' m' = stateLorentz w s' := stateLorentz_eq pB.1.1 pB.1.2 i1' (dB ▸ g1')
  have l4 : lorentz x' y' (e' + jumpE s'.layer jz') (m' + jumpH jx' jy') = 0 := by
    rw [stateLorentz_eq pC.1.1 pC.1.2 i2' g2', kC]
  rw [reaction_eq pA.2, reaction_eq pB.2.symm]
  unfold lorentz at l1 l2 l3 l4
  rw [kB] at l2
  have q1 : yᵀ * jumpE s.layer jz - xᵀ * jumpH jx jy = -stateLorentz w s' := by
    rw [← l2, Matrix.mul_add, Matrix.mul_add]
    rw [sub_eq_zero] at l1
    rw [l1]
    abel
  have q2 : (y'ᵀ * jumpE s'.layer jz' - x'ᵀ * jumpH jx' jy')ᵀ = -stateLorentz w s' := by
    rw [transpose_add, transpose_add, Matrix.add_mul, Matrix.add_mul] at l4
    rw [transpose_sub, transpose_mul, transpose_mul, transpose_transpose, transpose_transpose, ← l3]
    have : (jumpE s'.layer jz')ᵀ * y' - (jumpH jx' jy')ᵀ * x' = (e'ᵀ * y' + (jumpE s'.layer jz')ᵀ * y' - (m'ᵀ * x' + (jumpH jx' jy')ᵀ * x')) - (e'ᵀ * y' - m'ᵀ * x') := by abel
    rw [this, l4, zero_sub]
  rw [q1, q2]

/-- Both sources in the same plane. -/
theorem emission_reciprocal_plane {A C A' C' : List (LayerSolveResult ι × ℝ)} (hA : List.Forall₂ PairZ A A') (hC : List.Forall₂ PairZ C C')
    {jx jy jz : Matrix ι β ℂ} {jx' jy' jz' : Matrix ι γ ℂ} {st st' : List (LayerState ι β)}
    {first s t last : LayerState ι β} (h : IsEmission A C jx jy jz st st' first s t last) {su su' : List (LayerState ι γ)}
    {first' s' t' last' : LayerState ι γ} (h' : IsEmission A' C' jx' jy' jz' su su' first' s' t' last')
    {e1 m1 : Matrix (ι ⊕ ι) γ ℂ} {e2 m2 : Matrix (ι ⊕ ι) β ℂ} (f1 : FieldsAt s' s'.thickness e1 m1) (f2 : FieldsAt s s.thickness e2 m2) :
    reaction (fieldsOf s'.layer e1 m1) jx jy jz - (reaction (fieldsOf s.layer e2 m2) jx' jy' jz')ᵀ =
      (jumpE s'.layer jz')ᵀ * jumpH jx jy - (jumpH jx' jy')ᵀ * jumpE s.layer jz := by
  have rA : List.Forall₂ ReciprocalPair (geometry st) (geometry su) := by rw [h.geometry_before, h'.geometry_before]; exact forall₂_pair hA
  have rC : List.Forall₂ ReciprocalPair (geometry st') (geometry su') := by rw [h.geometry_after, h'.geometry_after]; exact forall₂_pair hC
  have kA := stateLorentz_ends h.consistent_before h'.consistent_before rA h.head_before h.last_before h'.head_before h'.last_before
  have kC := stateLorentz_ends h.consistent_after h'.consistent_after rC h.head_after h.last_after h'.head_after h'.last_after
  have zA : stateLorentz first first' = 0 := by
    unfold stateLorentz
    rw [h.no_incoming_before, h'.no_incoming_before]
    simp
  have zC : stateLorentz last last' = 0 := by
    unfold stateLorentz
    rw [h.no_incoming_after, h'.no_incoming_after]
    simp
  rw [zA] at kA
  rw [zC] at kC
  have pA : PairZ (s.layer, s.thickness) (s'.layer, s'.thickness) :=
    forall₂_getLast hA _ (by rw [← h.geometry_before]; exact states_getLast h.last_before) _ (by rw [← h'.geometry_before]; exact states_getLast h'.last_before)
  have pC : PairZ (t.layer, t.thickness) (t'.layer, t'.thickness) :=
    forall₂_head hC _ (by rw [← h.geometry_after]; exact states_head h.head_after) _ (by rw [← h'.geometry_after]; exact states_head h'.head_after)
  have dA : s'.thickness = s.thickness := pA.1.2
  obtain ⟨e, m, g1, g2⟩ := sourceJump_eq h.jump
  obtain ⟨e', m', g1', g2'⟩ := sourceJump_eq h'.jump
  obtain ⟨rfl, rfl⟩ := fieldsAt_unique g1 f2
  obtain ⟨rfl, rfl⟩ := fieldsAt_unique g1' f1
  have l1 : lorentz e2 m2 e1 m1 = 0 := by
    rw [stateLorentz_eq pA.1.1 pA.1.2 g1 (dA ▸ g1'), ← kA]
  have l2 : lorentz (e2 + jumpE s.layer jz) (m2 + jumpH jx jy) (e1 + jumpE s'.layer jz') (m1 + jumpH jx' jy') = 0 := by
    rw [stateLorentz_eq pC.1.1 pC.1.2 g2 g2', kC]
  rw [reaction_eq pA.2, reaction_eq pA.2.symm]
  unfold lorentz at l1 l2
  rw [transpose_add, transpose_add] at l2
  simp only [Matrix.add_mul, Matrix.mul_add] at l2
  rw [transpose_sub, transpose_mul, transpose_mul, transpose_transpose, transpose_transpose]
  rw [← sub_eq_zero, ← neg_eq_zero]
  rw [← sub_eq_zero.2 (l2.trans l1.symm)]
  abel

/-! ### From the calculation to the states -/

theorem emitted_states (he : IsEig eig) {before after : List (StackLayer ι)} {jx jy jz : Matrix ι β ℂ} {n : ℕ} {F : Fields (Matrix ι β ℂ)}
    (h : EmittedFields eig c before after jx jy jz n F) (hq : ∀ p ∈ before ++ after, ∀ r, p.solve eig c = .ok r → ∀ i, r.eigenvalues i ≠ 0) :
    ∃ lb la st st' first s t last x e m, List.Forall₂ (fun p r => p.solve eig c = .ok r) before lb ∧ List.Forall₂ (fun p r => p.solve eig c = .ok r) after la ∧
      IsEmission (lb.zip (before.map StackLayer.thickness)) (la.zip (after.map StackLayer.thickness)) jx jy jz st st' first s t last ∧
      (st ++ st')[n]? = some x ∧ FieldsAt x x.thickness e m ∧ F = fieldsOf x.layer e m := by
  obtain ⟨lb, la, sb, sa, ib, ia, source, amps, l, d, x, h1, h2, h3, h4, h5, h6, h7, h8, h9, h10, h11, h12⟩ := h
  have reg : ∀ {ps : List (StackLayer ι)} {rs : List (LayerSolveResult ι)}, List.Forall₂ (fun p r => p.solve eig c = .ok r) ps rs →
      (∀ p ∈ ps, p ∈ before ++ after) → Regular c.wavelength (rs.zip (ps.map StackLayer.thickness)) := by
    intro ps rs hs hin q hq'
    obtain ⟨p, hp, hr⟩ := forall₂_mem_right hs q.1 (List.of_mem_zip hq').1
    exact ⟨solve_wavelength he hr, hq p (hin p hp) _ hr⟩
  have rb := reg h1 fun p hp => List.mem_append_left _ hp
  have ra := reg h2 fun p hp => List.mem_append_right _ hp
  have Sb := stackSMatrix_spec rb h3
  have Sa := stackSMatrix_spec ra h4
  have hlam : sb.endLayer.wavelength = sa.startLayer.wavelength := by
    rw [(rb _ (List.mem_of_getLast? Sb.finish)).1, (ra _ (List.mem_of_head? Sa.start)).1]
  obtain ⟨st, st', first, s, t, last, hE, -, -, e3, e4, -, -⟩ := C49_source_sound Sb Sa hlam h7
  have k1 := C40_recovers_consistent_amplitudes rb h5 hE.geometry_before hE.consistent_before hE.head_before hE.last_before
  have k2 := C40_recovers_consistent_amplitudes ra h6 hE.geometry_after hE.consistent_after hE.head_after hE.last_after
  rw [hE.no_incoming_before, e3] at k1
  rw [hE.no_incoming_after, e4] at k2
  unfold stackAmplitudesInteriorWithSource at h8
  rw [k1, k2] at h8
  simp only [Bind.bind, Except.bind, ok_inj] at h8
  subst h8
  rw [← List.map_append, List.getElem?_map, Option.map_eq_some_iff] at h11
  obtain ⟨y, hy, rfl⟩ := h11
  have hg : geometry (st ++ st') = (lb ++ la).zip ((before ++ after).map StackLayer.thickness) := by
    rw [geometry_append, hE.geometry_before, hE.geometry_after, List.map_append, List.zip_append (by rw [List.length_map, h1.length_eq])]
  have hgy : (geometry (st ++ st'))[n]? = some (y.layer, y.thickness) := by
    rw [geometry, List.getElem?_map, hy]
    rfl
  rw [hg, List.getElem?_zip_eq_some, h9, h10] at hgy
  obtain ⟨e5, e6⟩ := hgy
  simp only [Option.some.injEq] at e5 e6
  subst e5 e6
  obtain ⟨w1, w2, rfl⟩ := fieldsFromWaveAmplitudes_eq_ok.1 h12
  refine ⟨lb, la, st, st', first, s, t, last, y, _, _, h1, h2, hE, hy, ⟨w1, w2, rfl, rfl⟩, ?_⟩
  have p1 : ∀ (a : Matrix (ι ⊕ ι) β ℂ) (z : ℝ), propagateAmplitude a (fun _ => z) y.layer = propagator y.layer z * a := by
    intro a z
    ext i b
    simp only [propagateAmplitude, propagator, of_apply, diagonal_mul]
    ring
  simp only [colocateAmplitudes, p1]
  rfl

theorem forall₂_split {A B : Type} {R : A → B → Prop} {as as2 : List A} {bs : List B} (h : List.Forall₂ R (as ++ as2) bs) :
    ∃ b1 b2, bs = b1 ++ b2 ∧ List.Forall₂ R as b1 ∧ List.Forall₂ R as2 b2 := by
  induction as generalizing bs with
  | nil => exact ⟨[], bs, rfl, .nil, h⟩
  | cons a as ih =>
    cases h with
    | @cons _ b _ bs h1 h2 =>
      obtain ⟨b1, b2, rfl, k1, k2⟩ := ih h2
      exact ⟨b :: b1, b2, rfl, .cons h1 k1, k2⟩

end Fmmax
