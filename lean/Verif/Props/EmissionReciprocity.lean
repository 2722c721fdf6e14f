import Verif.Proofs.EmissionReciprocity

/-! Property theorems C102: reciprocity of emission.

`EmittedFields`, `reaction`, `pointCurrent` and `lastPlane` are from `Verif/Spec/EmissionReciprocity.lean`, `Setup.reverse`, `StackLayer.transpose` and
`StackLayer.ConstantTangent` from `Verif/Spec/Reciprocity.lean`, `ComputedEmission` from `Verif/Spec/SupercellEmission.lean`. -/

set_option linter.unusedSectionVars false

namespace Fmmax

open Spec Matrix

variable {ι : Type} [Fintype ι] [DecidableEq ι] {β γ : Type} {c : Setup ι}
variable {eig : Matrix (ι ⊕ ι) (ι ⊕ ι) ℂ → (ι ⊕ ι → ℂ) × Matrix (ι ⊕ ι) (ι ⊕ ι) ℂ}

theorem reverse_eigenvalues (he : IsEig eig) (hG : Function.Injective c.expansion) {layers : List (StackLayer ι)} (hp : ∀ p ∈ layers, p.ConstantTangent c)
    (hs : ∀ p ∈ layers, ∃ r, p.solve eig c = .ok r) (hc : ∀ p ∈ layers, ∀ r, p.solve eig c = .ok r → CompleteModes r) :
    ∀ p ∈ layers.map StackLayer.transpose, ∀ r, p.solve eig c.reverse = .ok r → ∀ i, r.eigenvalues i ≠ 0 := by
  intro p hp' r hr
  obtain ⟨q, hq, rfl⟩ := List.mem_map.1 hp'
  obtain ⟨r0, h0⟩ := hs q hq
  obtain ⟨r', h1, h2⟩ := layer_reciprocal he hG (hp q hq) h0 (hc q hq r0 h0)
  rw [hr, ok_inj] at h1
  rw [h1]
  exact h2.complete'.2

theorem thickness_transpose (layers : List (StackLayer ι)) : (layers.map StackLayer.transpose).map StackLayer.thickness = layers.map StackLayer.thickness := by
  rw [List.map_map]
  rfl

theorem forall₂_exists {A B : Type} {R : A → B → Prop} {as : List A} {bs : List B} (h : List.Forall₂ R as bs) : ∀ a ∈ as, ∃ b, R a b := by
  induction h with
  | nil => simp
  | cons h _ ih =>
    intro a ha
    rcases List.mem_cons.1 ha with rfl | ha
    · exact ⟨_, h⟩
    · exact ih a ha

/-- **C102** Reciprocity of emission.  Currents `J` are placed between the layers `A` and `B ++ C` of a structure, and currents `J'` between the layers `A ++ B`
and `C` in the calculation with reversed in-plane wavevector, reversed orders and transposed tensors.  Then the fields of `J'` act on `J` as the fields of `J`
act on `J'`, fields being taken at the end of the layer before the other source. -/
theorem C102_currents (he : IsEig eig) (hG : Function.Injective c.expansion) {A B C : List (StackLayer ι)} (hB : B ≠ [])
    (hp : ∀ p ∈ A ++ B ++ C, p.ConstantTangent c) (hc : ∀ p ∈ A ++ B ++ C, ∀ r, p.solve eig c = .ok r → CompleteModes r)
    {jx jy jz : Matrix ι β ℂ} {jx' jy' jz' : Matrix ι γ ℂ} {F : Fields (Matrix ι β ℂ)} {F' : Fields (Matrix ι γ ℂ)}
    (h : EmittedFields eig c A (B ++ C) jx jy jz (A.length + B.length - 1) F)
    (h' : EmittedFields eig c.reverse ((A ++ B).map StackLayer.transpose) (C.map StackLayer.transpose) jx' jy' jz' (A.length - 1) F') :
    reaction F' jx jy jz = (reaction F jx' jy' jz')ᵀ := by
  obtain ⟨lb, la, st, st', first, s, t, last, w, e2, m2, s1, s2, hE, hw, f2, rfl⟩ := emitted_states he h (by
    rw [← List.append_assoc]
    exact fun p hp r hr => (hc p hp r hr).2)
  have hs : ∀ p ∈ A ++ B ++ C, ∃ r, p.solve eig c = .ok r := by
    intro p hp
    rw [List.append_assoc, List.mem_append] at hp
    exact hp.elim (forall₂_exists s1 p) (forall₂_exists s2 p)
  obtain ⟨lb', la', su, su', first', s', t', last', v, e1, m1, s1', s2', hE', hv, f1, rfl⟩ := emitted_states he h' (by
    rw [← List.map_append]
    exact reverse_eigenvalues he hG hp hs hc)
  obtain ⟨lB, lC, rfl, sB, sC⟩ := forall₂_split s2
  rw [List.map_append] at s1'
  obtain ⟨lA', lB', rfl, sA', sB'⟩ := forall₂_split s1'
  have hA : A ≠ [] := by
    rintro rfl
    cases s1
    have := hE.geometry_before
    rw [List.zip_nil_left, geometry, List.map_eq_nil_iff] at this
    subst this
    exact absurd hE.head_before (by simp)
  have pA := layers_pairZ he hG s1 sA' (fun p h => hp p (by simp [h])) (fun p h => hc p (by simp [h]))
  have pB := layers_pairZ he hG sB sB' (fun p h => hp p (by simp [h])) (fun p h => hc p (by simp [h]))
  have pC := layers_pairZ he hG sC s2' (fun p h => hp p (by simp [h])) (fun p h => hc p (by simp [h]))
  rw [List.map_append, List.zip_append (by rw [List.length_map, sB.length_eq])] at hE
  rw [thickness_transpose, thickness_transpose, List.map_append, List.zip_append (by rw [List.length_map, ← sA'.length_eq, List.length_map])] at hE'
  have nA := List.length_pos_of_ne_nil hA
  have nB := List.length_pos_of_ne_nil hB
  have lA : (lb.zip (A.map StackLayer.thickness)).length = A.length := by simp [← s1.length_eq]
  have lBl : (lB.zip (B.map StackLayer.thickness)).length = B.length := by simp [← sB.length_eq]
  have lst : st.length = A.length := by
    have := congrArg List.length hE.geometry_before
    rwa [geometry, List.length_map, lA] at this
  have lsu : su.length = A.length + B.length := by
    have := congrArg List.length hE'.geometry_before
    rw [geometry, List.length_map, List.length_append, ← pA.length_eq, ← pB.length_eq, lA, lBl] at this
    exact this
  refine emission_reciprocal pA pB pC ?_ hE hE' ?_ ?_ f1 f2
  · intro h0
    rw [h0, List.length_nil] at lBl
    omega
  · rw [lA]
    rwa [List.getElem?_append_left (by omega)] at hv
  · rw [lBl]
    rw [List.getElem?_append_right (by omega), lst] at hw
    rwa [show A.length + B.length - 1 - A.length = B.length - 1 by omega] at hw

/-- **C102** Both currents between the layers `A` and `C`: the same relation if both are in the plane, or both normal to it. -/
theorem C102_same_plane (he : IsEig eig) (hG : Function.Injective c.expansion) {A C : List (StackLayer ι)}
    (hp : ∀ p ∈ A ++ C, p.ConstantTangent c) (hc : ∀ p ∈ A ++ C, ∀ r, p.solve eig c = .ok r → CompleteModes r)
    {jx jy jz : Matrix ι β ℂ} {jx' jy' jz' : Matrix ι γ ℂ} {F : Fields (Matrix ι β ℂ)} {F' : Fields (Matrix ι γ ℂ)}
    (h : EmittedFields eig c A C jx jy jz (A.length - 1) F)
    (h' : EmittedFields eig c.reverse (A.map StackLayer.transpose) (C.map StackLayer.transpose) jx' jy' jz' (A.length - 1) F')
    (hj : (jz = 0 ∧ jz' = 0) ∨ (jx = 0 ∧ jy = 0 ∧ jx' = 0 ∧ jy' = 0)) :
    reaction F' jx jy jz = (reaction F jx' jy' jz')ᵀ := by
  obtain ⟨lb, la, st, st', first, s, t, last, w, e2, m2, s1, s2, hE, hw, f2, rfl⟩ := emitted_states he h fun p hp r hr => (hc p hp r hr).2
  have hs : ∀ p ∈ A ++ C, ∃ r, p.solve eig c = .ok r := by
    intro p hp
    rw [List.mem_append] at hp
    exact hp.elim (forall₂_exists s1 p) (forall₂_exists s2 p)
  obtain ⟨lb', la', su, su', first', s', t', last', v, e1, m1, s1', s2', hE', hv, f1, rfl⟩ := emitted_states he h' (by
    rw [← List.map_append]
    exact reverse_eigenvalues he hG hp hs hc)
  have hA : A ≠ [] := by
    rintro rfl
    cases s1
    have := hE.geometry_before
    rw [List.zip_nil_left, geometry, List.map_eq_nil_iff] at this
    subst this
    exact absurd hE.head_before (by simp)
  have nA := List.length_pos_of_ne_nil hA
  have pA := layers_pairZ he hG s1 s1' (fun p h => hp p (by simp [h])) (fun p h => hc p (by simp [h]))
  have pC := layers_pairZ he hG s2 s2' (fun p h => hp p (by simp [h])) (fun p h => hc p (by simp [h]))
  rw [thickness_transpose, thickness_transpose] at hE'
  have lA : (lb.zip (A.map StackLayer.thickness)).length = A.length := by simp [← s1.length_eq]
  have lst : st.length = A.length := by
    have := congrArg List.length hE.geometry_before
    rwa [geometry, List.length_map, lA] at this
  have lsu : su.length = A.length := by
    have := congrArg List.length hE'.geometry_before
    rwa [geometry, List.length_map, ← pA.length_eq, lA] at this
  have ew : w = s := by
    have := hE.last_before
    rw [List.getLast?_eq_getElem?, lst] at this
    rw [List.getElem?_append_left (by omega), this] at hw
    exact (Option.some.inj hw).symm
  have ev : v = s' := by
    have := hE'.last_before
    rw [List.getLast?_eq_getElem?, lsu] at this
    rw [List.getElem?_append_left (by omega), this] at hv
    exact (Option.some.inj hv).symm
  subst ew ev
  have key := emission_reciprocal_plane pA pC hE hE' f1 f2
  rw [← sub_eq_zero, key]
  rcases hj with ⟨rfl, rfl⟩ | ⟨rfl, rfl, rfl, rfl⟩
  · have z : ∀ {δ : Type} (l : LayerSolveResult ι), jumpE l (0 : Matrix ι δ ℂ) = 0 := by
      intro δ l
      ext (i | i) b <;> simp [jumpE]
    rw [z, z]
    simp
  · have z : ∀ {δ : Type}, jumpH (0 : Matrix ι δ ℂ) 0 = 0 := by
      intro δ
      ext (i | i) b <;> simp [jumpH]
    rw [z, z]
    simp

/-! ### Point sources -/

/-- Wavevectors of the orders. -/
theorem solve_wavevectors {p : StackLayer ι} {r : LayerSolveResult ι} (hr : p.solve eig c = .ok r) :
    transverseWavevectors c.inPlaneWavevector c.lattice c.expansion = .ok (orderWavevector r) := by
  have key : ∀ r : LayerSolveResult ι, r.inPlaneWavevector = c.inPlaneWavevector → r.primitiveLatticeVectors = c.lattice → r.expansion = c.expansion →
      cellArea r ≠ 0 → transverseWavevectors c.inPlaneWavevector c.lattice c.expansion = .ok (orderWavevector r) := by
    intro r h1 h2 h3 h4
    have := transverseWavevectors_layer.2 ⟨h4, rfl⟩
    rwa [h1, h2, h3] at this
  obtain ⟨nx, ny, med, d⟩ := p
  by_cases hn : nx = 1 ∧ ny = 1
  · obtain ⟨rfl, rfl⟩ := hn
    cases med with
    | isotropic ε f =>
      simp only [StackLayer.solve, eigensolveIsotropicMedia, and_self, dite_true] at hr
      have ha := (uniform_solvedFor hr).wellPosed.2.1
      obtain ⟨_, _, -, -, -, er⟩ := eigensolveUniformIsotropic_ok_iff.1 hr
      exact key r (by rw [er]) (by rw [er]) (by rw [er]) ha
    | anisotropic ε μ f x =>
      simp only [StackLayer.solve, eigensolveGeneralAnisotropicMedia, and_self, dite_true, eigensolveUniformAnisotropic, bind_eq_ok] at hr
      obtain ⟨m, -, hr⟩ := hr
      obtain ⟨-, a2, a3, a4, -, a6⟩ := numerical_fields hr
      exact key r a2 a3 a4 a6
  · cases med with
    | isotropic ε f =>
      simp only [StackLayer.solve, eigensolveIsotropicMedia, dif_neg hn, eigensolvePatternedIsotropic, bind_eq_ok] at hr
      obtain ⟨m, -, hr⟩ := hr
      obtain ⟨-, a2, a3, a4, -, a6⟩ := numerical_fields hr
      exact key r a2 a3 a4 a6
    | anisotropic ε μ f x =>
      simp only [StackLayer.solve, eigensolveGeneralAnisotropicMedia, dif_neg hn, eigensolvePatternedAnisotropic, bind_eq_ok] at hr
      obtain ⟨m, -, hr⟩ := hr
      obtain ⟨-, a2, a3, a4, -, a6⟩ := numerical_fields hr
      exact key r a2 a3 a4 a6

/-- Fields in the last plane of a layer. -/
theorem emission_lastPlane {before after : List (StackLayer ι)} {N : ℕ} {jx jy jz : Matrix ι (Fin N) ℂ} {znum : List ℕ} {κ : Type} {xy : κ → ℝ × ℝ}
    {gs : List (Fields (κ → Fin N → ℂ))} {zs : List ℝ} (h : ComputedEmission eig c before after jx jy jz znum xy gs zs) {n : ℕ} (hn : n < znum.length) (hz : 2 ≤ znum[n])
    {k : ι → ℝ × ℝ} (hk : transverseWavevectors c.inPlaneWavevector c.lattice c.expansion = .ok k) :
    ∃ F, EmittedFields eig c before after jx jy jz n F ∧ gs[lastPlane znum n]? =
      some (F.map fun f p j => ∑ i, f i j * Complex.exp (Complex.I * (dot (k i) (xy p) : ℝ))) := by
  obtain ⟨lb, la, sb, sa, ib, ia, source, amps, h1, h2, h3, h4, h5, h6, h7, h8, h9⟩ := h
  obtain ⟨l1, l2, l3, hloop⟩ := stackFields3d_eq_ok.1 h9
  obtain ⟨z1, z2, z3, z4⟩ := zipRequests_spec l1 l2 l3
  obtain ⟨-, -, -, -, spec⟩ := stackFieldsLoop_spec _ hloop
  set reqs := zipRequests amps (lb ++ la) (before.map StackLayer.thickness ++ after.map StackLayer.thickness) znum with hreqs
  have hn' : n < reqs.length := by
    rw [← congrArg List.length z1, List.length_map] at hn
    exact hn
  have eq : reqs[n]? = some reqs[n] := List.getElem?_eq_getElem hn'
  have ez : znum[n]? = some reqs[n].znum := by rw [← z1, List.getElem?_map, eq]; rfl
  have ed : (before.map StackLayer.thickness ++ after.map StackLayer.thickness)[n]? = some reqs[n].thickness := by rw [← z2, List.getElem?_map, eq]; rfl
  have el : (lb ++ la)[n]? = some reqs[n].layer := by rw [← z3, List.getElem?_map, eq]; rfl
  have ea : amps[n]? = some (reqs[n].a, reqs[n].b) := by rw [← z4, List.getElem?_map, eq]; rfl
  rw [List.getElem?_eq_getElem hn, Option.some.injEq] at ez
  obtain ⟨g, xy', zo, e1, e2⟩ := spec n hn'
  obtain ⟨⟨w1, w2⟩, -, e3⟩ := layerFields3d_planes.1 e1
  have hzn : 2 ≤ reqs[n].znum := by omega
  have hlin : linspace reqs[n].thickness reqs[n].znum ⟨reqs[n].znum - 1, by omega⟩ = reqs[n].thickness := by
    have hne : ((reqs[n].znum : ℕ) : ℝ) - 1 ≠ 0 := by
      have : (2 : ℝ) ≤ reqs[n].znum := by exact_mod_cast hzn
      linarith
    rw [linspace, if_neg (by omega)]
    simp only
    rw [Nat.cast_sub (by omega), Nat.cast_one, mul_div_assoc, div_self hne, mul_one]
  have hwv : orderWavevector reqs[n].layer = k := by
    have hmem : reqs[n].layer ∈ lb ++ la := List.mem_of_getElem? el
    rw [List.mem_append] at hmem
    obtain ⟨p, -, hp⟩ : ∃ p ∈ before ++ after, p.solve eig c = .ok reqs[n].layer := by
      rcases hmem with hm | hm
      · obtain ⟨p, h, hp⟩ := forall₂_mem_right h1 _ hm
        exact ⟨p, by simp [h], hp⟩
      · obtain ⟨p, h, hp⟩ := forall₂_mem_right h2 _ hm
        exact ⟨p, by simp [h], hp⟩
    have := solve_wavevectors hp
    rw [hk, ok_inj] at this
    exact this.symm
  refine ⟨_, ⟨lb, la, sb, sa, ib, ia, source, amps, reqs[n].layer, reqs[n].thickness, _, h1, h2, h3, h4, h5, h6, h7, h8, el, by rw [List.map_append]; exact ed, ea,
    fieldsFromWaveAmplitudes_eq_ok.2 ⟨w1, w2, rfl⟩⟩, ?_⟩
  have hidx : lastPlane znum n = (znum.take n).sum + (reqs[n].znum - 1) := by
    unfold lastPlane
    rw [List.take_add_one, List.sum_append, List.getElem?_eq_getElem hn, Option.toList_some, List.sum_singleton, ez]
    omega
  have := (e2 ⟨reqs[n].znum - 1, by omega⟩).2
  rw [z1] at this
  rw [hidx]
  refine this.trans (congrArg some ?_)
  have p1 : ∀ (a : Matrix (ι ⊕ ι) (Fin N) ℂ) (z : ℝ), propagateAmplitude a (fun _ => z) reqs[n].layer = propagator reqs[n].layer z * a := by
    intro a z
    ext i b
    simp only [propagateAmplitude, propagator, of_apply, diagonal_mul]
    ring
  rw [zSlice, e3, hlin]
  unfold planeFields
  simp only [colocateAmplitudes, p1, planeWaveSum, hwv]

/-- **C102** Point sources: `n` sources with moments `(px, py, pz)` at the points `r` between the layers `A` and `B ++ C`, and `n'` sources with moments `(px', py', pz')` at
the points `r'` between `A ++ B` and `C` in the reciprocal calculation.  The field of the second sources at the first, projected on the moment of the first,
equals the field of the first at the second, projected on the moment of the second; fields as reported in the last plane of the layer before the source. -/
theorem C102_points (he : IsEig eig) (hG : Function.Injective c.expansion) {A B C : List (StackLayer ι)} (hB : B ≠ [])
    (hp : ∀ p ∈ A ++ B ++ C, p.ConstantTangent c) (hc : ∀ p ∈ A ++ B ++ C, ∀ r, p.solve eig c = .ok r → CompleteModes r)
    {n n' : ℕ} {r : Fin n → ℝ × ℝ} {r' : Fin n' → ℝ × ℝ} (px py pz : Fin n → ℂ) (px' py' pz' : Fin n' → ℂ) {δ : Matrix ι (Fin n) ℂ} {δ' : Matrix ι (Fin n') ℂ}
    (hδ : diracDeltaSource r c.inPlaneWavevector c.lattice c.expansion = .ok δ)
    (hδ' : diracDeltaSource r' c.reverse.inPlaneWavevector c.reverse.lattice c.reverse.expansion = .ok δ')
    {znum znum' : List ℕ} (hz : ∀ m ∈ znum, 2 ≤ m) (hz' : ∀ m ∈ znum', 2 ≤ m) {gs zs gs' zs'}
    (h : ComputedEmission eig c A (B ++ C) (pointCurrent δ px) (pointCurrent δ py) (pointCurrent δ pz) znum r' gs zs)
    (h' : ComputedEmission eig c.reverse ((A ++ B).map StackLayer.transpose) (C.map StackLayer.transpose) (pointCurrent δ' px') (pointCurrent δ' py') (pointCurrent δ' pz')
      znum' r gs' zs') :
    ∃ E E', gs[lastPlane znum (A.length + B.length - 1)]? = some E ∧ gs'[lastPlane znum' (A.length - 1)]? = some E' ∧
      ∀ s s', px s * E'.ex s s' + py s * E'.ey s s' + pz s * E'.ez s s' = px' s' * E.ex s' s + py' s' * E.ey s' s + pz' s' * E.ez s' s := by
  obtain ⟨k, hk, rfl⟩ : ∃ k, transverseWavevectors c.inPlaneWavevector c.lattice c.expansion = .ok k ∧
      δ = Matrix.of fun i s => Complex.exp (-Complex.I * (kxOf k i * (r s).1 + kyOf k i * (r s).2)) := by
    unfold diracDeltaSource at hδ
    simp only [bind_eq_ok, ok_inj] at hδ
    obtain ⟨k, hk, rfl⟩ := hδ
    exact ⟨k, hk, rfl⟩
  have hk' := transverseWavevectors_reverse hk
  have hδ2 : δ' = Matrix.of fun i s => Complex.exp (Complex.I * (dot (k i) (r' s) : ℝ)) := by
    unfold diracDeltaSource at hδ'
    simp only [bind_eq_ok, ok_inj] at hδ'
    obtain ⟨k2, hk2, rfl⟩ := hδ'
    rw [hk', ok_inj] at hk2
    subst hk2
    ext i s
    simp only [of_apply, kxOf, kyOf, dot]
    congr 1
    push_cast [Prod.fst_neg, Prod.snd_neg]
    ring
  subst hδ2
  have lens : ∀ {c : Setup ι} {before after : List (StackLayer ι)} {N : ℕ} {jx jy jz : Matrix ι (Fin N) ℂ} {znum : List ℕ} {κ : Type} {xy : κ → ℝ × ℝ} {gs zs},
      ComputedEmission eig c before after jx jy jz znum xy gs zs → znum.length = before.length + after.length ∧ 0 < before.length := by
    rintro c before after N jx jy jz znum κ xy gs zs ⟨lb, la, sb, sa, ib, ia, source, amps, h1, h2, h3, h4, h5, h6, h7, h8, h9⟩
    obtain ⟨l1, l2, l3, -⟩ := stackFields3d_eq_ok.1 h9
    refine ⟨by rw [l3, ← l2]; simp, ?_⟩
    rcases before with _ | ⟨p, before⟩
    · cases h1
      simp [stackSMatrix, stackSMatrices, bind_eq_ok] at h3
    · simp
  obtain ⟨n1, nA⟩ := lens h
  obtain ⟨n1', -⟩ := lens h'
  have nB := List.length_pos_of_ne_nil hB
  simp only [List.length_map, List.length_append] at n1 n1'
  have i1 : A.length + B.length - 1 < znum.length := by omega
  have i2 : A.length - 1 < znum'.length := by omega
  obtain ⟨F, k1, g1⟩ := emission_lastPlane h i1 (hz _ (List.getElem_mem _)) hk
  obtain ⟨F', k1', g1'⟩ := emission_lastPlane h' i2 (hz' _ (List.getElem_mem _)) hk'
  refine ⟨_, _, g1, g1', fun s s' => ?_⟩
  have key := congrFun (congrFun (C102_currents he hG hB hp hc k1 k1') s') s
  simp only [reaction, Matrix.add_apply, Matrix.mul_apply, transpose_apply, pointCurrent, of_apply, Fields.map] at key ⊢
  have c1 : ∀ (f : Matrix ι (Fin n') ℂ) (m : Fin n → ℂ), ∑ i, f i s' * (m s * Complex.exp (-Complex.I * (kxOf k i * (r s).1 + kyOf k i * (r s).2))) =
      m s * ∑ i, f i s' * Complex.exp (Complex.I * (dot (-k i) (r s) : ℝ)) := by
    intro f m
    rw [Finset.mul_sum]
    refine Finset.sum_congr rfl fun i _ => ?_
    rw [mul_left_comm]
    congr 3
    simp only [kxOf, kyOf, dot]
    push_cast [Prod.fst_neg, Prod.snd_neg]
    ring
  have c2 : ∀ (f : Matrix ι (Fin n) ℂ) (m : Fin n' → ℂ), ∑ i, f i s * (m s' * Complex.exp (Complex.I * (dot (k i) (r' s') : ℝ))) =
      m s' * ∑ i, f i s * Complex.exp (Complex.I * (dot (k i) (r' s') : ℝ)) := by
    intro f m
    rw [Finset.mul_sum]
    exact Finset.sum_congr rfl fun i _ => mul_left_comm _ _ _
  rw [c1, c1, c1, c2, c2, c2] at key
  exact key

/-- **C102** For uniform absorbing layers nothing needs to be assumed: both calculations succeed, and are reciprocal. -/
theorem C102_uniform_layers (he : IsEig eig) (hl : 0 < c.wavelength) (hlat : Independent c.lattice.u c.lattice.v) (hG : Function.Injective c.expansion)
    {A B C : List (ℂ × ℝ)} (hA : A ≠ []) (hB : B ≠ []) (hC : C ≠ []) (h : ∀ p ∈ A ++ B ++ C, 0 < p.1.im ∧ 0 ≤ p.2)
    {n n' : ℕ} (r : Fin n → ℝ × ℝ) (r' : Fin n' → ℝ × ℝ) (px py pz : Fin n → ℂ) (px' py' pz' : Fin n' → ℂ) {znum : List ℕ}
    (hn : znum.length = A.length + B.length + C.length) (hz : ∀ m ∈ znum, 2 ≤ m) (layers : List (ℂ × ℝ) → List (StackLayer ι))
    (hlayers : ∀ ps, layers ps = ps.map fun p => ⟨1, 1, .isotropic (Matrix.of fun _ _ => p.1) .fft, p.2⟩) :
    ∃ δ δ' gs zs gs' zs' E E', diracDeltaSource r c.inPlaneWavevector c.lattice c.expansion = .ok δ ∧
      diracDeltaSource r' c.reverse.inPlaneWavevector c.reverse.lattice c.reverse.expansion = .ok δ' ∧
      ComputedEmission eig c (layers A) (layers (B ++ C)) (pointCurrent δ px) (pointCurrent δ py) (pointCurrent δ pz) znum r' gs zs ∧
      ComputedEmission eig c.reverse (layers (A ++ B)) (layers C) (pointCurrent δ' px') (pointCurrent δ' py') (pointCurrent δ' pz') znum r gs' zs' ∧
      gs[lastPlane znum (A.length + B.length - 1)]? = some E ∧ gs'[lastPlane znum (A.length - 1)]? = some E' ∧
      ∀ s s', px s * E'.ex s s' + py s * E'.ey s s' + pz s * E'.ez s s' = px' s' * E.ex s' s + py' s' * E.ey s' s + pz' s' * E.ez s' s := by
  obtain ⟨δ, hδ⟩ : ∃ δ, diracDeltaSource r c.inPlaneWavevector c.lattice c.expansion = .ok δ := by
    have := (transverseWavevectors_eq_ok (ι := ι) (k₀ := c.inPlaneWavevector) (l := c.lattice) (G := c.expansion)).2 ⟨hlat, rfl⟩
    unfold diracDeltaSource
    rw [this]
    exact ⟨_, rfl⟩
  obtain ⟨δ', hδ'⟩ : ∃ δ, diracDeltaSource r' c.reverse.inPlaneWavevector c.reverse.lattice c.reverse.expansion = .ok δ := by
    have := (transverseWavevectors_eq_ok (ι := ι) (k₀ := c.reverse.inPlaneWavevector) (l := c.reverse.lattice) (G := c.reverse.expansion)).2 ⟨hlat, rfl⟩
    unfold diracDeltaSource
    rw [this]
    exact ⟨_, rfl⟩
  have hBC : B ++ C ≠ [] := by simp [hB]
  have hAB : A ++ B ≠ [] := by simp [hA]
  obtain ⟨gs, zs, k⟩ := C97_uniform_layers (eig := eig) hl hlat hA hBC (by rwa [← List.append_assoc]) (pointCurrent δ px) (pointCurrent δ py) (pointCurrent δ pz)
    (znum := znum) (by rw [hn, List.length_append]; omega) r'
  obtain ⟨gs', zs', k'⟩ := C97_uniform_layers (eig := eig) (c := c.reverse) hl hlat hAB hC h (pointCurrent δ' px') (pointCurrent δ' py') (pointCurrent δ' pz')
    (znum := znum) (by rw [hn, List.length_append]) r
  simp only [← hlayers] at k k'
  have htr : ∀ ps, (layers ps).map StackLayer.transpose = layers ps := by
    intro ps
    rw [hlayers, List.map_map]
    rfl
  have happ : ∀ ps qs, layers (ps ++ qs) = layers ps ++ layers qs := by
    intro ps qs
    simp only [hlayers, List.map_append]
  have hlen : ∀ ps, (layers ps).length = ps.length := by
    intro ps
    rw [hlayers, List.length_map]
  have hall : ∀ p ∈ layers A ++ layers B ++ layers C, ∃ q ∈ A ++ B ++ C, p = ⟨1, 1, .isotropic (Matrix.of fun _ _ => q.1) .fft, q.2⟩ := by
    intro p hp
    rw [← happ, ← happ, hlayers, List.mem_map] at hp
    obtain ⟨q, hq, rfl⟩ := hp
    exact ⟨q, hq, rfl⟩
  have hcomplete : ∀ p ∈ layers A ++ layers B ++ layers C, ∀ r, p.solve eig c = .ok r → CompleteModes r := by
    intro p hp r hr
    obtain ⟨q, hq, rfl⟩ := hall p hp
    simp only [StackLayer.solve, eigensolveIsotropicMedia, and_self, dite_true, of_apply] at hr
    exact (C81_uniform_absorbing hl hr (h q hq).1).modes
  have hconst : ∀ p ∈ layers A ++ layers B ++ layers C, p.ConstantTangent c := by
    intro p hp
    obtain ⟨q, hq, rfl⟩ := hall p hp
    exact Or.inl ⟨rfl, rfl⟩
  obtain ⟨E, E', g1, g2, g3⟩ := C102_points he hG (A := layers A) (B := layers B) (C := layers C) (by intro h0; have := hlen B; rw [h0] at this; exact hB (List.length_eq_zero_iff.1 this.symm))
    hconst hcomplete px py pz px' py' pz' hδ hδ' hz hz (by rw [← happ]; exact k) (by rw [← happ, htr, htr]; exact k')
  rw [hlen, hlen] at g1
  rw [hlen] at g2
  exact ⟨δ, δ', gs, zs, gs', zs', E, E', hδ, hδ', k, k', g1, g2, g3⟩

namespace EmissionReciprocityExample

/-- C102: a dipole below and a dipole above an absorbing film, at oblique incidence. -/
example : ∃ (c : Setup (Fin 2)) (A B C : List (ℂ × ℝ)), 0 < c.wavelength ∧ Independent c.lattice.u c.lattice.v ∧ Function.Injective c.expansion ∧ A ≠ [] ∧ B ≠ [] ∧ C ≠ [] ∧
    (∀ p ∈ A ++ B ++ C, 0 < p.1.im ∧ 0 ≤ p.2) ∧ [3, 2, 5].length = A.length + B.length + C.length ∧ ∀ m ∈ [3, 2, 5], 2 ≤ m :=
  ⟨{ wavelength := 2 * Real.pi, inPlaneWavevector := (1, 2), lattice := unitLattice, expansion := ![(0, 0), (1, 0)] }, [(2 + Complex.I, 1)],
    [(-3 + Complex.I, 2)], [(2 + Complex.I, 0)], by have := Real.pi_pos; positivity, by norm_num [Independent, unitLattice], by
      intro i j h
      fin_cases i <;> fin_cases j <;> simp_all, by simp, by simp, by simp, by simp, rfl, by simp⟩

end EmissionReciprocityExample

end Fmmax
