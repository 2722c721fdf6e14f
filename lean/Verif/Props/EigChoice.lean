import Verif.Spec.EigChoice
import Verif.Props.SupercellEmission

/-! Property C119: results do not depend on which eigenvectors, in which order, the eigensolver returns. -/

set_option linter.unusedSectionVars false

namespace Fmmax

open Matrix Spec

variable {ι : Type} [Fintype ι] [DecidableEq ι] {c : Setup ι}
variable {eig eig' : Matrix (ι ⊕ ι) (ι ⊕ ι) ℂ → (ι ⊕ ι → ℂ) × Matrix (ι ⊕ ι) (ι ⊕ ι) ℂ}

/-- A calculation is the calculation with a supercell of one cell. -/
theorem supercellClass_self (c : Setup ι) : SupercellClass 1 1 (0, 0) id c c :=
  ⟨rfl, by simp, by simp, Function.injective_id, fun i => by simp, fun x hx => absurd rfl (hx x), by simp, by simp⟩

theorem grid_pull_self {nx ny : ℕ} {τ : Fin nx × Fin ny → Fin nx × Fin ny} (hτ : ∀ q, τ q = q) (x : Grid nx ny) : x.pull τ = x := by
  ext r s
  simp [Grid.pull, hτ]

/-- The same tangent field, on grids of the same size up to the form in which the size is written. -/
def SameTangent {nx ny a b : ℕ} (c : Setup ι) (τ : Fin a × Fin b → Fin nx × Fin ny) (y : Grid nx ny) : Formulation nx ny ι → Formulation a b ι → Prop
  | .fft, .fft => True
  | .vector fn, .vector fn' => ∃ t, fn y c.expansion c.lattice = .ok t ∧ fn' (y.pull τ) c.expansion c.lattice = .ok (t.1.pull τ, t.2.pull τ)
  | _, _ => False

theorem SameTangent.supercell {nx ny : ℕ} {y : Grid nx ny} {f : Formulation nx ny ι} {f' : Formulation (1 * nx) (1 * ny) ι} (h : SameTangent c (tile 1 1) y f f') :
    SupercellFormulation 1 1 c c y f f' := by
  cases f <;> cases f' <;> exact h

/-- The formulation and the layer, described with a grid of the same size up to the form in which the size is written. -/
theorem isotropic_self {nx ny a b : ℕ} (ha : a = nx) (hb : b = ny) (τ : Fin a × Fin b → Fin nx × Fin ny)
    (hτ : ∀ q, ((τ q).1 : ℕ) = q.1 ∧ ((τ q).2 : ℕ) = q.2) (ε : Grid nx ny) (f : Formulation nx ny ι) (d : ℝ)
    (hf : ∀ fn, f = .vector fn → ∃ t, fn ε c.expansion c.lattice = .ok t) :
    ∃ f' : Formulation a b ι, SameTangent c τ ε f f' ∧ (⟨a, b, .isotropic (ε.pull τ) f', d⟩ : StackLayer ι) = ⟨nx, ny, .isotropic ε f, d⟩ := by
  subst ha hb
  have h : ∀ q, τ q = q := fun q => Prod.ext (Fin.ext (hτ q).1) (Fin.ext (hτ q).2)
  refine ⟨f, ?_, by rw [grid_pull_self h]⟩
  cases f with
  | fft => trivial
  | vector fn =>
    obtain ⟨t, ht⟩ := hf fn rfl
    exact ⟨t, ht, by rw [grid_pull_self h, grid_pull_self h, grid_pull_self h, ht]⟩

theorem anisotropic_self {nx ny a b : ℕ} (ha : a = nx) (hb : b = ny) (τ : Fin a × Fin b → Fin nx × Fin ny)
    (hτ : ∀ q, ((τ q).1 : ℕ) = q.1 ∧ ((τ q).2 : ℕ) = q.2) (ε μ : TensorComponents nx ny) (x : Option (Grid nx ny)) (y : Grid nx ny)
    (f : Formulation nx ny ι) (d : ℝ) (hf : ∀ fn, f = .vector fn → ∃ t, fn y c.expansion c.lattice = .ok t) :
    ∃ f' : Formulation a b ι, SameTangent c τ y f f' ∧
      (⟨a, b, .anisotropic (ε.pull τ) (μ.pull τ) f' (x.map (Grid.pull τ)), d⟩ : StackLayer ι) = ⟨nx, ny, .anisotropic ε μ f x, d⟩ := by
  subst ha hb
  have h : ∀ q, τ q = q := fun q => Prod.ext (Fin.ext (hτ q).1) (Fin.ext (hτ q).2)
  have ht : ∀ t : TensorComponents a b, t.pull τ = t := fun t => by simp only [TensorComponents.pull, grid_pull_self h]
  refine ⟨f, ?_, ?_⟩
  · cases f with
    | fft => trivial
    | vector fn =>
      obtain ⟨t, ht⟩ := hf fn rfl
      exact ⟨t, ht, by rw [grid_pull_self h, grid_pull_self h, grid_pull_self h, ht]⟩
  · rw [ht, ht]
    cases x with
    | none => rfl
    | some x => rw [Option.map_some, grid_pull_self h]

theorem tile_self {nx ny : ℕ} (q : Fin (1 * nx) × Fin (1 * ny)) : ((tile 1 1 q).1 : ℕ) = q.1 ∧ ((tile 1 1 q).2 : ℕ) = q.2 := by
  refine ⟨?_, ?_⟩
  · exact Nat.mod_eq_of_lt (by have := q.1.isLt; omega)
  · exact Nat.mod_eq_of_lt (by have := q.2.isLt; omega)

/-- A layer which was solved is itself in a supercell of one cell. -/
theorem supercellLayer_self {p : StackLayer ι} {r : LayerSolveResult ι} (h : p.solve eig c = .ok r) : SupercellLayer 1 1 c c p p := by
  obtain ⟨nx, ny, med, d⟩ := p
  by_cases hn : nx = 1 ∧ ny = 1
  · obtain ⟨rfl, rfl⟩ := hn
    cases med with
    | isotropic ε f => exact .uniformIsotropic ε f f d
    | anisotropic ε μ f x => exact .uniformAnisotropic ε μ f f x x d
  · cases med with
    | isotropic ε f =>
      simp only [StackLayer.solve, eigensolveIsotropicMedia, dif_neg hn, eigensolvePatternedIsotropic, fourierMatricesPatternedIsotropic, bind_eq_ok] at h
      obtain ⟨M, ⟨E, hE, _, _, z, hz, _⟩, _⟩ := h
      have hR : Resolves nx ny c.expansion := (fourierConvolutionMatrix_ok_iff.1 hz).1
      obtain ⟨f', k1, k2⟩ := isotropic_self (c := c) (Nat.one_mul nx) (Nat.one_mul ny) (tile 1 1) tile_self ε f d (by
        rintro fn rfl
        simp only [transversePermittivityIsotropic, bind_eq_ok] at hE
        exact ⟨_, hE.choose_spec.1⟩)
      have := SupercellLayer.isotropic (m := 1) (n := 1) (c := c) (c' := c) hn hR ε f f' k1.supercell d
      rwa [k2] at this
    | anisotropic ε μ f x =>
      simp only [StackLayer.solve, eigensolveGeneralAnisotropicMedia, dif_neg hn, eigensolvePatternedAnisotropic, fourierMatricesPatternedAnisotropic, bind_eq_ok] at h
      obtain ⟨M, ⟨E, hE, _, _, z, hz, _⟩, _⟩ := h
      have hR : Resolves nx ny c.expansion := (fourierConvolutionMatrix_ok_iff.1 hz).1
      obtain ⟨f', k1, k2⟩ := anisotropic_self (c := c) (Nat.one_mul nx) (Nat.one_mul ny) (tile 1 1) tile_self ε μ x
        (x.getD (Matrix.of fun r s => (ε.xx r s + ε.yy r s) / 2)) f d (by
        rintro fn rfl
        simp only [transverseMatricesAnisotropic, bind_eq_ok] at hE
        exact ⟨_, hE.choose_spec.1⟩)
      have := SupercellLayer.anisotropic (m := 1) (n := 1) (c := c) (c' := c) hn hR ε μ x f f' k1.supercell d
      rwa [k2] at this

theorem supercellLayers_self {ps : List (StackLayer ι)} {rs : List (LayerSolveResult ι)} (h : List.Forall₂ (fun p r => p.solve eig c = .ok r) ps rs) :
    List.Forall₂ (SupercellLayer 1 1 c c) ps ps := by
  induction h with
  | nil => exact .nil
  | cons h _ ih => exact .cons (supercellLayer_self h) ih

theorem isBlock_self {A A' : ModeMatrix ι} (h : IsBlock id A A') : A' = A := by
  ext a b
  have := h.1 a b
  rwa [Sum.map_id_id] at this

/-- **C119** Let `eig` and `eig'` be any two functions returning eigenvalues and eigenvectors, in whatever order and normalisation.  Whenever the scattering matrix
of a stack can be calculated with `eig` it can be calculated with `eig'`, and the two matrices describe the same scattering of the Fourier coefficients of the
tangential fields: `φ`, `ψ` are the eigenvectors in the first and last layers. -/
theorem C119_s_matrix (he : IsEig eig) (he' : IsEig eig') {layers : List (StackLayer ι)} {S : ScatteringMatrix ι}
    (hlast : ∀ p ∈ layers.getLast?, ∀ r, p.solve eig c = .ok r → IsUnit r.eigenvectors.det) (hS : ComputedSMatrix eig c layers S) :
    ∃ S', ComputedSMatrix eig' c layers S' ∧
      let φ := S.startLayer.eigenvectors
      let ψ := S.endLayer.eigenvectors
      let φ' := S'.startLayer.eigenvectors
      let ψ' := S'.endLayer.eigenvectors
      IsUnit φ.det ∧ IsUnit ψ.det ∧ IsUnit φ'.det ∧ IsUnit ψ'.det ∧
      ψ' * S'.s11 * φ'⁻¹ = ψ * S.s11 * φ⁻¹ ∧ ψ' * S'.s12 * ψ'⁻¹ = ψ * S.s12 * ψ⁻¹ ∧
      φ' * S'.s21 * φ'⁻¹ = φ * S.s21 * φ⁻¹ ∧ φ' * S'.s22 * ψ'⁻¹ = φ * S.s22 * ψ⁻¹ := by
  obtain ⟨solved, hsolved, -⟩ := id hS
  obtain ⟨S', h1, u1, u2, u3, u4, k1, k2, k3, k4⟩ := C92_supercell he' he (supercellClass_self c) (supercellLayers_self hsolved) hlast hS
  exact ⟨S', h1, u3, u4, u1, u2, (isBlock_self k1).symm, (isBlock_self k2).symm, (isBlock_self k3).symm, (isBlock_self k4).symm⟩

/-- **C119** Between uniform isotropic layers the scattering matrix is the same number for number. -/
theorem C119_uniform_ends (he : IsEig eig) (he' : IsEig eig') {layers : List (StackLayer ι)} {S : ScatteringMatrix ι}
    (hfirst : ∀ p ∈ layers.head?, p.Uniform) (hlast : ∀ p ∈ layers.getLast?, p.Uniform) (hS : ComputedSMatrix eig c layers S) :
    ComputedSMatrix eig' c layers S := by
  obtain ⟨solved, hsolved, -⟩ := id hS
  have hlast' : ∀ p ∈ layers.getLast?, ∀ r, p.solve eig c = .ok r → IsUnit r.eigenvectors.det := fun p hp r hr => by
    rw [uniform_eigenvectors (hlast p hp) hr]; simp
  have hl := supercellLayers_self hsolved
  obtain ⟨S', h1, -, -, -, -, k5, k6, k7, k8⟩ := C119_s_matrix he he' hlast' hS
  obtain ⟨S2, h2, -, -, m₀, m₁, hP⟩ := (supercellClass_self c).stack he' he hl hlast' hS
  obtain rfl := h1.unique h2
  have hu : ∀ {p : StackLayer ι}, p.Uniform → p.solve eig' c = p.solve eig c := by
    rintro ⟨nx, ny, med, d⟩ ⟨h1, h2, ε, f, h3⟩
    simp only at h1 h2 h3
    subst h1 h2
    simp [StackLayer.solve, h3, eigensolveIsotropicMedia]
  obtain ⟨⟨p, hp, a1⟩, ⟨q, hq, a2⟩⟩ := hS.ends
  obtain ⟨⟨p', hp', a3⟩, ⟨q', hq', a4⟩⟩ := h1.ends
  obtain rfl := Option.mem_unique hp hp'
  obtain rfl := Option.mem_unique hq hq'
  rw [hu (hfirst _ hp)] at a3
  rw [hu (hlast _ hq)] at a4
  have e1 := ok_inj.1 (a3.symm.trans a1)
  have e2 := ok_inj.1 (a4.symm.trans a2)
  have e3 := uniform_eigenvectors (hfirst _ hp) a1
  have e4 := uniform_eigenvectors (hlast _ hq) a2
  simp only [e1, e2, e3, e4, Matrix.one_mul, inv_one, Matrix.mul_one] at k5 k6 k7 k8
  have : S' = S := by
    have t1 := hP.startThickness
    have t2 := hP.endThickness
    obtain ⟨⟨_, _, _, _⟩, _, _, _, _⟩ := S
    obtain ⟨⟨_, _, _, _⟩, _, _, _, _⟩ := S'
    simp only at *
    subst k5 k6 k7 k8 e1 e2 t1 t2
    rfl
  rw [← this]
  exact h1

/-- **C119** The fields of currents inside a stack are the same at all points. -/
theorem C119_emission (he : IsEig eig) (he' : IsEig eig') {before after : List (StackLayer ι)}
    (hlast : ∀ p ∈ before.getLast?, ∀ r, p.solve eig c = .ok r → IsUnit r.eigenvectors.det)
    (hlast' : ∀ p ∈ after.getLast?, ∀ r, p.solve eig c = .ok r → IsUnit r.eigenvectors.det) {γ : Type} {N : ℕ} {jx jy jz : Matrix ι (Fin N) ℂ}
    {znum : List ℕ} {xy : γ → ℝ × ℝ} {gs : List (Fields (γ → Fin N → ℂ))} {zs : List ℝ}
    (h : ComputedEmission eig c before after jx jy jz znum xy gs zs) : ComputedEmission eig' c before after jx jy jz znum xy gs zs := by
  obtain ⟨lb, la, _, _, _, _, _, _, e1, e2, -⟩ := id h
  obtain ⟨gs', k1, k2, k3⟩ := C98_emission (σ := Unit) he' he (p := fun _ => (0, 0)) (places := fun _ => id) (c := fun _ => c) (fun _ => supercellClass_self c)
    ⟨fun a b hab => Prod.ext rfl hab, fun i => ⟨((), i), rfl⟩⟩ (fun _ => supercellLayers_self e1) (fun _ => supercellLayers_self e2) hlast hlast' h
  have : gs' () = gs := by
    refine List.ext_getElem (k2 ()) fun i h1 h2 => ?_
    obtain ⟨F, q1, q2⟩ := k3 i _ (List.getElem?_eq_getElem h2)
    have e := q1 ()
    rw [List.getElem?_eq_getElem h1, Option.some_inj] at e
    rw [e, q2]
    simp [sumFields]
  rw [← this]
  simpa using k1 ()

/-- **C119** The fields in a stack illuminated through uniform isotropic layers are the same at all points. -/
theorem C119_illumination (he : IsEig eig) (he' : IsEig eig') {layers : List (StackLayer ι)} (hfirst : ∀ p ∈ layers.head?, p.Uniform)
    (hlast : ∀ p ∈ layers.getLast?, p.Uniform) {γ : Type} {N : ℕ} {a b : Matrix (ι ⊕ ι) (Fin N) ℂ} {znum : List ℕ} {xy : γ → ℝ × ℝ}
    {gs : List (Fields (γ → Fin N → ℂ))} {zs : List ℝ} (h : ComputedIllumination eig c layers a b znum xy gs zs) :
    ComputedIllumination eig' c layers a b znum xy gs zs := by
  obtain ⟨ls', is', amps', e1, e2, e3, e4⟩ := h
  have hs : ∃ S, stackSMatrix ls' (layers.map StackLayer.thickness) = .ok S := by
    simp only [stackSMatricesInterior, bind_eq_ok] at e2
    obtain ⟨B, hB, -⟩ := e2
    obtain ⟨-, p, rest, hz⟩ := stackSMatrices_length hB
    have hne : B ≠ [] := by
      rintro rfl
      have := stackSMatrices_layers hB
      rw [← this] at hz
      simp at hz
    refine ⟨B.getLast hne, ?_⟩
    unfold stackSMatrix
    rw [bind_eq_ok]
    exact ⟨B, hB, by rw [List.getLast?_eq_some_getLast hne]⟩
  obtain ⟨S, hS⟩ := hs
  have hlast' : ∀ p ∈ layers.getLast?, ∀ r, p.solve eig c = .ok r → IsUnit r.eigenvectors.det := fun p hp r hr => by
    rw [uniform_eigenvectors (hlast p hp) hr]; simp
  have u := solved_independent e1 hS hlast'
  have hC := supercellClass_self c
  obtain ⟨ls, b1, b2, b3, b4, b5⟩ := hC.solved he' he (supercellLayers_self e1) e1 u
  obtain ⟨is, m₀, m₁, k1, k2, k3, k4⟩ := interior_part b2 u b4 e2
  obtain ⟨amps, q1, q2⟩ := stackAmplitudes_part k4 e3
  obtain ⟨g1, g2, g3, hloop⟩ := stackFields3d_eq_ok.1 e4
  obtain ⟨gs', r1, r2⟩ := stackFieldsLoop_classes (σ := Unit) (places := fun _ => id) (fun _ => hC.injective)
    ⟨fun a b hab => Prod.ext rfl hab, fun i => ⟨((), i), rfl⟩⟩ _ _ _ _ _ _ _ (fun _ => requests_part q2 b3 _ znum) hloop
  have : gs' () = gs := by
    refine List.ext_getElem (r2.1 ()) fun i h1 h2 => ?_
    obtain ⟨F, q1, q2⟩ := r2.2 i _ (List.getElem?_eq_getElem h2)
    have e := q1 ()
    rw [List.getElem?_eq_getElem h1, Option.some_inj] at e
    rw [e, q2]
    simp [sumFields]
  have r1 := r1 ()
  rw [this] at r1
  obtain ⟨n1, n2, n3⟩ := q2.length
  refine ⟨ls, is, amps, b1, k1, ?_, stackFields3d_eq_ok.2 ⟨by rw [n1, n3], by rw [n1]; exact g2, by rw [n1]; exact g3, r1⟩⟩
  have ends : ∀ {m : Part (ι ⊕ ι) (ι ⊕ ι)} {l' l : LayerSolveResult ι} (x : Matrix (ι ⊕ ι) (Fin N) ℂ), LayerPart hC.part.double m l' l → l'.eigenvectors = 1 →
      l.eigenvectors = 1 → m.onto * x = x := by
    intro m l' l x hm h1 h2
    have := hm.eigenvectors.2
    rw [h1, h2, Matrix.mul_one, Matrix.one_mul] at this
    rw [← this]
    refine (double_onto (place := id) x).trans ?_
    simp
  obtain ⟨s1, s2⟩ := stackSMatrix_end hS
  obtain ⟨S1, _, _, hS1, -⟩ := stackSMatrix_part b2 hS
  obtain ⟨t1, t2⟩ := stackSMatrix_end hS1
  obtain ⟨⟨p, hp, a1⟩, ⟨q, hq, a2⟩⟩ := (show ComputedSMatrix eig c layers S from ⟨_, e1, hS⟩).ends
  obtain ⟨⟨p', hp', a3⟩, ⟨q', hq', a4⟩⟩ := (show ComputedSMatrix eig' c layers S1 from ⟨_, b1, hS1⟩).ends
  have o1 : m₀.onto * a = a := ends a (k2 _ s1 _ t1) (uniform_eigenvectors (hfirst p hp) a1) (uniform_eigenvectors (hfirst p' hp') a3)
  have o2 : m₁.onto * b = b := ends b (k3 _ s2 _ t2) (uniform_eigenvectors (hlast q hq) a2) (uniform_eigenvectors (hlast q' hq') a4)
  rwa [o1, o2] at q1

/-- The fields in illuminated absorbing stacks can always be computed. -/
theorem absorbing_illumination {lam : ℝ} {layers : List (LayerSolveResult ι)} {ds : List ℝ} (hne : layers ≠ []) (hlen : layers.length = ds.length)
    (hlam : ∀ l ∈ layers, l.wavelength = lam) (hL : ∀ l ∈ layers, AbsorbingLayer l) (hd : ∀ d ∈ ds, 0 ≤ d) {N : ℕ} (a b : Matrix (ι ⊕ ι) (Fin N) ℂ)
    {znum : List ℕ} (hz : znum.length = layers.length) {γ : Type} (xy : γ → ℝ × ℝ) :
    ∃ gs zs interior amplitudes, stackSMatricesInterior layers ds = .ok interior ∧ stackAmplitudesInterior a b interior = .ok amplitudes ∧
      stackFields3d amplitudes layers ds znum (coordinateSlice xy) = .ok (gs, zs, xy) := by
  obtain ⟨S, ps, h1, h2, -⟩ := C81_absorbing_stack hne hlen hlam hL hd
  have rb : Regular lam (layers.zip ds) := fun p hp => ⟨hlam _ (List.of_mem_zip hp).1, (hL _ (List.of_mem_zip hp).1).modes.2⟩
  obtain ⟨st, _, _, g1, -, -, -, -, -, hx⟩ := C40_interior_amplitudes rb h2 a b
  have l1 : st.length = layers.length := by
    have := congrArg List.length g1
    simpa [geometry, hlen] using this
  have hfields : ∃ R, stackFields3d (st.map fun s => (s.a, s.b)) layers ds znum (coordinateSlice xy) = .ok R := by
    refine (C45_succeeds_iff _ _ _ _ _).2 ⟨by simp [l1], by simp [l1, hlen], by simp [l1, hz], ?_, fun r hr => ?_⟩
    · have := List.length_pos_of_ne_nil hne
      simp only [List.length_map, l1]
      omega
    · have hmem : ∀ (as : List (Matrix (ι ⊕ ι) (Fin _) ℂ × Matrix (ι ⊕ ι) (Fin _) ℂ)) (ls : List (LayerSolveResult ι)) (ds : List ℝ) (zs : List ℕ),
          r ∈ zipRequests as ls ds zs → r.layer ∈ ls := by
        intro as
        induction as with
        | nil => intro ls ds zs h; simp [zipRequests] at h
        | cons a as ih =>
          intro ls ds zs h
          rcases ls with _ | ⟨l, ls⟩ <;> rcases ds with _ | ⟨d, ds⟩ <;> rcases zs with _ | ⟨z, zs⟩ <;> simp only [zipRequests, List.not_mem_nil, List.mem_cons] at h
          rcases h with rfl | h
          · simp
          · exact List.mem_cons_of_mem _ (ih _ _ _ h)
      have hA := hL _ (hmem _ _ _ _ hr)
      unfold layerFields3d coordinateSlice
      simp only [bind_eq_ok, fieldsOnCoordinates_eq_ok, ok_inj]
      exact ⟨_, _, fieldsFromWaveAmplitudes_eq_ok.2 ⟨hA.wellPosed.1, hA.modes.2, rfl⟩, _, ⟨hA.wellPosed.1.2.1, rfl⟩, rfl⟩
  obtain ⟨⟨gs, zs, xy'⟩, hF⟩ := hfields
  have hxy : xy' = xy := by
    obtain ⟨-, -, -, hloop⟩ := stackFields3d_eq_ok.1 hF
    refine stackFieldsLoop_xy (P := fun x => x = xy) _ (fun r _ m F g xy1 h => ?_) hloop (by simp)
    exact (Prod.mk.inj (fieldsOnCoordinates_eq_ok.1 h).2).2
  subst hxy
  exact ⟨gs, zs, ps, _, h2, hx, hF⟩

namespace EigChoiceExample

open SymmetryExample

/-- An eigensolver which normalises the eigenvectors in another way. -/
theorem rescaled {n : Type} [Fintype n] [DecidableEq n] {eig : Matrix n n ℂ → (n → ℂ) × Matrix n n ℂ} (he : IsEig eig) :
    IsEig fun A => ((eig A).1, (2 : ℂ) • (eig A).2) := by
  refine ⟨fun A => ?_, fun A j => ?_, fun A V w hV h => ?_⟩
  · simp only [Matrix.mul_smul, Matrix.smul_mul, he.eigen A]
  · obtain ⟨i, hi⟩ := he.ne_zero A j
    exact ⟨i, by simpa using hi⟩
  · simp only [Matrix.det_smul]
    exact (IsUnit.pow _ (by simp)).mul (he.invertible A V w hV h)

/-- It differs from the first one. -/
theorem rescaled_ne {n : Type} [Fintype n] [DecidableEq n] [Nonempty n] {eig : Matrix n n ℂ → (n → ℂ) × Matrix n n ℂ} (he : IsEig eig) (A : Matrix n n ℂ) :
    ((eig A).1, (2 : ℂ) • (eig A).2) ≠ eig A := by
  intro h
  obtain ⟨j⟩ := ‹Nonempty n›
  obtain ⟨i, hi⟩ := he.ne_zero A j
  have := congrFun (congrFun (congrArg Prod.snd h) i) j
  simp only [Matrix.smul_apply, smul_eq_mul] at this
  exact hi (by linear_combination this)

/-- C119: two different eigensolvers, a grating between absorbing half spaces. -/
example : ∃ eig eig' : Matrix (Fin 3 ⊕ Fin 3) (Fin 3 ⊕ Fin 3) ℂ → _, ∃ S, IsEig eig ∧ IsEig eig' ∧ (∀ A, eig' A ≠ eig A) ∧ ComputedSMatrix eig setup stack S ∧
    ComputedSMatrix eig' setup stack S := by
  obtain ⟨eig, he, S, hS⟩ := computed
  exact ⟨eig, _, S, he, rescaled he, rescaled_ne he, hS, C119_uniform_ends he (rescaled he) uniform_ends.1 uniform_ends.2 hS⟩

/-- The hypothesis of `C119_s_matrix` about the last layer. -/
example : ∃ eig : Matrix (Fin 3 ⊕ Fin 3) (Fin 3 ⊕ Fin 3) ℂ → _, ∃ S, IsEig eig ∧ ComputedSMatrix eig setup stack S ∧
    ∀ p ∈ stack.getLast?, ∀ r, p.solve eig setup = .ok r → IsUnit r.eigenvectors.det := by
  obtain ⟨eig, he, S, hS⟩ := computed
  exact ⟨eig, S, he, hS, fun p hp r hr => by rw [uniform_eigenvectors (uniform_ends.2 p hp) hr]; simp⟩

/-- The layers of the grating: absorbing, whichever eigensolver is used. -/
theorem absorbing_layers {eig : Matrix (Fin 3 ⊕ Fin 3) (Fin 3 ⊕ Fin 3) ℂ → _} (he : IsEig eig) : ∃ u r,
    eigensolveIsotropicMedia eig setup.wavelength setup.inPlaneWavevector setup.lattice (Matrix.of fun _ _ => 2 + Complex.I : Grid 1 1) setup.expansion .fft = .ok u ∧
    eigensolveIsotropicMedia eig setup.wavelength setup.inPlaneWavevector setup.lattice grating setup.expansion .fft = .ok r ∧
    AbsorbingLayer u ∧ AbsorbingLayer r ∧ u.wavelength = setup.wavelength ∧ r.wavelength = setup.wavelength := by
  have hl : (0 : ℝ) < setup.wavelength := by simp only [setup]; have := Real.pi_pos; positivity
  have hε0 : (2 + Complex.I : ℂ) ≠ 0 := by intro h; simpa using congrArg Complex.re h
  have hlat : setup.lattice.u.1 * setup.lattice.v.2 - setup.lattice.u.2 * setup.lattice.v.1 ≠ 0 := by norm_num [setup, unitLattice]
  obtain ⟨u, hu⟩ := (C22_uniform_succeeds_iff setup.wavelength setup.inPlaneWavevector setup.lattice (2 + Complex.I) setup.expansion).2 ⟨hl.ne', hε0, hlat⟩
  obtain ⟨r, hr⟩ := patterned_eigensolve_succeeds eig setup.inPlaneWavevector (ε := grating) injective resolves hl.ne' hlat (by
    intro r s
    simp only [grating, of_apply]
    split_ifs <;> simp)
  have hv : IsUnit r.eigenvectors.det := by
    have h := hr
    unfold eigensolvePatternedIsotropic at h
    obtain ⟨m, hm, h⟩ := bind_eq_ok.1 h
    obtain ⟨e1, e2, e3, e4, e5⟩ := fft_matrices_eq hm
    obtain ⟨hs, f1, f2, f3, f4, f5, -⟩ := numerical_solvedFor he h
    rw [coefficients] at e1 e2
    refine numerical_eigenvectors_invertible he h (V := 1) (by simp) (Eq.trans ?_ (plane_wave_modes hε0 (f2.trans e3) (f3.trans e1) (f4.trans e4)))
    rw [e2, show Matrix.fromBlocks ((2 + Complex.I) • (1 : Matrix (Fin 3) (Fin 3) ℂ)) 0 0 ((2 + Complex.I) • 1) = (2 + Complex.I) • (1 : ModeMatrix (Fin 3)) by
      rw [← Matrix.fromBlocks_one, Matrix.fromBlocks_smul, smul_zero]]
  have hr' : eigensolveIsotropicMedia eig setup.wavelength setup.inPlaneWavevector setup.lattice grating setup.expansion .fft = .ok r := by
    unfold eigensolveIsotropicMedia
    rw [dif_neg (by norm_num)]
    exact hr
  have ha := C81_isotropic_absorbing he hl injective resolves hr' (by
    intro r s
    simp only [grating, of_apply]
    split_ifs <;> simp) hv
  have hb := C81_uniform_absorbing hl hu (by simp)
  have hwu : u.wavelength = setup.wavelength := by
    obtain ⟨k, w, -, -, -, hr⟩ := eigensolveUniformIsotropic_ok_iff.1 hu
    rw [hr]
  have hwr : r.wavelength = setup.wavelength := by
    have h := hr
    unfold eigensolvePatternedIsotropic at h
    obtain ⟨m, hm, h⟩ := bind_eq_ok.1 h
    exact (numerical_solvedFor he h).2.1
  refine ⟨u, r, ?_, hr', hb, ha, hwu, hwr⟩
  unfold eigensolveIsotropicMedia
  rw [dif_pos ⟨rfl, rfl⟩]
  exact hu

theorem last_uniform {ps : List (StackLayer (Fin 3))} {eig : Matrix (Fin 3 ⊕ Fin 3) (Fin 3 ⊕ Fin 3) ℂ → _} (h : ∀ p ∈ ps.getLast?, p.Uniform) :
    ∀ p ∈ ps.getLast?, ∀ r, p.solve eig setup = .ok r → IsUnit r.eigenvectors.det := fun p hp r hr => by
  rw [uniform_eigenvectors (h p hp) hr]; simp

/-- C119: any currents at the surface of the grating, computed with any two eigensolvers. -/
example {eig eig' : Matrix (Fin 3 ⊕ Fin 3) (Fin 3 ⊕ Fin 3) ℂ → _} (he : IsEig eig) (he' : IsEig eig') (jx jy jz : Matrix (Fin 3) (Fin 2) ℂ) :
    ∃ (gs : List (Fields (ℝ × ℝ → Fin 2 → ℂ))) (zs : List ℝ), ComputedEmission eig setup (stack.take 1) (stack.drop 1) jx jy jz [2, 3, 4] id gs zs ∧
      ComputedEmission eig' setup (stack.take 1) (stack.drop 1) jx jy jz [2, 3, 4] id gs zs := by
  obtain ⟨u, r, h1, h2, h3, h4, h5, h6⟩ := absorbing_layers he
  obtain ⟨sb, sa, ib, ia, k1, k2, k3, k4, k5⟩ := C97_absorbing (before := [u]) (after := [r, u]) (db := [0]) (da := [1, 0]) (lam := setup.wavelength) (by simp) (by simp)
    rfl rfl (by simp [h5, h6]) (by simp [h3, h4]) (by simp)
  obtain ⟨source, amplitudes, gs, zs, q1, q2, q3⟩ := k5 jx jy jz [2, 3, 4] (id : ℝ × ℝ → ℝ × ℝ) rfl
  have hE : ComputedEmission eig setup (stack.take 1) (stack.drop 1) jx jy jz [2, 3, 4] (id : ℝ × ℝ → ℝ × ℝ) gs zs :=
    ⟨[u], [r, u], sb, sa, ib, ia, source, amplitudes, .cons h1 .nil, .cons h2 (.cons h1 .nil), k1, k2, k3, k4, q1, q2, q3⟩
  refine ⟨gs, zs, hE, C119_emission he he' (last_uniform ?_) (last_uniform ?_) hE⟩
  · intro p hp
    simp only [stack, List.take_succ_cons, List.take_zero, List.getLast?_singleton, Option.mem_def, Option.some.injEq] at hp
    subst hp
    exact ⟨rfl, rfl, _, _, rfl⟩
  · intro p hp
    simp only [stack, List.drop_succ_cons, List.drop_zero, List.getLast?_cons_cons, List.getLast?_singleton, Option.mem_def, Option.some.injEq] at hp
    subst hp
    exact ⟨rfl, rfl, _, _, rfl⟩

/-- C119: the grating illuminated by any waves from both sides, computed with any two eigensolvers. -/
example {eig eig' : Matrix (Fin 3 ⊕ Fin 3) (Fin 3 ⊕ Fin 3) ℂ → _} (he : IsEig eig) (he' : IsEig eig') (a b : Matrix (Fin 3 ⊕ Fin 3) (Fin 2) ℂ) :
    ∃ (gs : List (Fields (ℝ × ℝ → Fin 2 → ℂ))) (zs : List ℝ), ComputedIllumination eig setup stack a b [2, 3, 4] id gs zs ∧
      ComputedIllumination eig' setup stack a b [2, 3, 4] id gs zs := by
  obtain ⟨u, r, h1, h2, h3, h4, h5, h6⟩ := absorbing_layers he
  obtain ⟨gs, zs, hE⟩ := absorbing_illumination (layers := [u, r, u]) (ds := [0, 1, 0]) (lam := setup.wavelength) (by simp) rfl (by simp [h5, h6]) (by simp [h3, h4]) (by simp)
    a b (znum := [2, 3, 4]) rfl (id : ℝ × ℝ → ℝ × ℝ)
  obtain ⟨interior, amplitudes, k1, k2, k3⟩ := hE
  have hI : ComputedIllumination eig setup stack a b [2, 3, 4] (id : ℝ × ℝ → ℝ × ℝ) gs zs :=
    ⟨[u, r, u], interior, amplitudes, .cons h1 (.cons h2 (.cons h1 .nil)), k1, k2, k3⟩
  exact ⟨gs, zs, hI, C119_illumination he he' uniform_ends.1 uniform_ends.2 hI⟩

end EigChoiceExample

end Fmmax
