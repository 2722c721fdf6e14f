import Verif.Proofs.Redescription
import Verif.Props.Radiation
import Verif.Props.TangentField
import Verif.Model.VectorFormulation

/-! Properties C84 to C88: scattering matrices of one structure described in different ways. -/

set_option linter.unusedSectionVars false

namespace Fmmax

open Matrix Spec

variable {ι : Type} [Fintype ι] [DecidableEq ι] {nx ny mx my : ℕ}
variable {eig : Matrix (ι ⊕ ι) (ι ⊕ ι) ℂ → (ι ⊕ ι → ℂ) × Matrix (ι ⊕ ι) (ι ⊕ ι) ℂ}
variable {c c' : Setup ι} {layers layers' : List (StackLayer ι)} {S : ScatteringMatrix ι}

/-! ### C84: any change of the description -/

/-- **C84** One periodic structure, described in two ways which differ by any combination of a scaling of all lengths, a rotation or
reflection, a choice of the lattice vectors (also of a larger cell) and of the origin, the order in which Fourier orders are listed and the
Brillouin zone: if the scattering matrix is computed from the first description, it is computed from the second one as well, and the
matrices which map the Fourier coefficients of incoming fields to those of outgoing fields are the same up to the transformation of
Fourier coefficients. -/
theorem C84_redescription (he : IsEig eig) {D : Redescription ι} (hs : D.SetupImage c c') (hl : List.Forall₂ (D.Image c c') layers layers')
    (hlast : ∀ p ∈ layers.getLast?, ∀ r, p.solve eig c = .ok r → IsUnit r.eigenvectors.det) (hS : ComputedSMatrix eig c layers S) :
    ∃ S', ComputedSMatrix eig c' layers' S' ∧
      let R := D.fieldMatrix c
      let φ := S.startLayer.eigenvectors
      let ψ := S.endLayer.eigenvectors
      let φ' := S'.startLayer.eigenvectors
      let ψ' := S'.endLayer.eigenvectors
      IsUnit R.det ∧ IsUnit φ.det ∧ IsUnit ψ.det ∧ IsUnit φ'.det ∧ IsUnit ψ'.det ∧
      ψ' * S'.s11 * φ'⁻¹ = R * (ψ * S.s11 * φ⁻¹) * R⁻¹ ∧ ψ' * S'.s12 * ψ'⁻¹ = R * (ψ * S.s12 * ψ⁻¹) * R⁻¹ ∧
      φ' * S'.s21 * φ'⁻¹ = R * (φ * S.s21 * φ⁻¹) * R⁻¹ ∧ φ' * S'.s22 * ψ'⁻¹ = R * (φ * S.s22 * ψ⁻¹) * R⁻¹ := by
  obtain ⟨S', hS', h⟩ := redescription_stack he hs hl hlast hS
  exact ⟨S', hS', (D.coordinates c).R_isUnit, sLayerMap_fields (D.coordinates c).R_isUnit h⟩

/-- **C84** Between uniform isotropic layers the amplitudes of the modes are Fourier coefficients, and the scattering matrices are conjugate. -/
theorem C84_uniform_ends (he : IsEig eig) {D : Redescription ι} (hs : D.SetupImage c c') (hl : List.Forall₂ (D.Image c c') layers layers')
    (hfirst : ∀ p ∈ layers.head?, p.Uniform) (hlast : ∀ p ∈ layers.getLast?, p.Uniform) (hS : ComputedSMatrix eig c layers S) :
    ∃ S', ComputedSMatrix eig c' layers' S' ∧
      S'.s11 * D.fieldMatrix c = D.fieldMatrix c * S.s11 ∧ S'.s12 * D.fieldMatrix c = D.fieldMatrix c * S.s12 ∧
      S'.s21 * D.fieldMatrix c = D.fieldMatrix c * S.s21 ∧ S'.s22 * D.fieldMatrix c = D.fieldMatrix c * S.s22 := by
  obtain ⟨S', hS', k1, k2, k3, k4⟩ := redescription_uniform he hs hl hfirst hlast hS
  have hR : IsUnit (D.fieldMatrix c).det := (D.coordinates c).R_isUnit
  refine ⟨S', hS', ?_, ?_, ?_, ?_⟩
  · rw [k1, Matrix.mul_assoc, nonsing_inv_mul _ hR, Matrix.mul_one]
  · rw [k2, Matrix.mul_assoc, nonsing_inv_mul _ hR, Matrix.mul_one]
  · rw [k3, Matrix.mul_assoc, nonsing_inv_mul _ hR, Matrix.mul_one]
  · rw [k4, Matrix.mul_assoc, nonsing_inv_mul _ hR, Matrix.mul_one]

/-! ### C85: translations -/

theorem fieldMatrix_conj_entries {D : Redescription ι} (hrot : D.rotation = 1) {A A' : ModeMatrix ι} (h : A' * D.fieldMatrix c = D.fieldMatrix c * A) :
    ∀ a b : ι ⊕ ι, A' a b = D.phase c (a.elim id id) * star (D.phase c (b.elim id id)) * A (a.map D.order D.order) (b.map D.order D.order) := by
  have left : ∀ (a b : ι ⊕ ι), (D.fieldMatrix c * A) a b = D.phase c (a.elim id id) * A (a.map D.order D.order) b := by
    intro a b
    rw [Matrix.mul_apply, Fintype.sum_sum_type]
    rcases a with a | a <;> simp [Redescription.fieldMatrix, hrot]
  have right : ∀ (a b : ι ⊕ ι), (A' * D.fieldMatrix c) a (b.map D.order D.order) = A' a b * D.phase c (b.elim id id) := by
    intro a b
    rw [Matrix.mul_apply, Fintype.sum_sum_type]
    rcases b with b | b <;> simp [Redescription.fieldMatrix, hrot]
  intro a b
  have e := congrFun (congrFun h a) (b.map D.order D.order)
  rw [left, right] at e
  linear_combination star (D.phase c (b.elim id id)) * e - A' a b * D.phase_norm c (b.elim id id)

theorem translation_setup (τ : ℝ × ℝ) (c : Setup ι) : (Redescription.translation ι τ).SetupImage c c := by
  refine ⟨?_, ?_, ?_, ?_, ?_, ?_⟩ <;> simp [Redescription.translation, Redescription.rotate]

/-- **C85** Moving a structure sideways by `τ` (in units of the lattice vectors) multiplies the amplitude scattered from order `G` to
order `G'` by the phase factor `exp(-2πi (G' - G)·τ)`, and does not change the polarisation. -/
theorem C85_translation (he : IsEig eig) {τ : ℝ × ℝ} (hl : List.Forall₂ ((Redescription.translation ι τ).Image c c) layers layers')
    (hfirst : ∀ p ∈ layers.head?, p.Uniform) (hlast : ∀ p ∈ layers.getLast?, p.Uniform) (hS : ComputedSMatrix eig c layers S) :
    ∃ S', ComputedSMatrix eig c layers' S' ∧ ∀ a b : ι ⊕ ι,
      let G := c.expansion (a.elim id id) - c.expansion (b.elim id id)
      let phase := Complex.exp (-2 * Real.pi * Complex.I * (G.1 * τ.1 + G.2 * τ.2))
      S'.s11 a b = phase * S.s11 a b ∧ S'.s12 a b = phase * S.s12 a b ∧ S'.s21 a b = phase * S.s21 a b ∧ S'.s22 a b = phase * S.s22 a b := by
  obtain ⟨S', hS', k1, k2, k3, k4⟩ := C84_uniform_ends he (translation_setup τ c) hl hfirst hlast hS
  refine ⟨S', hS', ?_⟩
  intro a b G phase
  have hid : ∀ x : ι ⊕ ι, x.map (Redescription.translation ι τ).order (Redescription.translation ι τ).order = x := by
    intro x; rcases x with x | x <;> rfl
  have hph : (Redescription.translation ι τ).phase c (a.elim id id) * star ((Redescription.translation ι τ).phase c (b.elim id id)) = phase := by
    unfold Redescription.phase
    rw [Complex.star_def, ← Complex.exp_conj, ← Complex.exp_add]
    simp only [phase, G, Redescription.translation, Equiv.refl_apply, map_mul, map_add, Complex.conj_ofReal, Complex.conj_I, map_ofNat, map_intCast,
      Prod.fst_sub, Prod.snd_sub]
    congr 1
    push_cast
    ring
  have key := fun {A A' : ModeMatrix ι} (h : A' * (Redescription.translation ι τ).fieldMatrix c = (Redescription.translation ι τ).fieldMatrix c * A) =>
    fieldMatrix_conj_entries (D := Redescription.translation ι τ) rfl h a b
  simp only [hid, hph] at key
  exact ⟨key k1, key k2, key k3, key k4⟩

/-- **C85** The magnitudes of all scattering amplitudes, and the amplitudes scattered within one order, do not change. -/
theorem C85_magnitudes (he : IsEig eig) {τ : ℝ × ℝ} (hl : List.Forall₂ ((Redescription.translation ι τ).Image c c) layers layers')
    (hfirst : ∀ p ∈ layers.head?, p.Uniform) (hlast : ∀ p ∈ layers.getLast?, p.Uniform) (hS : ComputedSMatrix eig c layers S) :
    ∃ S', ComputedSMatrix eig c layers' S' ∧
      (∀ a b : ι ⊕ ι, ‖S'.s11 a b‖ = ‖S.s11 a b‖ ∧ ‖S'.s12 a b‖ = ‖S.s12 a b‖ ∧ ‖S'.s21 a b‖ = ‖S.s21 a b‖ ∧ ‖S'.s22 a b‖ = ‖S.s22 a b‖) ∧
      ∀ a b : ι ⊕ ι, c.expansion (a.elim id id) = c.expansion (b.elim id id) →
        S'.s11 a b = S.s11 a b ∧ S'.s12 a b = S.s12 a b ∧ S'.s21 a b = S.s21 a b ∧ S'.s22 a b = S.s22 a b := by
  obtain ⟨S', hS', h⟩ := C85_translation he hl hfirst hlast hS
  refine ⟨S', hS', ?_, ?_⟩
  · intro a b
    obtain ⟨h1, h2, h3, h4⟩ := h a b
    have hn : ∀ x y : ℤ, ‖Complex.exp (-2 * Real.pi * Complex.I * (x * τ.1 + y * τ.2))‖ = 1 := by
      intro x y
      rw [show (-2 * Real.pi * Complex.I * (x * τ.1 + y * τ.2) : ℂ) = ((-2 * Real.pi * (x * τ.1 + y * τ.2) : ℝ) : ℂ) * Complex.I by push_cast; ring]
      exact Complex.norm_exp_ofReal_mul_I _
    rw [h1, h2, h3, h4]
    simp only [norm_mul, hn, one_mul, and_self]
  · intro a b hab
    obtain ⟨h1, h2, h3, h4⟩ := h a b
    rw [h1, h2, h3, h4, hab]
    simp

theorem rollIndex_val {n : ℕ} (a : ℤ) (r : Fin n) : ∃ z : ℤ, ((rollIndex a r : ℕ) : ℤ) = r - a + z * n := by
  have hn : (0 : ℤ) < n := by exact_mod_cast r.pos
  refine ⟨-(((r : ℤ) - a) / n), ?_⟩
  change ((((r : ℤ) - a) % n).toNat : ℤ) = _
  rw [Int.toNat_of_nonneg (Int.emod_nonneg _ hn.ne'), Int.emod_def]
  ring

/-- **C85** Rolling the array of samples by `a` and `b` points moves the pattern by `a / nx` and `b / ny` periods. -/
theorem C85_roll {τ : ℝ × ℝ} (hR : Resolves nx ny c.expansion) {a b : ℤ} (ha : (a : ℝ) = τ.1 * nx) (hb : (b : ℝ) = τ.2 * ny) :
    (Redescription.translation ι τ).GridImage c (roll a b : Fin nx × Fin ny → Fin nx × Fin ny) := by
  have hn : (0 : ℝ) < nx ∧ (0 : ℝ) < ny := by
    obtain ⟨⟨i⟩, hi⟩ := hR
    obtain ⟨h1, h2⟩ := hi i
    have p1 : 0 < nx := by have := abs_nonneg (c.expansion i).1; omega
    have p2 : 0 < ny := by have := abs_nonneg (c.expansion i).2; omega
    exact ⟨by exact_mod_cast p1, by exact_mod_cast p2⟩
  refine ⟨?_, hR, ?_⟩
  · have surj : ∀ (n : ℕ) (a : ℤ) (q : Fin n), rollIndex a (rollIndex (-a) q) = q := by
      intro n a q
      obtain ⟨z, hz⟩ := rollIndex_val (-a) q
      obtain ⟨w, hw⟩ := rollIndex_val a (rollIndex (-a) q)
      have hpos : (0 : ℝ) < n := by exact_mod_cast q.pos
      refine fin_eq_of_div (w := z + w) ?_
      have : ((rollIndex a (rollIndex (-a) q) : ℕ) : ℝ) = q + (z + w) * n := by
        have : ((rollIndex a (rollIndex (-a) q) : ℕ) : ℤ) = q + (z + w) * n := by rw [hw, hz]; ring
        exact_mod_cast this
      rw [this]
      push_cast
      field_simp
    rintro ⟨q1, q2⟩
    exact ⟨(rollIndex (-a) q1, rollIndex (-b) q2), Prod.ext (surj _ _ _) (surj _ _ _)⟩
  · rintro ⟨p1, p2⟩
    obtain ⟨z, hz⟩ := rollIndex_val a p1
    obtain ⟨w, hw⟩ := rollIndex_val b p2
    have hz' : ((rollIndex a p1 : ℕ) : ℝ) = p1 - a + z * nx := by exact_mod_cast hz
    have hw' : ((rollIndex b p2 : ℕ) : ℝ) = p2 - b + w * ny := by exact_mod_cast hw
    refine ⟨(z, w), ?_, ?_⟩
    · have := hn.1
      simp [roll, Redescription.translation, hz', ha]
      field_simp
      ring
    · have := hn.2
      simp [roll, Redescription.translation, hw', hb]
      field_simp
      ring

/-! ### C86: similarity -/

theorem solve_resolves {p : StackLayer ι} {r : LayerSolveResult ι} (h : p.solve eig c = .ok r) (hn : ¬(p.nx = 1 ∧ p.ny = 1)) : Resolves p.nx p.ny c.expansion := by
  obtain ⟨nx, ny, medium, d⟩ := p
  cases medium with
  | isotropic ε f =>
    simp only [StackLayer.solve, eigensolveIsotropicMedia, dif_neg hn, eigensolvePatternedIsotropic, bind_eq_ok, fourierMatricesPatternedIsotropic,
      fourierConvolutionMatrix_ok_iff] at h
    obtain ⟨m, ⟨E, -, η, -, _, ⟨hR, -⟩, -⟩, -⟩ := h
    exact hR
  | anisotropic ε μ f x =>
    simp only [StackLayer.solve, eigensolveGeneralAnisotropicMedia, dif_neg hn, eigensolvePatternedAnisotropic, bind_eq_ok, fourierMatricesPatternedAnisotropic,
      fourierConvolutionMatrix_ok_iff] at h
    obtain ⟨m, ⟨E, -, η, -, _, ⟨hR, -⟩, -⟩, -⟩ := h
    exact hR

/-- Layers sampled on the same grid. -/
theorem image_similar {D : Redescription ι} {p : StackLayer ι}
    (hf : ¬(p.nx = 1 ∧ p.ny = 1) → FormulationImage D.rotation c c' id p.medium.source p.medium.formulation p.medium.formulation)
    (hg : ¬(p.nx = 1 ∧ p.ny = 1) → D.GridImage c' (id : Fin p.nx × Fin p.ny → Fin p.nx × Fin p.ny)) :
    D.Image c c' p (p.similar D.scale D.rotation) := by
  obtain ⟨nx, ny, medium, d⟩ := p
  obtain ⟨e, rfl⟩ : ∃ e, d = D.scale * e := ⟨d / D.scale, by field_simp [D.scale_pos.ne']⟩
  have hd : D.scale * e / D.scale = e := by field_simp [D.scale_pos.ne']
  have hpull : ∀ {nx ny : ℕ} (x : Option (Grid nx ny)), x.map (Grid.pull id) = x := by
    intro nx ny x
    cases x <;> rfl
  unfold StackLayer.similar Redescription.Image
  simp only [hd]
  by_cases hn : nx = 1 ∧ ny = 1
  · obtain ⟨rfl, rfl⟩ := hn
    cases medium with
    | isotropic ε f => exact .uniformIsotropic ε f f e
    | anisotropic ε μ f x => exact .uniformAnisotropic ε μ f f x x e
  · cases medium with
    | isotropic ε f =>
      exact .isotropic id (hg hn) hn hn ε f f (hf hn) e
    | anisotropic ε μ f x =>
      have := LayerImage.anisotropic (scale := D.scale) (O := D.rotation) (grids := fun γ => D.GridImage c' γ) (c := c) (c' := c') id (hg hn) hn hn ε μ x f f (hf hn) e
      rw [hpull] at this
      exact this

theorem similarity_setup {s : ℝ} (hs : 0 < s) {O : Matrix (Fin 2) (Fin 2) ℝ} (hO : Oᵀ * O = 1) (c : Setup ι) :
    (Redescription.similarity ι hs hO).SetupImage c (c.similar s O) := by
  have := hs.ne'
  refine ⟨?_, ?_, ?_, ?_, ?_, ?_⟩ <;> simp [Redescription.similarity, Redescription.rotate, Setup.similar, mul_div_cancel₀, this]

theorem similarity_grid {s : ℝ} (hs : 0 < s) {O : Matrix (Fin 2) (Fin 2) ℝ} (hO : Oᵀ * O = 1) (hR : Resolves nx ny c.expansion) :
    (Redescription.similarity ι hs hO).GridImage (c.similar s O) (id : Fin nx × Fin ny → Fin nx × Fin ny) := by
  refine ⟨Function.surjective_id, hR, fun p => ⟨0, ?_, ?_⟩⟩ <;> simp [Redescription.similarity]

theorem forall₂_solve_mem {ps : List (StackLayer ι)} {rs : List (LayerSolveResult ι)} (h : List.Forall₂ (fun p r => p.solve eig c = .ok r) ps rs) :
    ∀ p ∈ ps, ∃ r, p.solve eig c = .ok r := by
  induction h with
  | nil => simp
  | cons h _ ih =>
    intro p hp
    rw [List.mem_cons] at hp
    rcases hp with rfl | hp
    · exact ⟨_, h⟩
    · exact ih p hp

theorem forall₂_map_of_mem {α β : Type} {R : α → β → Prop} {f : α → β} : ∀ {l : List α}, (∀ a ∈ l, R a (f a)) → List.Forall₂ R l (l.map f)
  | [], _ => .nil
  | a :: l, h => .cons (h a (by simp)) (forall₂_map_of_mem fun b hb => h b (by simp [hb]))

theorem similarity_layers {s : ℝ} (hs : 0 < s) {O : Matrix (Fin 2) (Fin 2) ℝ} (hO : Oᵀ * O = 1) (hf : ∀ p ∈ layers, ¬(p.nx = 1 ∧ p.ny = 1) →
      FormulationImage O c (c.similar s O) id p.medium.source p.medium.formulation p.medium.formulation)
    (hS : ComputedSMatrix eig c layers S) :
    List.Forall₂ ((Redescription.similarity ι hs hO).Image c (c.similar s O)) layers (layers.map (StackLayer.similar s O)) := by
  obtain ⟨solved, h, -⟩ := hS
  refine forall₂_map_of_mem fun p hp => ?_
  obtain ⟨r, hr⟩ := forall₂_solve_mem h p hp
  exact image_similar (D := Redescription.similarity ι hs hO) (hf p hp) fun hn => similarity_grid hs hO (solve_resolves hr hn)

/-- **C86** Rotating or reflecting the lattice, the wavevector and the anisotropy of the materials, and dividing all lengths by `s`: if tangent fields
are rotated or reflected, too, the two field components of every order are rotated or reflected, and nothing else changes. -/
theorem C86_formulations (he : IsEig eig) {s : ℝ} (hs : 0 < s) {O : Matrix (Fin 2) (Fin 2) ℝ} (hO : Oᵀ * O = 1)
    (hf : ∀ p ∈ layers, ¬(p.nx = 1 ∧ p.ny = 1) →
      FormulationImage O c (c.similar s O) id p.medium.source p.medium.formulation p.medium.formulation) (hfirst : ∀ p ∈ layers.head?, p.Uniform) (hlast : ∀ p ∈ layers.getLast?, p.Uniform)
    (hS : ComputedSMatrix eig c layers S) :
    ∃ S', ComputedSMatrix eig (c.similar s O) (layers.map (StackLayer.similar s O)) S' ∧
      let R : ModeMatrix ι := fromBlocks ((O 0 0 : ℂ) • 1) ((O 0 1 : ℂ) • 1) ((O 1 0 : ℂ) • 1) ((O 1 1 : ℂ) • 1)
      S'.s11 = R * S.s11 * Rᵀ ∧ S'.s12 = R * S.s12 * Rᵀ ∧ S'.s21 = R * S.s21 * Rᵀ ∧ S'.s22 = R * S.s22 * Rᵀ := by
  obtain ⟨S', hS', k1, k2, k3, k4⟩ := C84_uniform_ends he (similarity_setup hs hO c) (similarity_layers hs hO hf hS) hfirst hlast hS
  refine ⟨S', hS', ?_⟩
  intro R
  have hQ : (Redescription.similarity ι hs hO).fieldMatrix c = R := by
    have : (Matrix.of fun i j => if i = j then (1 : ℂ) else 0 : Matrix ι ι ℂ) = 1 := by ext i j; simp [Matrix.one_apply]
    simp [Redescription.fieldMatrix, Redescription.phase, Redescription.similarity, R, this]
  have hRR : R * Rᵀ = 1 := by
    have hOO : O * Oᵀ = 1 := mul_eq_one_comm.1 hO
    have e := fun i j => congrFun (congrFun hOO i) j
    have e00 := e 0 0
    have e01 := e 0 1
    have e11 := e 1 1
    simp only [Matrix.mul_apply, Fin.sum_univ_two, transpose_apply, Matrix.one_apply_eq, Matrix.one_apply_ne (zero_ne_one : (0 : Fin 2) ≠ 1)] at e00 e01 e11
    have f00 : (O 0 0 : ℂ) * O 0 0 + O 0 1 * O 0 1 = 1 := by exact_mod_cast e00
    have f01 : (O 0 0 : ℂ) * O 1 0 + O 0 1 * O 1 1 = 0 := by exact_mod_cast e01
    have f11 : (O 1 0 : ℂ) * O 1 0 + O 1 1 * O 1 1 = 1 := by exact_mod_cast e11
    have f10 : (O 1 0 : ℂ) * O 0 0 + O 1 1 * O 0 1 = 0 := by linear_combination f01
    simp only [R, fromBlocks_transpose, fromBlocks_multiply, transpose_smul, transpose_one, Matrix.mul_smul, Matrix.smul_mul, Matrix.one_mul, smul_smul, ← add_smul,
      mul_comm (O 1 0 : ℂ) (O 0 0), mul_comm (O 1 1 : ℂ) (O 0 1), f00, f01, f11, one_smul, zero_smul, fromBlocks_one]
  rw [hQ] at k1 k2 k3 k4
  have key : ∀ {A A' : ModeMatrix ι}, A' * R = R * A → A' = R * A * Rᵀ := by
    intro A A' h
    rw [← h, Matrix.mul_assoc, hRR, Matrix.mul_one]
  exact ⟨key k1, key k2, key k3, key k4⟩

theorem fft_image {O : Matrix (Fin 2) (Fin 2) ℝ} {γ : Fin mx × Fin my → Fin nx × Fin ny} {x : Grid nx ny} {f : Formulation nx ny ι} {f' : Formulation mx my ι}
    (h : f = .fft) (h' : f' = .fft) : FormulationImage O c c' γ x f f' := by
  subst h h'
  trivial

/-- **C86** Rotating or reflecting the lattice, the wavevector and the anisotropy of the materials, and dividing all lengths by `s` (FFT formulation):
the two field components of every order are rotated or reflected, and nothing else changes. -/
theorem C86_similarity (he : IsEig eig) {s : ℝ} (hs : 0 < s) {O : Matrix (Fin 2) (Fin 2) ℝ} (hO : Oᵀ * O = 1)
    (hf : ∀ p ∈ layers, p.medium.formulation = .fft) (hfirst : ∀ p ∈ layers.head?, p.Uniform) (hlast : ∀ p ∈ layers.getLast?, p.Uniform)
    (hS : ComputedSMatrix eig c layers S) :
    ∃ S', ComputedSMatrix eig (c.similar s O) (layers.map (StackLayer.similar s O)) S' ∧
      let R : ModeMatrix ι := fromBlocks ((O 0 0 : ℂ) • 1) ((O 0 1 : ℂ) • 1) ((O 1 0 : ℂ) • 1) ((O 1 1 : ℂ) • 1)
      S'.s11 = R * S.s11 * Rᵀ ∧ S'.s12 = R * S.s12 * Rᵀ ∧ S'.s21 = R * S.s21 * Rᵀ ∧ S'.s22 = R * S.s22 * Rᵀ :=
  C86_formulations he hs hO (fun p hp _ => fft_image (hf p hp) (hf p hp)) hfirst hlast hS

/-- The tangent field of a named scheme does not depend on the scale. -/
theorem scheme_scale {s : ℝ} (hs : 0 < s) (scheme : String × VectorMethod × ℝ × ℝ) (x : Grid nx ny) (c : Setup ι) :
    FormulationImage 1 c (c.similar s 1) id x (.ofScheme scheme) (.ofScheme scheme) := by
  refine ⟨1, norm_one, fun t ht => ?_⟩
  have e : (c.similar s 1).lattice = ⟨(s⁻¹ * c.lattice.u.1, s⁻¹ * c.lattice.u.2), (s⁻¹ * c.lattice.v.1, s⁻¹ * c.lattice.v.2)⟩ := by
    simp [Setup.similar, Prod.smul_def]
  have hx : x.pull id = x := rfl
  have ht' : tangentPair scheme.2.1 scheme.2.2.1 scheme.2.2.2 (x.pull id) (c.similar s 1).expansion (c.similar s 1).lattice = .ok t := by
    rw [← ht, hx, e]
    unfold tangentPair
    have := C60_scale scheme.2.1 x c.expansion c.lattice scheme.2.2.1 scheme.2.2.2 s⁻¹ (inv_pos.2 hs)
    simp only [Setup.similar] at this ⊢
    rw [this]
  rw [ht']
  simp [Grid.pull]
  rfl

/-- **C86** Scale invariance: only the ratios of lengths to the wavelength matter, in the FFT formulation and all named vector
formulations. -/
theorem C86_scale_invariance (he : IsEig eig) {s : ℝ} (hs : 0 < s)
    (hf : ∀ p ∈ layers, p.medium.formulation = .fft ∨ ∃ scheme ∈ vectorFieldSchemes, p.medium.formulation = .ofScheme scheme) (hfirst : ∀ p ∈ layers.head?, p.Uniform) (hlast : ∀ p ∈ layers.getLast?, p.Uniform)
    (hS : ComputedSMatrix eig c layers S) :
    ∃ S', ComputedSMatrix eig
        { wavelength := c.wavelength / s, inPlaneWavevector := s • c.inPlaneWavevector, lattice := ⟨s⁻¹ • c.lattice.u, s⁻¹ • c.lattice.v⟩, expansion := c.expansion }
        (layers.map fun p => { p with thickness := p.thickness / s }) S' ∧
      S'.s11 = S.s11 ∧ S'.s12 = S.s12 ∧ S'.s21 = S.s21 ∧ S'.s22 = S.s22 := by
  have hf' : ∀ p ∈ layers, ¬(p.nx = 1 ∧ p.ny = 1) →
      FormulationImage 1 c (c.similar s 1) id p.medium.source p.medium.formulation p.medium.formulation := by
    intro p hp _
    rcases hf p hp with h | ⟨scheme, -, h⟩
    · exact fft_image h h
    · rw [h]
      exact scheme_scale hs scheme _ c
  obtain ⟨S', hS', h⟩ := C86_formulations he hs (O := 1) (by simp) hf' hfirst hlast hS
  refine ⟨S', ?_, ?_⟩
  · have e1 : c.similar s 1 = { wavelength := c.wavelength / s, inPlaneWavevector := s • c.inPlaneWavevector, lattice := ⟨s⁻¹ • c.lattice.u, s⁻¹ • c.lattice.v⟩, expansion := c.expansion } := by
      simp [Setup.similar]
    have ht : ∀ {nx ny : ℕ} (t : TensorComponents nx ny), rotateTensor 1 t = t := by
      intro nx ny t
      simp [rotateTensor]
      rfl
    have e2 : StackLayer.similar (ι := ι) s 1 = fun p => { p with thickness := p.thickness / s } := by
      funext p
      obtain ⟨nx, ny, medium, d⟩ := p
      cases medium <;> simp [StackLayer.similar, Medium.rotate, ht]
    rw [← e1, ← e2]
    exact hS'
  · simpa using h

/-! ### C87: labels of the orders -/

theorem relabelling_setup (π : Equiv.Perm ι) (g : ℤ × ℤ) {c c' : Setup ι} (h1 : c'.wavelength = c.wavelength) (h2 : c'.lattice = c.lattice)
    (h3 : ∀ i, c'.expansion i = c.expansion (π i) - g) (h4 : dot (c'.inPlaneWavevector - c.inPlaneWavevector) c.lattice.u = 2 * Real.pi * g.1)
    (h5 : dot (c'.inPlaneWavevector - c.inPlaneWavevector) c.lattice.v = 2 * Real.pi * g.2) : (Redescription.relabelling π g).SetupImage c c' := by
  unfold dot at h4 h5
  simp only [Prod.fst_sub, Prod.snd_sub] at h4 h5
  refine ⟨?_, ?_, ?_, ?_, ?_, ?_⟩
  · simp [Redescription.relabelling, h1]
  · simp [Redescription.relabelling, Redescription.rotate, h2]
  · simp [Redescription.relabelling, Redescription.rotate, h2]
  · intro i
    rw [h3]
    simp [Redescription.relabelling, Prod.ext_iff]
  · simp [Redescription.relabelling, Redescription.rotate, h2, dot]
    linarith
  · simp [Redescription.relabelling, Redescription.rotate, h2, dot]
    linarith

/-- **C87** The labels of the orders have no significance (FFT formulation): if the orders of the expansion are listed in another sequence, and counted
from another order `g` while the in-plane wavevector is moved by the reciprocal lattice vector `g`, the scattering matrix of the same
layers has the same entries, found at the new positions. -/
theorem C87_relabelling (he : IsEig eig) (π : Equiv.Perm ι) (g : ℤ × ℤ) (h1 : c'.wavelength = c.wavelength) (h2 : c'.lattice = c.lattice)
    (h3 : ∀ i, c'.expansion i = c.expansion (π i) - g) (h4 : dot (c'.inPlaneWavevector - c.inPlaneWavevector) c.lattice.u = 2 * Real.pi * g.1)
    (h5 : dot (c'.inPlaneWavevector - c.inPlaneWavevector) c.lattice.v = 2 * Real.pi * g.2)
    (hR : ∀ p ∈ layers, ¬(p.nx = 1 ∧ p.ny = 1) → Resolves p.nx p.ny c'.expansion)
    (hf : ∀ p ∈ layers, p.medium.formulation = .fft) (hfirst : ∀ p ∈ layers.head?, p.Uniform) (hlast : ∀ p ∈ layers.getLast?, p.Uniform)
    (hS : ComputedSMatrix eig c layers S) :
    ∃ S', ComputedSMatrix eig c' layers S' ∧ ∀ a b : ι ⊕ ι,
      S'.s11 a b = S.s11 (a.map π π) (b.map π π) ∧ S'.s12 a b = S.s12 (a.map π π) (b.map π π) ∧
      S'.s21 a b = S.s21 (a.map π π) (b.map π π) ∧ S'.s22 a b = S.s22 (a.map π π) (b.map π π) := by
  set D := Redescription.relabelling π g with hD
  have himg : List.Forall₂ (D.Image c c') layers layers := by
    have ht : ∀ {nx ny : ℕ} (t : TensorComponents nx ny), rotateTensor 1 t = t := by
      intro nx ny t
      simp [rotateTensor]
      rfl
    have e2 : ∀ p : StackLayer ι, p.similar 1 1 = p := by
      intro p
      obtain ⟨nx, ny, medium, d⟩ := p
      cases medium <;> simp [StackLayer.similar, Medium.rotate, ht]
    have : List.Forall₂ (D.Image c c') layers (layers.map id) := by
      refine forall₂_map_of_mem fun p hp => ?_
      have := image_similar (D := D) (c := c) (c' := c') (p := p) (fun _ => fft_image (hf p hp) (hf p hp)) fun hn => by
        refine ⟨Function.surjective_id, hR p hp hn, fun q => ⟨0, ?_, ?_⟩⟩ <;> simp [hD, Redescription.relabelling]
      rwa [show p.similar D.scale D.rotation = p from e2 p] at this
    rwa [List.map_id] at this
  obtain ⟨S', hS', k1, k2, k3, k4⟩ := C84_uniform_ends he (relabelling_setup π g h1 h2 h3 h4 h5) himg hfirst hlast hS
  refine ⟨S', hS', fun a b => ?_⟩
  have hph : ∀ i, D.phase c i = 1 := by intro i; simp [Redescription.phase, hD, Redescription.relabelling]
  have key := fun {A A' : ModeMatrix ι} (h : A' * D.fieldMatrix c = D.fieldMatrix c * A) => fieldMatrix_conj_entries (D := D) rfl h a b
  simp only [hph, star_one, mul_one, one_mul] at key
  exact ⟨key k1, key k2, key k3, key k4⟩

theorem tile_grid {m n : ℕ} (hm : m ≠ 0) (hn : n ≠ 0) (hR : Resolves nx ny c.expansion) (hc : ∀ i, c'.expansion i = (m * (c.expansion i).1, n * (c.expansion i).2)) :
    (Redescription.supercell ι hm hn).GridImage c' (tile m n : Fin (m * nx) × Fin (n * ny) → Fin nx × Fin ny) := by
  obtain ⟨⟨i⟩, hi⟩ := hR
  obtain ⟨h1, h2⟩ := hi i
  have p1 : 0 < nx := by have := abs_nonneg (c.expansion i).1; omega
  have p2 : 0 < ny := by have := abs_nonneg (c.expansion i).2; omega
  have m1 : 1 ≤ (m : ℤ) := by exact_mod_cast Nat.one_le_iff_ne_zero.2 hm
  have n1 : 1 ≤ (n : ℤ) := by exact_mod_cast Nat.one_le_iff_ne_zero.2 hn
  refine ⟨?_, ⟨⟨i⟩, ?_⟩, ?_⟩
  · rintro ⟨q1, q2⟩
    refine ⟨(⟨q1, lt_of_lt_of_le q1.is_lt (Nat.le_mul_of_pos_left _ (Nat.pos_of_ne_zero hm))⟩, ⟨q2, lt_of_lt_of_le q2.is_lt (Nat.le_mul_of_pos_left _ (Nat.pos_of_ne_zero hn))⟩), ?_⟩
    simp [tile, Nat.mod_eq_of_lt]
  · intro j
    obtain ⟨k1, k2⟩ := hi j
    rw [hc j]
    simp only [abs_mul, Nat.abs_cast]
    push_cast
    constructor <;> nlinarith [abs_nonneg (c.expansion j).1, abs_nonneg (c.expansion j).2]
  · rintro ⟨r, s⟩
    refine ⟨(-((r / nx : ℕ) : ℤ), -((s / ny : ℕ) : ℤ)), ?_, ?_⟩
    · have : ((r : ℕ) : ℝ) = (r % nx : ℕ) + nx * (r / nx : ℕ) := by exact_mod_cast (Nat.mod_add_div _ _).symm
      have q1 : (nx : ℝ) ≠ 0 := by exact_mod_cast p1.ne'
      have q2 : (m : ℝ) ≠ 0 := by exact_mod_cast hm
      have e : ((r : ℕ) : ℝ) / nx = ((r : ℕ) % nx : ℕ) / nx + ((r / nx : ℕ) : ℝ) := by rw [this]; field_simp
      have e' : (m : ℝ) * (((r : ℕ) : ℝ) / ((m * nx : ℕ) : ℝ)) = ((r : ℕ) : ℝ) / nx := by push_cast; field_simp
      simp only [tile, Redescription.supercell, of_apply, cons_val', cons_val_zero, cons_val_one, cons_val_fin_one, Int.cast_natCast, Int.cast_neg, Int.cast_zero,
        zero_mul, add_zero, zero_add, Prod.fst_zero, Prod.snd_zero, e', e]
      ring
    · have : ((s : ℕ) : ℝ) = (s % ny : ℕ) + ny * (s / ny : ℕ) := by exact_mod_cast (Nat.mod_add_div _ _).symm
      have q1 : (ny : ℝ) ≠ 0 := by exact_mod_cast p2.ne'
      have q2 : (n : ℝ) ≠ 0 := by exact_mod_cast hn
      have e : ((s : ℕ) : ℝ) / ny = ((s : ℕ) % ny : ℕ) / ny + ((s / ny : ℕ) : ℝ) := by rw [this]; field_simp
      have e' : (n : ℝ) * (((s : ℕ) : ℝ) / ((n * ny : ℕ) : ℝ)) = ((s : ℕ) : ℝ) / ny := by push_cast; field_simp
      simp only [tile, Redescription.supercell, of_apply, cons_val', cons_val_zero, cons_val_one, cons_val_fin_one, Int.cast_natCast, Int.cast_neg, Int.cast_zero,
        zero_mul, add_zero, zero_add, Prod.fst_zero, Prod.snd_zero, e', e]
      ring

/-- Layers sampled on another grid in the FFT formulation. -/
theorem image_resample {D : Redescription ι} (hscale : D.scale = 1) (hrot : D.rotation = 1) {p : StackLayer ι} (hf : p.medium.formulation = .fft)
    {γ : Fin mx × Fin my → Fin p.nx × Fin p.ny} (hg : ¬(p.nx = 1 ∧ p.ny = 1) → D.GridImage c' γ ∧ ¬(mx = 1 ∧ my = 1)) :
    D.Image c c' p (p.resample γ) := by
  obtain ⟨nx, ny, medium, d⟩ := p
  have ht : ∀ {nx ny : ℕ} (t : TensorComponents nx ny), rotateTensor 1 t = t := by
    intro nx ny t
    simp [rotateTensor]
    rfl
  unfold StackLayer.resample Redescription.Image
  rw [hscale, hrot]
  by_cases hn : nx = 1 ∧ ny = 1
  · obtain ⟨rfl, rfl⟩ := hn
    cases medium with
    | isotropic ε f => simpa using LayerImage.uniformIsotropic (scale := 1) (O := 1) (grids := fun γ => D.GridImage c' γ) (c := c) (c' := c') ε f f d
    | anisotropic ε μ f x =>
      simpa [ht] using LayerImage.uniformAnisotropic (scale := 1) (O := 1) (grids := fun γ => D.GridImage c' γ) (c := c) (c' := c') ε μ f f x x d
  · simp only [hn, if_false]
    cases medium with
    | isotropic ε f =>
      simp only [Medium.formulation] at hf
      subst hf
      have := LayerImage.isotropic (scale := 1) (O := 1) (grids := fun γ => D.GridImage c' γ) (c := c) (c' := c') γ (hg hn).1 hn (hg hn).2 ε .fft .fft trivial d
      simp only [one_mul] at this
      exact this
    | anisotropic ε μ f x =>
      simp only [Medium.formulation] at hf
      subst hf
      have := LayerImage.anisotropic (scale := 1) (O := 1) (grids := fun γ => D.GridImage c' γ) (c := c) (c' := c') γ (hg hn).1 hn (hg hn).2 ε μ x .fft .fft trivial d
      simp only [one_mul, ht] at this
      exact this

/-- **C85** Rolling the arrays of all patterned layers: the phase factors of C85_translation. -/
theorem C85_rolled_arrays (he : IsEig eig) {τ : ℝ × ℝ} {a b : StackLayer ι → ℤ}
    (hτ : ∀ p ∈ layers, ¬(p.nx = 1 ∧ p.ny = 1) → (a p : ℝ) = τ.1 * p.nx ∧ (b p : ℝ) = τ.2 * p.ny) (hf : ∀ p ∈ layers, p.medium.formulation = .fft)
    (hfirst : ∀ p ∈ layers.head?, p.Uniform) (hlast : ∀ p ∈ layers.getLast?, p.Uniform) (hS : ComputedSMatrix eig c layers S) :
    ∃ S', ComputedSMatrix eig c (layers.map fun p => p.resample (roll (a p) (b p))) S' ∧ ∀ a b : ι ⊕ ι,
      let G := c.expansion (a.elim id id) - c.expansion (b.elim id id)
      let phase := Complex.exp (-2 * Real.pi * Complex.I * (G.1 * τ.1 + G.2 * τ.2))
      S'.s11 a b = phase * S.s11 a b ∧ S'.s12 a b = phase * S.s12 a b ∧ S'.s21 a b = phase * S.s21 a b ∧ S'.s22 a b = phase * S.s22 a b := by
  refine C85_translation he (forall₂_map_of_mem fun p hp => ?_) hfirst hlast hS
  obtain ⟨solved, h, -⟩ := hS
  obtain ⟨r, hr⟩ := forall₂_solve_mem h p hp
  exact image_resample (D := Redescription.translation ι τ) rfl rfl (hf p hp) fun hn =>
    ⟨C85_roll (solve_resolves hr hn) (hτ p hp hn).1 (hτ p hp hn).2, hn⟩

/-- Layers moved on their grids. -/
theorem image_move {D : Redescription ι} (hscale : D.scale = 1) (hrot : D.rotation = 1) {p : StackLayer ι} {γ : Fin p.nx × Fin p.ny → Fin p.nx × Fin p.ny}
    (hf : ¬(p.nx = 1 ∧ p.ny = 1) → FormulationImage 1 c c' γ p.medium.source p.medium.formulation p.medium.formulation)
    (hg : ¬(p.nx = 1 ∧ p.ny = 1) → D.GridImage c' γ) : D.Image c c' p (p.move γ) := by
  obtain ⟨nx, ny, medium, d⟩ := p
  have ht : ∀ {nx ny : ℕ} (t : TensorComponents nx ny), rotateTensor 1 t = t := by
    intro nx ny t
    simp [rotateTensor]
    rfl
  unfold StackLayer.move Redescription.Image
  rw [hscale, hrot]
  by_cases hn : nx = 1 ∧ ny = 1
  · obtain ⟨rfl, rfl⟩ := hn
    have hp : ∀ x : Grid 1 1, x.pull γ = x := by
      intro x
      ext i j
      simp only [Grid.pull, of_apply, Subsingleton.elim (γ (i, j)).1 i, Subsingleton.elim (γ (i, j)).2 j]
    cases medium with
    | isotropic ε f => simpa [Medium.move, hp] using LayerImage.uniformIsotropic (scale := 1) (O := 1) (grids := fun γ => D.GridImage c' γ) (c := c) (c' := c') ε f f d
    | anisotropic ε μ f x =>
      have hT : ∀ t : TensorComponents 1 1, t.pull γ = t := by
        intro t
        simp only [TensorComponents.pull, hp]
      simpa [Medium.move, ht, hT] using
        LayerImage.uniformAnisotropic (scale := 1) (O := 1) (grids := fun γ => D.GridImage c' γ) (c := c) (c' := c') ε μ f f x (x.map (Grid.pull γ)) d
  · cases medium with
    | isotropic ε f =>
      have := LayerImage.isotropic (scale := 1) (O := 1) (grids := fun γ => D.GridImage c' γ) (c := c) (c' := c') γ (hg hn) hn hn ε f f (hf hn) d
      simp only [one_mul] at this
      exact this
    | anisotropic ε μ f x =>
      have := LayerImage.anisotropic (scale := 1) (O := 1) (grids := fun γ => D.GridImage c' γ) (c := c) (c' := c') γ (hg hn) hn hn ε μ x f f (hf hn) d
      simp only [one_mul, ht] at this
      exact this

/-- **C85** Rolling the arrays of all patterned layers in any formulations whose tangent fields are rolled, too: the phase factors of C85_translation. -/
theorem C85_rolled_formulations (he : IsEig eig) {τ : ℝ × ℝ} {a b : StackLayer ι → ℤ}
    (hτ : ∀ p ∈ layers, ¬(p.nx = 1 ∧ p.ny = 1) → (a p : ℝ) = τ.1 * p.nx ∧ (b p : ℝ) = τ.2 * p.ny)
    (hf : ∀ p ∈ layers, ¬(p.nx = 1 ∧ p.ny = 1) → FormulationImage 1 c c (roll (a p) (b p)) p.medium.source p.medium.formulation p.medium.formulation)
    (hfirst : ∀ p ∈ layers.head?, p.Uniform) (hlast : ∀ p ∈ layers.getLast?, p.Uniform) (hS : ComputedSMatrix eig c layers S) :
    ∃ S', ComputedSMatrix eig c (layers.map fun p => p.move (roll (a p) (b p))) S' ∧ ∀ a b : ι ⊕ ι,
      let G := c.expansion (a.elim id id) - c.expansion (b.elim id id)
      let phase := Complex.exp (-2 * Real.pi * Complex.I * (G.1 * τ.1 + G.2 * τ.2))
      S'.s11 a b = phase * S.s11 a b ∧ S'.s12 a b = phase * S.s12 a b ∧ S'.s21 a b = phase * S.s21 a b ∧ S'.s22 a b = phase * S.s22 a b := by
  refine C85_translation he (forall₂_map_of_mem fun p hp => ?_) hfirst hlast hS
  obtain ⟨solved, h, -⟩ := hS
  obtain ⟨r, hr⟩ := forall₂_solve_mem h p hp
  exact image_move (D := Redescription.translation ι τ) rfl rfl (hf p hp) fun hn => C85_roll (solve_resolves hr hn) (hτ p hp hn).1 (hτ p hp hn).2

theorem identity_fieldMatrix {D : Redescription ι} (hrot : D.rotation = 1) (hshift : D.shift = 0) (horder : D.order = Equiv.refl ι) : D.fieldMatrix c = 1 := by
  have : (Matrix.of fun i j => if i = j then (1 : ℂ) else 0 : Matrix ι ι ℂ) = 1 := by ext i j; simp [Matrix.one_apply]
  simp [Redescription.fieldMatrix, Redescription.phase, hrot, hshift, horder, this]

/-- **C87** A supercell (FFT formulation): repeating the patterns `m × n` times and multiplying the lattice vectors accordingly gives the same scattering
matrix, if the same diffraction orders are kept, which are then numbered `(m G₁, n G₂)`. -/
theorem C87_supercell (he : IsEig eig) {m n : ℕ} (hm : m ≠ 0) (hn : n ≠ 0) (h1 : c'.wavelength = c.wavelength) (h2 : c'.inPlaneWavevector = c.inPlaneWavevector)
    (hu : c'.lattice.u = (m : ℝ) • c.lattice.u) (hv : c'.lattice.v = (n : ℝ) • c.lattice.v)
    (hG : ∀ i, c'.expansion i = (m * (c.expansion i).1, n * (c.expansion i).2))
    (hf : ∀ p ∈ layers, p.medium.formulation = .fft) (hfirst : ∀ p ∈ layers.head?, p.Uniform) (hlast : ∀ p ∈ layers.getLast?, p.Uniform)
    (hS : ComputedSMatrix eig c layers S) :
    ∃ S', ComputedSMatrix eig c' (layers.map fun p => p.resample (tile m n)) S' ∧
      S'.s11 = S.s11 ∧ S'.s12 = S.s12 ∧ S'.s21 = S.s21 ∧ S'.s22 = S.s22 := by
  have hset : (Redescription.supercell ι hm hn).SetupImage c c' := by
    refine ⟨?_, ?_, ?_, ?_, ?_, ?_⟩ <;> simp [Redescription.supercell, Redescription.rotate, h1, h2, hu, hv, hG, Prod.ext_iff]
  have himg : List.Forall₂ ((Redescription.supercell ι hm hn).Image c c') layers (layers.map fun p => p.resample (tile m n)) := by
    refine forall₂_map_of_mem fun p hp => ?_
    obtain ⟨solved, h, -⟩ := hS
    obtain ⟨r, hr⟩ := forall₂_solve_mem h p hp
    refine image_resample (D := Redescription.supercell ι hm hn) rfl rfl (hf p hp) fun hpn => ⟨tile_grid hm hn (solve_resolves hr hpn) hG, ?_⟩
    rintro ⟨q1, q2⟩
    exact hpn ⟨Nat.eq_one_of_mul_eq_one_left q1, Nat.eq_one_of_mul_eq_one_left q2⟩
  obtain ⟨S', hS', k1, k2, k3, k4⟩ := C84_uniform_ends he hset himg hfirst hlast hS
  rw [identity_fieldMatrix rfl rfl rfl, Matrix.mul_one, Matrix.one_mul] at k1 k2 k3 k4
  exact ⟨S', hS', k1, k2, k3, k4⟩

/-- **C87** The two lattice vectors are on an equal footing: exchanging them, the axes of all arrays and the numbers of each order gives the same
scattering matrix (FFT formulation). -/
theorem C87_exchange (he : IsEig eig) (h1 : c'.wavelength = c.wavelength) (h2 : c'.inPlaneWavevector = c.inPlaneWavevector)
    (hu : c'.lattice.u = c.lattice.v) (hv : c'.lattice.v = c.lattice.u) (hG : ∀ i, c'.expansion i = (c.expansion i).swap)
    (hf : ∀ p ∈ layers, p.medium.formulation = .fft) (hfirst : ∀ p ∈ layers.head?, p.Uniform) (hlast : ∀ p ∈ layers.getLast?, p.Uniform)
    (hS : ComputedSMatrix eig c layers S) :
    ∃ S', ComputedSMatrix eig c' (layers.map fun p => p.resample (Prod.swap : Fin p.ny × Fin p.nx → Fin p.nx × Fin p.ny)) S' ∧
      S'.s11 = S.s11 ∧ S'.s12 = S.s12 ∧ S'.s21 = S.s21 ∧ S'.s22 = S.s22 := by
  have hset : (Redescription.exchange ι).SetupImage c c' := by
    refine ⟨?_, ?_, ?_, ?_, ?_, ?_⟩ <;> simp [Redescription.exchange, Redescription.rotate, h1, h2, hu, hv, hG, Prod.swap]
  have himg : List.Forall₂ ((Redescription.exchange ι).Image c c') layers
      (layers.map fun p => p.resample (Prod.swap : Fin p.ny × Fin p.nx → Fin p.nx × Fin p.ny)) := by
    refine forall₂_map_of_mem fun p hp => ?_
    obtain ⟨solved, h, -⟩ := hS
    obtain ⟨r, hr⟩ := forall₂_solve_mem h p hp
    refine image_resample (D := Redescription.exchange ι) rfl rfl (hf p hp) fun hpn => ⟨⟨Prod.swap_surjective, ?_, ?_⟩, fun h => hpn ⟨h.2, h.1⟩⟩
    · obtain ⟨hi, hR⟩ := solve_resolves hr hpn
      refine ⟨hi, fun i => ?_⟩
      rw [hG]
      exact ⟨(hR i).2, (hR i).1⟩
    · intro q
      refine ⟨0, ?_, ?_⟩ <;> simp [Redescription.exchange]
  obtain ⟨S', hS', k1, k2, k3, k4⟩ := C84_uniform_ends he hset himg hfirst hlast hS
  rw [identity_fieldMatrix rfl rfl rfl, Matrix.mul_one, Matrix.one_mul] at k1 k2 k3 k4
  exact ⟨S', hS', k1, k2, k3, k4⟩

/-! ### C88: symmetric structures -/

/-- **C88** A structure which looks the same after a change of its description (a lattice translation, rotation or reflection which maps it to itself):
the scattering matrix commutes with the corresponding transformation of Fourier coefficients. -/
theorem C88_symmetry (he : IsEig eig) {D : Redescription ι} (hs : D.SetupImage c c) (hl : List.Forall₂ (D.Image c c) layers layers)
    (hfirst : ∀ p ∈ layers.head?, p.Uniform) (hlast : ∀ p ∈ layers.getLast?, p.Uniform) (hS : ComputedSMatrix eig c layers S) :
    S.s11 * D.fieldMatrix c = D.fieldMatrix c * S.s11 ∧ S.s12 * D.fieldMatrix c = D.fieldMatrix c * S.s12 ∧
      S.s21 * D.fieldMatrix c = D.fieldMatrix c * S.s21 ∧ S.s22 * D.fieldMatrix c = D.fieldMatrix c * S.s22 := by
  obtain ⟨S', hS', h⟩ := C84_uniform_ends he hs hl hfirst hlast hS
  rwa [← Spec.ComputedSMatrix.unique hS hS'] at h

theorem flipIndex_val {n : ℕ} (r : Fin n) : ∃ z : ℤ, ((flipIndex r : ℕ) : ℤ) = -r + z * n := by
  have := r.is_lt
  by_cases h : (r : ℕ) = 0
  · refine ⟨0, ?_⟩
    simp [flipIndex, h]
  · refine ⟨1, ?_⟩
    simp only [flipIndex]
    rw [Nat.mod_eq_of_lt (by omega)]
    omega

theorem flipIndex_flipIndex {n : ℕ} (r : Fin n) : flipIndex (flipIndex r) = r := by
  have := r.is_lt
  ext
  by_cases h : (r : ℕ) = 0
  · simp [flipIndex, h]
  · simp only [flipIndex]
    rw [Nat.mod_eq_of_lt (a := n - r) (by omega), Nat.mod_eq_of_lt (by omega)]
    omega

theorem flip_div {n : ℕ} (r : Fin n) : ∃ z : ℤ, ((flipIndex r : ℕ) : ℝ) / n = -(r / n) + z := by
  obtain ⟨z, hz⟩ := flipIndex_val r
  have hn : (n : ℝ) ≠ 0 := by exact_mod_cast r.pos.ne'
  have : ((flipIndex r : ℕ) : ℝ) = -r + z * n := by exact_mod_cast hz
  refine ⟨z, ?_⟩
  rw [this]
  field_simp

/-- **C88** A half turn: isotropic layers (FFT formulation) whose patterns do not change under a half turn, at normal incidence: the amplitude scattered from
order `G` to order `G'` is that scattered from `-G` to `-G'`. -/
theorem C88_half_turn (he : IsEig eig) {π : Equiv.Perm ι} (hπ : ∀ i, c.expansion (π i) = -c.expansion i) (hk : c.inPlaneWavevector = 0)
    (hl : ∀ p ∈ layers, ∃ ε, p.medium = .isotropic ε .fft ∧ ∀ r s, ε (flipIndex r) (flipIndex s) = ε r s)
    (hfirst : ∀ p ∈ layers.head?, p.Uniform) (hlast : ∀ p ∈ layers.getLast?, p.Uniform) (hS : ComputedSMatrix eig c layers S) :
    ∀ a b : ι ⊕ ι, S.s11 a b = S.s11 (a.map π π) (b.map π π) ∧ S.s12 a b = S.s12 (a.map π π) (b.map π π) ∧
      S.s21 a b = S.s21 (a.map π π) (b.map π π) ∧ S.s22 a b = S.s22 (a.map π π) (b.map π π) := by
  have hset : (Redescription.halfTurn π).SetupImage c c := by
    refine ⟨?_, ?_, ?_, ?_, ?_, ?_⟩ <;> simp [Redescription.halfTurn, Redescription.rotate, hk, hπ, dot]
  have himg : List.Forall₂ ((Redescription.halfTurn π).Image c c) layers layers := by
    have : List.Forall₂ ((Redescription.halfTurn π).Image c c) layers (layers.map id) := by
      refine forall₂_map_of_mem fun p hp => ?_
      obtain ⟨solved, h, -⟩ := hS
      obtain ⟨r, hr⟩ := forall₂_solve_mem h p hp
      have hR := solve_resolves hr
      obtain ⟨nx, ny, medium, d⟩ := p
      obtain ⟨ε, hε, hsym⟩ : ∃ ε : Grid nx ny, medium = .isotropic ε .fft ∧ ∀ r s, ε (flipIndex r) (flipIndex s) = ε r s := hl _ hp
      subst hε
      by_cases hn : nx = 1 ∧ ny = 1
      · obtain ⟨rfl, rfl⟩ := hn
        have := LayerImage.uniformIsotropic (scale := 1) (O := -1) (grids := fun γ => (Redescription.halfTurn π).GridImage c γ) (c := c) (c' := c) ε .fft .fft d
        rw [one_mul] at this
        exact this
      · have hγ : (Redescription.halfTurn π).GridImage c (fun q : Fin nx × Fin ny => (flipIndex q.1, flipIndex q.2)) := by
          refine ⟨fun q => ⟨(flipIndex q.1, flipIndex q.2), by simp [flipIndex_flipIndex]⟩, hR hn, fun q => ?_⟩
          obtain ⟨z, hz⟩ := flip_div q.1
          obtain ⟨w, hw⟩ := flip_div q.2
          exact ⟨(z, w), by simp [Redescription.halfTurn, hz], by simp [Redescription.halfTurn, hw]⟩
        have e : ε.pull (fun q : Fin nx × Fin ny => (flipIndex q.1, flipIndex q.2)) = ε := by
          ext r s
          exact hsym r s
        have := LayerImage.isotropic (scale := 1) (O := -1) (grids := fun γ => (Redescription.halfTurn π).GridImage c γ) (c := c) (c' := c) _ hγ hn hn ε .fft .fft trivial d
        rw [e, one_mul] at this
        exact this
    rwa [List.map_id] at this
  obtain ⟨k1, k2, k3, k4⟩ := C88_symmetry he hset himg hfirst hlast hS
  have hQ : (Redescription.halfTurn π).fieldMatrix c = -(Redescription.relabelling π 0).fieldMatrix c := by
    ext a b
    rcases a with a | a <;> rcases b with b | b <;>
      simp [Redescription.fieldMatrix, Redescription.halfTurn, Redescription.relabelling, Redescription.phase, apply_ite (Neg.neg : ℂ → ℂ)]
  rw [hQ] at k1 k2 k3 k4
  simp only [Matrix.mul_neg, Matrix.neg_mul, neg_inj] at k1 k2 k3 k4
  intro a b
  have hph : ∀ i, (Redescription.relabelling π 0).phase c i = 1 := by intro i; simp [Redescription.phase, Redescription.relabelling]
  have key := fun {A A' : ModeMatrix ι} (h : A' * (Redescription.relabelling π 0).fieldMatrix c = (Redescription.relabelling π 0).fieldMatrix c * A) =>
    fieldMatrix_conj_entries (D := Redescription.relabelling π 0) rfl h a b
  simp only [hph, star_one, mul_one, one_mul] at key
  exact ⟨key k1, key k2, key k3, key k4⟩

/-- **C88** A mirror plane: isotropic layers (FFT formulation) on a rectangular lattice whose patterns do not change when the second axis is reversed, and an
in-plane wavevector in the mirror plane.  Amplitudes which keep the polarisation are equal for mirrored orders, amplitudes which convert
it have opposite sign, and therefore orders in the mirror plane are scattered into each other without conversion of the
polarisation. -/
theorem C88_mirror (he : IsEig eig) {π : Equiv.Perm ι} (hπ : ∀ i, c.expansion (π i) = ((c.expansion i).1, -(c.expansion i).2)) (hk : c.inPlaneWavevector.2 = 0)
    (hu : c.lattice.u.2 = 0) (hv : c.lattice.v.1 = 0)
    (hl : ∀ p ∈ layers, ∃ ε, p.medium = .isotropic ε .fft ∧ ∀ r s, ε r (flipIndex s) = ε r s)
    (hfirst : ∀ p ∈ layers.head?, p.Uniform) (hlast : ∀ p ∈ layers.getLast?, p.Uniform) (hS : ComputedSMatrix eig c layers S) :
    (∀ A ∈ [S.s11, S.s12, S.s21, S.s22], ∀ i j : ι,
      A (.inl i) (.inl j) = A (.inl (π i)) (.inl (π j)) ∧ A (.inr i) (.inr j) = A (.inr (π i)) (.inr (π j)) ∧
      A (.inl i) (.inr j) = -A (.inl (π i)) (.inr (π j)) ∧ A (.inr i) (.inl j) = -A (.inr (π i)) (.inl (π j))) ∧
    ∀ A ∈ [S.s11, S.s12, S.s21, S.s22], ∀ i j : ι, π i = i → π j = j → A (.inl i) (.inr j) = 0 ∧ A (.inr i) (.inl j) = 0 := by
  have hset : (Redescription.mirror π).SetupImage c c := by
    refine ⟨?_, ?_, ?_, ?_, ?_, ?_⟩
    · simp [Redescription.mirror]
    · ext <;> simp [Redescription.mirror, Redescription.rotate, hu]
    · ext <;> simp [Redescription.mirror, Redescription.rotate, hv]
    · intro i; simp [Redescription.mirror, hπ]
    · simp [Redescription.mirror, Redescription.rotate, dot, hk]
    · simp [Redescription.mirror, Redescription.rotate, dot, hk]
  have himg : List.Forall₂ ((Redescription.mirror π).Image c c) layers layers := by
    have : List.Forall₂ ((Redescription.mirror π).Image c c) layers (layers.map id) := by
      refine forall₂_map_of_mem fun p hp => ?_
      obtain ⟨solved, h, -⟩ := hS
      obtain ⟨r, hr⟩ := forall₂_solve_mem h p hp
      have hR := solve_resolves hr
      obtain ⟨nx, ny, medium, d⟩ := p
      obtain ⟨ε, hε, hsym⟩ : ∃ ε : Grid nx ny, medium = .isotropic ε .fft ∧ ∀ r s, ε r (flipIndex s) = ε r s := hl _ hp
      subst hε
      by_cases hn : nx = 1 ∧ ny = 1
      · obtain ⟨rfl, rfl⟩ := hn
        have := LayerImage.uniformIsotropic (scale := 1) (O := (Redescription.mirror π).rotation) (grids := fun γ => (Redescription.mirror π).GridImage c γ)
          (c := c) (c' := c) ε .fft .fft d
        rw [one_mul] at this
        exact this
      · have hγ : (Redescription.mirror π).GridImage c (fun q : Fin nx × Fin ny => (q.1, flipIndex q.2)) := by
          refine ⟨fun q => ⟨(q.1, flipIndex q.2), by simp [flipIndex_flipIndex]⟩, hR hn, fun q => ?_⟩
          obtain ⟨w, hw⟩ := flip_div q.2
          exact ⟨(0, w), by simp [Redescription.mirror], by simp [Redescription.mirror, hw]⟩
        have e : ε.pull (fun q : Fin nx × Fin ny => (q.1, flipIndex q.2)) = ε := by
          ext r s
          exact hsym r s
        have := LayerImage.isotropic (scale := 1) (O := (Redescription.mirror π).rotation) (grids := fun γ => (Redescription.mirror π).GridImage c γ)
          (c := c) (c' := c) _ hγ hn hn ε .fft .fft trivial d
        rw [e, one_mul] at this
        exact this
    rwa [List.map_id] at this
  obtain ⟨k1, k2, k3, k4⟩ := C88_symmetry he hset himg hfirst hlast hS
  have hQ : ∀ i j, (Redescription.mirror π).fieldMatrix c (.inl i) (.inl j) = (if π i = j then 1 else 0) ∧
      (Redescription.mirror π).fieldMatrix c (.inr i) (.inr j) = (if π i = j then -1 else 0) ∧
      (Redescription.mirror π).fieldMatrix c (.inl i) (.inr j) = 0 ∧ (Redescription.mirror π).fieldMatrix c (.inr i) (.inl j) = 0 := by
    intro i j
    refine ⟨?_, ?_, ?_, ?_⟩ <;> simp [Redescription.fieldMatrix, Redescription.mirror, Redescription.phase, apply_ite (Neg.neg : ℂ → ℂ)]
  have key : ∀ A : ModeMatrix ι, A * (Redescription.mirror π).fieldMatrix c = (Redescription.mirror π).fieldMatrix c * A → ∀ i j : ι,
      A (.inl i) (.inl j) = A (.inl (π i)) (.inl (π j)) ∧ A (.inr i) (.inr j) = A (.inr (π i)) (.inr (π j)) ∧
      A (.inl i) (.inr j) = -A (.inl (π i)) (.inr (π j)) ∧ A (.inr i) (.inl j) = -A (.inr (π i)) (.inl (π j)) := by
    intro A h i j
    have e : ∀ a b, (A * (Redescription.mirror π).fieldMatrix c) a b = ((Redescription.mirror π).fieldMatrix c * A) a b := fun a b => by rw [h]
    have e1 := e (.inl i) (.inl (π j))
    have e2 := e (.inr i) (.inr (π j))
    have e3 := e (.inl i) (.inr (π j))
    have e4 := e (.inr i) (.inl (π j))
    simp only [Matrix.mul_apply, Fintype.sum_sum_type, (hQ _ _).1, (hQ _ _).2.1, (hQ _ _).2.2.1, (hQ _ _).2.2.2, mul_ite, ite_mul, mul_one, one_mul, mul_zero, zero_mul,
      Finset.sum_const_zero, add_zero, zero_add, mul_neg, neg_mul, EmbeddingLike.apply_eq_iff_eq, Finset.sum_ite_eq, Finset.sum_ite_eq', Finset.mem_univ, if_true] at e1 e2 e3 e4
    refine ⟨e1, neg_injective e2, ?_, e4⟩
    rw [← e3, neg_neg]
  have all : ∀ A ∈ [S.s11, S.s12, S.s21, S.s22], A * (Redescription.mirror π).fieldMatrix c = (Redescription.mirror π).fieldMatrix c * A := by
    intro A hA
    simp only [List.mem_cons, List.not_mem_nil, or_false] at hA
    rcases hA with rfl | rfl | rfl | rfl <;> assumption
  refine ⟨fun A hA => key A (all A hA), fun A hA i j hi hj => ?_⟩
  obtain ⟨-, -, h3, h4⟩ := key A (all A hA) i j
  rw [hi, hj] at h3 h4
  exact ⟨self_eq_neg.1 h3, self_eq_neg.1 h4⟩

/-! ### A stack for the examples -/

namespace SymmetryExample

/-- Three orders at normal incidence. -/
noncomputable def setup : Setup (Fin 3) :=
  { wavelength := 2 * Real.pi, inPlaneWavevector := 0, lattice := unitLattice, expansion := ![(0, 0), (1, 0), (-1, 0)] }

noncomputable def grating : Grid 6 1 := Matrix.of fun r _ => if (r : ℕ) % 2 = 0 then 1 + Complex.I else 3 + Complex.I

/-- An absorbing grating between absorbing half spaces. -/
noncomputable def stack : List (StackLayer (Fin 3)) :=
  [⟨1, 1, .isotropic (Matrix.of fun _ _ => 2 + Complex.I) .fft, 0⟩, ⟨6, 1, .isotropic grating .fft, 1⟩,
    ⟨1, 1, .isotropic (Matrix.of fun _ _ => 2 + Complex.I) .fft, 0⟩]

theorem injective : Function.Injective setup.expansion := by
  intro i j h
  fin_cases i <;> fin_cases j <;> simp [setup] at h ⊢

theorem resolves : Resolves 6 1 setup.expansion := by
  refine ⟨⟨0⟩, fun i => ?_⟩
  fin_cases i <;> simp [setup]

theorem coefficient_eq (g : ℤ) (hg : ¬(3 : ℤ) ∣ g) : fourierCoefficient grating (g, 0) = 0 := by
  set w : ℂ := Complex.exp (2 * Real.pi * Complex.I * (-g / 6)) with hw
  have hp : ∀ r : Fin 6, planeWave 6 1 (-g, 0) r 0 = w ^ (r : ℕ) := by
    intro r
    rw [hw, ← Complex.exp_nat_mul, planeWave]
    congr 1
    simp
    ring
  have h6 : w ^ 6 = 1 := by
    rw [hw, ← Complex.exp_nat_mul, Complex.exp_eq_one_iff]
    exact ⟨-g, by push_cast; ring⟩
  have h2 : w ^ 2 ≠ 1 := by
    rw [hw, ← Complex.exp_nat_mul, Ne, Complex.exp_eq_one_iff]
    rintro ⟨n, hn⟩
    have hpi : (2 * Real.pi * Complex.I : ℂ) ≠ 0 := Complex.two_pi_I_ne_zero
    have e : (-g / 3 : ℂ) = n := by
      refine mul_left_cancel₀ hpi ?_
      push_cast at hn
      linear_combination hn
    have e' : (g : ℂ) = 3 * (-n) := by linear_combination -3 * e
    exact hg ⟨-n, by exact_mod_cast e'⟩
  have h : 1 + w ^ 2 + w ^ 4 = 0 := by
    refine (mul_eq_zero.1 ?_).resolve_left (sub_ne_zero.2 h2)
    linear_combination h6
  unfold fourierCoefficient
  simp [hp, Fin.sum_univ_six, grating]
  linear_combination (1 + Complex.I + (3 + Complex.I) * w) * h

theorem coefficients : (Matrix.of fun i j => fourierCoefficient grating (setup.expansion i - setup.expansion j) : Matrix (Fin 3) (Fin 3) ℂ) =
    (2 + Complex.I) • 1 := by
  have h0 : fourierCoefficient grating 0 = 2 + Complex.I := by
    simp [fourierCoefficient, planeWave, grating, Fin.sum_univ_six]
    ring
  ext i j
  fin_cases i <;> fin_cases j <;> simp [setup, h0] <;> exact coefficient_eq _ (by norm_num)

/-- In a medium without scattering, plane waves are modes. -/
theorem plane_wave_modes {r : LayerSolveResult ι} {ε : ℂ} (hε : ε ≠ 0) (h1 : r.transversePermeabilityMatrix = 1) (h2 : r.zPermittivityMatrix = ε • 1)
    (h3 : r.zPermeabilityMatrix = 1) :
    (ε • (1 : ModeMatrix ι) * magneticToElectric r - divergenceMatrix r * r.transversePermeabilityMatrix) * 1 = 1 * Matrix.diagonal fun i =>
      ε * (omega r : ℂ) ^ 2 - ((orderWavevector r (i.elim id id)).1 : ℂ) ^ 2 - ((orderWavevector r (i.elim id id)).2 : ℂ) ^ 2 := by
  have hz : r.zPermittivityMatrix⁻¹ = ε⁻¹ • 1 := by
    rw [h2]
    refine Matrix.inv_eq_right_inv ?_
    rw [Matrix.smul_mul, Matrix.one_mul, smul_smul, mul_inv_cancel₀ hε, one_smul]
  rw [h1, Matrix.mul_one, Matrix.one_mul, Matrix.mul_one]
  unfold magneticToElectric divergenceMatrix
  simp only [hz, h1, h3, inv_one, Matrix.mul_one, Matrix.mul_smul, Matrix.smul_mul, Matrix.diagonal_mul_diagonal, Matrix.one_mul]
  ext i j
  rcases i with i | i <;> rcases j with j | j <;>
    simp only [Matrix.sub_apply, Matrix.smul_apply, Matrix.fromBlocks_apply₁₁, Matrix.fromBlocks_apply₁₂,
      Matrix.fromBlocks_apply₂₁, Matrix.fromBlocks_apply₂₂, Matrix.neg_apply, Matrix.diagonal_apply, Matrix.one_apply,
      smul_eq_mul, Sum.inl.injEq, Sum.inr.injEq, reduceCtorEq, if_false] <;>
    by_cases hij : i = j <;> simp [hij] <;> field_simp <;> ring

theorem computed : ∃ eig, IsEig eig ∧ ∃ S, ComputedSMatrix eig setup stack S := by
  obtain ⟨eig, he⟩ := exists_isEig (Fin 3 ⊕ Fin 3)
  have hl : (0 : ℝ) < setup.wavelength := by simp only [setup]; have := Real.pi_pos; positivity
  have hε0 : (2 + Complex.I : ℂ) ≠ 0 := by intro h; simpa using congrArg Complex.re h
  have hlat : setup.lattice.u.1 * setup.lattice.v.2 - setup.lattice.u.2 * setup.lattice.v.1 ≠ 0 := by norm_num [setup, unitLattice]
  obtain ⟨u, hu⟩ := (C22_uniform_succeeds_iff setup.wavelength setup.inPlaneWavevector setup.lattice (2 + Complex.I) setup.expansion).2 ⟨hl.ne', hε0, hlat⟩
  obtain ⟨r, hr⟩ := patterned_eigensolve_succeeds eig setup.inPlaneWavevector (ε := grating) injective resolves hl.ne' hlat (by
    intro r s
    simp only [grating, of_apply]
    split_ifs <;> simp)
  have hv : IsUnit r.eigenvectors.det := by
    have h := hr
    unfold eigensolvePatternedIsotropic at h
    obtain ⟨m, hm, h⟩ := bind_eq_ok.1 h
    obtain ⟨e1, e2, e3, e4, e5⟩ := fft_matrices_eq hm
    obtain ⟨hs, f1, f2, f3, f4, f5, -⟩ := numerical_solvedFor he h
    rw [coefficients] at e1 e2
    refine numerical_eigenvectors_invertible he h (V := 1) (by simp) (Eq.trans ?_ (plane_wave_modes hε0 (f2.trans e3) (f3.trans e1) (f4.trans e4)))
    rw [e2, show Matrix.fromBlocks ((2 + Complex.I) • (1 : Matrix (Fin 3) (Fin 3) ℂ)) 0 0 ((2 + Complex.I) • 1) = (2 + Complex.I) • (1 : ModeMatrix (Fin 3)) by
      rw [← Matrix.fromBlocks_one, Matrix.fromBlocks_smul, smul_zero]]
  have hr' : eigensolveIsotropicMedia eig setup.wavelength setup.inPlaneWavevector setup.lattice grating setup.expansion .fft = .ok r := by
    unfold eigensolveIsotropicMedia
    rw [dif_neg (by norm_num)]
    exact hr
  have ha := C81_isotropic_absorbing he hl injective resolves hr' (by
    intro r s
    simp only [grating, of_apply]
    split_ifs <;> simp) hv
  have hb := C81_uniform_absorbing hl hu (by simp)
  have hwu : u.wavelength = setup.wavelength := by
    obtain ⟨k, w, -, -, -, hr⟩ := eigensolveUniformIsotropic_ok_iff.1 hu
    rw [hr]
  have hwr : r.wavelength = setup.wavelength := by
    have h := hr
    unfold eigensolvePatternedIsotropic at h
    obtain ⟨m, hm, h⟩ := bind_eq_ok.1 h
    exact (numerical_solvedFor he h).2.1
  obtain ⟨S, -, hS, -⟩ := C81_absorbing_stack (layers := [u, r, u]) (ds := [0, 1, 0]) (by simp) (by simp) (lam := setup.wavelength)
    (by simp [hwu, hwr]) (by simp [ha, hb]) (by simp)
  have hu' : eigensolveIsotropicMedia eig setup.wavelength setup.inPlaneWavevector setup.lattice (Matrix.of fun _ _ => 2 + Complex.I : Grid 1 1) setup.expansion .fft = .ok u := by
    unfold eigensolveIsotropicMedia
    rw [dif_pos ⟨rfl, rfl⟩]
    exact hu
  exact ⟨eig, he, S, [u, r, u], .cons hu' (.cons hr' (.cons hu' .nil)), hS⟩

theorem uniform_ends : (∀ p ∈ stack.head?, p.Uniform) ∧ ∀ p ∈ stack.getLast?, p.Uniform := by
  constructor
  · intro p hp
    simp only [stack, List.head?_cons, Option.mem_def, Option.some.injEq] at hp
    subst hp
    exact ⟨rfl, rfl, _, _, rfl⟩
  · intro p hp
    simp only [stack, List.getLast?_cons_cons, List.getLast?_singleton, Option.mem_def, Option.some.injEq] at hp
    subst hp
    exact ⟨rfl, rfl, _, _, rfl⟩

theorem fft : ∀ p ∈ stack, p.medium.formulation = .fft := by
  intro p hp
  simp only [stack, List.mem_cons, List.not_mem_nil, or_false] at hp
  rcases hp with rfl | rfl | rfl <;> rfl

/-- C84, C85: the grating moved by a sixth of the period. -/
example : ∃ eig S S', ComputedSMatrix eig setup stack S ∧ ComputedSMatrix eig setup (stack.map fun p => p.resample (roll 1 0)) S' ∧
    S'.s11 (.inl 1) (.inl 0) = Complex.exp (-(Real.pi / 3) * Complex.I) * S.s11 (.inl 1) (.inl 0) := by
  obtain ⟨eig, he, S, hS⟩ := computed
  obtain ⟨S', hS', h⟩ := C85_rolled_arrays he (τ := (1 / 6, 0)) (a := fun _ => 1) (b := fun _ => 0) (by
    intro p hp hn
    simp only [stack, List.mem_cons, List.not_mem_nil, or_false] at hp
    rcases hp with rfl | rfl | rfl
    · simp at hn
    · norm_num
    · simp at hn) fft uniform_ends.1 uniform_ends.2 hS
  refine ⟨eig, S, S', hS, hS', ?_⟩
  rw [(h (.inl 1) (.inl 0)).1]
  congr 2
  simp [setup]
  ring

/-- C86: rotation by a quarter turn and change of the unit of length. -/
example : ∃ eig S S', ComputedSMatrix eig setup stack S ∧
    ComputedSMatrix eig (setup.similar 1000 !![0, -1; 1, 0]) (stack.map (StackLayer.similar 1000 !![0, -1; 1, 0])) S' ∧
    S'.s21 (.inl 0) (.inl 0) = S.s21 (.inr 0) (.inr 0) := by
  obtain ⟨eig, he, S, hS⟩ := computed
  obtain ⟨S', hS', -, -, h, -⟩ := C86_similarity he (s := 1000) (by norm_num) (O := !![0, -1; 1, 0]) (by
    ext i j; fin_cases i <;> fin_cases j <;> simp [Matrix.mul_apply]) fft uniform_ends.1 uniform_ends.2 hS
  refine ⟨eig, S, S', hS, hS', ?_⟩
  rw [h]
  simp [Matrix.mul_apply, Fintype.sum_sum_type, Matrix.one_apply]

/-- C85, C86: the statements for general formulations include the FFT formulation. -/
example : ∃ eig S S' S'' S''', ComputedSMatrix eig setup stack S ∧ ComputedSMatrix eig setup (stack.map fun p => p.move (roll 1 0)) S' ∧
    ComputedSMatrix eig (setup.similar 1000 !![0, -1; 1, 0]) (stack.map (StackLayer.similar 1000 !![0, -1; 1, 0])) S'' ∧
    ComputedSMatrix eig (Setup.mk (setup.wavelength / 1000) ((1000 : ℝ) • setup.inPlaneWavevector)
      ⟨(1000 : ℝ)⁻¹ • setup.lattice.u, (1000 : ℝ)⁻¹ • setup.lattice.v⟩ setup.expansion)
      (stack.map fun p => { p with thickness := p.thickness / 1000 }) S''' ∧
    S'.s11 (.inl 0) (.inl 0) = S.s11 (.inl 0) (.inl 0) ∧ S'''.s11 = S.s11 := by
  obtain ⟨eig, he, S, hS⟩ := computed
  obtain ⟨S', hS', h⟩ := C85_rolled_formulations he (τ := (1 / 6, 0)) (a := fun _ => 1) (b := fun _ => 0) (by
    intro p hp hn
    simp only [stack, List.mem_cons, List.not_mem_nil, or_false] at hp
    rcases hp with rfl | rfl | rfl
    · simp at hn
    · norm_num
    · simp at hn) (fun p hp _ => fft_image (fft p hp) (fft p hp)) uniform_ends.1 uniform_ends.2 hS
  obtain ⟨S'', hS'', -⟩ := C86_formulations he (s := 1000) (by norm_num) (O := !![0, -1; 1, 0]) (by
    ext i j; fin_cases i <;> fin_cases j <;> simp [Matrix.mul_apply]) (fun p hp _ => fft_image (fft p hp) (fft p hp)) uniform_ends.1 uniform_ends.2 hS
  obtain ⟨S''', hS''', h''', -⟩ := C86_scale_invariance he (s := 1000) (by norm_num) (fun p hp => Or.inl (fft p hp)) uniform_ends.1 uniform_ends.2 hS
  refine ⟨eig, S, S', S'', S''', hS, hS', hS'', hS''', ?_, h'''⟩
  rw [(h (.inl 0) (.inl 0)).1]
  simp

/-- C87: listing the orders in reversed sequence, counted from order `(1, 0)`. -/
example : ∃ eig S S', ComputedSMatrix eig setup stack S ∧
    ComputedSMatrix eig { setup with inPlaneWavevector := (2 * Real.pi, 0), expansion := ![(0, 0), (-1, 0), (-2, 0)] } stack S' ∧
    S'.s11 (.inl 0) (.inl 1) = S.s11 (.inl 1) (.inl 0) := by
  obtain ⟨eig, he, S, hS⟩ := computed
  obtain ⟨S', hS', h⟩ := C87_relabelling he (Equiv.swap 0 1) (1, 0) (c := setup) (c' := { setup with inPlaneWavevector := (2 * Real.pi, 0), expansion := ![(0, 0), (-1, 0), (-2, 0)] }) rfl rfl (by
    intro i
    fin_cases i <;> simp [setup, Equiv.swap_apply_def]) (by simp [setup, dot, unitLattice]) (by simp [setup, dot, unitLattice]) (by
    intro p hp hn
    simp only [stack, List.mem_cons, List.not_mem_nil, or_false] at hp
    rcases hp with rfl | rfl | rfl
    · simp at hn
    · refine ⟨⟨0⟩, fun i => ?_⟩
      fin_cases i <;> simp
    · simp at hn) fft uniform_ends.1 uniform_ends.2 hS
  refine ⟨eig, S, S', hS, hS', ?_⟩
  simpa using (h (.inl 0) (.inl 1)).1

/-- C87: a cell of `3 × 2` periods, and exchanged lattice vectors. -/
example : ∃ eig S S' S'', ComputedSMatrix eig setup stack S ∧
    ComputedSMatrix eig { setup with lattice := ⟨(3, 0), (0, 2)⟩, expansion := ![(0, 0), (3, 0), (-3, 0)] } (stack.map fun p => p.resample (tile 3 2)) S' ∧
    ComputedSMatrix eig { setup with lattice := ⟨(0, 1), (1, 0)⟩, expansion := ![(0, 0), (0, 1), (0, -1)] }
      (stack.map fun p => p.resample (Prod.swap : Fin p.ny × Fin p.nx → Fin p.nx × Fin p.ny)) S'' ∧
    S'.s11 = S.s11 ∧ S''.s11 = S.s11 := by
  obtain ⟨eig, he, S, hS⟩ := computed
  obtain ⟨S', hS', h, -⟩ := C87_supercell he (m := 3) (n := 2) (by norm_num) (by norm_num)
    (c := setup) (c' := { setup with lattice := ⟨(3, 0), (0, 2)⟩, expansion := ![(0, 0), (3, 0), (-3, 0)] }) rfl rfl (by simp [setup, unitLattice]) (by simp [setup, unitLattice])
    (by intro i; fin_cases i <;> simp [setup]) fft uniform_ends.1 uniform_ends.2 hS
  obtain ⟨S'', hS'', h', -⟩ := C87_exchange he
    (c := setup) (c' := { setup with lattice := ⟨(0, 1), (1, 0)⟩, expansion := ![(0, 0), (0, 1), (0, -1)] }) rfl rfl (by simp [setup, unitLattice]) (by simp [setup, unitLattice])
    (by intro i; fin_cases i <;> simp [setup]) fft uniform_ends.1 uniform_ends.2 hS
  exact ⟨eig, S, S', S'', hS, hS', hS'', h, h'⟩

/-- C88: the grating is mirror symmetric. -/
example : ∃ eig S, ComputedSMatrix eig setup stack S ∧ S.s21 (.inl 1) (.inr 0) = 0 := by
  obtain ⟨eig, he, S, hS⟩ := computed
  refine ⟨eig, S, hS, ?_⟩
  refine ((C88_mirror he (π := Equiv.refl _) ?_ rfl rfl rfl ?_ uniform_ends.1 uniform_ends.2 hS).2 S.s21 (by simp) 1 0 rfl rfl).1
  · intro i
    fin_cases i <;> simp [setup]
  · intro p hp
    simp only [stack, List.mem_cons, List.not_mem_nil, or_false] at hp
    rcases hp with rfl | rfl | rfl <;> exact ⟨_, rfl, fun r s => rfl⟩

/-- C84, C88: the grating is symmetric under a half turn, which is a change of the description that leads to the same stack. -/
example : ∃ eig S, ComputedSMatrix eig setup stack S ∧ S.s21 (.inl 1) (.inr 0) = S.s21 (.inl 2) (.inr 0) ∧ S.s11 (.inl 1) (.inl 2) = S.s11 (.inl 2) (.inl 1) := by
  obtain ⟨eig, he, S, hS⟩ := computed
  have h := C88_half_turn he (π := Equiv.swap 1 2) (by intro i; fin_cases i <;> simp [setup, Equiv.swap_apply_def]) rfl (by
    intro p hp
    simp only [stack, List.mem_cons, List.not_mem_nil, or_false] at hp
    rcases hp with rfl | rfl | rfl
    · exact ⟨_, rfl, fun r s => rfl⟩
    · refine ⟨_, rfl, fun r s => ?_⟩
      fin_cases r <;> rfl
    · exact ⟨_, rfl, fun r s => rfl⟩) uniform_ends.1 uniform_ends.2 hS
  refine ⟨eig, S, hS, ?_, ?_⟩
  · simpa [Equiv.swap_apply_def] using (h (.inl 1) (.inr 0)).2.2.1
  · simpa [Equiv.swap_apply_def] using (h (.inl 1) (.inl 2)).1

/-- C84: the hypotheses for general layers at the ends, with a translation. -/
example : ∃ (eig : _) (S : ScatteringMatrix (Fin 3)) (layers' : List (StackLayer (Fin 3))) (D : Redescription (Fin 3)), IsEig eig ∧ D.shift ≠ 0 ∧ D.SetupImage setup setup ∧
    List.Forall₂ (D.Image setup setup) stack layers' ∧ (∀ p ∈ stack.getLast?, ∀ r, p.solve eig setup = .ok r → IsUnit r.eigenvectors.det) ∧
    ComputedSMatrix eig setup stack S := by
  obtain ⟨eig, he, S, hS⟩ := computed
  refine ⟨eig, S, _, Redescription.translation _ (1 / 6, 0), he, by simp [Redescription.translation], translation_setup _ _,
    forall₂_map_of_mem (f := fun p => p.resample (roll 1 0)) fun p hp => ?_, fun p hp r hr => ?_, hS⟩
  · refine image_resample rfl rfl (fft p hp) fun hn => ⟨?_, hn⟩
    simp only [stack, List.mem_cons, List.not_mem_nil, or_false] at hp
    rcases hp with rfl | rfl | rfl
    · simp at hn
    · exact C85_roll resolves (by norm_num) (by norm_num)
    · simp at hn
  · rw [uniform_eigenvectors (uniform_ends.2 p hp) hr]
    simp

end SymmetryExample

end Fmmax
