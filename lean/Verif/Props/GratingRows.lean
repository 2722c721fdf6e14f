import Verif.Proofs.GratingRows
import Verif.Props.Symmetry
import Verif.Props.Gratings

/-! Property C116: gratings. -/

set_option linter.unusedSectionVars false

namespace Fmmax

open Matrix Spec

variable {ι κ : Type} [Fintype ι] [DecidableEq ι] [Fintype κ] [DecidableEq κ] {g : ℤ} {place : ι → κ}
variable {eig : Matrix (ι ⊕ ι) (ι ⊕ ι) ℂ → (ι ⊕ ι → ℂ) × Matrix (ι ⊕ ι) (ι ⊕ ι) ℂ}
variable {eig' : Matrix (κ ⊕ κ) (κ ⊕ κ) ℂ → (κ ⊕ κ → ℂ) × Matrix (κ ⊕ κ) (κ ⊕ κ) ℂ}
variable {c : Setup ι} {c' : Setup κ} {layers : List (StackLayer ι)} {layers' : List (StackLayer κ)} {S' : ScatteringMatrix κ}

/-- **C116** A structure which does not depend on the second lattice coordinate: the Fourier orders with second index `g` are not coupled to other orders,
and their scattering is that calculated with arrays of a single column, with orders of second index zero only, at the wavevector shifted by `g` times
the second reciprocal lattice vector; the length of the second lattice vector and the number of columns are irrelevant.  This calculation
succeeds whenever the one with all orders does. -/
theorem C116_row (he : IsEig eig) (he' : IsEig eig') [Nonempty ι] (h : GratingRow g place c c') (hl : List.Forall₂ (GratingLayer c c') layers layers')
    (hlast : ∀ p ∈ layers'.getLast?, ∀ r, p.solve eig' c' = .ok r → IsUnit r.eigenvectors.det) (hS : ComputedSMatrix eig' c' layers' S') :
    ∃ S, ComputedSMatrix eig c layers S ∧
      let φ := S.startLayer.eigenvectors
      let ψ := S.endLayer.eigenvectors
      let φ' := S'.startLayer.eigenvectors
      let ψ' := S'.endLayer.eigenvectors
      IsUnit φ.det ∧ IsUnit ψ.det ∧ IsUnit φ'.det ∧ IsUnit ψ'.det ∧
      IsBlock place (ψ * S.s11 * φ⁻¹) (ψ' * S'.s11 * φ'⁻¹) ∧ IsBlock place (ψ * S.s12 * ψ⁻¹) (ψ' * S'.s12 * ψ'⁻¹) ∧
      IsBlock place (φ * S.s21 * φ⁻¹) (φ' * S'.s21 * φ'⁻¹) ∧ IsBlock place (φ * S.s22 * ψ⁻¹) (φ' * S'.s22 * ψ'⁻¹) := by
  obtain ⟨S, hS1, u1, u2, m₀, m₁, hP⟩ := h.stack he he' hl hlast hS
  obtain ⟨k1, k2, k3, k4⟩ := hP.blocks u1 u2
  exact ⟨S, hS1, hP.start.eigenvectors.isUnit u1, hP.finish.eigenvectors.isUnit u2, u1, u2, placePart_double_iff _ k1, placePart_double_iff _ k2,
    placePart_double_iff _ k3, placePart_double_iff _ k4⟩

theorem gratingLayer_ends (hl : List.Forall₂ (GratingLayer c c') layers layers') (hfirst : ∀ p ∈ layers'.head?, p.Uniform) (hlast : ∀ p ∈ layers'.getLast?, p.Uniform) :
    (∀ p ∈ layers.head?, p.Uniform) ∧ ∀ p ∈ layers.getLast?, p.Uniform := by
  have hsub : ∀ {q : StackLayer ι} {q' : StackLayer κ}, GratingLayer c c' q q' → q'.Uniform → q.Uniform := by
    intro q q' h hq
    obtain ⟨h1, h2, ε0, f0, h3⟩ := hq
    cases h with
    | uniformIsotropic ε f f' d => exact ⟨rfl, rfl, _, _, rfl⟩
    | uniformAnisotropic ε μ f f' x x' d => simp at h3
    | isotropic hn ε f f' hf d => exact absurd h1 hn
    | anisotropic hn ε μ x f f' hf d => exact absurd h1 hn
  refine ⟨fun a ha => ?_, fun b hb => ?_⟩
  · cases hl with
    | nil => simp at ha
    | cons h1 h2 =>
      simp only [List.head?_cons, Option.mem_def, Option.some.injEq] at ha
      subst ha
      exact hsub h1 (hfirst _ (by simp))
  · have : ∀ (l : List (StackLayer ι)) (l' : List (StackLayer κ)), List.Forall₂ (GratingLayer c c') l l' → ∀ b ∈ l.getLast?, (∀ p ∈ l'.getLast?, p.Uniform) → b.Uniform := by
      intro l l' h
      induction h with
      | nil => simp
      | @cons x x' xs xs' hx hxs ih =>
        intro b hb hu
        cases hxs with
        | nil =>
          simp only [List.getLast?_singleton, Option.mem_def, Option.some.injEq] at hb
          subst hb
          exact hsub hx (hu _ (by simp))
        | cons h1 h2 =>
          rw [List.getLast?_cons_cons] at hb
          rw [List.getLast?_cons_cons] at hu
          exact ih b hb hu
    exact this _ _ hl b hb hlast

/-- **C116** Between uniform isotropic layers the amplitudes of the modes are Fourier coefficients: the scattering matrix of a grating is block diagonal,
and its blocks are the scattering matrices calculated with the orders of one row. -/
theorem C116_uniform_ends (he : IsEig eig) (he' : IsEig eig') [Nonempty ι] (h : GratingRow g place c c') (hl : List.Forall₂ (GratingLayer c c') layers layers')
    (hfirst : ∀ p ∈ layers'.head?, p.Uniform) (hlast : ∀ p ∈ layers'.getLast?, p.Uniform) (hS : ComputedSMatrix eig' c' layers' S') :
    ∃ S, ComputedSMatrix eig c layers S ∧ IsBlock place S.s11 S'.s11 ∧ IsBlock place S.s12 S'.s12 ∧ IsBlock place S.s21 S'.s21 ∧
      IsBlock place S.s22 S'.s22 := by
  obtain ⟨S, hS1, -, -, -, -, k1, k2, k3, k4⟩ := C116_row he he' h hl (fun p hp r hr => by rw [uniform_eigenvectors (hlast p hp) hr]; simp) hS
  obtain ⟨⟨a', ha', sa'⟩, ⟨b', hb', sb'⟩⟩ := hS.ends
  obtain ⟨⟨a, ha, sa⟩, ⟨b, hb, sb⟩⟩ := hS1.ends
  have hends := gratingLayer_ends hl hfirst hlast
  have hhead : a.Uniform := hends.1 a ha
  have hend : b.Uniform := hends.2 b hb
  have e1 := uniform_eigenvectors hhead sa
  have e2 := uniform_eigenvectors hend sb
  have e3 := uniform_eigenvectors (hfirst _ ha') sa'
  have e4 := uniform_eigenvectors (hlast _ hb') sb'
  simp only [e1, e2, e3, e4, inv_one, Matrix.mul_one, Matrix.one_mul] at k1 k2 k3 k4
  exact ⟨S, hS1, k1, k2, k3, k4⟩


/-! ### The rows of a calculation -/

/-- The first column. -/
noncomputable def firstColumn {nx ny : ℕ} (x : Grid nx ny) : Grid nx 1 := Matrix.of fun r _ => if h : 0 < ny then x r ⟨0, h⟩ else 0

theorem firstColumn_pull {nx ny : ℕ} {x : Grid nx ny} (h : ∀ r s s', x r s = x r s') : (firstColumn x).pull groove = x := by
  ext r s
  simp only [Grid.pull, groove, firstColumn, of_apply, dif_pos s.pos]
  exact h r _ _

theorem firstColumn_tensor {nx ny : ℕ} {t : TensorComponents nx ny} (h : ∀ x ∈ [t.xx, t.xy, t.yx, t.yy, t.zz], ∀ r s s', x r s = x r s') :
    (TensorComponents.pull groove ⟨firstColumn t.xx, firstColumn t.xy, firstColumn t.yx, firstColumn t.yy, firstColumn t.zz⟩ : TensorComponents nx ny) = t := by
  simp only [List.mem_cons, List.not_mem_nil, or_false, forall_eq_or_imp, forall_eq] at h
  obtain ⟨h1, h2, h3, h4, h5⟩ := h
  simp only [TensorComponents.pull, firstColumn_pull h1, firstColumn_pull h2, firstColumn_pull h3, firstColumn_pull h4, firstColumn_pull h5]

theorem grooved_formulation {nx ny : ℕ} (c : Setup ι) {x : Grid nx 1} {f' : Formulation nx ny κ}
    (h : GroovedFormulation c' (x.pull groove) f') :
    ∃ f : Formulation nx 1 ι, GratingFormulation c c' x f f' ∧ (f' = .fft → f = .fft) := by
  cases f' with
  | fft => exact ⟨.fft, trivial, fun _ => rfl⟩
  | vector fn =>
    obtain ⟨t, ht, hc⟩ := h
    refine ⟨.vector fun _ _ _ => .ok (firstColumn t.1, firstColumn t.2), ⟨_, rfl, ?_⟩, fun h => nomatch h⟩
    rw [ht, firstColumn_pull fun r s s' => (hc r s s').1, firstColumn_pull fun r s s' => (hc r s s').2]

theorem grooved_layer (c : Setup ι) {q' : StackLayer κ} (h : Grooved c' q') : ∃ q, GratingLayer c c' q q' ∧
    ((∃ ε, q'.medium = .isotropic ε .fft) → q.ny = 1 ∧ ∃ ε, q.medium = .isotropic ε .fft) := by
  obtain ⟨nx, ny, medium, d⟩ := q'
  rcases h with ⟨h1, h2⟩ | ⟨hn, hm, hf⟩
  · simp only at h1 h2
    subst h1 h2
    cases medium with
    | isotropic ε f => exact ⟨_, .uniformIsotropic ε .fft f d, fun _ => ⟨rfl, _, rfl⟩⟩
    | anisotropic ε μ f x => exact ⟨_, .uniformAnisotropic ε μ .fft f none x d, fun ⟨_, h⟩ => nomatch h⟩
  · cases medium with
    | isotropic ε f =>
      simp only [Medium.formulation, Medium.source] at hm hf
      have e := firstColumn_pull hm
      obtain ⟨f0, hf0, hfft⟩ := grooved_formulation (c' := c') c (x := firstColumn ε) (f' := f) (by rw [e]; exact hf)
      have := GratingLayer.isotropic (c := c) (c' := c') hn (firstColumn ε) f0 f hf0 d
      rw [e] at this
      refine ⟨_, this, ?_⟩
      rintro ⟨ε', h⟩
      simp only [Medium.isotropic.injEq] at h
      rw [hfft h.2]
      exact ⟨rfl, _, rfl⟩
    | anisotropic ε μ f x =>
      simp only [Medium.formulation, Medium.source] at hm hf
      obtain ⟨h1, h2⟩ := hm
      have e1 := firstColumn_tensor (t := ε) fun t ht => h1 t (by simp only [List.mem_cons, List.not_mem_nil, or_false] at ht ⊢; tauto)
      have e2 := firstColumn_tensor (t := μ) fun t ht => h1 t (by simp only [List.mem_cons, List.not_mem_nil, or_false] at ht ⊢; tauto)
      have e3 : (x.map firstColumn).map (Grid.pull groove) = x := by
        cases x with
        | none => rfl
        | some x => simp only [Option.map_some]; rw [firstColumn_pull (h2 x rfl)]
      have e4 : (((x.map firstColumn).getD (Matrix.of fun r s => (firstColumn ε.xx r s + firstColumn ε.yy r s) / 2)).pull groove : Grid nx ny) =
          x.getD (Matrix.of fun r s => (ε.xx r s + ε.yy r s) / 2) := by
        cases x with
        | none =>
          simp only [Option.map_none, Option.getD_none]
          ext r s
          have k1 := congrFun (congrFun (firstColumn_pull (h1 ε.xx (by simp))) r) s
          have k2 := congrFun (congrFun (firstColumn_pull (h1 ε.yy (by simp))) r) s
          simp only [Grid.pull, of_apply] at k1 k2 ⊢
          rw [k1, k2]
        | some x => simp only [Option.map_some, Option.getD_some]; rw [firstColumn_pull (h2 x rfl)]
      obtain ⟨f0, hf0, -⟩ := grooved_formulation (c' := c') c (x := (x.map firstColumn).getD (Matrix.of fun r s => (firstColumn ε.xx r s + firstColumn ε.yy r s) / 2))
        (f' := f) (by rw [e4]; exact hf)
      have := GratingLayer.anisotropic (c := c) (c' := c') hn ⟨firstColumn ε.xx, firstColumn ε.xy, firstColumn ε.yx, firstColumn ε.yy, firstColumn ε.zz⟩
        ⟨firstColumn μ.xx, firstColumn μ.xy, firstColumn μ.yx, firstColumn μ.yy, firstColumn μ.zz⟩ (x.map firstColumn) f0 f hf0 d
      rw [e1, e2, e3] at this
      exact ⟨_, this, fun ⟨_, h⟩ => nomatch h⟩

/-- The calculation with the orders of one row. -/
noncomputable def Spec.rowSetup (g : ℤ) (c' : Setup κ) : Setup {x : κ // (c'.expansion x).2 = g} :=
  let a := 2 * Real.pi * g / (c'.lattice.u.1 * c'.lattice.v.2 - c'.lattice.u.2 * c'.lattice.v.1)
  { wavelength := c'.wavelength, inPlaneWavevector := c'.inPlaneWavevector + (a * -c'.lattice.u.2, a * c'.lattice.u.1), lattice := c'.lattice,
    expansion := fun x => ((c'.expansion x).1, 0) }

theorem row_of (g : ℤ) (hind : Independent c'.lattice.u c'.lattice.v) : GratingRow g Subtype.val (rowSetup g c') c' := by
  unfold Independent at hind
  refine ⟨rfl, rfl, ⟨1, one_ne_zero, (one_smul _ _).symm⟩, Subtype.val_injective, fun i => rfl, fun i => Prod.ext rfl i.2, fun x hx h => hx ⟨x, h⟩ rfl, ?_, ?_⟩
  · simp only [rowSetup, dot, Prod.fst_add, Prod.snd_add]
    ring
  · simp only [rowSetup, dot, Prod.fst_add, Prod.snd_add]
    field_simp
    ring

theorem forall₂_of_mem {A B : Type} {R : A → B → Prop} {P : A → Prop} : ∀ {bs : List B}, (∀ b ∈ bs, ∃ a, R a b ∧ P a) → ∃ as, List.Forall₂ R as bs ∧ ∀ a ∈ as, P a
  | [], _ => ⟨[], .nil, by simp⟩
  | b :: bs, h => by
    obtain ⟨a, ha, hp⟩ := h b (by simp)
    obtain ⟨as, has, hps⟩ := forall₂_of_mem (R := R) (P := P) (bs := bs) fun b hb => h b (by simp [hb])
    exact ⟨a :: as, .cons ha has, by simpa [hp] using hps⟩

/-- The lattice vectors of a calculated stack with a layer of uniform isotropic medium are independent. -/
theorem computed_independent {layers' : List (StackLayer κ)} {S' : ScatteringMatrix κ} (hfirst : ∀ p ∈ layers'.head?, p.Uniform) (hS : ComputedSMatrix eig' c' layers' S') : Independent c'.lattice.u c'.lattice.v := by
  obtain ⟨⟨a, ha, sa⟩, -⟩ := hS.ends
  obtain ⟨nx, ny, medium, d⟩ := a
  obtain ⟨h1, h2, ε, f, h3⟩ : nx = 1 ∧ ny = 1 ∧ ∃ (ε : Grid nx ny) (f : Formulation nx ny κ), medium = .isotropic ε f := hfirst _ ha
  clear ha
  subst h3
  subst h1
  subst h2
  simp only [StackLayer.solve, eigensolveIsotropicMedia, and_self, dite_true] at sa
  obtain ⟨k, w, hk, -⟩ := eigensolveUniformIsotropic_ok_iff.1 sa
  unfold transverseWavevectors at hk
  simp only [bind_eq_ok, reciprocal_eq_ok] at hk
  obtain ⟨_, ⟨h1, -⟩, -⟩ := hk
  exact h1

/-- **C116** Gratings do not scatter between Fourier orders with different second index. -/
theorem C116_uncoupled (he' : IsEig eig') (hl : ∀ q ∈ layers', Grooved c' q) (hfirst : ∀ p ∈ layers'.head?, p.Uniform)
    (hlast : ∀ p ∈ layers'.getLast?, p.Uniform) (hS : ComputedSMatrix eig' c' layers' S') :
    ∀ A ∈ [S'.s11, S'.s12, S'.s21, S'.s22], ∀ x y : κ, (c'.expansion x).2 ≠ (c'.expansion y).2 →
      A (.inl x) (.inl y) = 0 ∧ A (.inl x) (.inr y) = 0 ∧ A (.inr x) (.inl y) = 0 ∧ A (.inr x) (.inr y) = 0 := by
  have hind := computed_independent hfirst hS
  intro A hA x y hxy
  obtain ⟨eig, he⟩ := exists_isEig ({z : κ // (c'.expansion z).2 = (c'.expansion y).2} ⊕ {z : κ // (c'.expansion z).2 = (c'.expansion y).2})
  haveI : Nonempty {z : κ // (c'.expansion z).2 = (c'.expansion y).2} := ⟨⟨y, rfl⟩⟩
  obtain ⟨layers, hll, -⟩ := forall₂_of_mem (R := GratingLayer (rowSetup (c'.expansion y).2 c') c') (P := fun _ => True) (bs := layers')
    fun q hq => (grooved_layer _ (hl q hq)).imp fun _ h => ⟨h.1, trivial⟩
  obtain ⟨S, -, k1, k2, k3, k4⟩ := C116_uniform_ends he he' (row_of _ hind) hll hfirst hlast hS
  have key : ∀ {B : ModeMatrix {z : κ // (c'.expansion z).2 = (c'.expansion y).2}}, IsBlock Subtype.val B A → A (.inl x) (.inl y) = 0 ∧ A (.inl x) (.inr y) = 0 ∧ A (.inr x) (.inl y) = 0 ∧ A (.inr x) (.inr y) = 0 := by
    intro B hB
    have h1 := hB.2 (.inl x) (by rintro (a | a) h <;> simp at h; exact hxy (h ▸ a.2))
    have h2 := hB.2 (.inr x) (by rintro (a | a) h <;> simp at h; exact hxy (h ▸ a.2))
    exact ⟨(h1 (.inl ⟨y, rfl⟩)).1, (h1 (.inr ⟨y, rfl⟩)).1, (h2 (.inl ⟨y, rfl⟩)).1, (h2 (.inr ⟨y, rfl⟩)).1⟩
  simp only [List.mem_cons, List.not_mem_nil, or_false] at hA
  rcases hA with rfl | rfl | rfl | rfl
  exacts [key k1, key k2, key k3, key k4]

/-- **C116** The classical mount: a grating of isotropic layers (FFT formulation) on a rectangular lattice, and orders without a component of the wavevector
along the grooves.  Such orders are scattered without conversion between the two polarisations, whatever the profile. -/
theorem C116_classical_mount (he' : IsEig eig') (hl : ∀ q ∈ layers', Grooved c' q ∧ ∃ ε, q.medium = .isotropic ε .fft) (hu : c'.lattice.u.2 = 0)
    (hv : c'.lattice.v.1 = 0) (hk : dot c'.inPlaneWavevector c'.lattice.v + 2 * Real.pi * g = 0) (hfirst : ∀ p ∈ layers'.head?, p.Uniform)
    (hlast : ∀ p ∈ layers'.getLast?, p.Uniform) (hS : ComputedSMatrix eig' c' layers' S') :
    ∀ A ∈ [S'.s11, S'.s12, S'.s21, S'.s22], ∀ x y : κ, (c'.expansion x).2 = g ∨ (c'.expansion y).2 = g → A (.inl x) (.inr y) = 0 ∧ A (.inr x) (.inl y) = 0 := by
  intro A hA x y hxy
  by_cases hne : (c'.expansion x).2 = (c'.expansion y).2
  · have hx : (c'.expansion x).2 = g := by rcases hxy with h | h; exacts [h, hne.trans h]
    have hy : (c'.expansion y).2 = g := hne ▸ hx
    have hind := computed_independent hfirst hS
    have hrow := row_of g hind
    obtain ⟨eig, he⟩ := exists_isEig ({z : κ // (c'.expansion z).2 = g} ⊕ {z : κ // (c'.expansion z).2 = g})
    haveI : Nonempty {z : κ // (c'.expansion z).2 = g} := ⟨⟨x, hx⟩⟩
    obtain ⟨layers, hll, hP⟩ := forall₂_of_mem (R := GratingLayer (rowSetup g c') c') (P := fun q => q.ny = 1 ∧ ∃ ε, q.medium = .isotropic ε .fft) (bs := layers')
      fun q hq => (grooved_layer _ (hl q hq).1).imp fun _ h => ⟨h.1, h.2 (hl q hq).2⟩
    obtain ⟨S, hS1, k1, k2, k3, k4⟩ := C116_uniform_ends he he' hrow hll hfirst hlast hS
    have hk0 : (rowSetup g c').inPlaneWavevector.2 = 0 := by
      have h1 := hrow.wavevector_v
      rw [hk] at h1
      simp only [dot, hv, mul_zero, zero_add] at h1
      refine (mul_eq_zero.1 h1).resolve_right fun h0 => hind ?_
      rw [hv, h0]
      ring
    have hend := gratingLayer_ends hll hfirst hlast
    have hm := (C88_mirror he (π := Equiv.refl _) (c := rowSetup g c') (layers := layers) (fun i => by simp [rowSetup]) hk0 hu hv (fun q hq => by
      obtain ⟨nx, ny, medium, d⟩ := q
      obtain ⟨h1, ε, h2⟩ := hP _ hq
      simp only at h1 h2
      subst h1
      exact ⟨ε, h2, fun r s => by rw [Subsingleton.elim (flipIndex s) s]⟩) hend.1 hend.2 hS1).2
    have key : ∀ {B : ModeMatrix {z : κ // (c'.expansion z).2 = g}}, B ∈ [S.s11, S.s12, S.s21, S.s22] → IsBlock Subtype.val B A →
        A (.inl x) (.inr y) = 0 ∧ A (.inr x) (.inl y) = 0 := by
      intro B hB hBA
      obtain ⟨m1, m2⟩ := hm B hB ⟨x, hx⟩ ⟨y, hy⟩ rfl rfl
      exact ⟨(hBA.1 (.inl ⟨x, hx⟩) (.inr ⟨y, hy⟩)).trans m1, (hBA.1 (.inr ⟨x, hx⟩) (.inl ⟨y, hy⟩)).trans m2⟩
    simp only [List.mem_cons, List.not_mem_nil, or_false] at hA
    rcases hA with rfl | rfl | rfl | rfl
    exacts [key (by simp) k1, key (by simp) k2, key (by simp) k3, key (by simp) k4]
  · have := C116_uncoupled he' (fun q hq => (hl q hq).1) hfirst hlast hS A hA x y hne
    exact ⟨this.2.1, this.2.2.1⟩

/-- **C116** The length of the second lattice vector is irrelevant if all orders have second index zero: patterns with a single column, lattice vectors `u` and
`t v`. -/
theorem C116_groove_length {ls : List (StackLayer κ)} {eig₁ : Matrix (κ ⊕ κ) (κ ⊕ κ) ℂ → (κ ⊕ κ → ℂ) × Matrix (κ ⊕ κ) (κ ⊕ κ) ℂ} (he' : IsEig eig')
    (he : IsEig eig₁) [Nonempty κ] {t : ℝ} (ht : t ≠ 0) (h0 : ∀ x, (c'.expansion x).2 = 0)
    (hl : ∀ q ∈ ls, q.ny = 1 ∧ q.medium.formulation = .fft) (hfirst : ∀ p ∈ ls.head?, p.Uniform)
    (hlast : ∀ p ∈ ls.getLast?, p.Uniform) (hS : ComputedSMatrix eig' c' ls S') :
    ∃ S, ComputedSMatrix eig₁ { c' with lattice := { u := c'.lattice.u, v := t • c'.lattice.v } } ls S ∧
      S.s11 = S'.s11 ∧ S.s12 = S'.s12 ∧ S.s21 = S'.s21 ∧ S.s22 = S'.s22 := by
  have hrow : GratingRow 0 (id : κ → κ) { c' with lattice := { u := c'.lattice.u, v := t • c'.lattice.v } } c' := by
    refine ⟨rfl, rfl, ⟨t, ht, rfl⟩, Function.injective_id, h0, fun i => Prod.ext rfl (h0 i), fun x hx => absurd rfl (hx x), rfl, ?_⟩
    simp
  have hg : (groove : ∀ {nx ny : ℕ}, Fin nx × Fin ny → Fin nx × Fin 1) = fun {nx ny} q => (q.1, 0) := rfl
  have hid : ∀ {nx : ℕ} (x : Grid nx 1), x.pull (groove : Fin nx × Fin 1 → Fin nx × Fin 1) = x := by
    intro nx x
    ext r s
    rw [Subsingleton.elim s 0]
    rfl
  have hll : List.Forall₂ (GratingLayer { c' with lattice := { u := c'.lattice.u, v := t • c'.lattice.v } } c') ls ls := by
    refine List.forall₂_same.2 fun q hq => ?_
    obtain ⟨nx, ny, medium, d⟩ := q
    obtain ⟨h1, h2⟩ : ny = 1 ∧ medium.formulation = .fft := hl _ hq
    clear hq
    subst h1
    by_cases hn : nx = 1
    · subst hn
      cases medium with
      | isotropic ε f => exact .uniformIsotropic ε f f d
      | anisotropic ε μ f x => exact .uniformAnisotropic ε μ f f x x d
    · cases medium with
      | isotropic ε f =>
        simp only [Medium.formulation] at h2
        subst h2
        have := GratingLayer.isotropic (c := { c' with lattice := { u := c'.lattice.u, v := t • c'.lattice.v } }) (c' := c') (ny := 1) hn ε .fft .fft trivial d
        rw [hid] at this
        exact this
      | anisotropic ε μ f x =>
        simp only [Medium.formulation] at h2
        subst h2
        have := GratingLayer.anisotropic (c := { c' with lattice := { u := c'.lattice.u, v := t • c'.lattice.v } }) (c' := c') (ny := 1) hn ε μ x .fft .fft trivial d
        have hx : x.map (Grid.pull (groove : Fin nx × Fin 1 → Fin nx × Fin 1)) = x := by
          cases x with
          | none => rfl
          | some x => rw [Option.map_some, hid]
        have hT : ∀ T : TensorComponents nx 1, T.pull (groove : Fin nx × Fin 1 → Fin nx × Fin 1) = T := by
          intro T
          simp only [TensorComponents.pull, hid]
        rw [hx, hT, hT] at this
        exact this
  obtain ⟨S, hS1, k1, k2, k3, k4⟩ := C116_uniform_ends he he' hrow hll hfirst hlast hS
  have key : ∀ {A B : ModeMatrix κ}, IsBlock id A B → A = B := fun h => by
    ext a b
    have := h.1 a b
    simp only [Sum.map_id_id, id] at this
    exact this.symm
  exact ⟨S, hS1, key k1, key k2, key k3, key k4⟩

/-- **C116** Layers in the named vector formulations with a real or complex grating profile (those of C94) have tangent fields independent of the
second lattice coordinate, so that the theorems apply to them. -/
theorem C116_named_schemes {nx ny : ℕ} [NeZero nx] [NeZero ny] (hn : nx ≠ 1) (hG : Function.Injective c'.expansion) (hsym : ∀ i, ∃ j, c'.expansion j = -c'.expansion i)
    (hr : Resolves nx ny c'.expansion) {a b : ℝ} (ha : a ≠ 0) (hb : b ≠ 0) (hlat : c'.lattice = ⟨(a, 0), (0, b)⟩) (f : Fin nx → ℝ) (z : ℂ) (φ : ℝ)
    {m : ℕ × ℕ} (hm : doubledMinShape c'.expansion nx ny = .ok m)
    (hv : Visible c'.expansion (Matrix.of fun i (_ : Fin ny) => Real.sqrt |a * b| / a * profileSlope f i) m.1 m.2)
    (scheme : String × VectorMethod × ℝ × ℝ) (d : ℝ) :
    Grooved c' ⟨nx, ny, .isotropic (linesY fun r => z + Complex.exp (φ * Complex.I) * f r) (.ofScheme scheme), d⟩ := by
  refine Or.inr ⟨hn, fun r s s' => rfl, ?_⟩
  obtain ⟨r, s, h1⟩ := hv
  have hg := gradient_linesY (ny := ny) ha hb f z φ
  rw [← hlat] at hg
  obtain ⟨hx, hy⟩ := hr.pos
  obtain ⟨w, -, hf⟩ := computeField_const (x := (linesY fun r => z + Complex.exp (φ * Complex.I) * f r : Grid nx ny)) (G := c'.expansion) (l := c'.lattice) hx hy
    (d := ![Real.sin φ, Real.cos φ]) (Real.sin_sq_add_cos_sq φ) (fw := scheme.2.2.1) (sw := scheme.2.2.2) (fun b => by
      obtain ⟨σ, hσ, h⟩ := tangentField_phase (linesY fun r => z + Complex.exp (φ * Complex.I) * f r : Grid nx ny) c'.expansion _ b scheme.2.2.1 scheme.2.2.2 1
        hG hsym hr _ 0 φ hg hm r s h1
      refine ⟨σ, hσ, h.trans (congrArg Except.ok ?_)⟩
      funext i j k
      fin_cases k <;> simp) scheme.2.1
  have hfn : tangentPair scheme.2.1 scheme.2.2.1 scheme.2.2.2 (linesY fun r => z + Complex.exp (φ * Complex.I) * f r : Grid nx ny) c'.expansion c'.lattice =
      .ok (Matrix.of fun _ _ => w * ((![Real.sin φ, Real.cos φ] 0 : ℝ) : ℂ), Matrix.of fun _ _ => w * ((![Real.sin φ, Real.cos φ] 1 : ℝ) : ℂ)) := by
    unfold tangentPair
    rw [hf]
    rfl
  exact ⟨_, hfn, fun r s s' => ⟨rfl, rfl⟩⟩

namespace GratingRowsExample

open SymmetryExample

/-- Orders in two rows. -/
noncomputable def setup : Setup (Fin 3) :=
  { wavelength := 2 * Real.pi, inPlaneWavevector := 0, lattice := unitLattice, expansion := ![(0, 0), (1, 0), (0, 1)] }

/-- The grating of the examples of C84 on a grid with three columns. -/
noncomputable def rowsGrating : Grid 6 3 := grating.pull groove

noncomputable def stack : List (StackLayer (Fin 3)) :=
  [⟨1, 1, .isotropic (Matrix.of fun _ _ => 2 + Complex.I) .fft, 0⟩, ⟨6, 3, .isotropic rowsGrating .fft, 1⟩,
    ⟨1, 1, .isotropic (Matrix.of fun _ _ => 2 + Complex.I) .fft, 0⟩]

theorem injective : Function.Injective setup.expansion := by
  intro i j h
  fin_cases i <;> fin_cases j <;> simp [setup] at h ⊢

theorem resolves : Resolves 6 3 setup.expansion := by
  refine ⟨⟨0⟩, fun i => ?_⟩
  fin_cases i <;> simp [setup]

theorem rowsCoefficients : (Matrix.of fun i j => fourierCoefficient rowsGrating (setup.expansion i - setup.expansion j) : Matrix (Fin 3) (Fin 3) ℂ) =
    (2 + Complex.I) • 1 := by
  have h0 : fourierCoefficient grating (0, 0) = 2 + Complex.I := by
    simp [fourierCoefficient, planeWave, grating, Fin.sum_univ_six]
    ring
  ext i j
  simp only [rowsGrating, of_apply]
  rw [groove_coefficient (by norm_num)]
  fin_cases i <;> fin_cases j <;> simp [setup, h0] <;> exact coefficient_eq _ (by norm_num)

theorem computed : ∃ eig, IsEig eig ∧ ∃ S, ComputedSMatrix eig setup stack S := by
  obtain ⟨eig, he⟩ := exists_isEig (Fin 3 ⊕ Fin 3)
  have hl : (0 : ℝ) < setup.wavelength := by simp only [setup]; have := Real.pi_pos; positivity
  have hε0 : (2 + Complex.I : ℂ) ≠ 0 := by intro h; simpa using congrArg Complex.re h
  have hlat : setup.lattice.u.1 * setup.lattice.v.2 - setup.lattice.u.2 * setup.lattice.v.1 ≠ 0 := by norm_num [setup, unitLattice]
  obtain ⟨u, hu⟩ := (C22_uniform_succeeds_iff setup.wavelength setup.inPlaneWavevector setup.lattice (2 + Complex.I) setup.expansion).2 ⟨hl.ne', hε0, hlat⟩
  obtain ⟨r, hr⟩ := patterned_eigensolve_succeeds eig setup.inPlaneWavevector (ε := rowsGrating) injective resolves hl.ne' hlat (by
    intro r s
    simp only [rowsGrating, grating, Grid.pull, of_apply]
    split_ifs <;> simp)
  have hv : IsUnit r.eigenvectors.det := by
    have h := hr
    unfold eigensolvePatternedIsotropic at h
    obtain ⟨m, hm, h⟩ := bind_eq_ok.1 h
    obtain ⟨e1, e2, e3, e4, e5⟩ := fft_matrices_eq hm
    obtain ⟨hs, f1, f2, f3, f4, f5, -⟩ := numerical_solvedFor he h
    rw [rowsCoefficients] at e1 e2
    refine numerical_eigenvectors_invertible he h (V := 1) (by simp) (Eq.trans ?_ (plane_wave_modes hε0 (f2.trans e3) (f3.trans e1) (f4.trans e4)))
    rw [e2, show Matrix.fromBlocks ((2 + Complex.I) • (1 : Matrix (Fin 3) (Fin 3) ℂ)) 0 0 ((2 + Complex.I) • 1) = (2 + Complex.I) • (1 : ModeMatrix (Fin 3)) by
      rw [← Matrix.fromBlocks_one, Matrix.fromBlocks_smul, smul_zero]]
  have hr' : eigensolveIsotropicMedia eig setup.wavelength setup.inPlaneWavevector setup.lattice rowsGrating setup.expansion .fft = .ok r := by
    unfold eigensolveIsotropicMedia
    rw [dif_neg (by norm_num)]
    exact hr
  have ha := C81_isotropic_absorbing he hl injective resolves hr' (by
    intro r s
    simp only [rowsGrating, grating, Grid.pull, of_apply]
    split_ifs <;> simp) hv
  have hb := C81_uniform_absorbing hl hu (by simp)
  have hwu : u.wavelength = setup.wavelength := by
    obtain ⟨k, w, -, -, -, hr⟩ := eigensolveUniformIsotropic_ok_iff.1 hu
    rw [hr]
  have hwr : r.wavelength = setup.wavelength := by
    have h := hr
    unfold eigensolvePatternedIsotropic at h
    obtain ⟨m, hm, h⟩ := bind_eq_ok.1 h
    exact (numerical_solvedFor he h).2.1
  obtain ⟨S, -, hS, -⟩ := C81_absorbing_stack (layers := [u, r, u]) (ds := [0, 1, 0]) (by simp) (by simp) (lam := setup.wavelength)
    (by simp [hwu, hwr]) (by simp [ha, hb]) (by simp)
  have hu' : eigensolveIsotropicMedia eig setup.wavelength setup.inPlaneWavevector setup.lattice (Matrix.of fun _ _ => 2 + Complex.I : Grid 1 1) setup.expansion .fft = .ok u := by
    unfold eigensolveIsotropicMedia
    rw [dif_pos ⟨rfl, rfl⟩]
    exact hu
  exact ⟨eig, he, S, [u, r, u], .cons hu' (.cons hr' (.cons hu' .nil)), hS⟩

theorem uniform_ends : (∀ p ∈ stack.head?, p.Uniform) ∧ ∀ p ∈ stack.getLast?, p.Uniform := by
  constructor
  · intro p hp
    simp only [stack, List.head?_cons, Option.mem_def, Option.some.injEq] at hp
    subst hp
    exact ⟨rfl, rfl, _, _, rfl⟩
  · intro p hp
    simp only [stack, List.getLast?_cons_cons, List.getLast?_singleton, Option.mem_def, Option.some.injEq] at hp
    subst hp
    exact ⟨rfl, rfl, _, _, rfl⟩


theorem grooved : ∀ q ∈ stack, Grooved setup q ∧ ∃ ε, q.medium = .isotropic ε .fft := by
  intro q hq
  simp only [stack, List.mem_cons, List.not_mem_nil, or_false] at hq
  rcases hq with rfl | rfl | rfl
  · exact ⟨.inl ⟨rfl, rfl⟩, _, rfl⟩
  · exact ⟨.inr ⟨by norm_num, fun r s s' => rfl, trivial⟩, _, rfl⟩
  · exact ⟨.inl ⟨rfl, rfl⟩, _, rfl⟩

/-- The same grating with a single column and the orders `(0, 0)` and `(1, 0)`; the second lattice vector is five times as long. -/
noncomputable def rowSetup0 : Setup (Fin 2) :=
  { wavelength := 2 * Real.pi, inPlaneWavevector := 0, lattice := ⟨(1, 0), (0, 5)⟩, expansion := ![(0, 0), (1, 0)] }

noncomputable def rowStack : List (StackLayer (Fin 2)) :=
  [⟨1, 1, .isotropic (Matrix.of fun _ _ => 2 + Complex.I) .fft, 0⟩, ⟨6, 1, .isotropic grating .fft, 1⟩,
    ⟨1, 1, .isotropic (Matrix.of fun _ _ => 2 + Complex.I) .fft, 0⟩]

theorem row0 : GratingRow 0 ![0, 1] rowSetup0 setup := by
  refine ⟨rfl, rfl, ⟨5, by norm_num, ?_⟩, ?_, ?_, ?_, ?_, ?_, ?_⟩
  · simp [rowSetup0, setup, unitLattice]
  · intro i j h
    fin_cases i <;> fin_cases j <;> simp at h ⊢
  · intro i
    fin_cases i <;> simp [rowSetup0]
  · intro i
    fin_cases i <;> simp [rowSetup0, setup]
  · intro x hx
    fin_cases x
    · exact absurd rfl (hx 0)
    · exact absurd rfl (hx 1)
    · simp [setup]
  · simp [rowSetup0, setup]
  · simp [rowSetup0, setup]

theorem row_layers : List.Forall₂ (GratingLayer rowSetup0 setup) rowStack stack :=
  .cons (.uniformIsotropic _ _ _ _) (.cons (.isotropic (by norm_num) grating .fft .fft trivial 1) (.cons (.uniformIsotropic _ _ _ _) .nil))

/-- C116: the row with second index zero. -/
example : ∃ eig eig' S S', IsEig eig ∧ IsEig eig' ∧ ComputedSMatrix eig' setup stack S' ∧ ComputedSMatrix eig rowSetup0 rowStack S ∧
    S'.s21 (.inl 1) (.inl 0) = S.s21 (.inl 1) (.inl 0) ∧ S'.s21 (.inr 1) (.inr 1) = S.s21 (.inr 1) (.inr 1) := by
  obtain ⟨eig', he', S', hS'⟩ := computed
  obtain ⟨eig, he⟩ := exists_isEig (Fin 2 ⊕ Fin 2)
  obtain ⟨S, h, -, -, k, -⟩ := C116_uniform_ends he he' row0 row_layers uniform_ends.1 uniform_ends.2 hS'
  exact ⟨eig, eig', S, S', he, he', hS', h, k.1 (.inl 1) (.inl 0), k.1 (.inr 1) (.inr 1)⟩

/-- C116: no scattering between rows, and no conversion of polarisation at normal incidence. -/
example : ∃ eig' S', IsEig eig' ∧ ComputedSMatrix eig' setup stack S' ∧ S'.s11 (.inl 2) (.inr 0) = 0 ∧ S'.s11 (.inl 1) (.inr 0) = 0 := by
  obtain ⟨eig', he', S', hS'⟩ := computed
  refine ⟨eig', S', he', hS', ?_, ?_⟩
  · exact (C116_uncoupled he' (fun q hq => (grooved q hq).1) uniform_ends.1 uniform_ends.2 hS' S'.s11 (by simp) 2 0 (by simp [setup])).2.1
  · exact (C116_classical_mount (g := 0) he' grooved (by simp [setup, unitLattice]) (by simp [setup, unitLattice]) (by simp [setup, dot]) uniform_ends.1 uniform_ends.2 hS'
      S'.s11 (by simp) 1 0 (by simp [setup])).1

/-- C116: the grating of the examples of C84 with a second lattice vector of half the length. -/
example : ∃ eig S' S, IsEig eig ∧ ComputedSMatrix eig SymmetryExample.setup SymmetryExample.stack S' ∧
    ComputedSMatrix eig { SymmetryExample.setup with lattice := ⟨SymmetryExample.setup.lattice.u, (1 / 2 : ℝ) • SymmetryExample.setup.lattice.v⟩ } SymmetryExample.stack S ∧
    S.s11 = S'.s11 := by
  obtain ⟨eig, he, S', hS'⟩ := SymmetryExample.computed
  obtain ⟨S, hS, h, -⟩ := C116_groove_length he he (t := 1 / 2) (by norm_num) (fun x => by fin_cases x <;> simp [SymmetryExample.setup]) (fun q hq => by
    simp only [SymmetryExample.stack, List.mem_cons, List.not_mem_nil, or_false] at hq
    rcases hq with rfl | rfl | rfl <;> exact ⟨rfl, rfl⟩) SymmetryExample.uniform_ends.1 SymmetryExample.uniform_ends.2 hS'
  exact ⟨eig, S', S, he, hS', hS, h⟩

/-- C116: a transparent grating in the named vector formulations. -/
example (scheme : String × VectorMethod × ℝ × ℝ) :
    Grooved { wavelength := 1, inPlaneWavevector := 0, lattice := ⟨(1, 0), (0, 1)⟩, expansion := gratingOrders (1, 0) }
      ⟨4, 4, .isotropic (linesY fun r => 3 + Complex.exp ((0 : ℝ) * Complex.I) * quarterCos r) (.ofScheme scheme), 1⟩ := by
  obtain ⟨d, h1, h2, h3, h4, h5, h6, h7⟩ := axisGrating_hypotheses
  exact C116_named_schemes (c' := { wavelength := 1, inPlaneWavevector := 0, lattice := ⟨(1, 0), (0, 1)⟩, expansion := gratingOrders (1, 0) }) (m := (6, 2)) (a := 1) (b := 1)
    (by norm_num) h1 h2 h3 one_ne_zero one_ne_zero rfl quarterCos 3 0 h6 quarter_visible scheme 1

end GratingRowsExample

end Fmmax
