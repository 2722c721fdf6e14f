import Verif.Proofs.Media
import Verif.Props.Lattice

/-! Redescriptions of a periodic structure as changes of coordinates. -/

set_option linter.unusedSectionVars false

namespace Fmmax

open Matrix Spec

variable {ι : Type} [Fintype ι] [DecidableEq ι] {nx ny mx my : ℕ}

theorem fin_shift_val {m : ℕ} [NeZero m] (a b c : Fin m) : ∃ w : ℤ, (((a + (b - c) : Fin m) : ℕ) : ℝ) = a + b - c + w * m := by
  have h : (((a + (b - c) : Fin m) : ℕ) : ℤ) ≡ a + b - c [ZMOD m] := by
    rw [Fin.val_add, Fin.sub_def]
    push_cast
    rw [Nat.cast_sub c.is_lt.le]
    refine (Int.mod_modEq _ _).trans ?_
    refine ((Int.mod_modEq _ _).add_left _).trans ?_
    have : ((a : ℕ) : ℤ) + (m - c + b) = a + b - c + m := by ring
    rw [this]
    exact Int.add_modEq_right
  obtain ⟨w, hw⟩ := h.symm.dvd
  refine ⟨w, ?_⟩
  have : (((a + (b - c) : Fin m) : ℕ) : ℤ) = a + b - c + w * m := by linarith
  exact_mod_cast this

theorem fin_eq_of_div {n : ℕ} {a b : Fin n} {w : ℤ} (h : (a : ℝ) / n = b / n + w) : a = b := by
  have hn : (0 : ℝ) < n := by
    have := a.is_lt
    exact_mod_cast (by omega : 0 < n)
  have h1 : (a : ℝ) = b + w * n := by
    field_simp at h
    linarith
  have h2 : ((a : ℕ) : ℤ) = b + w * n := by exact_mod_cast h1
  have ha := a.is_lt
  have hb := b.is_lt
  have hw : w = 0 := by
    by_contra hw
    rcases lt_or_gt_of_ne hw with hw | hw <;> nlinarith
  ext
  rw [hw] at h2
  omega

variable {D : Redescription ι} {c c' : Setup ι} {γ : Fin mx × Fin my → Fin nx × Fin ny}

theorem Spec.Redescription.GridImage.pos (h : D.GridImage c' γ) : 0 < mx ∧ 0 < my ∧ 0 < nx ∧ 0 < ny := by
  obtain ⟨⟨i⟩, hi⟩ := h.resolves
  obtain ⟨h1, h2⟩ := hi i
  have p1 : 0 < mx := by have := abs_nonneg (c'.expansion i).1; omega
  have p2 : 0 < my := by have := abs_nonneg (c'.expansion i).2; omega
  exact ⟨p1, p2, Fin.pos (γ (⟨0, p1⟩, ⟨0, p2⟩)).1, Fin.pos (γ (⟨0, p1⟩, ⟨0, p2⟩)).2⟩

theorem Spec.Redescription.GridImage.fibre (h : D.GridImage c' γ) (q q' : Fin nx × Fin ny) :
    (Finset.univ.filter fun p => γ p = q).card = (Finset.univ.filter fun p => γ p = q').card := by
  obtain ⟨p1, p2, p3, p4⟩ := h.pos
  haveI : NeZero mx := ⟨p1.ne'⟩
  haveI : NeZero my := ⟨p2.ne'⟩
  have key : ∀ a b : Fin mx × Fin my, ∀ p, γ p = γ a → γ (p + (b - a)) = γ b := by
    intro a b p hp
    obtain ⟨z1, e1, e2⟩ := h.position p
    obtain ⟨z2, f1, f2⟩ := h.position a
    obtain ⟨z3, g1, g2⟩ := h.position b
    obtain ⟨z4, k1, k2⟩ := h.position (p + (b - a))
    obtain ⟨w1, hw1⟩ := fin_shift_val p.1 b.1 a.1
    obtain ⟨w2, hw2⟩ := fin_shift_val p.2 b.2 a.2
    rw [hp] at e1 e2
    have m1 : (mx : ℝ) ≠ 0 := by exact_mod_cast p1.ne'
    have m2 : (my : ℝ) ≠ 0 := by exact_mod_cast p2.ne'
    have v1 : (((p + (b - a)).1 : Fin mx) : ℝ) / mx = p.1 / mx + b.1 / mx - a.1 / mx + w1 := by
      rw [Prod.fst_add, Prod.fst_sub, hw1]
      field_simp
    have v2 : (((p + (b - a)).2 : Fin my) : ℝ) / my = p.2 / my + b.2 / my - a.2 / my + w2 := by
      rw [Prod.snd_add, Prod.snd_sub, hw2]
      field_simp
    rw [v1, v2] at k1 k2
    apply Prod.ext
    · refine fin_eq_of_div (w := z4.1 - z3.1 + z2.1 - z1.1 + D.basis 0 0 * w1 + D.basis 0 1 * w2) ?_
      push_cast
      linarith
    · refine fin_eq_of_div (w := z4.2 - z3.2 + z2.2 - z1.2 + D.basis 1 0 * w1 + D.basis 1 1 * w2) ?_
      push_cast
      linarith
  obtain ⟨a, rfl⟩ := h.surjective q
  obtain ⟨b, rfl⟩ := h.surjective q'
  refine Finset.card_bij (fun p _ => p + (b - a)) ?_ ?_ ?_
  · intro p hp
    simp only [Finset.mem_filter, Finset.mem_univ, true_and] at hp ⊢
    exact key a b p hp
  · intro p _ p' _ e
    exact add_right_cancel e
  · intro p hp
    simp only [Finset.mem_filter, Finset.mem_univ, true_and] at hp
    exact ⟨p + (a - b), by simp only [Finset.mem_filter, Finset.mem_univ, true_and]; exact key b a p hp, by abel⟩

theorem Spec.Redescription.GridImage.sum (h : D.GridImage c' γ) (F : Fin nx × Fin ny → ℂ) :
    (∑ p, F (γ p)) / (mx * my) = (∑ q, F q) / (nx * ny) := by
  obtain ⟨p1, p2, p3, p4⟩ := h.pos
  have q0 : Fin nx × Fin ny := (⟨0, p3⟩, ⟨0, p4⟩)
  set k := (Finset.univ.filter fun p => γ p = q0).card with hk
  have hcard : ∀ G : Fin nx × Fin ny → ℂ, ∑ p, G (γ p) = k * ∑ q, G q := by
    intro G
    rw [← Finset.sum_fiberwise (s := Finset.univ) (g := γ), Finset.mul_sum]
    refine Finset.sum_congr rfl fun q _ => ?_
    rw [Finset.sum_congr rfl (g := fun _ => G q) (fun p hp => by rw [(Finset.mem_filter.1 hp).2]), Finset.sum_const, nsmul_eq_mul, h.fibre q q0]
  have hone := hcard fun _ => 1
  simp only [Finset.sum_const, Finset.card_univ, Fintype.card_prod, Fintype.card_fin, nsmul_eq_mul, mul_one, Nat.cast_mul] at hone
  have m1 : (mx : ℂ) ≠ 0 := by exact_mod_cast p1.ne'
  have m2 : (my : ℂ) ≠ 0 := by exact_mod_cast p2.ne'
  have m3 : (nx : ℂ) ≠ 0 := by exact_mod_cast p3.ne'
  have m4 : (ny : ℂ) ≠ 0 := by exact_mod_cast p4.ne'
  rw [hcard F, hone]
  have hk0 : (k : ℂ) ≠ 0 := by
    intro h0
    rw [h0, zero_mul] at hone
    exact mul_ne_zero m1 m2 hone
  field_simp

theorem Spec.Redescription.phase_norm (D : Redescription ι) (c : Setup ι) (i : ι) : star (D.phase c i) * D.phase c i = 1 := by
  unfold Redescription.phase
  rw [Complex.star_def, ← Complex.exp_conj, ← Complex.exp_add, Complex.exp_eq_one_iff]
  refine ⟨0, ?_⟩
  simp only [map_mul, map_add, Complex.conj_ofReal, Complex.conj_I, map_ofNat, map_intCast]
  push_cast
  ring

/-- The change of coordinates. -/
noncomputable def Spec.Redescription.coordinates (D : Redescription ι) (c : Setup ι) : Coordinates ι :=
  { scale := D.scale, scale_pos := D.scale_pos, rotation := D.rotation, orthogonal := D.orthogonal, order := D.order, phase := D.phase c,
    phase_norm := D.phase_norm c }

theorem Spec.Redescription.coordinates_R (D : Redescription ι) (c : Setup ι) : (D.coordinates c).R = D.fieldMatrix c := rfl

theorem Spec.Redescription.GridImage.gridMap (hs : D.SetupImage c c') (h : D.GridImage c' γ) :
    GridMap (D.coordinates c) c.expansion c'.expansion γ := by
  refine ⟨h.surjective, fun _ => h.resolves, ?_⟩
  intro x i j
  have hpw : ∀ p : Fin mx × Fin my, planeWave mx my (-(c'.expansion i - c'.expansion j)) p.1 p.2 =
      D.phase c i * star (D.phase c j) * planeWave nx ny (-(c.expansion (D.order i) - c.expansion (D.order j))) (γ p).1 (γ p).2 := by
    intro p
    obtain ⟨z, e1, e2⟩ := h.position p
    have e1' : (((γ p).1 : ℕ) : ℂ) / nx = D.basis 0 0 * ((p.1 : ℕ) / mx) + D.basis 0 1 * ((p.2 : ℕ) / my) + D.shift.1 + z.1 := by
      have := congrArg (fun r : ℝ => (r : ℂ)) e1
      push_cast at this
      exact this
    have e2' : (((γ p).2 : ℕ) : ℂ) / ny = D.basis 1 0 * ((p.1 : ℕ) / mx) + D.basis 1 1 * ((p.2 : ℕ) / my) + D.shift.2 + z.2 := by
      have := congrArg (fun r : ℝ => (r : ℂ)) e2
      push_cast at this
      exact this
    unfold planeWave Redescription.phase
    rw [Complex.star_def, ← Complex.exp_conj, ← Complex.exp_add, ← Complex.exp_add, Complex.exp_eq_exp_iff_exists_int]
    refine ⟨((c.expansion (D.order i)).1 - (c.expansion (D.order j)).1) * z.1 + ((c.expansion (D.order i)).2 - (c.expansion (D.order j)).2) * z.2, ?_⟩
    rw [hs.expansion i, hs.expansion j]
    simp only [mul_div_assoc, e1', e2', map_mul, map_add, Complex.conj_ofReal, Complex.conj_I, Prod.fst_neg, Prod.snd_neg, Prod.fst_sub, Prod.snd_sub]
    push_cast
    simp only [map_ofNat, map_intCast]
    ring
  unfold fourierCoefficient
  rw [← Finset.sum_product', ← Finset.sum_product', Finset.univ_product_univ, Finset.univ_product_univ]
  have := h.sum fun q => x q.1 q.2 * planeWave nx ny (-(c.expansion (D.order i) - c.expansion (D.order j))) q.1 q.2
  change _ = D.phase c i * star (D.phase c j) * _
  change _ / ((mx : ℂ) * my) = _ * ((∑ q : Fin nx × Fin ny, x q.1 q.2 * planeWave nx ny (-(c.expansion (D.order i) - c.expansion (D.order j))) q.1 q.2) / (nx * ny))
  rw [← this, ← mul_div_assoc, Finset.mul_sum]
  congr 1
  refine Finset.sum_congr rfl fun p _ => ?_
  rw [hpw p]
  simp only [Grid.pull, of_apply]
  ring

theorem Spec.Redescription.rotate_dot (D : Redescription ι) (x y : ℝ × ℝ) : dot (D.rotate x) (D.rotate y) = dot x y := by
  obtain ⟨o1, o2, o3, -⟩ := orthogonal_entries D.orthogonal
  unfold dot Redescription.rotate
  linear_combination x.1 * y.1 * o1 + (x.1 * y.2 + x.2 * y.1) * o2 + x.2 * y.2 * o3

theorem dot_unique {u v x y : ℝ × ℝ} (h : Independent u v) (hu : dot x u = dot y u) (hv : dot x v = dot y v) : x = y := by
  unfold Independent at h
  unfold dot at hu hv
  apply Prod.ext
  · apply mul_left_cancel₀ h
    linear_combination v.2 * hu - u.2 * hv
  · apply mul_left_cancel₀ h
    linear_combination -v.1 * hu + u.1 * hv

theorem Spec.Redescription.SetupImage.setupMap (h : D.SetupImage c c') : SetupMap (D.coordinates c) c c' := by
  refine ⟨h.wavelength, ?_⟩
  intro w hw
  have hs := D.scale_pos.ne'
  have hind : Independent c.lattice.u c.lattice.v := by
    unfold transverseWavevectors at hw
    simp only [bind_eq_ok, reciprocal_eq_ok] at hw
    obtain ⟨_, ⟨h1, -⟩, -⟩ := hw
    exact h1
  have hu := h.u
  have hv := h.v
  have hu' : c'.lattice.u = D.scale⁻¹ • D.rotate ((D.basis 0 0 : ℝ) • c.lattice.u + (D.basis 1 0 : ℝ) • c.lattice.v) := by rw [← hu, smul_smul, inv_mul_cancel₀ hs, one_smul]
  have hv' : c'.lattice.v = D.scale⁻¹ • D.rotate ((D.basis 0 1 : ℝ) • c.lattice.u + (D.basis 1 1 : ℝ) • c.lattice.v) := by rw [← hv, smul_smul, inv_mul_cancel₀ hs, one_smul]
  have hind' : Independent c'.lattice.u c'.lattice.v := by
    unfold Independent at hind ⊢
    have hdet : D.rotation.det ≠ 0 := by
      intro h0
      have := (orthogonal_entries D.orthogonal).2.2.2.2.2.2.2
      rw [h0] at this
      norm_num at this
    have hb : (D.basis.det : ℝ) ≠ 0 := by exact_mod_cast D.basis_det
    have : c'.lattice.u.1 * c'.lattice.v.2 - c'.lattice.u.2 * c'.lattice.v.1 =
        D.scale⁻¹ ^ 2 * D.rotation.det * D.basis.det * (c.lattice.u.1 * c.lattice.v.2 - c.lattice.u.2 * c.lattice.v.1) := by
      rw [hu', hv', det_fin_two, det_fin_two]
      simp only [Redescription.rotate, Prod.smul_fst, Prod.smul_snd, Prod.fst_add, Prod.snd_add, smul_eq_mul]
      push_cast
      ring
    rw [this]
    exact mul_ne_zero (mul_ne_zero (mul_ne_zero (pow_ne_zero _ (inv_ne_zero hs)) hdet) hb) hind
  obtain ⟨k, hk, hd, -⟩ := C12_transverse_wavevectors c.inPlaneWavevector c.lattice c.expansion hind
  rw [hw, ok_inj] at hk
  subst hk
  obtain ⟨k', hk', hd', -⟩ := C12_transverse_wavevectors c'.inPlaneWavevector c'.lattice c'.expansion hind'
  rw [hk', ok_inj]
  funext i
  have hgoal : k' i = D.scale • D.rotate (w (D.order i)) := by
    obtain ⟨d1, d2⟩ := hd (D.order i)
    obtain ⟨d1', d2'⟩ := hd' i
    have sub_dot : ∀ x y z : ℝ × ℝ, dot (x - y) z = dot x z - dot y z := by
      intro x y z; simp only [dot, Prod.fst_sub, Prod.snd_sub]; ring
    have scaled : ∀ x y z : ℝ × ℝ, z = D.scale⁻¹ • D.rotate y → dot (D.scale • D.rotate x) z = dot x y := by
      intro x y z hz
      rw [hz, ← D.rotate_dot x y]
      simp only [dot, Prod.smul_fst, Prod.smul_snd, smul_eq_mul]
      field_simp
    have comb : ∀ (x y z : ℝ × ℝ) (a b : ℝ), dot x (a • y + b • z) = a * dot x y + b * dot x z := by
      intro x y z a b; simp only [dot, Prod.smul_fst, Prod.smul_snd, Prod.fst_add, Prod.snd_add, smul_eq_mul]; ring
    rw [sub_dot] at d1 d2 d1' d2'
    have e1 := h.wavevector_u
    have e2 := h.wavevector_v
    rw [scaled _ _ _ hu', comb] at e1
    rw [scaled _ _ _ hv', comb] at e2
    rw [h.expansion i] at d1' d2'
    push_cast at d1' d2'
    apply dot_unique hind'
    · rw [scaled _ _ _ hu', comb]
      linear_combination d1' + e1 - (D.basis 0 0 : ℝ) * d1 - (D.basis 1 0 : ℝ) * d2
    · rw [scaled _ _ _ hv', comb]
      linear_combination d2' + e2 - (D.basis 0 1 : ℝ) * d1 - (D.basis 1 1 : ℝ) * d2
  rw [hgoal]
  rfl

theorem Spec.LayerImage.mono {s : ℝ} {O : Matrix (Fin 2) (Fin 2) ℝ} {P P' : ∀ {nx ny mx my : ℕ}, (Fin mx × Fin my → Fin nx × Fin ny) → Prop}
    (hP : ∀ {nx ny mx my : ℕ} (γ : Fin mx × Fin my → Fin nx × Fin ny), P γ → P' γ) {p p' : StackLayer ι} (h : LayerImage s O P c c' p p') :
    LayerImage s O P' c c' p p' := by
  cases h with
  | uniformIsotropic ε f f' d => exact .uniformIsotropic ε f f' d
  | uniformAnisotropic ε μ f f' x x' d => exact .uniformAnisotropic ε μ f f' x x' d
  | isotropic γ hγ hn hm ε f f' hf d => exact .isotropic γ (hP γ hγ) hn hm ε f f' hf d
  | anisotropic γ hγ hn hm ε μ x f f' hf d => exact .anisotropic γ (hP γ hγ) hn hm ε μ x f f' hf d

variable {eig : Matrix (ι ⊕ ι) (ι ⊕ ι) ℂ → (ι ⊕ ι → ℂ) × Matrix (ι ⊕ ι) (ι ⊕ ι) ℂ}

theorem redescription_stack (he : IsEig eig) (hs : D.SetupImage c c') {layers layers' : List (StackLayer ι)} (hl : List.Forall₂ (D.Image c c') layers layers')
    {S : ScatteringMatrix ι} (hlast : ∀ p ∈ layers.getLast?, ∀ r, p.solve eig c = .ok r → IsUnit r.eigenvectors.det)
    (hS : ComputedSMatrix eig c layers S) :
    ∃ S', ComputedSMatrix eig c' layers' S' ∧ SLayerMap (D.fieldMatrix c) D.scale S S' (S.startLayer.eigenvectors⁻¹ * (D.fieldMatrix c)⁻¹ * S'.startLayer.eigenvectors)
      (S.endLayer.eigenvectors⁻¹ * (D.fieldMatrix c)⁻¹ * S'.endLayer.eigenvectors) := by
  have hl' : List.Forall₂ (LayerMedium (D.coordinates c) c c') layers layers' :=
    hl.imp fun p p' h => LayerImage.mono (fun γ hγ => hγ.gridMap hs) h
  exact stack_covariance (C := D.coordinates c) he hs.setupMap hl' hlast hS

/-- Transmission and reflection of tangential fields. -/
theorem sLayerMap_fields {R : ModeMatrix ι} {s : ℝ} {S S' : ScatteringMatrix ι} (hR : IsUnit R.det)
    (h : SLayerMap R s S S' (S.startLayer.eigenvectors⁻¹ * R⁻¹ * S'.startLayer.eigenvectors) (S.endLayer.eigenvectors⁻¹ * R⁻¹ * S'.endLayer.eigenvectors)) :
    let φ := S.startLayer.eigenvectors
    let ψ := S.endLayer.eigenvectors
    let φ' := S'.startLayer.eigenvectors
    let ψ' := S'.endLayer.eigenvectors
    IsUnit φ.det ∧ IsUnit ψ.det ∧ IsUnit φ'.det ∧ IsUnit ψ'.det ∧
    ψ' * S'.s11 * φ'⁻¹ = R * (ψ * S.s11 * φ⁻¹) * R⁻¹ ∧ ψ' * S'.s12 * ψ'⁻¹ = R * (ψ * S.s12 * ψ⁻¹) * R⁻¹ ∧
    φ' * S'.s21 * φ'⁻¹ = R * (φ * S.s21 * φ⁻¹) * R⁻¹ ∧ φ' * S'.s22 * ψ'⁻¹ = R * (φ * S.s22 * ψ⁻¹) * R⁻¹ := by
  intro φ ψ φ' ψ'
  have key : ∀ {x y : ModeMatrix ι}, IsUnit (x⁻¹ * R⁻¹ * y).det → IsUnit x.det ∧ IsUnit y.det := by
    intro x y hu
    rw [det_mul, det_mul] at hu
    have h1 := isUnit_of_mul_isUnit_right hu
    have h2 := isUnit_of_mul_isUnit_left (isUnit_of_mul_isUnit_left hu)
    exact ⟨(isUnit_nonsing_inv_det_iff).1 h2, h1⟩
  obtain ⟨u1, u3⟩ := key h.start.isUnit
  obtain ⟨u2, u4⟩ := key h.finish.isUnit
  have outer : ∀ {x y : ModeMatrix ι}, IsUnit x.det → IsUnit y.det → y * (x⁻¹ * R⁻¹ * y)⁻¹ = R * x := by
    intro x y hx hy
    rw [Matrix.mul_inv_rev, Matrix.mul_inv_rev, nonsing_inv_nonsing_inv _ hR, nonsing_inv_nonsing_inv _ hx, ← Matrix.mul_assoc, mul_nonsing_inv _ hy, Matrix.one_mul]
  have inner : ∀ {x y : ModeMatrix ι}, IsUnit y.det → (x⁻¹ * R⁻¹ * y) * y⁻¹ = x⁻¹ * R⁻¹ := by
    intro x y hy
    rw [Matrix.mul_assoc, mul_nonsing_inv _ hy, Matrix.mul_one]
  refine ⟨u1, u2, u3, u4, ?_, ?_, ?_, ?_⟩
  · calc ψ' * S'.s11 * φ'⁻¹ = (ψ' * (ψ⁻¹ * R⁻¹ * ψ')⁻¹) * S.s11 * ((φ⁻¹ * R⁻¹ * φ') * φ'⁻¹) := by rw [h.s11]; mat_module
      _ = _ := by rw [outer u2 u4, inner u3]; mat_module
  · calc ψ' * S'.s12 * ψ'⁻¹ = (ψ' * (ψ⁻¹ * R⁻¹ * ψ')⁻¹) * S.s12 * ((ψ⁻¹ * R⁻¹ * ψ') * ψ'⁻¹) := by rw [h.s12]; mat_module
      _ = _ := by rw [outer u2 u4, inner u4]; mat_module
  · calc φ' * S'.s21 * φ'⁻¹ = (φ' * (φ⁻¹ * R⁻¹ * φ')⁻¹) * S.s21 * ((φ⁻¹ * R⁻¹ * φ') * φ'⁻¹) := by rw [h.s21]; mat_module
      _ = _ := by rw [outer u1 u3, inner u3]; mat_module
  · calc φ' * S'.s22 * ψ'⁻¹ = (φ' * (φ⁻¹ * R⁻¹ * φ')⁻¹) * S.s22 * ((ψ⁻¹ * R⁻¹ * ψ') * ψ'⁻¹) := by rw [h.s22]; mat_module
      _ = _ := by rw [outer u1 u3, inner u4]; mat_module

/-- The modes of uniform isotropic layers are the Fourier orders. -/
theorem uniform_eigenvectors {p : StackLayer ι} (hp : p.Uniform) {r : LayerSolveResult ι} (h : p.solve eig c = .ok r) : r.eigenvectors = 1 := by
  obtain ⟨nx, ny, med, d⟩ := p
  obtain ⟨h1, h2, ε, f, h3⟩ := hp
  simp only at h1 h2 h3
  subst h1
  subst h2
  simp only [StackLayer.solve, h3, eigensolveIsotropicMedia, and_self, dite_true] at h
  obtain ⟨k, w, hk, hw, hε, er⟩ := eigensolveUniformIsotropic_ok_iff.1 h
  rw [er]

theorem Spec.ComputedSMatrix.ends {layers : List (StackLayer ι)} {S : ScatteringMatrix ι} (h : ComputedSMatrix eig c layers S) :
    (∃ p ∈ layers.head?, p.solve eig c = .ok S.startLayer) ∧ ∃ p ∈ layers.getLast?, p.solve eig c = .ok S.endLayer := by
  obtain ⟨solved, hs, hS⟩ := h
  cases hs with
  | nil => exact absurd hS (by simp [stackSMatrix, stackSMatrices])
  | @cons p r ps rs hr hrs =>
    have hlen : rs.length = (ps.map StackLayer.thickness).length := by rw [List.length_map, hrs.length_eq]
    have hz : (rs.zip (ps.map StackLayer.thickness)).map Prod.fst = rs := List.map_fst_zip (by omega)
    rw [List.map_cons, stackSMatrix_cons _ _ _ _ hlen] at hS
    obtain ⟨e1, e2⟩ := scanLoop_ends _ _ _ hS
    rw [hz] at e2
    refine ⟨⟨p, rfl, by rw [e1]; exact hr⟩, ?_⟩
    rw [e2]
    clear e1 e2 hz hS hlen
    have : ∀ {q : StackLayer ι} {y : LayerSolveResult ι}, q.solve eig c = .ok y → ∃ p' ∈ (q :: ps).getLast?, p'.solve eig c = .ok (rs.getLast?.getD y) := by
      induction hrs with
      | nil => intro q y hq; exact ⟨q, by simp, hq⟩
      | @cons a b as bs hab _ ih =>
        intro q y hq
        obtain ⟨p', hp', k⟩ := ih hab
        refine ⟨p', ?_, ?_⟩
        · rw [List.getLast?_cons_cons]; exact hp'
        · rw [k, List.getLast?_cons, Option.getD_some]
    exact this hr

theorem Spec.ComputedSMatrix.unique {layers : List (StackLayer ι)} {S S' : ScatteringMatrix ι} (h : ComputedSMatrix eig c layers S) (h' : ComputedSMatrix eig c layers S') :
    S = S' := by
  obtain ⟨s, h1, h2⟩ := h
  obtain ⟨s', h1', h2'⟩ := h'
  have : s = s' := by
    clear h2 h2'
    induction h1 generalizing s' with
    | nil => cases h1'; rfl
    | cons a _ ih =>
      obtain _ | ⟨a', b'⟩ := h1'
      rw [a, ok_inj] at a'
      rw [a', ih _ b']
  subst this
  rw [h2, ok_inj] at h2'
  exact h2'

theorem Spec.LayerImage.uniform {s : ℝ} {O : Matrix (Fin 2) (Fin 2) ℝ} {P : ∀ {nx ny mx my : ℕ}, (Fin mx × Fin my → Fin nx × Fin ny) → Prop}
    {p p' : StackLayer ι} (h : LayerImage s O P c c' p p') (hp : p.Uniform) : p'.Uniform := by
  cases h with
  | uniformIsotropic ε f f' d => exact ⟨rfl, rfl, _, _, rfl⟩
  | uniformAnisotropic ε μ f f' x x' d =>
    obtain ⟨-, -, ε, f, h⟩ := hp
    cases h
  | isotropic γ hγ hn hm ε f f' hf d => exact absurd ⟨hp.1, hp.2.1⟩ hn
  | anisotropic γ hγ hn hm ε μ x f f' hf d => exact absurd ⟨hp.1, hp.2.1⟩ hn

/-- Between uniform isotropic layers, the scattering matrices are conjugate. -/
theorem redescription_uniform (he : IsEig eig) (hs : D.SetupImage c c') {layers layers' : List (StackLayer ι)} (hl : List.Forall₂ (D.Image c c') layers layers')
    {S : ScatteringMatrix ι} (hfirst : ∀ p ∈ layers.head?, p.Uniform) (hlast : ∀ p ∈ layers.getLast?, p.Uniform)
    (hS : ComputedSMatrix eig c layers S) :
    ∃ S', ComputedSMatrix eig c' layers' S' ∧
      S'.s11 = D.fieldMatrix c * S.s11 * (D.fieldMatrix c)⁻¹ ∧ S'.s12 = D.fieldMatrix c * S.s12 * (D.fieldMatrix c)⁻¹ ∧
      S'.s21 = D.fieldMatrix c * S.s21 * (D.fieldMatrix c)⁻¹ ∧ S'.s22 = D.fieldMatrix c * S.s22 * (D.fieldMatrix c)⁻¹ := by
  have hR : IsUnit (D.fieldMatrix c).det := (D.coordinates c).R_isUnit
  obtain ⟨S', hS', hm⟩ := redescription_stack he hs hl (fun p hp r hr => by rw [uniform_eigenvectors (hlast p hp) hr]; simp) hS
  obtain ⟨⟨p, hp, a1⟩, ⟨q, hq, a2⟩⟩ := (Spec.ComputedSMatrix.ends hS)
  obtain ⟨⟨p', hp', a3⟩, ⟨q', hq', a4⟩⟩ := (Spec.ComputedSMatrix.ends hS')
  have i1 : ∀ (ps ps' : List (StackLayer ι)), List.Forall₂ (D.Image c c') ps ps' → ∀ p ∈ ps.head?, ∀ p' ∈ ps'.head?, D.Image c c' p p' := by
    intro ps ps' h
    cases h with
    | nil => simp
    | cons a _ => simpa using a
  have i2 : ∀ (ps ps' : List (StackLayer ι)), List.Forall₂ (D.Image c c') ps ps' → ∀ p ∈ ps.getLast?, ∀ p' ∈ ps'.getLast?, D.Image c c' p p' := by
    intro ps ps' h
    induction h with
    | nil => simp
    | @cons a b as bs hab h ih =>
      cases h with
      | nil => simpa using hab
      | cons h1 h2 =>
        rw [List.getLast?_cons_cons, List.getLast?_cons_cons]
        exact ih
  obtain ⟨-, -, -, -, k1, k2, k3, k4⟩ := sLayerMap_fields hR hm
  rw [uniform_eigenvectors (hfirst p hp) a1, uniform_eigenvectors (hlast q hq) a2, uniform_eigenvectors (LayerImage.uniform (i1 _ _ hl p hp p' hp') (hfirst p hp)) a3,
    uniform_eigenvectors (LayerImage.uniform (i2 _ _ hl q hq q' hq') (hlast q hq)) a4] at *
  simp only [Matrix.one_mul, inv_one, Matrix.mul_one] at k1 k2 k3 k4
  exact ⟨S', hS', k1, k2, k3, k4⟩

end Fmmax
