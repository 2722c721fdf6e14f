import Verif.Proofs.TangentSymmetry
import Verif.Proofs.TimeReversal

/-! Tangent vector fields of conjugate arrays, for reversed orders. -/

namespace Fmmax

open Matrix Spec

variable {ι : Type} {nx ny : ℕ}

/-- The complex conjugate field. -/
def conjField (f : VectorField nx ny) : VectorField nx ny := fun i j e => star (f i j e)

theorem conjField_magnitude (f : VectorField nx ny) (i : Fin nx) (j : Fin ny) : magnitude (conjField f i j) = magnitude (f i j) := by
  simp only [magnitude, conjField, norm_star]

theorem conjField_fieldMagnitude (f : VectorField nx ny) : fieldMagnitude (conjField f) = fieldMagnitude f := by
  funext i j
  rw [fieldMagnitude_eq, fieldMagnitude_eq, conjField_magnitude]

theorem normalize_conj {f g : VectorField nx ny} (h : normalize f = .ok g) : normalize (conjField f) = .ok (conjField g) := by
  unfold normalize at h ⊢
  obtain ⟨m, hm, h⟩ := bind_eq_ok.1 h
  rw [ok_inj] at h
  have hm' : maxFieldMagnitude (conjField f) = .ok m := by
    obtain ⟨h1, i, j, h2⟩ := maxFieldMagnitude_eq_ok.1 hm
    refine maxFieldMagnitude_eq_ok.2 ⟨fun i j => ?_, i, j, ?_⟩
    · rw [conjField_magnitude]; exact h1 _ _
    · rw [conjField_magnitude, h2]
  rw [hm']
  simp only [bind, Except.bind, ok_inj, ← h]
  funext i j e
  simp [conjField]

theorem normalizeElementwise_conj (f : VectorField nx ny) : normalizeElementwise (conjField f) = conjField (normalizeElementwise f) := by
  funext i j e
  have h : fieldMagnitude (conjField f) i j = fieldMagnitude f i j := congrFun (congrFun (conjField_fieldMagnitude f) i) j
  unfold normalizeElementwise
  by_cases hz : IsClose (fieldMagnitude f i j) 0
  · have hz' : IsClose (fieldMagnitude (conjField f) i j) 0 := h ▸ hz
    simp only [if_pos hz']
    simp [conjField, if_pos hz]
  · have hz' : ¬IsClose (fieldMagnitude (conjField f) i j) 0 := h ▸ hz
    simp only [if_neg hz', h]
    simp [conjField, if_neg hz]

section

variable [Fintype ι] {G : ι → ℤ × ℤ}

theorem seriesMap_conj (y : ι × Fin 2 → ℂ) : seriesMap (fun i => -G i) nx ny (fun p => star (y p)) = conjField (seriesMap G nx ny y) := by
  funext i j e
  change (∑ k, star (y (k, e)) * planeWave nx ny (-G k) i j) = star (∑ k, y (k, e) * planeWave nx ny (G k) i j)
  simp only [planeWave_neg_conj, star_sum, star_mul']

omit [Fintype ι] in
theorem coefficient_conj_reverse (x : Grid nx ny) (g : ℤ × ℤ) : fourierCoefficient (Matrix.of fun i j => star (x i j)) (-g) = star (fourierCoefficient x g) := by
  simp only [fourierCoefficient, of_apply, star_div₀, star_sum, star_mul', ← planeWave_neg_conj, Complex.star_def, map_natCast, map_mul, neg_neg]

theorem alignmentLoss_conj (f t : VectorField nx ny) (w : Fin nx → Fin ny → ℝ) : alignmentLoss (conjField f) (conjField t) w = alignmentLoss f t w := by
  simp only [alignmentLoss, conjField, ← star_sub, norm_star]

theorem smoothnessLoss_conj {f : VectorField nx ny} {l : LatticeVectors} {A : ℝ} (h : smoothnessLoss f l = .ok A) : smoothnessLoss (conjField f) l = .ok A := by
  unfold smoothnessLoss at h ⊢
  obtain ⟨g, hg, h⟩ := bind_eq_ok.1 h
  rw [ok_inj] at h
  obtain ⟨b, hb, -⟩ := bind_eq_ok.1 hg
  rw [vectorForwardGradient_eq f hb, ok_inj] at hg
  rw [vectorForwardGradient_eq _ hb]
  refine congrArg Except.ok ?_
  rw [← h, ← hg]
  refine congrArg (· / _) ?_
  refine Finset.sum_congr rfl fun e _ => Finset.sum_congr rfl fun i _ => Finset.sum_congr rfl fun j _ => Finset.sum_congr rfl fun k _ => ?_
  have hd : forwardDifferences (conjField f) e i j = star (forwardDifferences f e i j) := by
    unfold forwardDifferences forwardDifference0 forwardDifference1 conjField
    funext k
    fin_cases k <;> simp
  have hB : (b.map Complex.ofReal)⁻¹ = star ((b.map Complex.ofReal)⁻¹)ᵀ := by
    rw [show star ((b.map Complex.ofReal)⁻¹)ᵀ = conj (b.map Complex.ofReal)⁻¹ from rfl, conj_inv]
    congr 1
    ext
    simp [conj]
  have : gradientMap nx ny (b.map Complex.ofReal)⁻¹ (conjField f) e i j k = star (gradientMap nx ny (b.map Complex.ofReal)⁻¹ f e i j k) := by
    simp only [gradientMap_apply, hd, vecMul, dotProduct, star_sum, star_mul', Pi.star_apply]
    refine Finset.sum_congr rfl fun r _ => ?_
    conv_lhs => rw [hB]
    rfl
  rw [this, norm_star]

theorem fourierLoss_conj {y : ι × Fin 2 → ℂ} {l : LatticeVectors} {A : ℝ} (h : fourierLoss y G l = .ok A) :
    fourierLoss (fun p => star (y p)) (fun i => -G i) l = .ok A := by
  unfold fourierLoss transverseWavevectors reciprocal at h ⊢
  by_cases hl : crossProduct l.u l.v = 0
  · rw [if_pos hl] at h
    cases h
  rw [if_neg hl] at h ⊢
  simp only [bind, Except.bind, ok_inj] at h ⊢
  rw [← h]
  refine Finset.sum_congr rfl fun i _ => Finset.sum_congr rfl fun e _ => ?_
  rw [norm_star]
  congr 3
  simp only [Prod.fst_neg, Prod.snd_neg, Int.cast_neg]
  congr 1
  ring

theorem fieldLoss_conj {l : LatticeVectors} (hG : Function.Injective G) (hr : Resolves nx ny G) (t : VectorField nx ny) (w : Fin nx → Fin ny → ℝ)
    (fw sw : ℝ) (y : ι × Fin 2 → ℂ) {A : ℝ} (h : fieldLoss ⟨G, l, t, w, fw, sw⟩ y = .ok A) :
    fieldLoss ⟨fun i => -G i, l, conjField t, w, fw, sw⟩ (fun p => star (y p)) = .ok A := by
  have term : ∀ (x : ℝ) (T T' : Res ℝ) (wt a : ℝ), (∀ b, T = .ok b → T' = .ok b) → addLossTerm x wt T = .ok a → addLossTerm x wt T' = .ok a := by
    intro x T T' wt a hT h
    unfold addLossTerm at h ⊢
    by_cases hw : 0 < wt
    · rw [if_pos hw] at h ⊢
      obtain ⟨b, hb, h⟩ := bind_eq_ok.1 h
      rw [hT b hb]
      exact h
    · rwa [if_neg hw] at h ⊢
  have hG' : Function.Injective fun i => -G i := fun i j h => hG (neg_injective h)
  classical
  unfold fieldLoss at h ⊢
  simp only [ifftVector_eq _ hG hr] at h
  simp only [ifftVector_eq _ hG' (resolves_reverse hr), seriesMap_conj]
  obtain ⟨a1, ha1, h⟩ := bind_eq_ok.1 h
  rw [ok_inj] at ha1
  obtain ⟨a2, ha2, h⟩ := bind_eq_ok.1 h
  subst ha1
  refine bind_eq_ok.2 ⟨_, rfl, bind_eq_ok.2 ⟨a2, ?_, ?_⟩⟩
  · rw [alignmentLoss_conj]
    exact term _ _ _ _ _ (fun b hb => fourierLoss_conj hb) ha2
  · exact term _ _ _ _ _ (fun b hb => smoothnessLoss_conj hb) h

variable [DecidableEq ι]

theorem newtonStep_conj {l : LatticeVectors} (hG : Function.Injective G) (hr : Resolves nx ny G) (t : VectorField nx ny) (w : Fin nx → Fin ny → ℝ)
    (hw : ∀ i j, 0 ≤ w i j) (fw sw : ℝ) {y z y' z' : ι × Fin 2 → ℂ} (hz : newtonStep ⟨G, l, t, w, fw, sw⟩ y = .ok z)
    (hz' : newtonStep ⟨fun i => -G i, l, conjField t, w, fw, sw⟩ y' = .ok z') : z' = fun p => star (z p) := by
  have hG' : Function.Injective fun i => -G i := fun i j h => hG (neg_injective h)
  have min := newtonStep_minimizer (P := ⟨G, l, t, w, fw, sw⟩) hG hr hw hz
  have min' := newtonStep_minimizer (P := ⟨fun i => -G i, l, conjField t, w, fw, sw⟩) hG' (resolves_reverse hr) hw hz'
  obtain ⟨a, b, ha, hb, hab, -⟩ := min fun p => star (z' p)
  have ha' := fieldLoss_conj hG hr t w fw sw _ ha
  have hb' := fieldLoss_conj hG hr t w fw sw _ hb
  simp only [star_star] at hb'
  obtain ⟨a1, b1, ha1, hb1, -, huniq⟩ := min' fun p => star (z p)
  rw [hb', ok_inj] at ha1
  rw [ha', ok_inj] at hb1
  exact (huniq (by rw [← ha1, ← hb1]; exact hab)).symm

theorem optimized_conj {l : LatticeVectors} (hG : Function.Injective G) (hr : Resolves nx ny G) {grad : VectorField nx ny} {b : Bool} {fw sw : ℝ}
    {steps : ℕ} {t : VectorField nx ny × VectorField nx ny} (ht : targetAndInitialField grad b = .ok t)
    (ht' : targetAndInitialField (conjField grad) b = .ok (conjField t.1, conjField t.2)) {z z' : ι × Fin 2 → ℂ}
    (hz : optimizedFourierField grad G l b fw sw steps = .ok z)
    (hz' : optimizedFourierField (conjField grad) (fun i => -G i) l b fw sw steps = .ok z') : z' = fun p => star (z p) := by
  have hG' : Function.Injective fun i => -G i := fun i j h => hG (neg_injective h)
  have hr' := resolves_reverse hr
  unfold optimizedFourierField at hz hz'
  rw [ht] at hz
  rw [ht'] at hz'
  simp only [bind, Except.bind, fftVector_eq _ hr, fftVector_eq _ hr', conjField_fieldMagnitude] at hz hz'
  cases steps with
  | zero =>
    simp only [newtonLoop, ok_inj] at hz hz'
    rw [← hz, ← hz']
    funext p
    exact coefficient_conj_reverse _ _
  | succ q =>
    rw [newtonLoop_succ (P := ⟨G, l, t.1, fieldMagnitude grad, fw, sw⟩) hG hr (fieldMagnitude_nonneg grad)] at hz
    rw [newtonLoop_succ (P := ⟨fun i => -G i, l, conjField t.1, fieldMagnitude grad, fw, sw⟩) hG' hr' (fieldMagnitude_nonneg _)] at hz'
    exact newtonStep_conj hG hr t.1 (fieldMagnitude grad) (fieldMagnitude_nonneg grad) fw sw hz hz'

omit [DecidableEq ι] in
theorem computeGradient_conj [NeZero nx] [NeZero ny] {x : Grid nx ny} {l : LatticeVectors} {g : VectorField nx ny} (h : computeGradient x l = .ok g) :
    computeGradient (conj x) l = .ok (conjField g) := by
  obtain ⟨hl, h⟩ := computeGradient_eq_ok.1 h
  refine computeGradient_eq_ok.2 ⟨hl, fun i j => ?_⟩
  obtain ⟨h1, h2⟩ := h i j
  have h1' := congrArg star h1
  have h2' := congrArg star h2
  simp only [star_add, star_sub, star_mul', star_div₀, Complex.star_def, Complex.conj_ofReal, map_natCast, map_ofNat] at h1' h2'
  exact ⟨h1', h2'⟩

omit [DecidableEq ι] in
theorem bandLimited_conj (g : VectorField nx ny) (mx my : ℕ) :
    bandLimited (fun i => -G i) (conjField g) mx my = conjField (bandLimited G g mx my) := by
  classical
  unfold bandLimited
  rw [seriesMap_coefficient, seriesMap_coefficient, ← seriesMap_conj]
  congr 1
  funext p
  exact coefficient_conj_reverse _ _

omit [Fintype ι] [DecidableEq ι] in
theorem target_conj {f : VectorField nx ny} {t : VectorField nx ny × VectorField nx ny} (h : targetAndInitialField f false = .ok t) :
    targetAndInitialField (conjField f) false = .ok (conjField t.1, conjField t.2) := by
  have e : (fun i j => ![conjField f i j 1, -conjField f i j 0] : VectorField nx ny) = conjField fun i j => ![f i j 1, -f i j 0] := by
    funext i j k
    fin_cases k <;> simp [conjField]
  unfold targetAndInitialField at h ⊢
  simp only [Bool.false_eq_true, if_false] at h ⊢
  obtain ⟨q, hq, h⟩ := bind_eq_ok.1 h
  rw [ok_inj] at h
  rw [e, normalize_conj hq, normalizeElementwise_conj, ← h]
  rfl

omit [Fintype ι] [DecidableEq ι] in
theorem twoDirections_conj {F : VectorField nx ny} (h : TwoDirections F) : TwoDirections (conjField F) := by
  obtain ⟨i, j, hij⟩ := h.large
  refine ⟨h.axes, ⟨i, j, by rwa [conjField_magnitude]⟩, fun w hw => ?_⟩
  have hw' : star w = Complex.I ∨ star w = -Complex.I := by
    rcases hw with rfl | rfl
    · right; simp
    · left; simp
  obtain ⟨p, q, hp, hq, hpq⟩ := h.directions (star w) hw'
  have e : ∀ r : Fin nx × Fin ny, conjField F r.1 r.2 0 + w * conjField F r.1 r.2 1 = star (F r.1 r.2 0 + star w * F r.1 r.2 1) := by
    intro r
    simp [conjField]
  refine ⟨p, q, fun i j => ?_, fun i j => ?_, ?_⟩
  · rw [e, norm_star, conjField_magnitude]; exact hp i j
  · rw [e, norm_star, conjField_magnitude]; exact hq i j
  · rw [e, e, norm_star, norm_star, ← star_mul', Complex.star_def, Complex.conj_im, abs_neg]
    exact hpq

omit [DecidableEq ι] in
theorem doubledMinShape_reverse : doubledMinShape (fun i => -G i) nx ny = doubledMinShape G nx ny := by
  unfold doubledMinShape minArrayShapeForExpansion
  simp only [Prod.fst_neg, Prod.snd_neg, Int.natAbs_neg]

theorem computeTangentField_conj {l : LatticeVectors} {M : ℕ × ℕ} (hG : Function.Injective G) (hr : Resolves nx ny G) (hl : Independent l.u l.v)
    (hM : doubledMinShape G nx ny = .ok M) {x : Grid nx ny} {g : VectorField nx ny} (hg : computeGradient x l = .ok g)
    (h2 : TwoDirections (bandLimited G g M.1 M.2)) {fw sw : ℝ} (hw : 0 < fw ∨ 0 < sw) {steps : ℕ} {t : VectorField nx ny}
    (ht : computeTangentFieldNoBatch x G l false fw sw steps = .ok t) :
    computeTangentFieldNoBatch (conj x) (fun i => -G i) l false fw sw steps = .ok (conjField t) := by
  have : NeZero nx := ⟨hr.pos.1.ne'⟩
  have : NeZero ny := ⟨hr.pos.2.ne'⟩
  have hG' : Function.Injective fun i => -G i := fun i j h => hG (neg_injective h)
  have hr' := resolves_reverse hr
  have hM' := (doubledMinShape_reverse (G := G) (nx := nx) (ny := ny)).trans hM
  have hMr := doubledMinShape_resolves hM
  have hMr' := doubledMinShape_resolves hM'
  obtain ⟨t', ht'⟩ := computeTangentField_exists_steps (conj x) false (fw := fw) (sw := sw) steps hG' hr' hl hw
  rw [ht']
  have hc : Fintype.card ι ≠ 0 := by have := hr.1; exact Fintype.card_ne_zero
  unfold computeTangentFieldNoBatch at ht ht'
  rw [if_neg hc, hM] at ht
  rw [if_neg hc, hM'] at ht'
  simp only [bind, Except.bind] at ht ht'
  cases hgrad : filteredGradient x G l M.1 M.2 with
  | error e => rw [hgrad] at ht; cases ht
  | ok grad =>
    have hn : normalize (bandLimited G g M.1 M.2) = .ok grad := by
      unfold filteredGradient at hgrad
      rw [bandlimitedGradient_eq hG hg hr hMr] at hgrad
      exact hgrad
    have hn' := normalize_conj hn
    have hgrad' : filteredGradient (conj x) (fun i => -G i) l M.1 M.2 = .ok (conjField grad) := by
      unfold filteredGradient
      rw [bandlimitedGradient_eq hG' (computeGradient_conj hg) hr' hMr']
      simp only [bind, Except.bind]
      rw [← hn']
      exact congrArg normalize (bandLimited_conj (G := G) g M.1 M.2)
    rw [hgrad] at ht
    rw [hgrad'] at ht'
    simp only at ht ht'
    obtain ⟨f, hf, ht⟩ := bind_eq_ok.1 ht
    obtain ⟨f', hf', ht'⟩ := bind_eq_ok.1 ht'
    have key : f' = conjField f := by
      unfold tangentFieldOfGradient at hf hf'
      obtain ⟨q, hq, hf⟩ := bind_eq_ok.1 hf
      obtain ⟨q', hq', hf'⟩ := bind_eq_ok.1 hf'
      rw [if_neg (twoDirections_not_1d h2 hn hq)] at hf
      rw [if_neg (twoDirections_not_1d (twoDirections_conj h2) hn' hq')] at hf'
      obtain ⟨z, hz, hf⟩ := bind_eq_ok.1 hf
      obtain ⟨z', hz', hf'⟩ := bind_eq_ok.1 hf'
      have hz2 := hz
      unfold optimizedFourierField at hz2
      obtain ⟨t0, ht0, -⟩ := bind_eq_ok.1 hz2
      have e := optimized_conj hG hMr ht0 (target_conj ht0) hz hz'
      rw [ifftVector_eq z hG hr, ok_inj] at hf
      rw [ifftVector_eq z' hG' hr', ok_inj, e, seriesMap_conj] at hf'
      rw [← hf', ← hf]
    rw [key, normalize_conj ht] at ht'
    exact ht'.symm

end

end Fmmax
