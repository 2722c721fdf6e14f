import Verif.Proofs.StackOps
import Mathlib.Analysis.Matrix.Normed
import Mathlib.Analysis.Asymptotics.Lemmas
import Mathlib.Analysis.Normed.Ring.Units

/-! How the S-matrix of a stack behaves if one of its layers becomes thick. -/

set_option linter.unusedSectionVars false

namespace Fmmax

open Matrix Spec Filter Asymptotics Topology

variable {ι : Type} [Fintype ι] [DecidableEq ι]

attribute [local instance] Matrix.linftyOpNormedRing Matrix.linftyOpNormedAlgebra

/-- `M d` differs from `L` by at most a multiple of `g d`. -/
def Near (F : Filter ℝ) (g : ℝ → ℝ) (M : ℝ → ModeMatrix ι) (L : ModeMatrix ι) : Prop :=
  (fun d => M d - L) =O[F] g

variable {F : Filter ℝ} {g g' : ℝ → ℝ}

theorem near_zero {M : ℝ → ModeMatrix ι} : Near F g M 0 ↔ M =O[F] g := by simp [Near]

theorem Near.const (L : ModeMatrix ι) : Near F g (fun _ => L) L := by
  simp only [Near, sub_self]; exact isBigO_zero _ _

theorem Near.add {M N : ℝ → ModeMatrix ι} {L K : ModeMatrix ι} (h : Near F g M L) (h' : Near F g N K) :
    Near F g (fun d => M d + N d) (L + K) := by
  refine (IsBigO.add h h').congr_left fun d => ?_
  beta_reduce
  abel

theorem Near.sub {M N : ℝ → ModeMatrix ι} {L K : ModeMatrix ι} (h : Near F g M L) (h' : Near F g N K) :
    Near F g (fun d => M d - N d) (L - K) := by
  refine (IsBigO.sub h h').congr_left fun d => ?_
  beta_reduce
  abel

theorem Near.bounded {M : ℝ → ModeMatrix ι} {L : ModeMatrix ι} (hg : Tendsto g F (𝓝 0)) (h : Near F g M L) :
    M =O[F] (fun _ => (1 : ℝ)) := by
  have h1 : (fun d => M d - L) =O[F] (fun _ => (1 : ℝ)) := h.trans (hg.isBigO_one ℝ)
  refine (h1.add (isBigO_const_const L one_ne_zero F)).congr_left fun d => ?_
  abel

theorem Near.mul {M N : ℝ → ModeMatrix ι} {L K : ModeMatrix ι} (hg : Tendsto g F (𝓝 0)) (h : Near F g M L)
    (h' : Near F g N K) : Near F g (fun d => M d * N d) (L * K) := by
  have h1 : (fun d => (M d - L) * K) =O[F] g := by
    simpa using IsBigO.mul h (isBigO_const_const K (one_ne_zero (α := ℝ)) F)
  have h2 : (fun d => M d * (N d - K)) =O[F] g := by
    simpa using (h.bounded hg).mul h'
  refine (h2.add h1).congr_left fun d => ?_
  noncomm_ring

theorem Near.tendsto {M : ℝ → ModeMatrix ι} {L : ModeMatrix ι} (hg : Tendsto g F (𝓝 0)) (h : Near F g M L) :
    Tendsto M F (𝓝 L) := by
  have := (h.trans_tendsto hg).add_const L
  simp only [sub_add_cancel, zero_add] at this
  exact this

theorem Near.inv {M : ℝ → ModeMatrix ι} {L : ModeMatrix ι} (hg : Tendsto g F (𝓝 0)) (h : Near F g M L)
    (hL : IsUnit L.det) :
    (∀ᶠ d in F, IsUnit (M d).det) ∧ Near F g (fun d => (M d)⁻¹) L⁻¹ := by
  have ht := h.tendsto hg
  have hu : ∀ᶠ d in F, IsUnit (M d).det := by
    have := (continuous_id.matrix_det (A := fun M : ModeMatrix ι => M)).tendsto L |>.comp ht
    have := this.eventually_ne hL.ne_zero
    exact this.mono fun d hd => IsUnit.mk0 _ hd
  refine ⟨hu, ?_⟩
  -- the inverses are bounded
  have hb : (fun d => (M d)⁻¹) =O[F] (fun _ => (1 : ℝ)) := by
    have : Tendsto (fun d => (M d)⁻¹) F (𝓝 L⁻¹) := by
      have hc : ContinuousAt (fun M : ModeMatrix ι => M⁻¹) L := by
        refine continuousAt_matrix_inv L ?_
        simpa using NormedRing.inverse_continuousAt hL.unit
      exact hc.tendsto.comp ht
    exact this.isBigO_one ℝ
  have h1 : (fun d => (M d)⁻¹ * (L - M d) * L⁻¹) =O[F] g := by
    have e : (fun d => L - M d) =O[F] g := h.symm
    simpa using (hb.mul e).mul (isBigO_const_const L⁻¹ (one_ne_zero (α := ℝ)) F)
  refine IsBigO.congr' h1 ?_ EventuallyEq.rfl
  filter_upwards [hu] with d hd
  rw [Matrix.mul_sub, Matrix.sub_mul, Matrix.nonsing_inv_mul _ hd, Matrix.mul_assoc, Matrix.mul_nonsing_inv _ hL]
  simp

theorem Near.small_mul {M N : ℝ → ModeMatrix ι} {L : ModeMatrix ι} (hg : Tendsto g F (𝓝 0)) (h : Near F g M L)
    (h' : N =O[F] g') : (fun d => M d * N d) =O[F] g' := by
  simpa using (h.bounded hg).mul h'

theorem Near.mul_small {M N : ℝ → ModeMatrix ι} {L : ModeMatrix ι} (hg : Tendsto g F (𝓝 0)) (h : Near F g M L)
    (h' : N =O[F] g') : (fun d => N d * M d) =O[F] g' := by
  simpa using h'.mul (h.bounded hg)

/-- One step: the extended matrices exist and are close to the extension of the limit. -/
theorem extend_near (hg : Tendsto g F (𝓝 0)) {l l' : LayerSolveResult ι} {d₀ d' : ℝ} {e : ℝ → ℝ} {B B' : Blocks ι}
    (hB : extendSMatrix B l d₀ l' d' = .ok B') {T : ℝ → Blocks ι} {A : ModeMatrix ι}
    (h11 : (fun d => propagator l (e d) * (T d).s11) =O[F] g)
    (h12 : Near F (fun d => g d * g d) (fun d => propagator l (e d) * (T d).s12) (propagator l d₀ * B.s12))
    (h21 : Near F (fun d => g d * g d) (fun d => (T d).s21) A) (h22 : (fun d => (T d).s22) =O[F] g) :
    ∃ T' : ℝ → Blocks ι, (∀ᶠ d in F, extendSMatrix (T d) l (e d) l' d' = .ok (T' d)) ∧
      (fun d => (T' d).s11) =O[F] g ∧ Near F (fun d => g d * g d) (fun d => (T' d).s12) B'.s12 ∧
      Near F (fun d => g d * g d) (fun d => (T' d).s21) A ∧ (fun d => (T' d).s22) =O[F] g := by
  obtain ⟨i11, i12, hi, hu, b11, b12, -, -⟩ := extendSMatrix_ok_iff.1 hB
  have hgg : Tendsto (fun d => g d * g d) F (𝓝 0) := by simpa using hg.mul hg
  have hM : Near F (fun d => g d * g d) (fun d => i11 - propagator l (e d) * (T d).s12 * i12)
      (i11 - propagator l d₀ * B.s12 * i12) := (Near.const i11).sub (h12.mul hgg (Near.const i12))
  obtain ⟨hev, hinv⟩ := hM.inv hgg hu
  let M : ℝ → ModeMatrix ι := fun d => i11 - propagator l (e d) * (T d).s12 * i12
  let x11 : ℝ → ModeMatrix ι := fun d => (M d)⁻¹ * (propagator l (e d) * (T d).s11)
  let x12 : ℝ → ModeMatrix ι := fun d => (M d)⁻¹ * ((propagator l (e d) * (T d).s12 * i11 - i12) * propagator l' d')
  have n11 : x11 =O[F] g := hinv.small_mul hgg h11
  have n12 : Near F (fun d => g d * g d) x12 B'.s12 := by
    have : B'.s12 = (i11 - propagator l d₀ * B.s12 * i12)⁻¹ * ((propagator l d₀ * B.s12 * i11 - i12) * propagator l' d') := by
      rw [← b12, ← Matrix.mul_assoc, Matrix.nonsing_inv_mul _ hu, Matrix.one_mul]
    rw [this]
    exact hinv.mul hgg (((h12.mul hgg (Near.const i11)).sub (Near.const i12)).mul hgg (Near.const _))
  have c12 : (fun d => (T d).s22 * i12) =O[F] g := (Near.const (g := g) i12).mul_small hg h22
  refine ⟨fun d => { s11 := x11 d, s12 := x12 d, s21 := (T d).s22 * i12 * x11 d + (T d).s21,
                     s22 := (T d).s22 * i12 * x12 d + (T d).s22 * i11 * propagator l' d' }, ?_, n11, n12, ?_, ?_⟩
  · filter_upwards [hev] with d hd
    refine extendSMatrix_ok_iff.2 ⟨i11, i12, hi, hd, ?_, ?_, rfl, rfl⟩
    · exact (by rw [← Matrix.mul_assoc, Matrix.mul_nonsing_inv _ hd, Matrix.one_mul])
    · exact (by rw [← Matrix.mul_assoc, Matrix.mul_nonsing_inv _ hd, Matrix.one_mul])
  · have := (near_zero.2 (c12.mul n11)).add h21
    simpa using this
  · refine IsBigO.add (n12.mul_small hgg c12) ?_
    exact (Near.const (g := g) _).mul_small hg ((Near.const (g := g) i11).mul_small hg h22)

/-- Further layers: the matrices exist and are close to those of the limit. -/
theorem scan_near (hg : Tendsto g F (𝓝 0)) (post : List (LayerSolveResult ι × ℝ)) :
    ∀ {B B' : ScatteringMatrix ι}, scanLoop B post = .ok B' → ∀ {T : ℝ → ScatteringMatrix ι} {A : ModeMatrix ι},
    (∀ d, (T d).endLayer = B.endLayer ∧ (T d).endThickness = B.endThickness) →
    (fun d => (T d).s11) =O[F] g → Near F (fun d => g d * g d) (fun d => (T d).s12) B.s12 →
    Near F (fun d => g d * g d) (fun d => (T d).s21) A → (fun d => (T d).s22) =O[F] g →
    ∃ T' : ℝ → ScatteringMatrix ι, (∀ᶠ d in F, scanLoop (T d) post = .ok (T' d)) ∧
      (fun d => (T' d).s11) =O[F] g ∧ Near F (fun d => g d * g d) (fun d => (T' d).s12) B'.s12 ∧
      Near F (fun d => g d * g d) (fun d => (T' d).s21) A ∧ (fun d => (T' d).s22) =O[F] g := by
  induction post with
  | nil =>
    intro B B' hB T A hT h11 h12 h21 h22
    obtain rfl : B = B' := Except.ok.inj hB
    exact ⟨T, Eventually.of_forall fun _ => rfl, h11, h12, h21, h22⟩
  | cons p post ih =>
    obtain ⟨l', d'⟩ := p
    intro B B' hB T A hT h11 h12 h21 h22
    have hgg : Tendsto (fun d => g d * g d) F (𝓝 0) := by simpa using hg.mul hg
    obtain ⟨B₁, hB₁, hB'⟩ := bind_eq_ok.1 hB
    obtain ⟨hx, -, -, e1, e2⟩ := appendLayer_ok_iff.1 hB₁
    obtain ⟨X, hX, x11, x12, x21, x22⟩ := extend_near hg (e := fun _ => B.endThickness) (T := fun d => (T d).toBlocks) (A := A) hx
      ((Near.const (g := g) _).small_mul hg h11) ((Near.const _).mul hgg h12) h21 h22
    obtain ⟨T', hT', y⟩ := ih hB' (A := A)
      (T := fun d => { toBlocks := X d, startLayer := (T d).startLayer, startThickness := (T d).startThickness,
                       endLayer := l', endThickness := d' }) (fun d => ⟨e1.symm, e2.symm⟩) x11 x12 x21 x22
    refine ⟨T', ?_, y⟩
    filter_upwards [hX, hT'] with d hd hd'
    refine bind_eq_ok.2 ⟨{ toBlocks := X d, startLayer := (T d).startLayer, startThickness := (T d).startThickness,
                           endLayer := l', endThickness := d' }, appendLayer_ok_iff.2 ⟨?_, rfl, rfl, rfl, rfl⟩, hd'⟩
    rw [(hT d).1, (hT d).2]
    exact hd

theorem propagator_small {l : LayerSolveResult ι} {γ : ℝ} (hγ : ∀ i, γ ≤ (l.eigenvalues i).im) :
    (fun d => propagator l d) =O[atTop] (fun d : ℝ => Real.exp (-γ * d)) := by
  refine IsBigO.of_bound 1 ?_
  filter_upwards [eventually_ge_atTop (0 : ℝ)] with d hd
  rw [one_mul, Real.norm_of_nonneg (Real.exp_pos _).le]
  rw [propagator, Matrix.linfty_opNorm_diagonal]
  refine (pi_norm_le_iff_of_nonneg (Real.exp_pos _).le).2 fun i => ?_
  rw [Complex.norm_exp, Real.exp_le_exp]
  have : (Complex.I * l.eigenvalues i * (d : ℂ)).re = -(l.eigenvalues i).im * d := by
    simp [Complex.mul_re]
  rw [this]
  nlinarith [hγ i]

end Fmmax
