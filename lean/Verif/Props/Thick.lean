import Verif.Proofs.Thick
import Verif.Props.Radiation
import Verif.Props.EigChoice
import Verif.Props.Smooth

/-!
# C120: thick and thin layers

The S-matrix algorithm is used because it stays finite where transfer matrices overflow.  If a layer in which all modes decay becomes
thick, the matrix of the stack tends exponentially fast to that of two separate half spaces: the reflection seen from either side is
that of the stack which ends in the thick layer, and nothing is transmitted.  If a layer becomes thin, the matrix tends to that of the
stack without the layer.
-/

set_option linter.unusedSectionVars false

namespace Fmmax

open Matrix Spec Filter Asymptotics Topology

variable {ι : Type} [Fintype ι] [DecidableEq ι] {β : Type}

attribute [local instance] Matrix.linftyOpNormedRing Matrix.linftyOpNormedAlgebra

theorem entry_norm_le (M : ModeMatrix ι) (i j : ι ⊕ ι) : ‖M i j‖ ≤ ‖M‖ := by
  have h1 : ‖M i j‖ ≤ ∑ k, ‖M i k‖ := Finset.single_le_sum (f := fun k => ‖M i k‖) (fun _ _ => norm_nonneg _) (Finset.mem_univ j)
  have h2 : ∑ k, ‖M i k‖₊ ≤ Finset.univ.sup fun i => ∑ k, ‖M i k‖₊ :=
    Finset.le_sup (f := fun i => ∑ k, ‖M i k‖₊) (Finset.mem_univ i)
  rw [Matrix.linfty_opNorm_def]
  refine h1.trans ?_
  have h3 := NNReal.coe_le_coe.2 h2
  simpa only [NNReal.coe_sum, coe_nnnorm] using h3

theorem entry_bound {M : ℝ → ModeMatrix ι} {g : ℝ → ℝ} (h : M =O[atTop] g) :
    ∃ C D : ℝ, 0 ≤ C ∧ ∀ d ≥ D, ∀ i j, ‖M d i j‖ ≤ C * |g d| := by
  obtain ⟨C, hC0, hC⟩ := h.exists_nonneg
  obtain ⟨D, hD⟩ := eventually_atTop.1 hC.bound
  exact ⟨C, D, hC0, fun d hd i j => (entry_norm_le _ i j).trans (hD d hd)⟩

/-- **C120** A layer in the interior of a stack in which all modes decay at least like `exp (-γ z)`.  Suppose the two stacks which
end, and which start, in this layer have finite S-matrices `A` and `B` (their thickness of the layer does not matter).  Then for all
sufficiently large thicknesses the whole stack has a finite S-matrix; transmission is of order `exp (-γ d)`, and both reflections
differ from those of `A` and `B` by `exp (-2 γ d)`. -/
theorem C120_thick_layer {pre post : List (LayerSolveResult ι)} {dpre dpost : List ℝ} {l : LayerSolveResult ι} {dA dB : ℝ}
    {A B : ScatteringMatrix ι} {γ : ℝ} (hγ : 0 < γ) (hq : ∀ i, γ ≤ (l.eigenvalues i).im) (hpre : pre ≠ []) (hpost : post ≠ [])
    (hA : stackSMatrix (pre ++ [l]) (dpre ++ [dA]) = .ok A) (hB : stackSMatrix (l :: post) (dB :: dpost) = .ok B) :
    ∃ C D : ℝ, ∀ d ≥ D, ∃ S, stackSMatrix (pre ++ l :: post) (dpre ++ d :: dpost) = .ok S ∧
      ∀ i j, ‖S.s11 i j‖ ≤ C * Real.exp (-γ * d) ∧ ‖S.s22 i j‖ ≤ C * Real.exp (-γ * d) ∧
        ‖S.s12 i j - B.s12 i j‖ ≤ C * Real.exp (-2 * γ * d) ∧ ‖S.s21 i j - A.s21 i j‖ ≤ C * Real.exp (-2 * γ * d) := by
  obtain ⟨as, has, -⟩ := stackSMatrix_eq_ok hA
  obtain ⟨hlenA, -⟩ := stackSMatrices_length has
  simp only [List.length_append, List.length_singleton, add_left_inj] at hlenA
  obtain ⟨bs, hbs, -⟩ := stackSMatrix_eq_ok hB
  obtain ⟨hlenB, -⟩ := stackSMatrices_length hbs
  simp only [List.length_cons, add_left_inj] at hlenB
  have h2A : 2 ≤ (pre ++ [l]).length := by
    have := List.length_pos_iff.2 hpre
    simp; omega
  have h2B : 2 ≤ (l :: post).length := by
    have := List.length_pos_iff.2 hpost
    simp; omega
  have hB0 := C35_set_start_thickness_partial h2B hB 0
  have hAd := C35_set_end_thickness_partial h2A hA
  have heA : A.endLayer = l ∧ A.endThickness = dA := by
    have hA' := hA
    rw [stackSMatrix_append pre [l] dpre [dA] hpre hlenA rfl] at hA'
    obtain ⟨T, -, hA'⟩ := bind_eq_ok.1 hA'
    simp only [List.zip_cons_cons, List.zip_nil_left, scanLoop_singleton] at hA'
    exact (appendLayer_start hA').2.2
  obtain ⟨l', post, rfl⟩ := List.exists_cons_of_ne_nil hpost
  rcases dpost with _ | ⟨d', dpost⟩
  · simp at hlenB
  have hlen' : post.length = dpost.length := by simpa using hlenB
  rw [stackSMatrix_cons _ _ _ _ hlenB] at hB0
  simp only [List.zip_cons_cons, scanLoop] at hB0
  obtain ⟨B₁, hB₁, hB2⟩ := bind_eq_ok.1 hB0
  obtain ⟨hx, -, -, e1, e2⟩ := appendLayer_ok_iff.1 hB₁
  let g : ℝ → ℝ := fun d => Real.exp (-γ * d)
  have hg : Tendsto g atTop (𝓝 0) := by
    refine Real.tendsto_exp_atBot.comp ?_
    exact tendsto_id.const_mul_atTop_of_neg (neg_lt_zero.2 hγ)
  have hgg : Tendsto (fun d => g d * g d) atTop (𝓝 0) := by simpa using hg.mul hg
  have hP : (fun d => propagator l d) =O[atTop] g := propagator_small hq
  have hP' : (fun d => propagator l (d - dA)) =O[atTop] g := by
    have : (fun d => propagator l (d - dA)) = fun d => propagator l (-dA) * propagator l d := by
      funext d
      rw [propagator_mul]
      congr 1
      ring
    rw [this]
    exact (Near.const (g := g) _).small_mul hg hP
  let T : ℝ → ScatteringMatrix ι := fun d => setEndLayerThickness A d
  have t12 : ∀ d, (T d).s12 = A.s12 * propagator l (d - dA) := by
    intro d
    simp only [T, setEndLayerThickness, colScale_eq, heA.1, heA.2, ← phase_eq]
  have t22 : ∀ d, (T d).s22 = A.s22 * propagator l (d - dA) := by
    intro d
    simp only [T, setEndLayerThickness, colScale_eq, heA.1, heA.2, ← phase_eq]
  have tend : ∀ d, (T d).endLayer = l ∧ (T d).endThickness = d := fun d => ⟨heA.1, rfl⟩
  obtain ⟨X, hX, x11, x12, x21, x22⟩ := extend_near hg (e := fun d => d) (T := fun d => (T d).toBlocks) (A := A.s21) hx
    ((Near.const (g := g) _).mul_small hg hP)
    (by
      have : propagator l 0 * (identitySMatrix l 0).s12 = 0 := by simp [identitySMatrix]
      change Near atTop _ _ (propagator l 0 * (identitySMatrix l 0).s12)
      rw [this]
      refine near_zero.2 ?_
      simp only [t12]
      exact hP.mul ((Near.const (g := g) A.s12).small_mul hg hP'))
    (Near.const A.s21) (by simp only [t22]; exact (Near.const (g := g) A.s22).small_mul hg hP')
  obtain ⟨T', hT', y11, y12, y21, y22⟩ := scan_near hg (post.zip dpost) hB2 (A := A.s21)
      (T := fun d => { toBlocks := X d, startLayer := (T d).startLayer, startThickness := (T d).startThickness,
                       endLayer := l', endThickness := d' }) (fun d => ⟨e1.symm, e2.symm⟩) x11 x12 x21 x22
  have hok : ∀ᶠ d in atTop, stackSMatrix (pre ++ l :: l' :: post) (dpre ++ d :: d' :: dpost) = .ok (T' d) := by
    filter_upwards [hX, hT'] with d hd hd'
    have := stackSMatrix_append (pre ++ [l]) (l' :: post) (dpre ++ [d]) (d' :: dpost) (by simp) (by simp [hlenA]) (by simp [hlen'])
    simp only [List.append_assoc, List.singleton_append] at this
    rw [this, hAd d]
    refine bind_eq_ok.2 ⟨T d, rfl, ?_⟩
    simp only [List.zip_cons_cons, scanLoop]
    refine bind_eq_ok.2 ⟨{ toBlocks := X d, startLayer := (T d).startLayer, startThickness := (T d).startThickness,
                           endLayer := l', endThickness := d' }, appendLayer_ok_iff.2 ⟨?_, rfl, rfl, rfl, rfl⟩, hd'⟩
    rw [(tend d).1, (tend d).2]
    exact hd
  obtain ⟨C1, D1, c1, k1⟩ := entry_bound y11
  obtain ⟨C2, D2, c2, k2⟩ := entry_bound y22
  obtain ⟨C3, D3, c3, k3⟩ := entry_bound y12
  obtain ⟨C4, D4, c4, k4⟩ := entry_bound y21
  obtain ⟨D0, k0⟩ := eventually_atTop.1 hok
  refine ⟨C1 + C2 + C3 + C4, max D0 (max (max D1 D2) (max D3 D4)), fun d hd => ⟨T' d, k0 d ?_, fun i j => ?_⟩⟩
  · exact (le_max_left _ _).trans hd
  have hd1 : d ≥ D1 := ((le_max_left D1 D2).trans ((le_max_left _ _).trans (le_max_right _ _))).trans hd
  have hd2 : d ≥ D2 := ((le_max_right D1 D2).trans ((le_max_left _ _).trans (le_max_right _ _))).trans hd
  have hd3 : d ≥ D3 := ((le_max_left D3 D4).trans ((le_max_right _ _).trans (le_max_right _ _))).trans hd
  have hd4 : d ≥ D4 := ((le_max_right D3 D4).trans ((le_max_right _ _).trans (le_max_right _ _))).trans hd
  have eg : |g d| = Real.exp (-γ * d) := abs_of_pos (Real.exp_pos _)
  have egg : |g d * g d| = Real.exp (-2 * γ * d) := by
    rw [abs_of_pos (mul_pos (Real.exp_pos _) (Real.exp_pos _)), ← Real.exp_add]
    congr 1
    ring
  have p1 := Real.exp_pos (-γ * d)
  have p2 := Real.exp_pos (-2 * γ * d)
  refine ⟨?_, ?_, ?_, ?_⟩
  · refine (k1 d hd1 i j).trans ?_
    rw [eg]; exact mul_le_mul_of_nonneg_right (by linarith) p1.le
  · refine (k2 d hd2 i j).trans ?_
    rw [eg]; exact mul_le_mul_of_nonneg_right (by linarith) p1.le
  · refine (k3 d hd3 i j).trans ?_
    rw [egg]; exact mul_le_mul_of_nonneg_right (by linarith) p2.le
  · refine (k4 d hd4 i j).trans ?_
    rw [egg]; exact mul_le_mul_of_nonneg_right (by linarith) p2.le

theorem exists_decay {l : LayerSolveResult ι} (h : ∀ i, 0 < (l.eigenvalues i).im) : ∃ γ > 0, ∀ i, γ ≤ (l.eigenvalues i).im := by
  rcases isEmpty_or_nonempty (ι ⊕ ι) with hi | hi
  · exact ⟨1, one_pos, fun i => hi.elim i⟩
  · obtain ⟨i, hi⟩ := Finite.exists_min fun i => (l.eigenvalues i).im
    exact ⟨_, h i, hi⟩

/-- **C120** What lies behind a thick layer cannot be seen: exchanging all layers behind it changes the reflection by a term which
decays exponentially with its thickness. -/
theorem C120_hidden {pre post post' : List (LayerSolveResult ι)} {dpre dpost dpost' : List ℝ} {l : LayerSolveResult ι} {dA dB dB' : ℝ}
    {A B B' : ScatteringMatrix ι} (hq : ∀ i, 0 < (l.eigenvalues i).im) (hpre : pre ≠ []) (hpost : post ≠ []) (hpost' : post' ≠ [])
    (hA : stackSMatrix (pre ++ [l]) (dpre ++ [dA]) = .ok A) (hB : stackSMatrix (l :: post) (dB :: dpost) = .ok B)
    (hB' : stackSMatrix (l :: post') (dB' :: dpost') = .ok B') :
    ∃ γ > 0, ∃ C D : ℝ, ∀ d ≥ D, ∃ S S', stackSMatrix (pre ++ l :: post) (dpre ++ d :: dpost) = .ok S ∧
      stackSMatrix (pre ++ l :: post') (dpre ++ d :: dpost') = .ok S' ∧
      ∀ i j, ‖S.s21 i j - S'.s21 i j‖ ≤ C * Real.exp (-γ * d) := by
  obtain ⟨γ, hγ, hγq⟩ := exists_decay hq
  obtain ⟨C, D, h⟩ := C120_thick_layer hγ hγq hpre hpost hA hB
  obtain ⟨C', D', h'⟩ := C120_thick_layer hγ hγq hpre hpost' hA hB'
  refine ⟨2 * γ, by linarith, C + C', max D D', fun d hd => ?_⟩
  obtain ⟨S, hS, k⟩ := h d ((le_max_left _ _).trans hd)
  obtain ⟨S', hS', k'⟩ := h' d ((le_max_right _ _).trans hd)
  refine ⟨S, S', hS, hS', fun i j => ?_⟩
  have e : S.s21 i j - S'.s21 i j = (S.s21 i j - A.s21 i j) - (S'.s21 i j - A.s21 i j) := by ring
  rw [e]
  refine (norm_sub_le _ _).trans ?_
  have := (k i j).2.2.2
  have := (k' i j).2.2.2
  rw [add_mul, show -(2 * γ) * d = -2 * γ * d by ring]
  linarith

/-- **C120** Absorbing layers: whatever the layers, the stack is computed for every thickness, and if one of its interior layers
becomes thick the matrix tends to those of the two parts, which are computed as well. -/
theorem C120_absorbing {lam : ℝ} {pre post : List (LayerSolveResult ι)} {dpre dpost : List ℝ} {l : LayerSolveResult ι}
    (hpre : pre ≠ []) (hpost : post ≠ []) (hl1 : pre.length = dpre.length) (hl2 : post.length = dpost.length)
    (hlam : ∀ r ∈ pre ++ l :: post, r.wavelength = lam) (hL : ∀ r ∈ pre ++ l :: post, AbsorbingLayer r)
    (hd : ∀ d ∈ dpre ++ dpost, 0 ≤ d) :
    ∃ A B, ∃ S : ℝ → ScatteringMatrix ι, stackSMatrix (pre ++ [l]) (dpre ++ [0]) = .ok A ∧
      stackSMatrix (l :: post) (0 :: dpost) = .ok B ∧
      (∀ d ≥ 0, stackSMatrix (pre ++ l :: post) (dpre ++ d :: dpost) = .ok (S d)) ∧
      ∀ i j, Tendsto (fun d => (S d).s11 i j) atTop (𝓝 0) ∧ Tendsto (fun d => (S d).s22 i j) atTop (𝓝 0) ∧
        Tendsto (fun d => (S d).s12 i j) atTop (𝓝 (B.s12 i j)) ∧ Tendsto (fun d => (S d).s21 i j) atTop (𝓝 (A.s21 i j)) := by
  have hl : AbsorbingLayer l := hL l (by simp)
  obtain ⟨A, -, hA, -⟩ := C81_absorbing_stack (layers := pre ++ [l]) (ds := dpre ++ [0]) (lam := lam) (by simp) (by simp [hl1])
    (fun r hr => hlam r (by simp at hr ⊢; tauto)) (fun r hr => hL r (by simp at hr ⊢; tauto))
    (by intro d h; rw [List.mem_append, List.mem_singleton] at h; rcases h with h | rfl
        · exact hd d (List.mem_append_left _ h)
        · exact le_rfl)
  obtain ⟨B, -, hB, -⟩ := C81_absorbing_stack (layers := l :: post) (ds := 0 :: dpost) (lam := lam) (by simp) (by simp [hl2])
    (fun r hr => hlam r (List.mem_append_right _ hr)) (fun r hr => hL r (List.mem_append_right _ hr))
    (by intro d h; rw [List.mem_cons] at h; rcases h with rfl | h
        · exact le_rfl
        · exact hd d (List.mem_append_right _ h))
  have hS : ∀ d : ℝ, ∃ S, 0 ≤ d → stackSMatrix (pre ++ l :: post) (dpre ++ d :: dpost) = .ok S := by
    intro d
    by_cases hd0 : 0 ≤ d
    · obtain ⟨S, -, hS, -⟩ := C81_absorbing_stack (layers := pre ++ l :: post) (ds := dpre ++ d :: dpost) (lam := lam) (by simp)
        (by simp [hl1, hl2]) hlam hL
        (by intro x h; rw [List.mem_append, List.mem_cons] at h; rcases h with h | rfl | h
            · exact hd x (List.mem_append_left _ h)
            · exact hd0
            · exact hd x (List.mem_append_right _ h))
      exact ⟨S, fun _ => hS⟩
    · exact ⟨A, fun h => absurd h hd0⟩
  choose S hS using hS
  obtain ⟨γ, hγ, hγq⟩ := exists_decay hl.decay
  obtain ⟨C, D, h⟩ := C120_thick_layer hγ hγq hpre hpost hA hB
  have lim : ∀ {a : ℝ}, 0 < a → Tendsto (fun d : ℝ => C * Real.exp (-a * d)) atTop (𝓝 0) := by
    intro a ha
    have : Tendsto (fun d : ℝ => Real.exp (-a * d)) atTop (𝓝 0) :=
      Real.tendsto_exp_atBot.comp (tendsto_id.const_mul_atTop_of_neg (neg_lt_zero.2 ha))
    simpa using this.const_mul C
  have l1 := lim hγ
  have l2 : Tendsto (fun d : ℝ => C * Real.exp (-2 * γ * d)) atTop (𝓝 0) := by
    simpa [neg_mul] using lim (a := 2 * γ) (by linarith)
  have key : ∀ᶠ d in atTop, ∀ i j, ‖(S d).s11 i j‖ ≤ C * Real.exp (-γ * d) ∧ ‖(S d).s22 i j‖ ≤ C * Real.exp (-γ * d) ∧
      ‖(S d).s12 i j - B.s12 i j‖ ≤ C * Real.exp (-2 * γ * d) ∧ ‖(S d).s21 i j - A.s21 i j‖ ≤ C * Real.exp (-2 * γ * d) := by
    filter_upwards [eventually_ge_atTop D, eventually_ge_atTop (0 : ℝ)] with d h1 h2
    obtain ⟨X, hX, k⟩ := h d h1
    rw [hS d h2] at hX
    rw [Except.ok.inj hX]
    exact k
  refine ⟨A, B, S, hA, hB, fun d hd => hS d hd, fun i j => ⟨?_, ?_, ?_, ?_⟩⟩
  · exact squeeze_zero_norm' (key.mono fun d k => (k i j).1) l1
  · exact squeeze_zero_norm' (key.mono fun d k => (k i j).2.1) l1
  · exact tendsto_sub_nhds_zero_iff.1 (squeeze_zero_norm' (key.mono fun d k => (k i j).2.2.1) l2)
  · exact tendsto_sub_nhds_zero_iff.1 (squeeze_zero_norm' (key.mono fun d k => (k i j).2.2.2) l2)

/-! ### thin layers -/

theorem fieldsAt_determined {s : LayerState ι β} {z : ℝ} {e h e' h' : Matrix (ι ⊕ ι) β ℂ} (k : FieldsAt s z e h) (k' : FieldsAt s z e' h') :
    e = e' ∧ h = h' := ⟨k.2.2.1.trans k'.2.2.1.symm, k.2.2.2.trans k'.2.2.2.symm⟩

theorem interface_through {s t u : LayerState ι β} (ht : t.thickness = 0) (h : Interface s t) (h' : Interface t u) : Interface s u := by
  obtain ⟨e, m, h1, h2⟩ := h
  obtain ⟨e', m', h3, h4⟩ := h'
  rw [ht] at h3
  obtain ⟨rfl, rfl⟩ := fieldsAt_determined h2 h3
  exact ⟨e, m, h1, h4⟩

theorem consistent_remove {x y : List (LayerState ι β)} {t : LayerState ι β} (ht : t.thickness = 0) (h : Consistent (x ++ t :: y)) :
    Consistent (x ++ y) := by
  unfold Consistent at *
  rw [List.isChain_append] at h ⊢
  obtain ⟨h1, h2, h3⟩ := h
  refine ⟨h1, h2.tail, fun a ha b hb => ?_⟩
  refine interface_through ht (h3 a ha t (by simp)) ?_
  rcases y with _ | ⟨c, y⟩
  · simp at hb
  · simp only [List.head?_cons, Option.mem_def, Option.some.injEq] at hb
    subst hb
    exact (List.isChain_cons_cons.1 h2).1

theorem getLast?_snoc_append {α : Type} (x w : List α) (c : α) : (x ++ (w ++ [c])).getLast? = some c := by
  rw [← List.append_assoc, List.getLast?_concat]

theorem getLast?_snoc_cons {α : Type} (x w : List α) (t c : α) : (x ++ t :: (w ++ [c])).getLast? = some c := by
  rw [← List.cons_append, getLast?_snoc_append]

theorem smoothLayer_const {E : Type} [NormedAddCommGroup E] [NormedSpace ℝ E] {k : WithTop ℕ∞} {x : E} (l : LayerSolveResult ι) :
    SmoothLayer k x fun _ : E => l := by
  constructor <;> first | exact contDiffAt_const | exact fun _ => contDiffAt_const | exact SmoothMat.const _ | exact fun _ => rfl | exact ⟨contDiffAt_const, contDiffAt_const⟩ | exact fun _ => ⟨contDiffAt_const, contDiffAt_const⟩

/-- **C120** An interior layer of zero thickness has no effect: whenever both calculations succeed, the S-matrix equals that of the
stack without the layer. -/
theorem C120_zero_thickness {lam : ℝ} {pre post : List (LayerSolveResult ι)} {dpre dpost : List ℝ} {l : LayerSolveResult ι}
    {S S' : ScatteringMatrix ι} (hpre : pre ≠ []) (hpost : post ≠ []) (hlen : pre.length = dpre.length)
    (hr : ∀ r ∈ pre ++ l :: post, r.wavelength = lam ∧ ∀ i, r.eigenvalues i ≠ 0)
    (hS : stackSMatrix (pre ++ post) (dpre ++ dpost) = .ok S)
    (hS' : stackSMatrix (pre ++ l :: post) (dpre ++ 0 :: dpost) = .ok S') : S' = S := by
  have z1 : (pre ++ post).zip (dpre ++ dpost) = pre.zip dpre ++ post.zip dpost := List.zip_append hlen
  have z2 : (pre ++ l :: post).zip (dpre ++ 0 :: dpost) = pre.zip dpre ++ (l, 0) :: post.zip dpost := by
    rw [List.zip_append hlen, List.zip_cons_cons]
  obtain ⟨ss, hss, -⟩ := stackSMatrix_eq_ok hS
  obtain ⟨hlenA, -⟩ := stackSMatrices_length hss
  simp only [List.length_append, hlen, add_right_inj] at hlenA
  have n1 : pre.zip dpre ≠ [] := by
    rcases pre with _ | ⟨a, pre⟩
    · exact absurd rfl hpre
    · rcases dpre with _ | ⟨b, dpre⟩
      · simp at hlen
      · simp
  have n2 : post.zip dpost ≠ [] := by
    rcases post with _ | ⟨a, post⟩
    · exact absurd rfl hpost
    · rcases dpost with _ | ⟨b, dpost⟩
      · simp at hlenA
      · simp
  have s1 : IsSMatrix S (pre.zip dpre ++ post.zip dpost) := by
    rw [← z1]
    refine stackSMatrix_spec (lam := lam) (fun p hp => hr _ ?_) hS
    have := (List.of_mem_zip hp).1
    simp only [List.mem_append, List.mem_cons] at this ⊢
    tauto
  have s2 : IsSMatrix S' (pre.zip dpre ++ (l, 0) :: post.zip dpost) := by
    rw [← z2]
    exact stackSMatrix_spec (lam := lam) (fun p hp => hr _ (List.of_mem_zip hp).1) hS'
  generalize pre.zip dpre = x at n1 s1 s2
  generalize post.zip dpost = y at n2 s1 s2
  have key : ∀ a0 bN : ModeMatrix ι, S'.s11 * a0 + S'.s12 * bN = S.s11 * a0 + S.s12 * bN ∧
      S'.s21 * a0 + S'.s22 * bN = S.s21 * a0 + S.s22 * bN := by
    intro a0 bN
    obtain ⟨st, first, last, hg, hc, hf, hl, ha, hb⟩ := s2.complete a0 bN
    have r := s2.sound st first last hg hc hf hl
    unfold geometry at hg
    obtain ⟨u, v, rfl, hu, hv⟩ := List.map_eq_append_iff.1 hg
    obtain ⟨t, w, rfl, ht, hw⟩ := List.map_eq_cons_iff.1 hv
    have hu0 : u ≠ [] := by rintro rfl; exact n1 hu.symm
    have hw0 : w ≠ [] := by rintro rfl; exact n2 hw.symm
    have ht0 : t.thickness = 0 := congrArg Prod.snd ht
    have r' := s1.sound (u ++ w) first last (by unfold geometry; rw [List.map_append, hu, hw]) (consistent_remove ht0 hc)
      (by
        obtain ⟨c, u, rfl⟩ := List.exists_cons_of_ne_nil hu0
        exact hf)
      (by
        obtain ⟨w, c, rfl⟩ : ∃ w' c, w = w' ++ [c] := ⟨w.dropLast, w.getLast hw0, (List.dropLast_append_getLast hw0).symm⟩
        rw [getLast?_snoc_cons] at hl
        rwa [getLast?_snoc_append])
    rw [Relates, ha, hb] at r r'
    exact ⟨r.1.symm.trans r'.1, r.2.symm.trans r'.2⟩
  have hst := s2.start
  have hst' := s1.start
  have hfi := s2.finish
  have hfi' := s1.finish
  obtain ⟨c, x, rfl⟩ := List.exists_cons_of_ne_nil n1
  obtain ⟨y, e, rfl⟩ : ∃ y' e, y = y' ++ [e] := ⟨y.dropLast, y.getLast n2, (List.dropLast_append_getLast n2).symm⟩
  have q1 := key 1 0
  have q2 := key 0 1
  simp only [Matrix.mul_one, Matrix.mul_zero, add_zero, zero_add] at q1 q2
  simp only [List.cons_append, List.head?_cons, Option.some.injEq] at hst hst'
  have hst2 := hst.symm.trans hst'
  simp only [Prod.mk.injEq] at hst2
  have hfi2 : (S'.endLayer, S'.endThickness) = (S.endLayer, S.endThickness) := by
    have a1 : (c :: x ++ (l, (0 : ℝ)) :: (y ++ [e])).getLast? = some e := getLast?_snoc_cons _ _ _ _
    have a2 : (c :: x ++ (y ++ [e])).getLast? = some e := getLast?_snoc_append _ _ _
    rw [a1] at hfi
    rw [a2] at hfi'
    exact Option.some.inj (hfi.symm.trans hfi')
  simp only [Prod.mk.injEq] at hfi2
  have hb : S'.toBlocks = S.toBlocks := Blocks.ext q1.1 q2.1 q1.2 q2.2
  cases S; cases S'
  simp_all

/-- **C120** Thin layers: the S-matrix is finite for all thicknesses close to zero and tends to that of the stack without the layer. -/
theorem C120_thin_layer {lam : ℝ} {pre post : List (LayerSolveResult ι)} {dpre dpost : List ℝ} {l : LayerSolveResult ι}
    {S S₀ : ScatteringMatrix ι} (hpre : pre ≠ []) (hpost : post ≠ []) (hlen : pre.length = dpre.length)
    (hr : ∀ r ∈ pre ++ l :: post, r.wavelength = lam ∧ ∀ i, r.eigenvalues i ≠ 0)
    (hS : stackSMatrix (pre ++ post) (dpre ++ dpost) = .ok S)
    (hS₀ : stackSMatrix (pre ++ l :: post) (dpre ++ 0 :: dpost) = .ok S₀) :
    ∃ g : ℝ → ScatteringMatrix ι, (∀ᶠ d in 𝓝 0, stackSMatrix (pre ++ l :: post) (dpre ++ d :: dpost) = .ok (g d)) ∧
      ∀ i j, Tendsto (fun d => (g d).s11 i j) (𝓝 0) (𝓝 (S.s11 i j)) ∧ Tendsto (fun d => (g d).s12 i j) (𝓝 0) (𝓝 (S.s12 i j)) ∧
        Tendsto (fun d => (g d).s21 i j) (𝓝 0) (𝓝 (S.s21 i j)) ∧ Tendsto (fun d => (g d).s22 i j) (𝓝 0) (𝓝 (S.s22 i j)) := by
  have h := C114_stack_s_matrix (E := ℝ) (k := 0) (x := 0) (layers := (pre ++ l :: post).map fun r _ => r)
    (ds := (dpre.map fun d _ => d) ++ (fun d => d) :: dpost.map fun d _ => d)
    (by
      intro L hL
      obtain ⟨r, -, rfl⟩ := List.mem_map.1 hL
      exact smoothLayer_const r)
    (by
      intro d hd
      simp only [List.mem_append, List.mem_cons, List.mem_map] at hd
      rcases hd with ⟨c, -, rfl⟩ | rfl | ⟨c, -, rfl⟩
      · exact contDiffAt_const
      · exact contDiffAt_id
      · exact contDiffAt_const)
  have e : ∀ d : ℝ, stackSMatrix (((pre ++ l :: post).map fun r (_ : ℝ) => r).map fun L => L d)
      (((dpre.map fun x (_ : ℝ) => x) ++ (fun d => d) :: dpost.map fun x (_ : ℝ) => x).map fun f => f d) =
        stackSMatrix (pre ++ l :: post) (dpre ++ d :: dpost) := by
    intro d
    simp [List.map_map, Function.comp_def]
  simp only [e] at h
  obtain ⟨g, hg0, hgs, hev⟩ := h S₀ hS₀
  have e0 : g 0 = S := hg0.trans (C120_zero_thickness hpre hpost hlen hr hS hS₀)
  refine ⟨g, hev, fun i j => ⟨?_, ?_, ?_, ?_⟩⟩
  · rw [← e0]; exact (hgs.blocks.s11 i j).continuousAt.tendsto
  · rw [← e0]; exact (hgs.blocks.s12 i j).continuousAt.tendsto
  · rw [← e0]; exact (hgs.blocks.s21 i j).continuousAt.tendsto
  · rw [← e0]; exact (hgs.blocks.s22 i j).continuousAt.tendsto

/-! ### examples: an absorbing grating -/

section

open EigChoiceExample SymmetryExample

/-- C120: a thick grating between two homogeneous media. -/
example : ∃ (u r : LayerSolveResult (Fin 3)) (A B : ScatteringMatrix (Fin 3)) (C D γ : ℝ), 0 < γ ∧
    stackSMatrix [u, r] [0, 0] = .ok A ∧ stackSMatrix [r, u] [0, 0] = .ok B ∧ ∀ d ≥ D, ∃ S, stackSMatrix [u, r, u] [0, d, 0] = .ok S ∧
      ∀ i j, ‖S.s11 i j‖ ≤ C * Real.exp (-γ * d) ∧ ‖S.s21 i j - A.s21 i j‖ ≤ C * Real.exp (-2 * γ * d) := by
  obtain ⟨eig, he⟩ := exists_isEig (Fin 3 ⊕ Fin 3)
  obtain ⟨u, r, -, -, h3, h4, h5, h6⟩ := absorbing_layers he
  obtain ⟨A, B, -, hA, hB, -⟩ := C120_absorbing (pre := [u]) (post := [u]) (l := r) (dpre := [0]) (dpost := [0]) (lam := setup.wavelength)
    (by simp) (by simp) rfl rfl (by simp [h5, h6]) (by simp [h3, h4]) (by simp)
  obtain ⟨γ, hγ, hq⟩ := exists_decay h4.decay
  obtain ⟨C, D, h⟩ := C120_thick_layer (pre := [u]) (post := [u]) hγ hq (by simp) (by simp) hA hB
  refine ⟨u, r, A, B, C, D, γ, hγ, hA, hB, fun d hd => ?_⟩
  obtain ⟨S, hS, k⟩ := h d hd
  exact ⟨S, hS, fun i j => ⟨(k i j).1, (k i j).2.2.2⟩⟩

/-- C120: the same grating when it is thin. -/
example : ∃ (u r : LayerSolveResult (Fin 3)) (S : ScatteringMatrix (Fin 3)) (g : ℝ → ScatteringMatrix (Fin 3)),
    stackSMatrix [u, u] [1, 2] = .ok S ∧ (∀ᶠ d in 𝓝 0, stackSMatrix [u, r, u] [1, d, 2] = .ok (g d)) ∧
      ∀ i j, Tendsto (fun d => (g d).s21 i j) (𝓝 0) (𝓝 (S.s21 i j)) := by
  obtain ⟨eig, he⟩ := exists_isEig (Fin 3 ⊕ Fin 3)
  obtain ⟨u, r, -, -, h3, h4, h5, h6⟩ := absorbing_layers he
  obtain ⟨S, -, hS, -⟩ := C81_absorbing_stack (layers := [u, u]) (ds := [1, 2]) (by simp) (by simp) (lam := setup.wavelength) (by simp [h5])
    (by simp [h3]) (by simp)
  obtain ⟨S₀, -, hS₀, -⟩ := C81_absorbing_stack (layers := [u, r, u]) (ds := [1, 0, 2]) (by simp) (by simp) (lam := setup.wavelength)
    (by simp [h5, h6]) (by simp [h3, h4]) (by simp)
  obtain ⟨g, hg, k⟩ := C120_thin_layer (pre := [u]) (post := [u]) (dpre := [1]) (dpost := [2]) (l := r) (lam := setup.wavelength) (by simp) (by simp) rfl
    (by
      have := h3.modes.2
      have := h4.modes.2
      simp_all) hS hS₀
  exact ⟨u, r, S, g, hS, hg, fun i j => (k i j).2.2.1⟩

end

end Fmmax
