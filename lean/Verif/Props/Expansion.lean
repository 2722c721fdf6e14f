import Verif.Proofs.Expansion
import Mathlib.Tactic.NormNum
import Mathlib.Tactic.Positivity

/-! Property theorems C03 – C09: generated Fourier expansions.

`argsort` is any function satisfying `IsArgsort`: a permutation of the positions that orders the keys, with ties broken in
any way.  `orderVector u v g` (specification) is the reciprocal vector of the order `g`. -/

set_option linter.unusedSectionVars false

namespace Fmmax

open Spec

variable {argsort : List ℝ → List ℕ}

theorem generateExpansion_circular {l r : LatticeVectors} (h : reciprocal l = .ok r) (num : ℤ) :
    generateExpansion argsort l num .circular = .ok (basisCoefficientsCircular argsort r num) := by
  unfold generateExpansion; rw [h]; rfl

theorem generateExpansion_parallelogramic {l r : LatticeVectors} (h : reciprocal l = .ok r) (num : ℤ) :
    generateExpansion argsort l num .parallelogramic = basisCoefficientsParallelogramic argsort r num := by
  unfold generateExpansion; rw [h]; rfl

theorem reciprocal_of_independent {l : LatticeVectors} (h : Independent l.u l.v) : ∃ r, reciprocal l = .ok r :=
  ⟨_, reciprocal_eq_ok.2 ⟨h, rfl⟩⟩

/-- Everything about a generated expansion at once. -/
theorem generate_facts (hs : IsArgsort argsort) {l : LatticeVectors} (h : Independent l.u l.v) {num : ℤ} (hn : 0 ≤ num)
    (t : Truncation) : ∃ G, generateExpansion argsort l num t = .ok G ∧ G.Nodup ∧
      G.Pairwise (fun x y => length (orderVector l.u l.v x) ≤ length (orderVector l.u l.v y)) ∧
      (1 ≤ num → (0, 0) ∈ G) := by
  obtain ⟨r, hr⟩ := reciprocal_of_independent h
  cases t with
  | circular =>
    refine ⟨_, generateExpansion_circular hr num, circular_nodup hs r num, ?_, ?_⟩
    · have := circular_sorted hs r num
      simpa only [latticeMagnitude_reciprocal hr] using this
    · intro h1
      rw [circular_perm hs hr]
      refine ⟨by simp only; omega, by simp only; omega, ?_⟩
      rw [orderVector_zero]
      unfold truncationRadius
      apply Real.sqrt_pos.2
      have : (0 : ℝ) < num := by exact_mod_cast (by omega : 0 < num)
      have h2 : 0 < |1 / (l.u.1 * l.v.2 - l.u.2 * l.v.1)| := abs_pos.2 (one_div_ne_zero h)
      have := Real.pi_pos
      positivity
  | parallelogramic =>
    obtain ⟨G, hG, hnd, hsrt, hmem⟩ := parallelogramic_eq hs hr hn
    refine ⟨G, by rw [generateExpansion_parallelogramic hr, hG], hnd, ?_, ?_⟩
    · simpa only [latticeMagnitude_reciprocal hr] using hsrt
    · intro h1
      obtain ⟨hu, hv, -, -⟩ := reciprocal_length hr
      rw [hmem]
      simp only [abs_zero]
      exact ⟨roundHalfEven_nonneg (quadraticRoot_nonneg h1 (div_pos hu hv)),
        roundHalfEven_nonneg (quadraticRoot_nonneg h1 (div_pos hv hu))⟩

/-! ### C03 -/

/-- **C03** Either truncation returns, for any positive request, an expansion whose first order is `(0, 0)`. -/
theorem C03_zeroth_order_first (hs : IsArgsort argsort) (l : LatticeVectors) (h : Independent l.u l.v) (num : ℤ)
    (hn : 1 ≤ num) (t : Truncation) :
    ∃ tail, generateExpansion argsort l num t = .ok ((0, 0) :: tail) := by
  obtain ⟨G, hG, -, hsrt, h0⟩ := generate_facts hs h (by omega : 0 ≤ num) t
  have h0 := h0 hn
  cases G with
  | nil => simp at h0
  | cons g tl =>
    have : g = (0, 0) := by
      rcases List.mem_cons.1 h0 with e | e
      · exact e.symm
      · have := (List.pairwise_cons.1 hsrt).1 _ e
        rw [orderVector_zero] at this
        exact order_eq_zero h this
    exact ⟨tl, by rw [hG, this]⟩

/-! ### C04 -/

/-- **C04** No order occurs twice, and dependent lattice vectors do not produce an expansion at all. -/
theorem C04_no_duplicate_orders (hs : IsArgsort argsort) (l : LatticeVectors) (num : ℤ) (hn : 0 ≤ num) (t : Truncation)
    (G : List (ℤ × ℤ)) (hG : generateExpansion argsort l num t = .ok G) : Independent l.u l.v ∧ G.Nodup := by
  have hi : Independent l.u l.v := by
    by_contra h
    unfold generateExpansion reciprocal at hG
    have : crossProduct l.u l.v = 0 := by unfold Independent at h; push Not at h; exact h
    simp only [this, if_true] at hG
    cases hG
  obtain ⟨G', hG', hnd, -, -⟩ := generate_facts hs hi hn t
  rw [hG] at hG'
  cases hG'
  exact ⟨hi, hnd⟩

/-! ### C05 -/

/-- **C05** The orders are sorted by the magnitude of their reciprocal vectors. -/
theorem C05_sorted_by_magnitude (hs : IsArgsort argsort) (l : LatticeVectors) (num : ℤ) (hn : 0 ≤ num) (t : Truncation)
    (G : List (ℤ × ℤ)) (hG : generateExpansion argsort l num t = .ok G) :
    G.Pairwise (fun x y => length (orderVector l.u l.v x) ≤ length (orderVector l.u l.v y)) := by
  obtain ⟨hi, -⟩ := C04_no_duplicate_orders hs l num hn t G hG
  obtain ⟨G', hG', -, hsrt, -⟩ := generate_facts hs hi hn t
  rw [hG] at hG'
  cases hG'
  exact hsrt

/-- An oblique cell for which C03 – C09 apply. -/
noncomputable def obliqueCell : LatticeVectors := { u := (1, 0), v := (1 / 2, 1) }

theorem obliqueCell_independent : Independent obliqueCell.u obliqueCell.v := by
  norm_num [Independent, obliqueCell]

example : ∃ tail, generateExpansion mergeArgsort obliqueCell 37 .circular = .ok ((0, 0) :: tail) :=
  C03_zeroth_order_first isArgsort_merge _ obliqueCell_independent 37 (by norm_num) _

example : ∃ G, generateExpansion mergeArgsort obliqueCell 37 .parallelogramic = .ok G ∧ G ≠ [] ∧ G.Nodup ∧
    G.Pairwise (fun x y => length (orderVector obliqueCell.u obliqueCell.v x) ≤
      length (orderVector obliqueCell.u obliqueCell.v y)) := by
  obtain ⟨tl, h⟩ := C03_zeroth_order_first isArgsort_merge _ obliqueCell_independent 37 (by norm_num) .parallelogramic
  exact ⟨_, h, by simp, (C04_no_duplicate_orders isArgsort_merge _ 37 (by norm_num) _ _ h).2,
    C05_sorted_by_magnitude isArgsort_merge _ 37 (by norm_num) _ _ h⟩

/-! ### C06, C07: finding

The candidate range of the circular truncation is `arange(-N // 2, N // 2 + 1)`; python parses this as `(-N) // 2`, so for
odd `N` the range is `-(N+1)/2 … (N-1)/2`, which is not symmetric and, on very elongated cells, does not cover the circle. -/

/-- A cell of size `1/100 × 1`. -/
noncomputable def thinCell : LatticeVectors := { u := (1 / 100, 0), v := (0, 1) }

theorem thinCell_independent : Independent thinCell.u thinCell.v := by
  norm_num [Independent, thinCell]

theorem thinCell_radius : (2 : ℝ) < truncationRadius thinCell.u thinCell.v 3 := by
  unfold truncationRadius thinCell
  apply Real.lt_sqrt_of_sq_lt
  rw [lt_div_iff₀ Real.pi_pos]
  have : Real.pi < 4 := by linarith [Real.pi_lt_d2]
  norm_num
  linarith

theorem thinCell_orders (hs : IsArgsort argsort) : ∃ G, generateExpansion argsort thinCell 3 .circular = .ok G ∧
    (0, -2) ∈ G ∧ (0, 2) ∉ G := by
  obtain ⟨r, hr⟩ := reciprocal_of_independent thinCell_independent
  refine ⟨_, generateExpansion_circular hr 3, ?_, ?_⟩
  · rw [circular_perm hs hr]
    refine ⟨by norm_num, by norm_num, ?_⟩
    have : length (orderVector thinCell.u thinCell.v (0, -2)) = 2 := by
      unfold length orderVector thinCell
      rw [Real.sqrt_eq_iff_eq_sq (by positivity) (by norm_num)]
      norm_num
    rw [this]
    exact thinCell_radius
  · rw [circular_perm hs hr]
    norm_num

/-- **C06 (finding)** The generated expansion need not be symmetric: three terms on a `1/100 × 1` cell contain `(0, -2)` but
not `(0, 2)`, whatever the sort does. -/
theorem C06_false_for_odd_circular (hs : IsArgsort argsort) :
    ¬ ∀ (l : LatticeVectors) (num : ℤ) (t : Truncation) (G : List (ℤ × ℤ)), Independent l.u l.v → 1 ≤ num →
      generateExpansion argsort l num t = .ok G → ∀ m n : ℤ, (m, n) ∈ G → (-m, -n) ∈ G := by
  intro hall
  obtain ⟨G, hG, h1, h2⟩ := thinCell_orders hs
  have := hall _ _ _ G thinCell_independent (by norm_num) hG 0 (-2) h1
  norm_num at this
  exact h2 this

/-- **C07 (finding)** For the same cell the circle contains an order which the expansion leaves out. -/
theorem C07_false_for_thin_cells (hs : IsArgsort argsort) :
    ¬ ∀ (l : LatticeVectors) (num : ℤ) (G : List (ℤ × ℤ)), Independent l.u l.v → 1 ≤ num →
      generateExpansion argsort l num .circular = .ok G → ∀ p : ℤ × ℤ,
        p ∈ G ↔ length (orderVector l.u l.v p) < Real.sqrt (num * |1 / (l.u.1 * l.v.2 - l.u.2 * l.v.1)| / Real.pi) := by
  intro hall
  obtain ⟨G, hG, h1, h2⟩ := thinCell_orders hs
  have := hall _ _ G thinCell_independent (by norm_num) hG
  have e := (this (0, -2)).1 h1
  have n : length (orderVector thinCell.u thinCell.v (0, 2)) = length (orderVector thinCell.u thinCell.v (0, -2)) := by
    have := orderVector_neg thinCell.u thinCell.v (0, 2)
    norm_num at this
    exact this.symm
  rw [← n] at e
  exact h2 ((this (0, 2)).2 e)

/-- **C07 (exact description)** The order is in the expansion iff it lies inside the circle and in the candidate range
`-⌈N/2⌉ … ⌊N/2⌋` of both coefficients. -/
theorem C07_circular_orders_exact (hs : IsArgsort argsort) (l : LatticeVectors) (h : Independent l.u l.v) (num : ℤ) :
    ∃ G, generateExpansion argsort l num .circular = .ok G ∧ ∀ m n : ℤ, (m, n) ∈ G ↔
      (-num / 2 ≤ m ∧ m ≤ num / 2) ∧ (-num / 2 ≤ n ∧ n ≤ num / 2) ∧
      length (orderVector l.u l.v (m, n)) < Real.sqrt (num * |1 / (l.u.1 * l.v.2 - l.u.2 * l.v.1)| / Real.pi) := by
  obtain ⟨r, hr⟩ := reciprocal_of_independent h
  exact ⟨_, generateExpansion_circular hr num, fun m n => circular_perm hs hr num (m, n)⟩

/-- Orders inside the truncation circle have bounded coefficients: `m = K·u ≤ |K| |u|`. -/
theorem order_bound {u v : ℝ × ℝ} (h : Independent u v) {num : ℤ} (hn : 0 ≤ num) {w : ℝ × ℝ} {m : ℤ} {p : ℤ × ℤ}
    (hm : dot (orderVector u v p) w = m)
    (hw : num * (w.1 ^ 2 + w.2 ^ 2) ≤ Real.pi * |u.1 * v.2 - u.2 * v.1| * ((num / 2 : ℤ) + 1) ^ 2)
    (hp : length (orderVector u v p) < truncationRadius u v num) : |m| ≤ num / 2 := by
  have hc : 0 < |u.1 * v.2 - u.2 * v.1| := abs_pos.2 h
  have hpi := Real.pi_pos
  have hn' : (0 : ℝ) ≤ num := by exact_mod_cast hn
  set K := orderVector u v p
  have hK : K.1 ^ 2 + K.2 ^ 2 < num * |1 / (u.1 * v.2 - u.2 * v.1)| / Real.pi := by
    unfold length truncationRadius at hp
    exact (Real.sqrt_lt_sqrt_iff (by positivity)).1 hp
  rw [abs_div, abs_one, lt_div_iff₀ hpi, mul_one_div, lt_div_iff₀ hc] at hK
  have cs : (m : ℝ) ^ 2 ≤ (K.1 ^ 2 + K.2 ^ 2) * (w.1 ^ 2 + w.2 ^ 2) := by
    rw [← hm]; unfold dot; nlinarith [sq_nonneg (K.1 * w.2 - K.2 * w.1)]
  have h2 : (0 : ℤ) ≤ num / 2 := by omega
  have h2' : (0 : ℝ) ≤ ((num / 2 : ℤ) : ℝ) := by exact_mod_cast h2
  have hlt : (m : ℝ) ^ 2 < ((num / 2 : ℤ) + 1) ^ 2 := by
    set A := w.1 ^ 2 + w.2 ^ 2
    set C := |u.1 * v.2 - u.2 * v.1|
    set B : ℝ := ((num / 2 : ℤ) : ℝ) + 1
    have hA : 0 ≤ A := by positivity
    have hB : 0 < B := by positivity
    by_cases hA0 : A = 0
    · rw [hA0, mul_zero] at cs
      exact lt_of_le_of_lt cs (by positivity)
    · have hA' : 0 < A := lt_of_le_of_ne hA (Ne.symm hA0)
      have s1 : (m : ℝ) ^ 2 * (Real.pi * C) < Real.pi * C * B ^ 2 := by
        calc (m : ℝ) ^ 2 * (Real.pi * C) ≤ (K.1 ^ 2 + K.2 ^ 2) * A * (Real.pi * C) := by
              apply mul_le_mul_of_nonneg_right cs; positivity
          _ = (K.1 ^ 2 + K.2 ^ 2) * Real.pi * C * A := by ring
          _ < num * A := by exact mul_lt_mul_of_pos_right hK hA'
          _ ≤ Real.pi * C * B ^ 2 := hw
      have : 0 < Real.pi * C := by positivity
      nlinarith
  have h3 := abs_lt_of_sq_lt_sq hlt (by positivity)
  have h4 : ((|m| : ℤ) : ℝ) < ((num / 2 + 1 : ℤ) : ℝ) := by push_cast; exact h3
  have h5 : |m| < num / 2 + 1 := by exact_mod_cast h4
  omega

/-- **C07 (partial)** The circle is captured exactly when the cell is not too elongated for the requested count:
`N |u|² ≤ π |u × v| (⌊N/2⌋ + 1)²` and the same for `v`.  *Missing:* very elongated cells, where the claim is false. -/
theorem C07_circular_exact_partial (hs : IsArgsort argsort) (l : LatticeVectors) (h : Independent l.u l.v) (num : ℤ)
    (hn : 0 ≤ num)
    (hu : num * (l.u.1 ^ 2 + l.u.2 ^ 2) ≤ Real.pi * |l.u.1 * l.v.2 - l.u.2 * l.v.1| * ((num / 2 : ℤ) + 1) ^ 2)
    (hv : num * (l.v.1 ^ 2 + l.v.2 ^ 2) ≤ Real.pi * |l.u.1 * l.v.2 - l.u.2 * l.v.1| * ((num / 2 : ℤ) + 1) ^ 2) :
    ∃ G, generateExpansion argsort l num .circular = .ok G ∧ ∀ p : ℤ × ℤ, p ∈ G ↔
      length (orderVector l.u l.v p) < Real.sqrt (num * |1 / (l.u.1 * l.v.2 - l.u.2 * l.v.1)| / Real.pi) := by
  obtain ⟨r, hr⟩ := reciprocal_of_independent h
  refine ⟨_, generateExpansion_circular hr num, fun p => ?_⟩
  rw [circular_perm hs hr]
  refine ⟨fun hh => hh.2.2, fun hp => ?_⟩
  have h1 := order_bound h hn (orderVector_dot h p).1 hu hp
  have h2 := order_bound h hn (orderVector_dot h p).2 hv hp
  rw [abs_le] at h1 h2
  exact ⟨by omega, by omega, hp⟩

/-- The condition holds for every count on cells with `|u|², |v|² ≤ π |u × v|`: squares, hexagonal cells, rectangles of
aspect ratio up to `π`. -/
theorem C07_circular_exact_moderate_partial (hs : IsArgsort argsort) (l : LatticeVectors) (h : Independent l.u l.v)
    (hu : l.u.1 ^ 2 + l.u.2 ^ 2 ≤ Real.pi * |l.u.1 * l.v.2 - l.u.2 * l.v.1|)
    (hv : l.v.1 ^ 2 + l.v.2 ^ 2 ≤ Real.pi * |l.u.1 * l.v.2 - l.u.2 * l.v.1|) (num : ℤ) (hn : 0 ≤ num) :
    ∃ G, generateExpansion argsort l num .circular = .ok G ∧ ∀ p : ℤ × ℤ, p ∈ G ↔
      length (orderVector l.u l.v p) < Real.sqrt (num * |1 / (l.u.1 * l.v.2 - l.u.2 * l.v.1)| / Real.pi) := by
  have hk : (num : ℝ) ≤ ((num / 2 : ℤ) + 1 : ℝ) ^ 2 := by
    have : num ≤ (num / 2 + 1) ^ 2 := by
      have h1 : num ≤ 2 * (num / 2) + 1 := by omega
      nlinarith [sq_nonneg (num / 2)]
    exact_mod_cast this
  have hn' : (0 : ℝ) ≤ num := by exact_mod_cast hn
  have hpc : 0 ≤ Real.pi * |l.u.1 * l.v.2 - l.u.2 * l.v.1| := by have := Real.pi_pos; positivity
  refine C07_circular_exact_partial hs l h num hn ?_ ?_
  · calc (num : ℝ) * (l.u.1 ^ 2 + l.u.2 ^ 2) ≤ num * (Real.pi * |l.u.1 * l.v.2 - l.u.2 * l.v.1|) := by gcongr
      _ = (Real.pi * |l.u.1 * l.v.2 - l.u.2 * l.v.1|) * num := by ring
      _ ≤ _ := by gcongr
  · calc (num : ℝ) * (l.v.1 ^ 2 + l.v.2 ^ 2) ≤ num * (Real.pi * |l.u.1 * l.v.2 - l.u.2 * l.v.1|) := by gcongr
      _ = (Real.pi * |l.u.1 * l.v.2 - l.u.2 * l.v.1|) * num := by ring
      _ ≤ _ := by gcongr

example : ∃ G, generateExpansion mergeArgsort obliqueCell 37 .circular = .ok G ∧ ∀ p : ℤ × ℤ, p ∈ G ↔
    length (orderVector obliqueCell.u obliqueCell.v p) < Real.sqrt ((37 : ℤ) *
      |1 / (obliqueCell.u.1 * obliqueCell.v.2 - obliqueCell.u.2 * obliqueCell.v.1)| / Real.pi) := by
  refine C07_circular_exact_moderate_partial isArgsort_merge _ obliqueCell_independent ?_ ?_ 37 (by norm_num)
  · norm_num [obliqueCell]
    linarith [Real.pi_gt_three]
  · norm_num [obliqueCell]
    linarith [Real.pi_gt_three]

/-! ### C06: the cases in which symmetry holds -/

/-- **C06 (partial)** Symmetric under negation for the parallelogramic truncation and any count, and for the circular
truncation with an even count.  *Missing:* odd counts with circular truncation on very elongated cells (false), see also
`C06_negation_symmetric_moderate_partial`. -/
theorem C06_negation_symmetric_partial (hs : IsArgsort argsort) (l : LatticeVectors) (num : ℤ) (hn : 0 ≤ num)
    (t : Truncation) (ht : t = .parallelogramic ∨ Even num) (G : List (ℤ × ℤ))
    (hG : generateExpansion argsort l num t = .ok G) (m n : ℤ) (h : (m, n) ∈ G) : (-m, -n) ∈ G := by
  obtain ⟨hi, -⟩ := C04_no_duplicate_orders hs l num hn t G hG
  obtain ⟨r, hr⟩ := reciprocal_of_independent hi
  cases t with
  | parallelogramic =>
    obtain ⟨G', hG', -, -, hmem⟩ := parallelogramic_eq hs hr hn
    rw [generateExpansion_parallelogramic hr, hG'] at hG
    cases hG
    rw [hmem] at h ⊢
    simpa using h
  | circular =>
    rw [generateExpansion_circular hr] at hG
    cases hG
    rw [circular_perm hs hr] at h ⊢
    have he : Even num := by simpa using ht
    obtain ⟨k, rfl⟩ := he
    refine ⟨by simp only at h ⊢; omega, by simp only at h ⊢; omega, ?_⟩
    rw [orderVector_neg l.u l.v (m, n)]
    exact h.2.2

/-- **C06 (partial)** Symmetric for both truncations and every count on cells with `|u|², |v|² ≤ π |u × v|`. -/
theorem C06_negation_symmetric_moderate_partial (hs : IsArgsort argsort) (l : LatticeVectors)
    (hu : l.u.1 ^ 2 + l.u.2 ^ 2 ≤ Real.pi * |l.u.1 * l.v.2 - l.u.2 * l.v.1|)
    (hv : l.v.1 ^ 2 + l.v.2 ^ 2 ≤ Real.pi * |l.u.1 * l.v.2 - l.u.2 * l.v.1|)
    (num : ℤ) (hn : 0 ≤ num) (t : Truncation) (G : List (ℤ × ℤ)) (hG : generateExpansion argsort l num t = .ok G)
    (m n : ℤ) (h : (m, n) ∈ G) : (-m, -n) ∈ G := by
  obtain ⟨hi, -⟩ := C04_no_duplicate_orders hs l num hn t G hG
  cases t with
  | parallelogramic => exact C06_negation_symmetric_partial hs l num hn _ (.inl rfl) G hG m n h
  | circular =>
    obtain ⟨G', hG', hmem⟩ := C07_circular_exact_moderate_partial hs l hi hu hv num hn
    rw [hG'] at hG
    cases hG
    rw [hmem] at h ⊢
    rwa [orderVector_neg l.u l.v (m, n)]

example (m n : ℤ) (G : List (ℤ × ℤ)) (hG : generateExpansion mergeArgsort obliqueCell 37 .parallelogramic = .ok G)
    (h : (m, n) ∈ G) : (-m, -n) ∈ G :=
  C06_negation_symmetric_partial isArgsort_merge _ 37 (by norm_num) _ (.inl rfl) G hG m n h

/-! ### C08 -/

/-- **C08** The parallelogramic truncation is exactly the box `|m| ≤ nu, |n| ≤ nv` (each order once), where `nu`, `nv` are
nearest integers (the even one if there are two) to real half sides `xu`, `xv` with `(2 xu + 1)(2 xv + 1) = N` and
`xu |u'| = xv |v'|`. -/
theorem C08_parallelogramic_box (hs : IsArgsort argsort) (l : LatticeVectors) (h : Independent l.u l.v) (num : ℤ)
    (hn : 1 ≤ num) :
    ∃ (G : List (ℤ × ℤ)) (nu nv : ℤ) (xu xv : ℝ),
      generateExpansion argsort l num .parallelogramic = .ok G ∧ G.Nodup ∧
      (∀ m n : ℤ, (m, n) ∈ G ↔ |m| ≤ nu ∧ |n| ≤ nv) ∧
      0 ≤ xu ∧ 0 ≤ xv ∧ (2 * xu + 1) * (2 * xv + 1) = num ∧
      xu * length (orderVector l.u l.v (1, 0)) = xv * length (orderVector l.u l.v (0, 1)) ∧
      |nu - xu| ≤ 1 / 2 ∧ |nv - xv| ≤ 1 / 2 ∧ (|nu - xu| = 1 / 2 → Even nu) ∧ (|nv - xv| = 1 / 2 → Even nv) := by
  obtain ⟨r, hr⟩ := reciprocal_of_independent h
  obtain ⟨G, hG, hnd, -, hmem⟩ := parallelogramic_eq hs hr (by omega : 0 ≤ num)
  obtain ⟨hu, hv, eu, ev⟩ := reciprocal_length hr
  have hruv := div_pos hu hv
  have hinv : length r.v / length r.u = (length r.u / length r.v)⁻¹ := by rw [inv_div]
  refine ⟨G, _, _, quadraticRoot num (length r.u / length r.v), quadraticRoot num (length r.v / length r.u),
    by rw [generateExpansion_parallelogramic hr, hG], hnd, fun m n => hmem (m, n),
    quadraticRoot_nonneg hn hruv, quadraticRoot_nonneg hn (div_pos hv hu), ?_, ?_,
    roundHalfEven_near _, roundHalfEven_near _, roundHalfEven_tie, roundHalfEven_tie⟩
  · rw [hinv, quadraticRoot_inv hn hruv]
    exact quadraticRoot_eq (by omega) hruv
  · rw [hinv, quadraticRoot_inv hn hruv, ← eu, ← ev]
    field_simp

/-- The two equations of C08 determine the half sides. -/
theorem C08_half_sides_unique {a b N xu xv yu yv : ℝ} (ha : 0 < a) (hb : 0 < b) (_hxu : 0 ≤ xu) (hxv : 0 ≤ xv)
    (hyu : 0 ≤ yu) (_hyv : 0 ≤ yv) (hx : (2 * xu + 1) * (2 * xv + 1) = N) (hy : (2 * yu + 1) * (2 * yv + 1) = N)
    (hx' : xu * a = xv * b) (hy' : yu * a = yv * b) : xu = yu ∧ xv = yv := by
  have key : xu = yu := by
    rcases lt_trichotomy xu yu with h | h | h
    · have : xv < yv := by
        have : xv * b < yv * b := by rw [← hx', ← hy']; exact mul_lt_mul_of_pos_right h ha
        exact lt_of_mul_lt_mul_right this hb.le
      nlinarith
    · exact h
    · have : yv < xv := by
        have : yv * b < xv * b := by rw [← hx', ← hy']; exact mul_lt_mul_of_pos_right h ha
        exact lt_of_mul_lt_mul_right this hb.le
      nlinarith
  refine ⟨key, ?_⟩
  have : xv * b = yv * b := by rw [← hx', ← hy', key]
  exact mul_right_cancel₀ hb.ne' this

example : ∃ (G : List (ℤ × ℤ)) (nu nv : ℤ), generateExpansion mergeArgsort obliqueCell 9 .parallelogramic = .ok G ∧
    ∀ m n : ℤ, (m, n) ∈ G ↔ |m| ≤ nu ∧ |n| ≤ nv := by
  obtain ⟨G, nu, nv, -, -, h1, -, h2, -⟩ :=
    C08_parallelogramic_box isArgsort_merge obliqueCell obliqueCell_independent 9 (by norm_num)
  exact ⟨G, nu, nv, h1, h2⟩

/-! ### C09 -/

/-- **C09** Requesting more terms never loses an order, hence never returns fewer terms. -/
theorem C09_monotone_in_count (hs : IsArgsort argsort) (l : LatticeVectors) (t : Truncation) (num num' : ℤ)
    (hn : 0 ≤ num) (hle : num ≤ num') (G G' : List (ℤ × ℤ)) (hG : generateExpansion argsort l num t = .ok G)
    (hG' : generateExpansion argsort l num' t = .ok G') : (∀ p ∈ G, p ∈ G') ∧ G.length ≤ G'.length := by
  obtain ⟨hi, hnd⟩ := C04_no_duplicate_orders hs l num hn t G hG
  obtain ⟨r, hr⟩ := reciprocal_of_independent hi
  have hsub : ∀ p ∈ G, p ∈ G' := by
    intro p hp
    cases t with
    | circular =>
      rw [generateExpansion_circular hr] at hG hG'
      cases hG
      cases hG'
      rw [circular_perm hs hr] at hp ⊢
      refine ⟨by omega, by omega, lt_of_lt_of_le hp.2.2 ?_⟩
      unfold truncationRadius
      apply Real.sqrt_le_sqrt
      have : (num : ℝ) ≤ num' := by exact_mod_cast hle
      have := Real.pi_pos
      gcongr
    | parallelogramic =>
      obtain ⟨hu, hv, -, -⟩ := reciprocal_length hr
      obtain ⟨G1, h1, -, -, m1⟩ := parallelogramic_eq hs hr hn
      obtain ⟨G2, h2, -, -, m2⟩ := parallelogramic_eq hs hr (le_trans hn hle)
      rw [generateExpansion_parallelogramic hr, h1] at hG
      rw [generateExpansion_parallelogramic hr, h2] at hG'
      cases hG
      cases hG'
      rw [m1] at hp
      rw [m2]
      exact ⟨hp.1.trans (roundHalfEven_mono (quadraticRoot_mono hle (div_pos hu hv))),
        hp.2.trans (roundHalfEven_mono (quadraticRoot_mono hle (div_pos hv hu)))⟩
  exact ⟨hsub, (List.subperm_of_subset hnd hsub).length_le⟩

example (G G' : List (ℤ × ℤ)) (hG : generateExpansion mergeArgsort obliqueCell 10 .circular = .ok G)
    (hG' : generateExpansion mergeArgsort obliqueCell 31 .circular = .ok G') : G.length ≤ G'.length :=
  (C09_monotone_in_count isArgsort_merge _ _ 10 31 (by norm_num) (by norm_num) _ _ hG hG').2

end Fmmax
