import Verif.Model.Farfield
import Mathlib.Algebra.BigOperators.Intervals
import Mathlib.Algebra.Order.BigOperators.Ring.Finset
import Mathlib.Tactic.LinearCombination
import Mathlib.Tactic.Positivity
import Mathlib.Tactic.FieldSimp

/-! The weights of a linear resize by an integer factor. -/

namespace Fmmax

/-- The offset of an output sample from the input sample of its cell. -/
noncomputable def resizeOffset (s r : ℕ) : ℝ := ((r : ℝ) + 1 / 2) / s - 1 / 2

theorem resizeOffset_lt {s r : ℕ} (h : r < s) : -(1 / 2) < resizeOffset s r ∧ resizeOffset s r < 1 / 2 := by
  have hs : (0 : ℝ) < s := by exact_mod_cast (by omega : 0 < s)
  have hr : (r : ℝ) + 1 ≤ s := by exact_mod_cast h
  have hr0 : (0 : ℝ) ≤ r := Nat.cast_nonneg r
  unfold resizeOffset
  constructor
  · have : 0 < ((r : ℝ) + 1 / 2) / s := by positivity
    linarith
  · have : ((r : ℝ) + 1 / 2) / s < 1 := by rw [div_lt_one hs]; linarith
    linarith

theorem resizeOffset_reflect {s r : ℕ} (h : r < s) : resizeOffset s (s - 1 - r) = -resizeOffset s r := by
  have hs : (s : ℝ) ≠ 0 := by exact_mod_cast (by omega : s ≠ 0)
  have : ((s - 1 - r : ℕ) : ℝ) = s - 1 - r := by
    rw [Nat.cast_sub (by omega), Nat.cast_sub (by omega)]; simp
  unfold resizeOffset
  rw [this]
  field_simp
  ring

theorem resizeKernel_eq {s : ℕ} (hs : 0 < s) (i m r : ℕ) :
    resizeKernel s i (s * m + r) = max 0 (1 - |(m : ℝ) + resizeOffset s r - i|) := by
  have hs' : (s : ℝ) ≠ 0 := by exact_mod_cast (by omega : s ≠ 0)
  unfold resizeKernel resizeOffset
  congr 3
  push_cast
  field_simp
  ring

/-- The kernel in terms of the cell and offset. -/
theorem resizeKernel_cases {s r : ℕ} (hr : r < s) (i m : ℕ) :
    resizeKernel s i (s * m + r) = (if i = m then 1 - |resizeOffset s r| else 0) +
      (if i = m + 1 then max 0 (resizeOffset s r) else 0) + (if i + 1 = m then max 0 (-resizeOffset s r) else 0) := by
  rw [resizeKernel_eq (by omega)]
  obtain ⟨h1, h2⟩ := resizeOffset_lt hr
  set d := resizeOffset s r
  have habs : |d| < 1 / 2 := abs_lt.2 ⟨h1, h2⟩
  rcases lt_trichotomy i m with h | h | h
  · rw [if_neg (by omega), if_neg (by omega)]
    by_cases h' : i + 1 = m
    · subst h'
      rw [if_pos rfl]
      push_cast
      rw [show ((i : ℝ) + 1 + d - i) = 1 + d by ring, abs_of_pos (by linarith)]
      rw [show (1 - (1 + d)) = -d by ring]
      ring
    · rw [if_neg h']
      have : (i : ℝ) + 2 ≤ m := by exact_mod_cast (by omega : i + 2 ≤ m)
      rw [abs_of_pos (by linarith), max_eq_left (by linarith)]
      ring
  · subst h
    rw [if_pos rfl, if_neg (by omega), if_neg (by omega)]
    rw [show ((i : ℝ) + d - i) = d by ring, max_eq_right (by linarith)]
    ring
  · rw [if_neg (by omega), if_neg (by omega : ¬i + 1 = m)]
    by_cases h' : i = m + 1
    · subst h'
      rw [if_pos rfl]
      push_cast
      rw [show ((m : ℝ) + d - (m + 1)) = -(1 - d) by ring, abs_neg, abs_of_pos (by linarith)]
      rw [show (1 - (1 - d)) = d by ring]
      ring
    · rw [if_neg h']
      have : (m : ℝ) + 2 ≤ i := by exact_mod_cast (by omega : m + 2 ≤ i)
      rw [abs_of_neg (by linarith), max_eq_left (by linarith)]
      ring

/-- The weights: most of an output sample comes from the input sample of its cell, the rest from the neighbour on its side,
with the edges repeated. -/
theorem resizeWeight_eq {N s r m i : ℕ} (hr : r < s) (hm : m < N) (hi : i < N) :
    resizeWeight N s i (s * m + r) = (if i = m then 1 - |resizeOffset s r| else 0) +
      (if i = min (m + 1) (N - 1) then max 0 (resizeOffset s r) else 0) +
      (if i = m - 1 then max 0 (-resizeOffset s r) else 0) := by
  obtain ⟨h1, h2⟩ := resizeOffset_lt hr
  have hs' : (s : ℝ) ≠ 0 := by exact_mod_cast (by omega : s ≠ 0)
  have hsample : (((s * m + r : ℕ) : ℝ) + 1 / 2) / s - 1 / 2 = m + resizeOffset s r := by
    unfold resizeOffset
    push_cast
    field_simp
    ring
  have hmN : (m : ℝ) + 1 ≤ N := by exact_mod_cast hm
  have hm0 : (0 : ℝ) ≤ m := Nat.cast_nonneg m
  unfold resizeWeight
  simp only
  rw [hsample, if_pos ⟨by linarith, by linarith⟩]
  have habs : |resizeOffset s r| < 1 / 2 := abs_lt.2 ⟨h1, h2⟩
  have htot : ∑ i' ∈ Finset.range N, resizeKernel s i' (s * m + r) = 1 - |resizeOffset s r| +
      (if m + 1 < N then max 0 (resizeOffset s r) else 0) + (if 0 < m then max 0 (-resizeOffset s r) else 0) := by
    simp only [resizeKernel_cases hr]
    rw [Finset.sum_add_distrib, Finset.sum_add_distrib]
    congr 1
    · congr 1
      · rw [Finset.sum_ite_eq' , if_pos (Finset.mem_range.2 hm)]
      · rw [Finset.sum_ite_eq']
        simp only [Finset.mem_range]
    · rcases m with _ | m
      · simp
      · simp only [Nat.add_right_cancel_iff]
        rw [Finset.sum_ite_eq', if_pos (Finset.mem_range.2 (by omega)), if_pos (by omega)]
  rw [htot, resizeKernel_cases hr]
  set d := resizeOffset s r
  rcases le_total 0 d with hd | hd
  · rw [max_eq_right hd, max_eq_left (by linarith : -d ≤ 0)]
    rw [abs_of_nonneg hd] at habs ⊢
    simp only [ite_self, add_zero]
    by_cases hl : m + 1 < N
    · rw [if_pos hl, show min (m + 1) (N - 1) = m + 1 by omega]
      rw [show (1 - d + d) = 1 by ring, if_pos one_ne_zero, div_one]
    · rw [if_neg hl, show min (m + 1) (N - 1) = m by omega, if_neg (by omega : ¬i = m + 1), add_zero, add_zero,
        if_pos (by linarith)]
      by_cases hi' : i = m
      · rw [if_pos hi', if_pos hi', div_self (by linarith)]; ring
      · rw [if_neg hi', if_neg hi']; simp
  · rw [max_eq_left hd, max_eq_right (by linarith : 0 ≤ -d)]
    rw [abs_of_nonpos hd] at habs ⊢
    simp only [ite_self, add_zero]
    rcases m with _ | m
    · rw [if_neg (lt_irrefl 0), add_zero, if_neg (by omega : ¬i + 1 = 0), add_zero,
        if_pos (by linarith)]
      simp only [Nat.zero_sub]
      by_cases hi' : i = 0
      · rw [if_pos hi', if_pos hi', div_self (by linarith)]; ring
      · rw [if_neg hi', if_neg hi']; simp
    · rw [if_pos (Nat.succ_pos m), show (1 - -d + -d) = 1 by ring, if_pos one_ne_zero, div_one]
      simp only [Nat.add_right_cancel_iff, Nat.add_sub_cancel]

theorem sum_max_offset (s : ℕ) :
    ∑ r ∈ Finset.range s, max 0 (resizeOffset s r) = ∑ r ∈ Finset.range s, max 0 (-resizeOffset s r) := by
  rw [← Finset.sum_range_reflect]
  refine Finset.sum_congr rfl fun r hr => ?_
  rw [resizeOffset_reflect (Finset.mem_range.1 hr)]

/-- Each interior neighbour relation is counted twice. -/
theorem sum_neighbours {N i : ℕ} (hi : i < N) :
    ∑ m ∈ Finset.range N, ((if i = min (m + 1) (N - 1) then (1 : ℝ) else 0) + (if i = m - 1 then 1 else 0)) = 2 := by
  obtain ⟨M, rfl⟩ : ∃ M, N = M + 1 := ⟨N - 1, by omega⟩
  rw [Finset.sum_add_distrib, Finset.sum_range_succ, Finset.sum_range_succ' (fun m => if i = m - 1 then (1 : ℝ) else 0)]
  have e1 : ∑ m ∈ Finset.range M, (if i = min (m + 1) (M + 1 - 1) then (1 : ℝ) else 0) = if i = 0 then 0 else 1 := by
    rw [Finset.sum_congr rfl (g := fun m => if i = m + 1 then (1 : ℝ) else 0)]
    · rcases i with _ | i
      · simp
      · simp only [Nat.add_right_cancel_iff]
        rw [Finset.sum_ite_eq, if_pos (Finset.mem_range.2 (by omega)), if_neg (by omega)]
    · intro m hm
      have := Finset.mem_range.1 hm
      rw [show min (m + 1) (M + 1 - 1) = m + 1 by omega]
  have e2 : ∑ m ∈ Finset.range M, (if i = m + 1 - 1 then (1 : ℝ) else 0) = if i = M then 0 else 1 := by
    simp only [Nat.add_sub_cancel]
    rw [Finset.sum_ite_eq]
    simp only [Finset.mem_range]
    by_cases h : i = M
    · rw [if_neg (by omega), if_pos h]
    · rw [if_pos (by omega), if_neg h]
  rw [e1, e2, show min (M + 1) (M + 1 - 1) = M by omega, Nat.zero_sub]
  by_cases h1 : i = 0 <;> by_cases h2 : i = M
  · rw [if_pos h1, if_pos h2, if_pos h2, if_pos h1]; norm_num
  · rw [if_pos h1, if_neg h2, if_neg h2, if_pos h1]; norm_num
  · rw [if_neg h1, if_pos h2, if_pos h2, if_neg h1]; norm_num
  · rw [if_neg h1, if_neg h2, if_neg h2, if_neg h1]; norm_num

/-- Every input sample has total weight `s`. -/
theorem resizeWeight_sum {N s i : ℕ} (hi : i < N) :
    ∑ o ∈ Finset.range (s * N), resizeWeight N s i o = s := by
  have key : ∀ M, M ≤ N → ∑ o ∈ Finset.range (s * M), resizeWeight N s i o =
      ∑ m ∈ Finset.range M, ∑ r ∈ Finset.range s, resizeWeight N s i (s * m + r) := by
    intro M
    induction M with
    | zero => simp
    | succ M ih =>
      intro hM
      rw [Finset.sum_range_succ, ← ih (by omega), Nat.mul_succ, Finset.sum_range_add]
  rw [key N le_rfl]
  have e : ∑ m ∈ Finset.range N, ∑ r ∈ Finset.range s, resizeWeight N s i (s * m + r) =
      ∑ m ∈ Finset.range N, ((if i = m then ∑ r ∈ Finset.range s, (1 - |resizeOffset s r|) else 0) +
        ((if i = min (m + 1) (N - 1) then (1 : ℝ) else 0) + (if i = m - 1 then 1 else 0)) *
          ∑ r ∈ Finset.range s, max 0 (resizeOffset s r)) := by
    refine Finset.sum_congr rfl fun m hm => ?_
    rw [Finset.sum_congr rfl fun r hr =>
      resizeWeight_eq (Finset.mem_range.1 hr) (Finset.mem_range.1 hm) hi]
    rw [Finset.sum_add_distrib, Finset.sum_add_distrib, add_mul]
    nth_rewrite 2 [sum_max_offset]
    rw [add_assoc]
    congr 1
    · split_ifs <;> simp
    · congr 1
      · split_ifs <;> simp
      · split_ifs <;> simp
  rw [e, Finset.sum_add_distrib, Finset.sum_ite_eq, if_pos (Finset.mem_range.2 hi), ← Finset.sum_mul, sum_neighbours hi,
    two_mul]
  nth_rewrite 2 [sum_max_offset]
  rw [← Finset.sum_add_distrib, ← Finset.sum_add_distrib]
  rw [Finset.sum_congr rfl (g := fun _ => (1 : ℝ))]
  · simp
  · intro r _
    rcases le_total 0 (resizeOffset s r) with h | h
    · rw [abs_of_nonneg h, max_eq_right h, max_eq_left (by linarith)]; ring
    · rw [abs_of_nonpos h, max_eq_left h, max_eq_right (by linarith)]; ring

theorem resizeWeight_nonneg (N s i o : ℕ) : 0 ≤ resizeWeight N s i o := by
  unfold resizeWeight
  have hk : ∀ i, 0 ≤ resizeKernel s i o := fun i => le_max_left _ _
  simp only
  split_ifs
  · exact div_nonneg (hk i) (Finset.sum_nonneg fun i _ => hk i)
  · exact le_rfl
  · exact le_rfl

/-- Resizing by the factor `s` along both axes multiplies the sum by `s²`. -/
theorem resizeLinear_sum (rows cols s : ℕ) (x : ℕ → ℕ → ℝ) :
    ∑ r : Fin (s * rows), ∑ c : Fin (s * cols), resizeLinear rows cols s x r c =
      (s : ℝ) ^ 2 * ∑ i ∈ Finset.range rows, ∑ j ∈ Finset.range cols, x i j := by
  rw [Fin.sum_univ_eq_sum_range (fun r => ∑ c : Fin (s * cols), resizeLinear rows cols s x r c)]
  have e : ∀ r, ∑ c : Fin (s * cols), resizeLinear rows cols s x r c =
      ∑ c ∈ Finset.range (s * cols), resizeLinear rows cols s x r c := fun r =>
    Fin.sum_univ_eq_sum_range (fun c => resizeLinear rows cols s x r c) _
  simp only [e]
  unfold resizeLinear
  rw [Finset.mul_sum]
  calc _ = ∑ i ∈ Finset.range rows, ∑ j ∈ Finset.range cols, ∑ r ∈ Finset.range (s * rows),
          ∑ c ∈ Finset.range (s * cols), resizeWeight rows s i r * resizeWeight cols s j c * x i j := by
        rw [Finset.sum_congr rfl fun r _ => Finset.sum_comm]
        rw [Finset.sum_comm]
        refine Finset.sum_congr rfl fun i _ => ?_
        rw [Finset.sum_congr rfl fun r _ => Finset.sum_comm]
        rw [Finset.sum_comm]
    _ = _ := by
        refine Finset.sum_congr rfl fun i hi => ?_
        rw [Finset.mul_sum]
        refine Finset.sum_congr rfl fun j hj => ?_
        simp only [mul_assoc]
        simp only [← Finset.mul_sum, ← Finset.sum_mul]
        rw [resizeWeight_sum (Finset.mem_range.1 hi), resizeWeight_sum (Finset.mem_range.1 hj)]
        ring

theorem resizeLinear_nonneg {rows cols s : ℕ} {x : ℕ → ℕ → ℝ} (hx : ∀ i j, 0 ≤ x i j) (r c : ℕ) :
    0 ≤ resizeLinear rows cols s x r c :=
  Finset.sum_nonneg fun i _ => Finset.sum_nonneg fun j _ =>
    mul_nonneg (mul_nonneg (resizeWeight_nonneg _ _ _ _) (resizeWeight_nonneg _ _ _ _)) (hx i j)

end Fmmax
