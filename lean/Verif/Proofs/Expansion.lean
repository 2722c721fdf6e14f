import Verif.Model.Basis
import Verif.Spec.Lattice
import Verif.Proofs.Layer

/-! Lemmas about generated expansions. -/

set_option linter.unusedSectionVars false

namespace Fmmax

open Spec

theorem mem_arangeInt {a b x : ℤ} : x ∈ arangeInt a b ↔ a ≤ x ∧ x < b := by
  unfold arangeInt
  simp only [List.mem_map, List.mem_range]
  constructor
  · rintro ⟨i, hi, rfl⟩; omega
  · rintro ⟨h1, h2⟩; exact ⟨(x - a).toNat, by omega, by omega⟩

theorem nodup_arangeInt (a b : ℤ) : (arangeInt a b).Nodup := by
  unfold arangeInt
  refine List.Nodup.map ?_ List.nodup_range
  intro i j h
  simpa using h

theorem mem_meshgridFlat {a b : List ℤ} {p : ℤ × ℤ} : p ∈ meshgridFlat a b ↔ p.1 ∈ a ∧ p.2 ∈ b := by
  obtain ⟨x, y⟩ := p
  simp only [meshgridFlat, List.mem_flatMap, List.mem_map, Prod.mk.injEq]
  constructor
  · rintro ⟨a', h1, b', h2, rfl, rfl⟩; exact ⟨h1, h2⟩
  · rintro ⟨h1, h2⟩; exact ⟨x, h1, y, h2, rfl, rfl⟩

theorem nodup_meshgridFlat {a b : List ℤ} (ha : a.Nodup) (hb : b.Nodup) : (meshgridFlat a b).Nodup := by
  have : meshgridFlat a b = a ×ˢ b := rfl
  rw [this]
  exact ha.product hb

theorem takeRows_perm {argsort : List ℝ → List ℕ} (hs : IsArgsort argsort) (g : List (ℤ × ℤ)) (f : ℤ × ℤ → ℝ) :
    (takeRows g (argsort (g.map f))).Perm g := by
  unfold takeRows
  have h := (hs.perm (g.map f)).map fun i => g.getD i (0, 0)
  rw [List.length_map] at h
  have e : (List.range g.length).map (fun i => g.getD i (0, 0)) = g := by
    apply List.ext_getElem
    · simp
    · intro i h1 h2; simp [h2]
  rwa [e] at h

theorem takeRows_sorted {argsort : List ℝ → List ℕ} (hs : IsArgsort argsort) (g : List (ℤ × ℤ)) (f : ℤ × ℤ → ℝ) :
    (takeRows g (argsort (g.map f))).Pairwise (fun x y => f x ≤ f y) := by
  have h := hs.sorted (g.map f)
  have e : (argsort (g.map f)).map (fun i => (g.map f).getD i 0) = (takeRows g (argsort (g.map f))).map f := by
    unfold takeRows
    rw [List.map_map]
    apply List.map_congr_left
    intro i hi
    have hi' := (hs.perm (g.map f)).mem_iff.1 hi
    rw [List.mem_range, List.length_map] at hi'
    simp [hi']
  rw [e, List.pairwise_map] at h
  exact h

theorem roundHalfEven_near (x : ℝ) : |(roundHalfEven x : ℝ) - x| ≤ 1 / 2 := by
  have h1 := Int.floor_le x
  have h2 := Int.lt_floor_add_one x
  unfold roundHalfEven
  rw [abs_le]
  split_ifs with a b c <;> push_cast <;> constructor <;> linarith

theorem roundHalfEven_tie {x : ℝ} (h : |(roundHalfEven x : ℝ) - x| = 1 / 2) : Even (roundHalfEven x) := by
  have h1 := Int.floor_le x
  have h2 := Int.lt_floor_add_one x
  unfold roundHalfEven at h ⊢
  split_ifs at h ⊢ with c1 c2 c3
  · rw [abs_of_nonpos (by linarith)] at h; linarith
  · push_cast at h; rw [abs_of_pos (by linarith)] at h; linarith
  · exact c3
  · exact (Int.not_even_iff_odd.1 c3).add_one

theorem roundHalfEven_mono {x y : ℝ} (h : x ≤ y) : roundHalfEven x ≤ roundHalfEven y := by
  by_contra hlt
  push Not at hlt
  have h1 := abs_le.1 (roundHalfEven_near x)
  have h2 := abs_le.1 (roundHalfEven_near y)
  have h3 : (roundHalfEven y : ℝ) + 1 ≤ roundHalfEven x := by exact_mod_cast hlt
  have : x = y := by linarith
  rw [this] at hlt
  exact lt_irrefl _ hlt

theorem roundHalfEven_nonneg {x : ℝ} (h : 0 ≤ x) : 0 ≤ roundHalfEven x := by
  have h0 : roundHalfEven 0 = 0 := by simp [roundHalfEven]
  have := roundHalfEven_mono h
  rwa [h0] at this

/-- The un-rounded root used by `_solve_quadratic`. -/
noncomputable def quadraticRoot (num : ℤ) (ratio : ℝ) : ℝ :=
  (-(2 * (ratio + 1)) + Real.sqrt ((2 * (ratio + 1)) ^ 2 - 4 * (4 * ratio) * (1 - num))) / (2 * (4 * ratio))

theorem disc_nonneg {num : ℤ} (hn : 0 ≤ num) {ratio : ℝ} (hr : 0 < ratio) :
    0 ≤ (2 * (ratio + 1)) ^ 2 - 4 * (4 * ratio) * (1 - (num : ℝ)) := by
  have : (0 : ℝ) ≤ num := by exact_mod_cast hn
  have h2 : 0 ≤ 16 * ratio * num := by positivity
  nlinarith [sq_nonneg (ratio - 1)]

theorem solveQuadratic_eq {num : ℤ} (hn : 0 ≤ num) {ratio : ℝ} (hr : 0 < ratio) :
    solveQuadratic num ratio = .ok (roundHalfEven (quadraticRoot num ratio)) := by
  unfold solveQuadratic quadraticRoot
  simp only
  rw [if_neg]
  have := disc_nonneg hn hr
  push Not
  exact ⟨by positivity, this⟩

theorem quadraticRoot_mono {num num' : ℤ} (h : num ≤ num') {ratio : ℝ} (hr : 0 < ratio) :
    quadraticRoot num ratio ≤ quadraticRoot num' ratio := by
  unfold quadraticRoot
  have : (num : ℝ) ≤ num' := by exact_mod_cast h
  apply div_le_div_of_nonneg_right _ (by positivity)
  have : Real.sqrt ((2 * (ratio + 1)) ^ 2 - 4 * (4 * ratio) * (1 - num)) ≤
      Real.sqrt ((2 * (ratio + 1)) ^ 2 - 4 * (4 * ratio) * (1 - num')) := by
    apply Real.sqrt_le_sqrt
    nlinarith
  linarith

theorem quadraticRoot_nonneg {num : ℤ} (hn : 1 ≤ num) {ratio : ℝ} (hr : 0 < ratio) : 0 ≤ quadraticRoot num ratio := by
  have h0 : quadraticRoot 1 ratio = 0 := by
    unfold quadraticRoot
    have : Real.sqrt ((2 * (ratio + 1)) ^ 2 - 4 * (4 * ratio) * (1 - ((1 : ℤ) : ℝ))) = 2 * (ratio + 1) := by
      rw [Int.cast_one, sub_self, mul_zero, sub_zero, Real.sqrt_sq (by positivity)]
    rw [this]; simp
  rw [← h0]
  exact quadraticRoot_mono hn hr

theorem quadraticRoot_eq {num : ℤ} (hn : 0 ≤ num) {ratio : ℝ} (hr : 0 < ratio) :
    (2 * quadraticRoot num ratio + 1) * (2 * (ratio * quadraticRoot num ratio) + 1) = num := by
  have hs := Real.sq_sqrt (disc_nonneg hn hr)
  have hx : quadraticRoot num ratio * (2 * (4 * ratio)) + 2 * (ratio + 1) =
      Real.sqrt ((2 * (ratio + 1)) ^ 2 - 4 * (4 * ratio) * (1 - num)) := by
    unfold quadraticRoot
    field_simp
    ring
  rw [← hx] at hs
  have : 16 * ratio * ((2 * quadraticRoot num ratio + 1) * (2 * (ratio * quadraticRoot num ratio) + 1) - num) = 0 := by
    linear_combination hs
  have h2 : (16 * ratio : ℝ) ≠ 0 := by positivity
  have := (mul_eq_zero.1 this).resolve_left h2
  linarith

theorem quadraticRoot_inv {num : ℤ} (hn : 1 ≤ num) {ratio : ℝ} (hr : 0 < ratio) :
    quadraticRoot num ratio⁻¹ = ratio * quadraticRoot num ratio := by
  have hi : 0 < ratio⁻¹ := inv_pos.2 hr
  have e1 := quadraticRoot_eq (by omega : (0 : ℤ) ≤ num) hr
  have e2 := quadraticRoot_eq (by omega : (0 : ℤ) ≤ num) hi
  have n1 := quadraticRoot_nonneg hn hr
  have n2 := quadraticRoot_nonneg hn hi
  set x := quadraticRoot num ratio
  set y := quadraticRoot num ratio⁻¹
  have n3 : 0 ≤ ratio * x := by positivity
  -- both solve the same strictly increasing equation
  have key : (y - ratio * x) * (ratio⁻¹ * 4 * (y + ratio * x) + 2 * (1 + ratio⁻¹)) = 0 := by
    have hrr : ratio⁻¹ * ratio = 1 := inv_mul_cancel₀ hr.ne'
    linear_combination e2 - e1 - (4 * ratio * x ^ 2 + 2 * x) * hrr
  rcases mul_eq_zero.1 key with h | h
  · linarith
  · have : 0 < ratio⁻¹ * 4 * (y + ratio * x) + 2 * (1 + ratio⁻¹) := by positivity
    linarith

/-! ### relation between the reciprocal lattice and order vectors -/

theorem latticeMagnitude_reciprocal {l r : LatticeVectors} (h : reciprocal l = .ok r) (g : ℤ × ℤ) :
    latticeMagnitude r g = length (orderVector l.u l.v g) := by
  obtain ⟨hc, rfl⟩ := reciprocal_eq_ok.1 h
  unfold latticeMagnitude length orderVector
  simp only [crossProduct]
  congr 1
  ring

theorem crossProduct_reciprocal {l r : LatticeVectors} (h : reciprocal l = .ok r) :
    crossProduct r.u r.v = 1 / (l.u.1 * l.v.2 - l.u.2 * l.v.1) := by
  obtain ⟨hc, rfl⟩ := reciprocal_eq_ok.1 h
  have hc' : l.u.1 * l.v.2 - l.u.2 * l.v.1 ≠ 0 := hc
  obtain ⟨D, hD⟩ : ∃ D, l.u.1 * l.v.2 - l.u.2 * l.v.1 = D := ⟨_, rfl⟩
  simp only [crossProduct, hD] at hc' ⊢
  field_simp
  linear_combination hD

theorem length_eq_zero {x : ℝ × ℝ} (h : length x = 0) : x = (0, 0) := by
  unfold length at h
  rw [Real.sqrt_eq_zero (by positivity)] at h
  have h1 : x.1 = 0 := by nlinarith [sq_nonneg x.1, sq_nonneg x.2]
  have h2 : x.2 = 0 := by nlinarith [sq_nonneg x.1, sq_nonneg x.2]
  ext <;> simp [h1, h2]

theorem order_eq_zero {u v : ℝ × ℝ} (hi : Independent u v) {g : ℤ × ℤ} (h : length (orderVector u v g) ≤ 0) :
    g = (0, 0) := by
  have h0 : length (orderVector u v g) = 0 := le_antisymm h (Real.sqrt_nonneg _)
  have e := length_eq_zero h0
  obtain ⟨h1, h2⟩ := orderVector_dot hi g
  rw [e] at h1 h2
  simp only [dot, zero_mul, add_zero] at h1 h2
  ext
  · exact_mod_cast h1.symm
  · exact_mod_cast h2.symm

theorem orderVector_zero (u v : ℝ × ℝ) : length (orderVector u v (0, 0)) = 0 := by
  simp [orderVector, length]

theorem orderVector_neg (u v : ℝ × ℝ) (g : ℤ × ℤ) : length (orderVector u v (-g.1, -g.2)) = length (orderVector u v g) := by
  unfold length orderVector
  congr 1
  push_cast
  ring

/-- Radius of the truncation circle: `sqrt(N |u' × v'| / π)` with `|u' × v'| = 1 / |u × v|`. -/
noncomputable def truncationRadius (u v : ℝ × ℝ) (num : ℤ) : ℝ :=
  Real.sqrt (num * |1 / (u.1 * v.2 - u.2 * v.1)| / Real.pi)

theorem circular_perm {argsort : List ℝ → List ℕ} (hs : IsArgsort argsort) {l r : LatticeVectors}
    (h : reciprocal l = .ok r) (num : ℤ) (p : ℤ × ℤ) :
    p ∈ basisCoefficientsCircular argsort r num ↔
      (-num / 2 ≤ p.1 ∧ p.1 ≤ num / 2) ∧ (-num / 2 ≤ p.2 ∧ p.2 ≤ num / 2) ∧
        length (orderVector l.u l.v p) < truncationRadius l.u l.v num := by
  unfold basisCoefficientsCircular
  simp only
  rw [(takeRows_perm hs _ _).mem_iff, List.mem_filter, mem_meshgridFlat, mem_arangeInt, mem_arangeInt]
  simp only [decide_eq_true_eq, latticeMagnitude_reciprocal h, crossProduct_reciprocal h, Int.lt_add_one_iff]
  unfold truncationRadius
  tauto

theorem circular_nodup {argsort : List ℝ → List ℕ} (hs : IsArgsort argsort) (r : LatticeVectors) (num : ℤ) :
    (basisCoefficientsCircular argsort r num).Nodup := by
  unfold basisCoefficientsCircular
  simp only
  rw [(takeRows_perm hs _ _).nodup_iff]
  exact (nodup_meshgridFlat (nodup_arangeInt _ _) (nodup_arangeInt _ _)).filter _

theorem circular_sorted {argsort : List ℝ → List ℕ} (hs : IsArgsort argsort) (r : LatticeVectors) (num : ℤ) :
    (basisCoefficientsCircular argsort r num).Pairwise (fun x y => latticeMagnitude r x ≤ latticeMagnitude r y) := by
  unfold basisCoefficientsCircular
  exact takeRows_sorted hs _ _

theorem reciprocal_length {l r : LatticeVectors} (h : reciprocal l = .ok r) :
    0 < length r.u ∧ 0 < length r.v ∧ length r.u = length (orderVector l.u l.v (1, 0)) ∧
      length r.v = length (orderVector l.u l.v (0, 1)) := by
  have hi : Independent l.u l.v := (reciprocal_eq_ok.1 h).1
  have e1 : length r.u = length (orderVector l.u l.v (1, 0)) := by
    rw [← latticeMagnitude_reciprocal h]; simp [latticeMagnitude, length]
  have e2 : length r.v = length (orderVector l.u l.v (0, 1)) := by
    rw [← latticeMagnitude_reciprocal h]; simp [latticeMagnitude, length]
  refine ⟨?_, ?_, e1, e2⟩
  · rw [e1]
    by_contra hn
    have := order_eq_zero hi (not_lt.1 hn)
    simp at this
  · rw [e2]
    by_contra hn
    have := order_eq_zero hi (not_lt.1 hn)
    simp at this

/-- The half sides of the (rounded) parallelogram. -/
theorem parallelogramic_eq {argsort : List ℝ → List ℕ} (hs : IsArgsort argsort) {l r : LatticeVectors}
    (h : reciprocal l = .ok r) {num : ℤ} (hn : 0 ≤ num) :
    ∃ G, basisCoefficientsParallelogramic argsort r num = .ok G ∧ G.Nodup ∧
      G.Pairwise (fun x y => latticeMagnitude r x ≤ latticeMagnitude r y) ∧
      ∀ p : ℤ × ℤ, p ∈ G ↔ |p.1| ≤ roundHalfEven (quadraticRoot num (length r.u / length r.v)) ∧
        |p.2| ≤ roundHalfEven (quadraticRoot num (length r.v / length r.u)) := by
  obtain ⟨hu, hv, -, -⟩ := reciprocal_length h
  have eu : Real.sqrt (|r.u.1| ^ 2 + |r.u.2| ^ 2) = length r.u := by simp [length, sq_abs]
  have ev : Real.sqrt (|r.v.1| ^ 2 + |r.v.2| ^ 2) = length r.v := by simp [length, sq_abs]
  unfold basisCoefficientsParallelogramic
  simp only [eu, ev]
  rw [solveQuadratic_eq hn (div_pos hu hv), solveQuadratic_eq hn (div_pos hv hu)]
  refine ⟨_, rfl, ?_, takeRows_sorted hs _ _, ?_⟩
  · rw [(takeRows_perm hs _ _).nodup_iff]
    exact nodup_meshgridFlat (nodup_arangeInt _ _) (nodup_arangeInt _ _)
  · intro p
    rw [(takeRows_perm hs _ _).mem_iff, mem_meshgridFlat, mem_arangeInt, mem_arangeInt]
    simp only [Int.lt_add_one_iff, abs_le]

/-- A concrete argsort, to show that the assumption is satisfiable. -/
noncomputable def mergeArgsort (keys : List ℝ) : List ℕ :=
  open Classical in (List.range keys.length).mergeSort fun i j => decide (keys.getD i 0 ≤ keys.getD j 0)

theorem isArgsort_merge : IsArgsort mergeArgsort where
  perm := fun keys => List.mergeSort_perm _ _
  sorted := fun keys => by
    rw [List.pairwise_map]
    unfold mergeArgsort
    have := List.pairwise_mergeSort (le := open Classical in fun i j : ℕ => decide (keys.getD i 0 ≤ keys.getD j 0))
      (fun a b c h1 h2 => by simp only [decide_eq_true_eq] at *; exact le_trans h1 h2)
      (fun a b => by simp only [Bool.or_eq_true, decide_eq_true_eq]; exact le_total _ _) (List.range keys.length)
    exact this.imp fun h => by simpa using h

end Fmmax
