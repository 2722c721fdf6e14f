import Verif.Proofs.CrossedTangent
import Verif.Props.Expansion
import Verif.Props.TangentField

/-! Tangent vector fields of supercells (C100). -/

namespace Fmmax

open Matrix Spec

variable {ι κ : Type} [Fintype ι] [DecidableEq ι] [Fintype κ] [DecidableEq κ] {nx ny m n K L K' L' : ℕ}

/-! ### Boxes of orders -/

theorem Spec.IsBox.card {G : ι → ℤ × ℤ} (h : IsBox K L G) : Fintype.card ι = (2 * K + 1) * (2 * L + 1) := by
  have e : (Finset.univ.image G) = Finset.Icc (-(K : ℤ)) K ×ˢ Finset.Icc (-(L : ℤ)) L := by
    ext p
    simp only [Finset.mem_image, Finset.mem_univ, true_and, Finset.mem_product, Finset.mem_Icc, h.orders p, abs_le]
  have := congrArg Finset.card e
  rw [Finset.card_image_of_injective _ h.injective, Finset.card_univ, Finset.card_product, Int.card_Icc, Int.card_Icc] at this
  rw [this]
  congr 1 <;> omega

theorem Spec.IsBox.doubledMinShape {G : ι → ℤ × ℤ} (h : IsBox K L G) :
    doubledMinShape G nx ny = .ok ((2 * K + 1) * (if 1 < nx then 2 else 1), (2 * L + 1) * (if 1 < ny then 2 else 1)) := by
  have hc : Fintype.card ι ≠ 0 := by rw [h.card]; positivity
  have e1 : (Finset.univ.sup fun i => (G i).1.natAbs) = K := by
    refine le_antisymm (Finset.sup_le fun i _ => ?_) ?_
    · have := ((h.orders (G i)).1 ⟨i, rfl⟩).1
      rw [Int.abs_eq_natAbs] at this
      exact_mod_cast this
    · obtain ⟨i, hi⟩ := (h.orders (K, 0)).2 ⟨by simp, by simp⟩
      have := Finset.le_sup (f := fun i => (G i).1.natAbs) (Finset.mem_univ i)
      simp only [hi] at this
      simpa using this
  have e2 : (Finset.univ.sup fun i => (G i).2.natAbs) = L := by
    refine le_antisymm (Finset.sup_le fun i _ => ?_) ?_
    · have := ((h.orders (G i)).1 ⟨i, rfl⟩).2
      rw [Int.abs_eq_natAbs] at this
      exact_mod_cast this
    · obtain ⟨i, hi⟩ := (h.orders (0, L)).2 ⟨by simp, by simp⟩
      have := Finset.le_sup (f := fun i => (G i).2.natAbs) (Finset.mem_univ i)
      simp only [hi] at this
      simpa using this
  unfold Fmmax.doubledMinShape minArrayShapeForExpansion
  rw [if_neg hc, e1, e2]
  rfl

theorem Spec.IsBox.resolves {G : ι → ℤ × ℤ} (h : IsBox K L G) (hx : 2 * K + 1 ≤ nx) (hy : 2 * L + 1 ≤ ny) : Resolves nx ny G := by
  refine ⟨?_, fun i => ?_⟩
  · obtain ⟨i, -⟩ := (h.orders (0, 0)).2 ⟨by simp, by simp⟩
    exact ⟨i⟩
  · obtain ⟨h1, h2⟩ := (h.orders (G i)).1 ⟨i, rfl⟩
    omega

/-- The boxes of a single cell and of a supercell with an odd number of cells along either axis correspond. -/
theorem Spec.IsBox.supercell {G : ι → ℤ × ℤ} {G' : κ → ℤ × ℤ} (h : IsBox K L G) (h' : IsBox K' L' G') (hK : 2 * K' + 1 = m * (2 * K + 1))
    (hL : 2 * L' + 1 = n * (2 * L + 1)) : SupercellExpansion m n G G' := by
  have hm : 0 < m := Nat.pos_of_ne_zero (by rintro rfl; omega)
  have hn : 0 < n := Nat.pos_of_ne_zero (by rintro rfl; omega)
  have bound : ∀ (m K K' : ℕ) (x : ℤ), 0 < m → 2 * K' + 1 = m * (2 * K + 1) → (|(m : ℤ) * x| ≤ K' ↔ |x| ≤ K) := by
    intro m K K' x hm hK
    have hm' : (0 : ℤ) < m := by exact_mod_cast hm
    have hK' : 2 * (K' : ℤ) + 1 = m * (2 * K + 1) := by exact_mod_cast hK
    rw [abs_mul, abs_of_pos hm']
    constructor
    · intro hx
      by_contra hc
      push Not at hc
      nlinarith
    · intro hx
      have : (m : ℤ) * |x| ≤ m * K := mul_le_mul_of_nonneg_left hx hm'.le
      nlinarith
  refine ⟨?_, fun i => ?_, fun k h1 h2 => ?_⟩
  · rw [h.card, h'.card, hK, hL]; ring
  · obtain ⟨h1, h2⟩ := (h.orders (G i)).1 ⟨i, rfl⟩
    exact (h'.orders _).2 ⟨(bound m K K' _ hm hK).2 h1, (bound n L L' _ hn hL).2 h2⟩
  · obtain ⟨x, hx⟩ := h1
    obtain ⟨y, hy⟩ := h2
    obtain ⟨b1, b2⟩ := (h'.orders (G' k)).1 ⟨k, rfl⟩
    rw [hx] at b1
    rw [hy] at b2
    obtain ⟨i, hi⟩ := (h.orders (x, y)).2 ⟨(bound m K K' x hm hK).1 b1, (bound n L L' y hn hL).1 b2⟩
    exact ⟨i, by rw [hi]; exact Prod.ext hx hy⟩

/-! ### C100 -/

/-- C100: the tangent field of a pattern repeated in the `m × n` cells of a supercell is the tangent field of the single cell, repeated, whatever
the method and with the same weights: if the expansion has `m n` times as many orders, among them those of the single cell at their places; if the
grids on which the field is optimised correspond; and if the band-limited gradient is not negligible (it exceeds the threshold `1e-8` of `normalize`
somewhere on that grid).  -/
theorem C100_supercell (method : VectorMethod) (x : Matrix (Fin nx) (Fin ny) ℂ) (G : ι → ℤ × ℤ) (G' : κ → ℤ × ℤ) (l : LatticeVectors)
    (fw sw : ℝ) (hp : 0 < fw ∨ 0 < sw) (hm : m ≠ 0) (hn : n ≠ 0) (h : SupercellExpansion m n G G') (hG : Function.Injective G) (hG' : Function.Injective G')
    (hr : Resolves nx ny G) (hr' : Resolves (m * nx) (n * ny) G') (M : ℕ × ℕ) (hM : doubledMinShape G nx ny = .ok M)
    (hM' : doubledMinShape G' (m * nx) (n * ny) = .ok (m * M.1, n * M.2)) (h1 : m = 1 ∨ 1 < nx) (h2 : n = 1 ∨ 1 < ny)
    (g : VectorField nx ny) (hg : computeGradient x l = .ok g) (r : Fin M.1) (s : Fin M.2)
    (hrs : 1e-8 < magnitude fun c => fourierSeries G (fun k => fourierCoefficient (Matrix.of fun i j => g i j c) (G k)) M.1 M.2 r s) :
    ∃ t, computeField method x G l fw sw = .ok t ∧
      computeField method (Grid.pull (tile m n) x) G' ⟨(m : ℝ) • l.u, (n : ℝ) • l.v⟩ fw sw = .ok (tileField m n t) := by
  have : NeZero nx := ⟨hr.pos.1.ne'⟩
  have : NeZero ny := ⟨hr.pos.2.ne'⟩
  have hl : Independent l.u l.v := (computeGradient_eq_ok.1 hg).1
  have key : ∀ b, ∃ t, computeTangentFieldNoBatch x G l b fw sw 1 = .ok t ∧
      computeTangentFieldNoBatch (Grid.pull (tile m n) x) G' ⟨(m : ℝ) • l.u, (n : ℝ) • l.v⟩ b fw sw 1 = .ok (tileField m n t) := by
    intro b
    obtain ⟨t, ht⟩ := computeTangentField_exists_steps x b 1 hG hr hl hp
    obtain ⟨t', ht'⟩ := computeTangentField_exists_steps (Grid.pull (tile m n) x) b 1 hG' hr' ((supercellLattice_independent hm hn).2 hl) hp
    have e := computeTangentField_tile hm hn h hG hG' hr hr' hM hM' h1 h2 hg r s hrs ht ht'
    rw [e] at ht'
    exact ⟨t, ht, ht'⟩
  cases method with
  | jonesDirect => exact key true
  | pol => exact key false
  | jones =>
    obtain ⟨t, ht, ht'⟩ := key false
    obtain ⟨j, hj⟩ := normalizeJones_exists hr.pos.1 hr.pos.2 t
    refine ⟨j, ?_, ?_⟩
    · simp only [computeField, ht, bind, Except.bind, hj]
    · simp only [computeField, ht', bind, Except.bind]
      exact normalizeJones_tile hm hn hj
  | normal =>
    obtain ⟨t, ht, ht'⟩ := key false
    refine ⟨normalizeElementwise t, ?_, ?_⟩
    · simp only [computeField, ht, bind, Except.bind]
    · simp only [computeField, ht', bind, Except.bind]
      rfl

/-- C100 for boxes of orders: the tangent field of a supercell with an odd number of cells along either axis is that of the single cell. -/
theorem C100_box (method : VectorMethod) (x : Matrix (Fin nx) (Fin ny) ℂ) (G : ι → ℤ × ℤ) (G' : κ → ℤ × ℤ) (l : LatticeVectors) (fw sw : ℝ)
    (hp : 0 < fw ∨ 0 < sw) (h : IsBox K L G) (h' : IsBox K' L' G') (hK : 2 * K' + 1 = m * (2 * K + 1)) (hL : 2 * L' + 1 = n * (2 * L + 1))
    (hx : 2 * K + 1 ≤ nx) (hy : 2 * L + 1 ≤ ny) (hx1 : 1 < nx) (hy1 : 1 < ny) (g : VectorField nx ny) (hg : computeGradient x l = .ok g)
    (r : Fin ((2 * K + 1) * 2)) (s : Fin ((2 * L + 1) * 2))
    (hrs : 1e-8 < magnitude fun c =>
      fourierSeries G (fun k => fourierCoefficient (Matrix.of fun i j => g i j c) (G k)) ((2 * K + 1) * 2) ((2 * L + 1) * 2) r s) :
    ∃ t, computeField method x G l fw sw = .ok t ∧
      computeField method (Grid.pull (tile m n) x) G' ⟨(m : ℝ) • l.u, (n : ℝ) • l.v⟩ fw sw = .ok (tileField m n t) := by
  have hm : m ≠ 0 := by rintro rfl; omega
  have hn : n ≠ 0 := by rintro rfl; omega
  have hx' : 1 < m * nx := lt_of_lt_of_le hx1 (Nat.le_mul_of_pos_left _ (Nat.pos_of_ne_zero hm))
  have hy' : 1 < n * ny := lt_of_lt_of_le hy1 (Nat.le_mul_of_pos_left _ (Nat.pos_of_ne_zero hn))
  have hM := h.doubledMinShape (nx := nx) (ny := ny)
  have hM' := h'.doubledMinShape (nx := m * nx) (ny := n * ny)
  rw [if_pos hx1, if_pos hy1] at hM
  rw [if_pos hx', if_pos hy', hK, hL, mul_assoc, mul_assoc] at hM'
  exact C100_supercell method x G G' l fw sw hp hm hn (h.supercell h' hK hL) h.injective h'.injective (h.resolves hx hy)
    (h'.resolves (by rw [hK]; exact Nat.mul_le_mul_left _ hx) (by rw [hL]; exact Nat.mul_le_mul_left _ hy)) _ hM hM' (Or.inr hx1) (Or.inr hy1) g hg r s hrs

theorem parallelogramic_isBox {argsort : List ℝ → List ℕ} (hs : IsArgsort argsort) {l : LatticeVectors} (h : Independent l.u l.v)
    (hl : length l.u = length l.v) {G : List (ℤ × ℤ)} (hG : generateExpansion argsort l ((2 * K + 1) ^ 2) .parallelogramic = .ok G) :
    IsBox K K G.get := by
  obtain ⟨G', nu, nv, xu, xv, hG', hnd, hmem, hxu, hxv, hN, hrat, hnu, hnv, -, -⟩ := C08_parallelogramic_box hs l h ((2 * K + 1) ^ 2) (one_le_pow₀ (by omega))
  rw [hG, ok_inj] at hG'
  subst hG'
  obtain ⟨q, hq⟩ := reciprocal_of_independent h
  obtain ⟨hu, hv, eu, ev⟩ := reciprocal_length hq
  have hlen : length (orderVector l.u l.v (1, 0)) = length (orderVector l.u l.v (0, 1)) := by
    have hl2 : l.u.1 ^ 2 + l.u.2 ^ 2 = l.v.1 ^ 2 + l.v.2 ^ 2 := by
      unfold length at hl
      exact (Real.sqrt_inj (by positivity) (by positivity)).1 hl
    unfold length orderVector
    congr 1
    simp only [Int.cast_one, Int.cast_zero, one_mul, zero_mul, sub_zero, zero_sub, div_pow, neg_sq]
    rw [← add_div, ← add_div]
    congr 1
    linarith
  have hK0 : (0 : ℝ) ≤ K := by positivity
  obtain ⟨h1, h2⟩ := C08_half_sides_unique (xu := xu) (xv := xv) (yu := K) (yv := K) (N := ((2 * K + 1) ^ 2 : ℤ)) (eu ▸ hu) (ev ▸ hv) hxu hxv hK0 hK0 hN
    (by push_cast; ring) hrat (by rw [hlen])
  have near : ∀ (z : ℤ), |(z : ℝ) - K| ≤ 1 / 2 → z = K := by
    intro z hz
    have h3 : |(z : ℝ) - K| < 1 := by linarith
    have h4 : |z - (K : ℤ)| < 1 := by exact_mod_cast h3
    have := Int.abs_lt_one_iff.1 h4
    omega
  rw [h1] at hnu
  rw [h2] at hnv
  have e1 := near nu hnu
  have e2 := near nv hnv
  refine ⟨List.nodup_iff_injective_get.1 hnd, fun p => ?_⟩
  have := hmem p.1 p.2
  rw [e1, e2] at this
  rw [← this]
  exact (List.mem_iff_get (a := p)).symm

/-- C100 for the parallelogramic expansions generated for a cell with sides of the same length and for the supercell of `m × m` of them, with `m` odd and
with `m ^ 2` times as many terms. -/
theorem C100_generated {argsort : List ℝ → List ℕ} (hs : IsArgsort argsort) (method : VectorMethod) (x : Matrix (Fin nx) (Fin ny) ℂ) (l : LatticeVectors)
    (hl : length l.u = length l.v) (hm : m % 2 = 1) (G G' : List (ℤ × ℤ)) (hG : generateExpansion argsort l ((2 * K + 1) ^ 2) .parallelogramic = .ok G)
    (hG' : generateExpansion argsort ⟨(m : ℝ) • l.u, (m : ℝ) • l.v⟩ (m ^ 2 * (2 * K + 1) ^ 2) .parallelogramic = .ok G') (fw sw : ℝ) (hp : 0 < fw ∨ 0 < sw)
    (hx : 2 * K + 1 ≤ nx) (hy : 2 * K + 1 ≤ ny) (hx1 : 1 < nx) (hy1 : 1 < ny) (g : VectorField nx ny) (hg : computeGradient x l = .ok g)
    (r s : Fin ((2 * K + 1) * 2))
    (hrs : 1e-8 < magnitude fun c =>
      fourierSeries G.get (fun k => fourierCoefficient (Matrix.of fun i j => g i j c) (G.get k)) ((2 * K + 1) * 2) ((2 * K + 1) * 2) r s) :
    ∃ t, computeField method x G.get l fw sw = .ok t ∧
      computeField method (Grid.pull (tile m m) x) G'.get ⟨(m : ℝ) • l.u, (m : ℝ) • l.v⟩ fw sw = .ok (tileField m m t) := by
  have : NeZero nx := ⟨by omega⟩
  have : NeZero ny := ⟨by omega⟩
  have hi : Independent l.u l.v := (computeGradient_eq_ok.1 hg).1
  have hm0 : m ≠ 0 := by rintro rfl; omega
  obtain ⟨K', hK'⟩ : ∃ K', 2 * K' + 1 = m * (2 * K + 1) := by
    refine ⟨m * K + m / 2, ?_⟩
    have := Nat.div_add_mod m 2
    rw [hm] at this
    nlinarith
  have hl' : length ((m : ℝ) • l.u) = length ((m : ℝ) • l.v) := by
    unfold length at hl ⊢
    simp only [Prod.smul_fst, Prod.smul_snd, smul_eq_mul, mul_pow, ← mul_add]
    rw [Real.sqrt_mul (by positivity), Real.sqrt_mul (by positivity), hl]
  have hnum : ((m : ℤ) ^ 2 * (2 * K + 1) ^ 2) = (2 * (K' : ℤ) + 1) ^ 2 := by
    have : (2 * (K' : ℤ) + 1) = m * (2 * K + 1) := by exact_mod_cast hK'
    rw [this]; ring
  rw [hnum] at hG'
  exact C100_box method x G.get G'.get l fw sw hp (parallelogramic_isBox hs hi hl hG)
    (parallelogramic_isBox hs (l := ⟨(m : ℝ) • l.u, (m : ℝ) • l.v⟩) ((supercellLattice_independent hm0 hm0).2 hi) hl' hG') hK' hK' hx hy hx1 hy1 g hg r s hrs

/-- The orders `(m, n)` with `|m|, |n| ≤ K`. -/
def squareOrders (K : ℕ) : Fin (2 * K + 1) × Fin (2 * K + 1) → ℤ × ℤ := fun p => ((p.1 : ℤ) - K, (p.2 : ℤ) - K)

theorem squareOrders_isBox (K : ℕ) : IsBox K K (squareOrders K) := by
  refine ⟨fun p q h => ?_, fun p => ?_⟩
  · simp only [squareOrders, Prod.mk.injEq] at h
    exact Prod.ext (Fin.ext (by omega)) (Fin.ext (by omega))
  · constructor
    · rintro ⟨i, rfl⟩
      simp only [squareOrders, abs_le]
      omega
    · rintro ⟨h1, h2⟩
      rw [abs_le] at h1 h2
      refine ⟨(⟨(p.1 + K).toNat, by omega⟩, ⟨(p.2 + K).toNat, by omega⟩), ?_⟩
      unfold squareOrders
      apply Prod.ext <;> simp only <;> omega

def squareOrders_crossed : HasCrossed (squareOrders 1) := ⟨(2, 1), (0, 1), (1, 2), (1, 0), by decide, by decide, by decide, by decide⟩

theorem crossed_magnitude : (1e-8 : ℝ) < magnitude fun c => fourierSeries (squareOrders 1) (fun k => fourierCoefficient (Matrix.of fun (i j : Fin 4) =>
    (![((-((4 : ℕ) * gridSin 4 1) * gridSin 4 i : ℝ) : ℂ), ((-((4 : ℕ) * gridSin 4 1) * gridSin 4 j : ℝ) : ℂ)] : Fin 2 → ℂ) c) (squareOrders 1 k)) 6 6 1 0 := by
  rw [squareOrders_crossed.bandlimited (squareOrders_isBox 1).injective ((squareOrders_isBox 1).resolves (by norm_num) (by norm_num))]
  have e1 : gridSin 4 1 = 1 := by
    unfold gridSin
    rw [show 2 * Real.pi * ((1 : ℕ) : ℝ) / ((4 : ℕ) : ℝ) = Real.pi / 2 by push_cast; ring, Real.sin_pi_div_two]
  have e2 : gridSin 6 ((1 : Fin 6) : ℕ) = Real.sqrt 3 / 2 := by
    unfold gridSin
    rw [show 2 * Real.pi * (((1 : Fin 6) : ℕ) : ℝ) / ((6 : ℕ) : ℝ) = Real.pi / 3 by
      rw [show ((1 : Fin 6) : ℕ) = 1 from rfl]; push_cast; ring, Real.sin_pi_div_three]
  have e3 : gridSin 6 ((0 : Fin 6) : ℕ) = 0 := by simp [gridSin]
  rw [e1, e2, e3]
  unfold magnitude
  simp only [cons_val_zero, cons_val_one, Complex.norm_real, Real.norm_eq_abs, sq_abs]
  refine Real.lt_sqrt_of_sq_lt ?_
  have : Real.sqrt 3 ^ 2 = 3 := Real.sq_sqrt (by norm_num)
  push_cast
  nlinarith

/-- The tangent field of the supercell of three by three cells with a crossed pattern, with 81 orders, is that of a single cell with 9 orders. -/
example (method : VectorMethod) : ∃ t, computeField method (crossedPattern 4 4) (squareOrders 1) unitSquare 0 2 = .ok t ∧
    computeField method (Grid.pull (tile 3 3) (crossedPattern 4 4)) (squareOrders 4) ⟨((3 : ℕ) : ℝ) • unitSquare.u, ((3 : ℕ) : ℝ) • unitSquare.v⟩ 0 2 =
      .ok (tileField 3 3 t) :=
  C100_box method _ _ _ unitSquare 0 2 (Or.inr two_pos) (squareOrders_isBox 1) (squareOrders_isBox 4) (by norm_num) (by norm_num) (by norm_num) (by norm_num)
    (by norm_num) (by norm_num) _ (crossedPattern_gradient (by norm_num) (by norm_num)) 1 0 crossed_magnitude

/-- The hypotheses of `C100_generated` hold for this cell and the generated expansions. -/
example {argsort : List ℝ → List ℕ} (hs : IsArgsort argsort) (method : VectorMethod) :
    ∃ G G' t, generateExpansion argsort unitSquare 9 .parallelogramic = .ok G ∧
      generateExpansion argsort ⟨((3 : ℕ) : ℝ) • unitSquare.u, ((3 : ℕ) : ℝ) • unitSquare.v⟩ 81 .parallelogramic = .ok G' ∧
      computeField method (crossedPattern 4 4) G.get unitSquare 0 2 = .ok t ∧
      computeField method (Grid.pull (tile 3 3) (crossedPattern 4 4)) G'.get ⟨((3 : ℕ) : ℝ) • unitSquare.u, ((3 : ℕ) : ℝ) • unitSquare.v⟩ 0 2 =
        .ok (tileField 3 3 t) := by
  have hi : Independent unitSquare.u unitSquare.v := by unfold Independent unitSquare; norm_num
  have hl : length unitSquare.u = length unitSquare.v := by unfold length unitSquare; norm_num
  obtain ⟨G, -, -, -, -, hG, -⟩ := C08_parallelogramic_box hs unitSquare hi 9 (by norm_num)
  obtain ⟨G', -, -, -, -, hG', -⟩ := C08_parallelogramic_box hs ⟨((3 : ℕ) : ℝ) • unitSquare.u, ((3 : ℕ) : ℝ) • unitSquare.v⟩
    ((supercellLattice_independent (by norm_num) (by norm_num)).2 hi) 81 (by norm_num)
  have hbox : IsBox 1 1 G.get := parallelogramic_isBox hs hi hl (by norm_num; exact hG)
  have hc : Nonempty (HasCrossed G.get) := by
    obtain ⟨a, ha⟩ := (hbox.orders (1, 0)).2 (by norm_num)
    obtain ⟨b, hb⟩ := (hbox.orders (-1, 0)).2 (by norm_num)
    obtain ⟨c, hc⟩ := (hbox.orders (0, 1)).2 (by norm_num)
    obtain ⟨d, hd⟩ := (hbox.orders (0, -1)).2 (by norm_num)
    exact ⟨⟨a, b, c, d, ha, hb, hc, hd⟩⟩
  obtain ⟨hc⟩ := hc
  have hmag := crossed_magnitude
  rw [squareOrders_crossed.bandlimited (squareOrders_isBox 1).injective ((squareOrders_isBox 1).resolves (by norm_num) (by norm_num)),
    ← hc.bandlimited (nx := 4) (ny := 4) hbox.injective (hbox.resolves (by norm_num) (by norm_num))] at hmag
  obtain ⟨t, h1, h2⟩ := C100_generated (K := 1) (m := 3) hs method (crossedPattern 4 4) unitSquare hl rfl G G' (by norm_num; exact hG) (by norm_num; exact hG') 0 2
    (Or.inr two_pos) (by norm_num) (by norm_num) (by norm_num) (by norm_num) _ (crossedPattern_gradient (by norm_num) (by norm_num)) 1 0 hmag
  exact ⟨G, G', t, hG, hG', h1, h2⟩

end Fmmax
