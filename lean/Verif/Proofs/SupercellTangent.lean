import Verif.Spec.SupercellTangent
import Verif.Proofs.SupercellMedia
import Verif.Proofs.VectorLoss
import Verif.Proofs.Plane

/-! Tangent fields of supercells. -/

set_option linter.unusedSectionVars false

namespace Fmmax

open Matrix Spec

variable {ι κ : Type} {nx ny m n : ℕ}

/-! ### Repeated fields -/

theorem tile_add_one [NeZero nx] [NeZero (m * nx)] (i : Fin (m * nx)) (j : Fin (n * ny)) (j' : Fin (n * ny)) :
    (tile m n (i + 1, j) : Fin nx × Fin ny).1 = (tile m n (i, j') : Fin nx × Fin ny).1 + 1 := by
  apply Fin.ext
  change ((i + 1 : Fin (m * nx)) : ℕ) % nx = _
  rw [Fin.val_add, Fin.val_add, Fin.val_one', Fin.val_one']
  simp [tile, Nat.mod_mul_left_mod]

theorem tile_add_one' [NeZero ny] [NeZero (n * ny)] (i i' : Fin (m * nx)) (j : Fin (n * ny)) :
    (tile m n (i, j + 1) : Fin nx × Fin ny).2 = (tile m n (i', j) : Fin nx × Fin ny).2 + 1 := by
  apply Fin.ext
  change ((j + 1 : Fin (n * ny)) : ℕ) % ny = _
  rw [Fin.val_add, Fin.val_add, Fin.val_one', Fin.val_one']
  simp [tile, Nat.mod_mul_left_mod]

theorem tile_fst (i : Fin (m * nx)) (j j' : Fin (n * ny)) : (tile m n (i, j) : Fin nx × Fin ny).1 = (tile m n (i, j') : Fin nx × Fin ny).1 := rfl

theorem tile_snd (i i' : Fin (m * nx)) (j : Fin (n * ny)) : (tile m n (i, j) : Fin nx × Fin ny).2 = (tile m n (i', j) : Fin nx × Fin ny).2 := rfl

theorem tile_sub_one [NeZero nx] [NeZero (m * nx)] (i : Fin (m * nx)) (j : Fin (n * ny)) :
    (tile m n (i - 1, j) : Fin nx × Fin ny).1 = (tile m n (i, j) : Fin nx × Fin ny).1 - 1 := by
  have := tile_add_one (nx := nx) (ny := ny) (i - 1) j j
  rw [sub_add_cancel] at this
  rw [this, add_sub_cancel_right]

theorem tile_sub_one' [NeZero ny] [NeZero (n * ny)] (i : Fin (m * nx)) (j : Fin (n * ny)) :
    (tile m n (i, j - 1) : Fin nx × Fin ny).2 = (tile m n (i, j) : Fin nx × Fin ny).2 - 1 := by
  have := tile_add_one' (nx := nx) (ny := ny) i i (j - 1)
  rw [sub_add_cancel] at this
  rw [this, add_sub_cancel_right]

/-- The lattice of the supercell. -/
def supercellLattice (m n : ℕ) (l : LatticeVectors) : LatticeVectors := ⟨(m : ℝ) • l.u, (n : ℝ) • l.v⟩

theorem supercellLattice_cross (m n : ℕ) (l : LatticeVectors) :
    (supercellLattice m n l).u.1 * (supercellLattice m n l).v.2 - (supercellLattice m n l).u.2 * (supercellLattice m n l).v.1 =
      m * n * (l.u.1 * l.v.2 - l.u.2 * l.v.1) := by
  simp only [supercellLattice, Prod.smul_fst, Prod.smul_snd, smul_eq_mul]
  ring

theorem supercellLattice_independent (hm : m ≠ 0) (hn : n ≠ 0) {l : LatticeVectors} :
    Independent (supercellLattice m n l).u (supercellLattice m n l).v ↔ Independent l.u l.v := by
  have h1 : (m : ℝ) ≠ 0 := by exact_mod_cast hm
  have h2 : (n : ℝ) ≠ 0 := by exact_mod_cast hn
  unfold Independent
  rw [supercellLattice_cross]
  simp [h1, h2]

theorem computeGradient_tile (hm : m ≠ 0) (hn : n ≠ 0) (hx : nx ≠ 0) (hy : ny ≠ 0) {x : Matrix (Fin nx) (Fin ny) ℂ} {l : LatticeVectors}
    {g : VectorField nx ny} (hg : computeGradient x l = .ok g) :
    computeGradient (Grid.pull (tile m n) x) (supercellLattice m n l) =
      .ok fun i j c => (Real.sqrt (m * n) : ℂ) * tileField m n g i j c := by
  have : NeZero nx := ⟨hx⟩
  have : NeZero ny := ⟨hy⟩
  have : NeZero (m * nx) := ⟨mul_ne_zero hm hx⟩
  have : NeZero (n * ny) := ⟨mul_ne_zero hn hy⟩
  rw [computeGradient_eq_ok] at hg ⊢
  refine ⟨(supercellLattice_independent hm hn).2 hg.1, fun i j => ?_⟩
  obtain ⟨h1, h2⟩ := hg.2 (tile m n (i, j)).1 (tile m n (i, j)).2
  have hsq : Real.sqrt |m * n * (l.u.1 * l.v.2 - l.u.2 * l.v.1)| = Real.sqrt (m * n) * Real.sqrt |l.u.1 * l.v.2 - l.u.2 * l.v.1| := by
    rw [abs_mul, abs_of_nonneg (by positivity : (0 : ℝ) ≤ m * n), Real.sqrt_mul (by positivity)]
  rw [supercellLattice_cross, hsq]
  simp only [Grid.pull, of_apply]
  rw [tile_add_one i j j, tile_sub_one i j, tile_add_one' i i j, tile_sub_one' i j, tile_snd (i + 1) i j, tile_snd (i - 1) i j,
    tile_fst i (j + 1) j, tile_fst i (j - 1) j]
  simp only [supercellLattice, Prod.smul_fst, Prod.smul_snd, smul_eq_mul, tileField]
  push_cast
  constructor
  · linear_combination (m : ℂ) * (Real.sqrt (m * n) : ℂ) * h1
  · linear_combination (n : ℂ) * (Real.sqrt (m * n) : ℂ) * h2

theorem tile_point (hm : m ≠ 0) (hn : n ≠ 0) (r : Fin nx) (s : Fin ny) : ∃ i j, tile m n (i, j) = (r, s) := by
  obtain ⟨p, hp⟩ := tile_surjective hm hn (r, s)
  exact ⟨p.1, p.2, hp⟩

theorem maxFieldMagnitude_tile (hm : m ≠ 0) (hn : n ≠ 0) (f : VectorField nx ny) :
    maxFieldMagnitude (tileField m n f) = maxFieldMagnitude f := by
  have key : ∀ a, maxFieldMagnitude (tileField m n f) = .ok a ↔ maxFieldMagnitude f = .ok a := by
    intro a
    rw [maxFieldMagnitude_eq_ok, maxFieldMagnitude_eq_ok]
    constructor
    · rintro ⟨h1, i, j, h2⟩
      refine ⟨fun r s => ?_, _, _, h2⟩
      obtain ⟨i, j, h⟩ := tile_point hm hn r s
      have := h1 i j
      simp only [tileField, h] at this
      exact this
    · rintro ⟨h1, r, s, h2⟩
      obtain ⟨i, j, h⟩ := tile_point hm hn r s
      exact ⟨fun i j => h1 _ _, i, j, by simp only [tileField, h]; exact h2⟩
  cases h : maxFieldMagnitude f with
  | ok a => exact (key a).2 h
  | error e =>
    cases h' : maxFieldMagnitude (tileField m n f) with
    | ok a => rw [(key a).1 h'] at h; cases h
    | error e' =>
      unfold maxFieldMagnitude at h h'
      split at h <;> split at h' <;> simp_all

theorem normalize_tile (hm : m ≠ 0) (hn : n ≠ 0) {f g : VectorField nx ny} (h : normalize f = .ok g) :
    normalize (tileField m n f) = .ok (tileField m n g) := by
  unfold normalize at h ⊢
  rw [maxFieldMagnitude_tile hm hn]
  obtain ⟨a, ha, h⟩ := bind_eq_ok.1 h
  rw [ok_inj] at h
  rw [ha, ← h]
  rfl

theorem normalizeElementwise_tile (f : VectorField nx ny) :
    normalizeElementwise (tileField m n f) = tileField m n (normalizeElementwise f) := rfl

theorem normalizeJones_tile (hm : m ≠ 0) (hn : n ≠ 0) {f g : VectorField nx ny} (h : normalizeJones f = .ok g) :
    normalizeJones (tileField m n f) = .ok (tileField m n g) := by
  unfold normalizeJones at h ⊢
  obtain ⟨a, ha, h⟩ := bind_eq_ok.1 h
  rw [ok_inj] at h
  rw [normalize_tile hm hn ha, ← h]
  rfl

theorem targetAndInitialField_tile (hm : m ≠ 0) (hn : n ≠ 0) {f : VectorField nx ny} {b : Bool} {t : VectorField nx ny × VectorField nx ny}
    (h : targetAndInitialField f b = .ok t) :
    targetAndInitialField (tileField m n f) b = .ok (tileField m n t.1, tileField m n t.2) := by
  unfold targetAndInitialField at h ⊢
  cases b
  · simp only [Bool.false_eq_true, if_false] at h ⊢
    obtain ⟨a, ha, h⟩ := bind_eq_ok.1 h
    rw [ok_inj] at h
    have e := normalize_tile hm hn ha
    refine bind_eq_ok.2 ⟨_, e, ?_⟩
    rw [← h]
    rfl
  · simp only [if_true] at h ⊢
    obtain ⟨a, ha, h⟩ := bind_eq_ok.1 h
    rw [ok_inj] at h
    have e := normalizeJones_tile hm hn ha
    refine bind_eq_ok.2 ⟨_, e, ?_⟩
    rw [← h]

/-! ### The point of largest magnitude -/

theorem pairwise_lex (a b : ℕ) : (List.finRange a ×ˢ List.finRange b).Pairwise
    fun p q => p.1 < q.1 ∨ (p.1 = q.1 ∧ p.2 < q.2) := by
  change ((List.finRange a).flatMap fun i => (List.finRange b).map (Prod.mk i)).Pairwise _
  rw [List.pairwise_flatMap]
  refine ⟨fun i _ => ?_, ?_⟩
  · rw [List.pairwise_map]
    exact (List.pairwise_lt_finRange b).imp fun h => Or.inr ⟨rfl, h⟩
  · refine (List.pairwise_lt_finRange a).imp fun {i i'} h p hp q hq => ?_
    rw [List.mem_map] at hp hq
    obtain ⟨_, -, rfl⟩ := hp
    obtain ⟨_, -, rfl⟩ := hq
    exact Or.inl h

theorem idxOf_lex {a b : ℕ} (p q : Fin a × Fin b) :
    @List.idxOf _ instBEqOfDecidableEq p (List.finRange a ×ˢ List.finRange b) ≤
        @List.idxOf _ instBEqOfDecidableEq q (List.finRange a ×ˢ List.finRange b) ↔
      p.1 < q.1 ∨ (p.1 = q.1 ∧ p.2 ≤ q.2) := by
  letI : BEq (Fin a × Fin b) := instBEqOfDecidableEq
  set L := List.finRange a ×ˢ List.finRange b with hL
  have mem : ∀ p : Fin a × Fin b, p ∈ L := fun p => List.mem_product.2 ⟨List.mem_finRange _, List.mem_finRange _⟩
  have hlt : ∀ p, L.idxOf p < L.length := fun p => List.idxOf_lt_length_iff.2 (mem p)
  have hP := List.pairwise_iff_getElem.1 (pairwise_lex a b)
  have key : ∀ p q, L.idxOf p < L.idxOf q → p.1 < q.1 ∨ (p.1 = q.1 ∧ p.2 < q.2) := by
    intro p q h
    have := hP _ _ (hlt p) (hlt q) h
    simpa [← hL] using this
  constructor
  · intro h
    rcases h.lt_or_eq with h | h
    · rcases key p q h with h | h
      · exact Or.inl h
      · exact Or.inr ⟨h.1, h.2.le⟩
    · have : p = q := (List.idxOf_inj (mem p)).1 h
      exact Or.inr ⟨by rw [this], by rw [this]⟩
  · intro h
    by_contra hc
    have := key q p (not_le.1 hc)
    simp only [Fin.lt_def, Fin.le_def, Fin.ext_iff] at h this
    omega

theorem fieldAtMaxMagnitude_tile (hm : m ≠ 0) (hn : n ≠ 0) {f : VectorField nx ny} {v : Fin 2 → ℂ} (h : fieldAtMaxMagnitude f = .ok v) :
    fieldAtMaxMagnitude (tileField m n f) = .ok v := by
  unfold fieldAtMaxMagnitude at h
  cases hp : (List.finRange nx ×ˢ List.finRange ny).argmax (fun p => fieldMagnitude f p.1 p.2) with
  | none => rw [hp] at h; cases h
  | some p =>
    rw [hp] at h
    simp only [ok_inj] at h
    obtain ⟨-, hmax, hfirst⟩ := List.argmax_eq_some_iff.1 hp
    have mem : ∀ p : Fin nx × Fin ny, p ∈ List.finRange nx ×ˢ List.finRange ny := fun p =>
      List.mem_product.2 ⟨List.mem_finRange _, List.mem_finRange _⟩
    have h1 : (p.1 : ℕ) < m * nx := lt_of_lt_of_le p.1.isLt (Nat.le_mul_of_pos_left _ (Nat.pos_of_ne_zero hm))
    have h2 : (p.2 : ℕ) < n * ny := lt_of_lt_of_le p.2.isLt (Nat.le_mul_of_pos_left _ (Nat.pos_of_ne_zero hn))
    have ht : tile m n (⟨p.1, h1⟩, ⟨p.2, h2⟩) = p := by
      unfold tile
      apply Prod.ext <;> apply Fin.ext
      · exact Nat.mod_eq_of_lt p.1.isLt
      · exact Nat.mod_eq_of_lt p.2.isLt
    have hval : ∀ q : Fin (m * nx) × Fin (n * ny), fieldMagnitude (tileField m n f) q.1 q.2 = fieldMagnitude f (tile m n q).1 (tile m n q).2 :=
      fun q => rfl
    have key : (List.finRange (m * nx) ×ˢ List.finRange (n * ny)).argmax (fun p => fieldMagnitude (tileField m n f) p.1 p.2) =
        some (⟨p.1, h1⟩, ⟨p.2, h2⟩) := by
      refine List.argmax_eq_some_iff.2 ⟨List.mem_product.2 ⟨List.mem_finRange _, List.mem_finRange _⟩, fun q _ => ?_, fun q _ hq => ?_⟩
      · rw [hval, hval, ht]
        exact hmax _ (mem _)
      · rw [hval, hval, ht] at hq
        have := (idxOf_lex _ _).1 (hfirst _ (mem _) hq)
        rw [idxOf_lex]
        have m1 : ((tile m n q : Fin nx × Fin ny).1 : ℕ) ≤ q.1 := Nat.mod_le _ _
        have m2 : ((tile m n q : Fin nx × Fin ny).2 : ℕ) ≤ q.2 := Nat.mod_le _ _
        have m3 : (q.1 : ℕ) < nx → ((tile m n q : Fin nx × Fin ny).1 : ℕ) = q.1 := fun h => Nat.mod_eq_of_lt h
        have b1 := p.1.isLt
        simp only [Fin.lt_def, Fin.le_def, Fin.ext_iff] at this ⊢
        by_cases hq1 : (q.1 : ℕ) < nx
        · have := m3 hq1; omega
        · omega
    unfold fieldAtMaxMagnitude
    rw [key]
    simp only [tileField, ht]
    exact congrArg Except.ok h

theorem is1dField_tile (hm : m ≠ 0) (hn : n ≠ 0) (h1 : m = 1 ∨ nx ≠ 1) (h2 : n = 1 ∨ ny ≠ 1) {f : VectorField nx ny} {r : Prop × ℝ}
    (h : is1dField f = .ok r) : ∃ p : Prop, is1dField (tileField m n f) = .ok (p, r.2) ∧ (p ↔ r.1) := by
  unfold is1dField at h
  obtain ⟨v, hv, h⟩ := bind_eq_ok.1 h
  rw [ok_inj] at h
  subst h
  unfold is1dField
  rw [fieldAtMaxMagnitude_tile hm hn hv]
  refine ⟨_, rfl, ?_⟩
  have e1 : m * nx = 1 ↔ nx = 1 := by
    rcases h1 with rfl | h1
    · simp
    · constructor
      · intro h; exact absurd (Nat.eq_one_of_mul_eq_one_left h) h1
      · intro h; exact absurd h h1
  have e2 : n * ny = 1 ↔ ny = 1 := by
    rcases h2 with rfl | h2
    · simp
    · constructor
      · intro h; exact absurd (Nat.eq_one_of_mul_eq_one_left h) h2
      · intro h; exact absurd h h2
  simp only [e1, e2]
  refine or_congr ⟨fun h r s => ?_, fun h i j => h _ _⟩ Iff.rfl
  obtain ⟨i, j, hij⟩ := tile_point hm hn r s
  have := h i j
  have hv : fieldMagnitude (tileField m n f) i j = fieldMagnitude f r s := by
    change fieldMagnitude f (tile m n (i, j)).1 (tile m n (i, j)).2 = _
    rw [hij]
  simp only [hv, tileField, hij] at this
  exact this


/-! ### Fourier coefficients -/

section
variable [Fintype ι] [DecidableEq ι] [Fintype κ] [DecidableEq κ]

/-- Coefficients of a single cell among those of the supercell. -/
noncomputable def placeField (place : ι → κ) (y : ι × Fin 2 → ℂ) : κ × Fin 2 → ℂ := fun p => ∑ i, if place i = p.1 then y (i, p.2) else 0

theorem placeField_place {place : ι → κ} (hp : Function.Injective place) (y : ι × Fin 2 → ℂ) (i : ι) (c : Fin 2) :
    placeField place y (place i, c) = y (i, c) := by
  unfold placeField
  rw [Finset.sum_eq_single i (fun j _ h => if_neg fun e => h (hp e)) (fun h => absurd (Finset.mem_univ _) h), if_pos rfl]

theorem placeField_other {place : ι → κ} (y : ι × Fin 2 → ℂ) {k : κ} (hk : ∀ i, place i ≠ k) (c : Fin 2) : placeField place y (k, c) = 0 :=
  Finset.sum_eq_zero fun i _ => if_neg (hk i)

/-- The places of the orders of a single cell. -/
structure Places (m n : ℕ) (G : ι → ℤ × ℤ) (G' : κ → ℤ × ℤ) (place : ι → κ) : Prop where
  injective : Function.Injective place
  expansion : ∀ i, G' (place i) = (m * (G i).1, n * (G i).2)
  others : ∀ k, (∀ i, place i ≠ k) → ¬((m : ℤ) ∣ (G' k).1 ∧ (n : ℤ) ∣ (G' k).2)

theorem Spec.SupercellExpansion.places (hm : m ≠ 0) (hn : n ≠ 0) {G : ι → ℤ × ℤ} {G' : κ → ℤ × ℤ} (h : SupercellExpansion m n G G')
    (hG : Function.Injective G) (hG' : Function.Injective G') : ∃ place : ι → κ, Places m n G G' place := by
  choose place hp using h.placed
  refine ⟨place, fun i j e => hG ?_, hp, fun k hk hd => ?_⟩
  · have := (hp i).symm.trans ((congrArg G' e).trans (hp j))
    have h1 := congrArg Prod.fst this
    have h2 := congrArg Prod.snd this
    simp only at h1 h2
    exact Prod.ext (mul_left_cancel₀ (by exact_mod_cast hm) h1) (mul_left_cancel₀ (by exact_mod_cast hn) h2)
  · obtain ⟨i, hi⟩ := h.others k hd.1 hd.2
    exact hk i (hG' ((hp i).trans hi.symm))

variable {G : ι → ℤ × ℤ} {G' : κ → ℤ × ℤ} {place : ι → κ}

theorem planeWave_tile (hm : m ≠ 0) (hn : n ≠ 0) (g : ℤ × ℤ) (i : Fin (m * nx)) (j : Fin (n * ny)) :
    planeWave (m * nx) (n * ny) (m * g.1, n * g.2) i j = planeWave nx ny g (tile m n (i, j)).1 (tile m n (i, j)).2 := by
  have hx : nx ≠ 0 := (Nat.pos_of_mul_pos_left i.pos).ne'
  have hy : ny ≠ 0 := (Nat.pos_of_mul_pos_left j.pos).ne'
  have e : planeWave (m * nx) (n * ny) (m * g.1, n * g.2) i j = planeWave nx ny g i j := by
    unfold planeWave
    congr 1
    have h1 : (nx : ℂ) ≠ 0 := by exact_mod_cast hx
    have h2 : (ny : ℂ) ≠ 0 := by exact_mod_cast hy
    have h3 : (m : ℂ) ≠ 0 := by exact_mod_cast hm
    have h4 : (n : ℂ) ≠ 0 := by exact_mod_cast hn
    push_cast
    field_simp
  rw [e, ← planeWave_mod hx hy g i j]
  rfl

theorem Places.series (h : Places m n G G' place) (hm : m ≠ 0) (hn : n ≠ 0) (y : ι × Fin 2 → ℂ) :
    seriesMap G' (m * nx) (n * ny) (placeField place y) = tileField m n (seriesMap G nx ny y) := by
  funext i j c
  change (∑ k, placeField place y (k, c) * planeWave (m * nx) (n * ny) (G' k) i j) = ∑ k, y (k, c) * planeWave nx ny (G k) _ _
  refine (Fintype.sum_of_injective place h.injective _ _ (fun k hk => ?_) fun k => ?_).symm
  · rw [placeField_other _ (fun i e => hk ⟨i, e⟩), zero_mul]
  · rw [placeField_place h.injective, h.expansion, planeWave_tile hm hn]

theorem Places.coefficient (h : Places m n G G' place) (hm : m ≠ 0) (hn : n ≠ 0) (f : VectorField nx ny) :
    (fun p : κ × Fin 2 => fourierCoefficient (Matrix.of fun i j => tileField m n f i j p.2) (G' p.1)) =
      placeField place fun p => fourierCoefficient (Matrix.of fun i j => f i j p.2) (G p.1) := by
  funext ⟨k, c⟩
  have e : (Matrix.of fun i j => tileField m n f i j c) = Grid.pull (tile m n) (Matrix.of fun i j => f i j c) := rfl
  simp only
  rw [e, tile_coefficient hm hn]
  by_cases hk : ∃ i, place i = k
  · obtain ⟨i, rfl⟩ := hk
    rw [placeField_place h.injective, h.expansion, if_pos ⟨⟨_, rfl⟩, ⟨_, rfl⟩⟩]
    simp only
    rw [Int.mul_ediv_cancel_left _ (by exact_mod_cast hm), Int.mul_ediv_cancel_left _ (by exact_mod_cast hn)]
  · rw [placeField_other _ (fun i e => hk ⟨i, e⟩), if_neg (h.others k fun i e => hk ⟨i, e⟩)]

theorem fftVector_eq (f : VectorField nx ny) (hr : Resolves nx ny G) :
    fftVector f G = .ok fun p => fourierCoefficient (Matrix.of fun i j => f i j p.2) (G p.1) := by
  unfold fftVector
  simp only [fft_eq _ hr, bind, Except.bind]
  refine congrArg Except.ok ?_
  funext ⟨k, c⟩
  fin_cases c <;> rfl

theorem seriesMap_coefficient (f : VectorField nx ny) (mx my : ℕ) :
    (fun r s c => fourierSeries G (fun k => fourierCoefficient (Matrix.of fun i j => f i j c) (G k)) mx my r s) =
      seriesMap G mx my fun p => fourierCoefficient (Matrix.of fun i j => f i j p.2) (G p.1) := rfl

/-! ### The loss -/

theorem sum_tile_axis {a b : ℕ} (F : ℕ → ℝ) : ∑ i : Fin (a * b), F (i % b) = a * ∑ r : Fin b, F r := by
  rw [← Equiv.sum_comp (finProdFinEquiv (m := a) (n := b)), Fintype.sum_prod_type]
  have : ∀ (j : Fin a) (r : Fin b), F ((finProdFinEquiv (j, r) : ℕ) % b) = F r := by
    intro j r
    rw [finProdFinEquiv_apply_val]
    simp only
    rw [Nat.add_mul_mod_self_left, Nat.mod_eq_of_lt r.isLt]
  simp only [this, Finset.sum_const, Finset.card_univ, Fintype.card_fin, nsmul_eq_mul]

theorem sum_tile (F : Fin nx → Fin ny → ℝ) :
    ∑ i : Fin (m * nx), ∑ j : Fin (n * ny), F (tile m n (i, j)).1 (tile m n (i, j)).2 = m * n * ∑ r, ∑ s, F r s := by
  let F' : ℕ → ℕ → ℝ := fun a b => if h : a < nx ∧ b < ny then F ⟨a, h.1⟩ ⟨b, h.2⟩ else 0
  have e : ∀ r s, F r s = F' r s := fun r s => by simp only [F', r.isLt, s.isLt, and_self, dif_pos]
  have e' : ∀ (i : Fin (m * nx)) (j : Fin (n * ny)), F (tile m n (i, j)).1 (tile m n (i, j)).2 = F' (i % nx) (j % ny) := fun i j => e _ _
  simp only [e, e']
  have : ∀ i : Fin (m * nx), ∑ j : Fin (n * ny), F' ((tile m n (i, j)).1 : Fin nx) ((tile m n (i, j)).2 : Fin ny) = n * ∑ s : Fin ny, F' (i % nx) s :=
    fun i => sum_tile_axis fun b => F' (i % nx) b
  simp only [this]
  rw [← Finset.mul_sum, sum_tile_axis fun a => ∑ s : Fin ny, F' a s]
  ring

theorem alignmentLoss_tile (hm : m ≠ 0) (hn : n ≠ 0) (f t : VectorField nx ny) (w : Fin nx → Fin ny → ℝ) :
    alignmentLoss (tileField m n f) (tileField m n t) (fun i j => w (tile m n (i, j)).1 (tile m n (i, j)).2) = alignmentLoss f t w := by
  unfold alignmentLoss tileField
  rw [sum_tile fun r s => w r s * ∑ c, ‖f r s c - t r s c‖ ^ 2]
  have h1 : (m : ℝ) ≠ 0 := by exact_mod_cast hm
  have h2 : (n : ℝ) ≠ 0 := by exact_mod_cast hn
  push_cast
  rw [show (m : ℝ) * nx * (n * ny) = m * n * (nx * ny) by ring, mul_div_mul_left _ _ (mul_ne_zero h1 h2)]

theorem normalizedBasis_supercell (hm : m ≠ 0) (hn : n ≠ 0) {l : LatticeVectors} {b : Matrix (Fin 2) (Fin 2) ℝ} (hb : normalizedBasis l = .ok b) :
    ∃ b', normalizedBasis (supercellLattice m n l) = .ok b' ∧
      ∀ (v : Fin 2 → ℂ), ![(m : ℂ) * v 0, (n : ℂ) * v 1] ᵥ* (b'.map Complex.ofReal)⁻¹ = (Real.sqrt (m * n) : ℂ) • (v ᵥ* (b.map Complex.ofReal)⁻¹) := by
  obtain ⟨hl, rfl⟩ := normalizedBasis_eq_ok.1 hb
  have hb' := normalizedBasis_eq_ok.2 ⟨(supercellLattice_independent (m := m) (n := n) hm hn (l := l)).2 hl, rfl⟩
  have hdet := normalizedBasis_det hb
  have hdet' := normalizedBasis_det hb'
  set b := Matrix.of fun r c => basisMatrix l r c / Real.sqrt |l.u.1 * l.v.2 - l.u.2 * l.v.1| with hbdef
  refine ⟨_, hb', fun v => ?_⟩
  set b' := Matrix.of fun r c => basisMatrix (supercellLattice m n l) r c / Real.sqrt |(supercellLattice m n l).u.1 * (supercellLattice m n l).v.2 -
    (supercellLattice m n l).u.2 * (supercellLattice m n l).v.1| with hb'def
  have u : IsUnit (b.map Complex.ofReal).det := by
    have : (b.map Complex.ofReal).det = (b.det : ℂ) := by rw [Matrix.det_fin_two, Matrix.det_fin_two]; simp
    rw [this]; exact isUnit_iff_ne_zero.2 (by exact_mod_cast hdet)
  have u' : IsUnit (b'.map Complex.ofReal).det := by
    have : (b'.map Complex.ofReal).det = (b'.det : ℂ) := by rw [Matrix.det_fin_two, Matrix.det_fin_two]; simp
    rw [this]; exact isUnit_iff_ne_zero.2 (by exact_mod_cast hdet')
  have hs : 0 < Real.sqrt (m * n) := Real.sqrt_pos.2 (by
    have : 0 < m := Nat.pos_of_ne_zero hm
    have : 0 < n := Nat.pos_of_ne_zero hn
    positivity)
  have hentry : ∀ r c, (Real.sqrt (m * n)) * b' r c = b r c * ![(m : ℝ), (n : ℝ)] c := by
    intro r c
    have hsq : Real.sqrt |m * n * (l.u.1 * l.v.2 - l.u.2 * l.v.1)| = Real.sqrt (m * n) * Real.sqrt |l.u.1 * l.v.2 - l.u.2 * l.v.1| := by
      rw [abs_mul, abs_of_nonneg (by positivity : (0 : ℝ) ≤ m * n), Real.sqrt_mul (by positivity)]
    have hA : 0 < Real.sqrt |l.u.1 * l.v.2 - l.u.2 * l.v.1| := Real.sqrt_pos.2 (abs_pos.2 hl)
    have hM : basisMatrix (supercellLattice m n l) r c = basisMatrix l r c * ![(m : ℝ), (n : ℝ)] c := by
      fin_cases r <;> fin_cases c <;> simp [basisMatrix, supercellLattice, mul_comm]
    simp only [hbdef, hb'def, of_apply]
    rw [supercellLattice_cross, hsq, hM]
    field_simp
  have key : ![(m : ℂ) * v 0, (n : ℂ) * v 1] = ((Real.sqrt (m * n) : ℂ) • (v ᵥ* (b.map Complex.ofReal)⁻¹)) ᵥ* b'.map Complex.ofReal := by
    have h1 : v ᵥ* (b.map Complex.ofReal)⁻¹ ᵥ* b.map Complex.ofReal = v := by
      rw [Matrix.vecMul_vecMul, Matrix.nonsing_inv_mul _ u, Matrix.vecMul_one]
    set w := v ᵥ* (b.map Complex.ofReal)⁻¹
    funext c
    have h2 := congrFun h1 c
    simp only [Matrix.vecMul, dotProduct, Fin.sum_univ_two, Matrix.map_apply, Pi.smul_apply, smul_eq_mul] at h2 ⊢
    have e0 := hentry 0 c
    have e1 := hentry 1 c
    have e0' : (Real.sqrt (m * n) : ℂ) * (b' 0 c : ℂ) = (b 0 c : ℂ) * ((![(m : ℝ), (n : ℝ)] c : ℝ) : ℂ) := by exact_mod_cast e0
    have e1' : (Real.sqrt (m * n) : ℂ) * (b' 1 c : ℂ) = (b 1 c : ℂ) * ((![(m : ℝ), (n : ℝ)] c : ℝ) : ℂ) := by exact_mod_cast e1
    have e2 : ![(m : ℂ) * v 0, (n : ℂ) * v 1] c = ((![(m : ℝ), (n : ℝ)] c : ℝ) : ℂ) * v c := by fin_cases c <;> simp
    rw [e2]
    linear_combination (-((![(m : ℝ), (n : ℝ)] c : ℝ) : ℂ)) * h2 - w 0 * e0' - w 1 * e1'
  rw [key, Matrix.vecMul_vecMul, Matrix.mul_nonsing_inv _ u', Matrix.vecMul_one]

theorem forwardDifferences_tile (f : VectorField nx ny) (a : Fin 2) (i : Fin (m * nx)) (j : Fin (n * ny)) :
    forwardDifferences (tileField m n f) a i j =
      ![(m : ℂ) * forwardDifferences f a (tile m n (i, j)).1 (tile m n (i, j)).2 0, (n : ℂ) * forwardDifferences f a (tile m n (i, j)).1 (tile m n (i, j)).2 1] := by
  have hx : 0 < nx := Nat.pos_of_mul_pos_left i.pos
  have hy : 0 < ny := Nat.pos_of_mul_pos_left j.pos
  have e1 : (i + 1 : ℕ) % (m * nx) % nx = ((i : ℕ) % nx + 1) % nx := by rw [Nat.mod_mul_left_mod, Nat.mod_add_mod]
  have e2 : (j + 1 : ℕ) % (n * ny) % ny = ((j : ℕ) % ny + 1) % ny := by rw [Nat.mod_mul_left_mod, Nat.mod_add_mod]
  funext c
  fin_cases c
  · simp only [forwardDifferences, forwardDifference0, tileField, tile, of_apply, e1, Fin.zero_eta, cons_val_zero]
    push_cast
    ring
  · simp only [forwardDifferences, forwardDifference1, tileField, tile, of_apply, e2, Fin.mk_one, cons_val_one]
    push_cast
    ring

theorem smoothnessLoss_tile (hm : m ≠ 0) (hn : n ≠ 0) {l : LatticeVectors} {f : VectorField nx ny} {a : ℝ} (h : smoothnessLoss f l = .ok a) :
    smoothnessLoss (tileField m n f) (supercellLattice m n l) = .ok (m * n * a) := by
  unfold smoothnessLoss at h
  obtain ⟨g, hg, h⟩ := bind_eq_ok.1 h
  rw [ok_inj] at h
  obtain ⟨b, hb, -⟩ := bind_eq_ok.1 hg
  rw [vectorForwardGradient_eq f hb, ok_inj] at hg
  obtain ⟨b', hb', hv⟩ := normalizedBasis_supercell hm hn hb
  unfold smoothnessLoss
  rw [vectorForwardGradient_eq _ hb']
  refine congrArg Except.ok ?_
  have e : ∀ (a : Fin 2) (i : Fin (m * nx)) (j : Fin (n * ny)) (c : Fin 2), ‖gradientMap (m * nx) (n * ny) (b'.map Complex.ofReal)⁻¹ (tileField m n f) a i j c‖ ^ 2 =
      (m * n) * ‖g a (tile m n (i, j)).1 (tile m n (i, j)).2 c‖ ^ 2 := by
    intro a i j c
    change ‖(forwardDifferences (tileField m n f) a i j ᵥ* _) c‖ ^ 2 = _
    rw [forwardDifferences_tile, hv, ← hg, Pi.smul_apply, smul_eq_mul, norm_mul, mul_pow, Complex.norm_real, Real.norm_eq_abs, sq_abs,
      Real.sq_sqrt (by positivity)]
    rfl
  have hsum : (∑ a, ∑ i, ∑ j, ∑ c, ‖gradientMap (m * nx) (n * ny) (b'.map Complex.ofReal)⁻¹ (tileField m n f) a i j c‖ ^ 2) =
      (m * n) * ((m * n) * ∑ a, ∑ i, ∑ j, ∑ c, ‖g a i j c‖ ^ 2) := by
    rw [Finset.mul_sum, Finset.mul_sum]
    refine Finset.sum_congr rfl fun a _ => ?_
    simp only [e, ← Finset.mul_sum]
    congr 1
    exact sum_tile fun r s => ∑ c, ‖g a r s c‖ ^ 2
  rw [hsum, ← h]
  have h1 : (m : ℝ) ≠ 0 := by exact_mod_cast hm
  have h2 : (n : ℝ) ≠ 0 := by exact_mod_cast hn
  push_cast
  rw [show (2 : ℝ) * (m * nx) * (n * ny) * 2 = (m * n) * (2 * nx * ny * 2) by ring, mul_div_mul_left _ _ (mul_ne_zero h1 h2), mul_div_assoc]

theorem Places.fourierLoss (h : Places m n G G' place) (hm : m ≠ 0) (hn : n ≠ 0) {l : LatticeVectors} (hl : Independent l.u l.v)
    {y : ι × Fin 2 → ℂ} {a : ℝ} (hy : fourierLoss y G l = .ok a) :
    fourierLoss (placeField place y) G' (supercellLattice m n l) = .ok (m * n * a) := by
  let c : Setup ι := ⟨1, (0, 0), l, G⟩
  let c' : Setup κ := ⟨1, (0, 0), supercellLattice m n l, G'⟩
  have hc : SupercellClass m n (0, 0) place c c' :=
    { wavelength := rfl
      u := rfl
      v := rfl
      injective := h.injective
      expansion := fun i => by simp [c, c', h.expansion]
      others := fun k hk => by simpa [c'] using h.others k hk
      wavevector_u := by simp [c, c', dot]
      wavevector_v := by simp [c, c', dot] }
  have hk' : ∃ k', transverseWavevectors (0, 0) (supercellLattice m n l) G' = .ok k' := by
    have : crossProduct (supercellLattice m n l).u (supercellLattice m n l).v ≠ 0 := (supercellLattice_independent hm hn).2 hl
    unfold transverseWavevectors reciprocal
    simp only [this, if_false]
    exact ⟨_, rfl⟩
  obtain ⟨k', hk'⟩ := hk'
  have hk := (hc.wavevectors hk').2
  unfold Fmmax.fourierLoss at hy ⊢
  rw [hk] at hy
  rw [hk']
  simp only [bind, Except.bind, ok_inj] at hy ⊢
  rw [← hy, Finset.mul_sum]
  have hA : |(basisMatrix (supercellLattice m n l)).det| = m * n * |(basisMatrix l).det| := by
    rw [basisMatrix_det, supercellLattice_cross, basisMatrix_det, abs_mul, abs_of_nonneg (by positivity : (0 : ℝ) ≤ m * n)]
  refine (Fintype.sum_of_injective place h.injective _ _ (fun k hk => ?_) fun i => ?_).symm
  · refine Finset.sum_eq_zero fun c _ => ?_
    rw [placeField_other _ (fun i e => hk ⟨i, e⟩)]
    simp
  · rw [Finset.mul_sum]
    refine Finset.sum_congr rfl fun c _ => ?_
    rw [placeField_place h.injective, mul_pow, mul_pow, Real.sq_sqrt (abs_nonneg _), Real.sq_sqrt (abs_nonneg _), hA]
    ring

/-- The loss of a repeated field in the supercell. -/
theorem Places.fieldLoss (h : Places m n G G' place) (hm : m ≠ 0) (hn : n ≠ 0) (hG : Function.Injective G) (hG' : Function.Injective G')
    (hr : Resolves nx ny G) (hr' : Resolves (m * nx) (n * ny) G') {l : LatticeVectors} (hl : Independent l.u l.v)
    (t : VectorField nx ny) (w : Fin nx → Fin ny → ℝ) (fw sw : ℝ) (y : ι × Fin 2 → ℂ) {a : ℝ}
    (hy : fieldLoss ⟨G, l, t, w, fw, sw⟩ y = .ok a) :
    fieldLoss ⟨G', supercellLattice m n l, tileField m n t, fun i j => w (tile m n (i, j)).1 (tile m n (i, j)).2, fw / (m * n), sw / (m * n)⟩
      (placeField place y) = .ok a := by
  have h1 : (0 : ℝ) < m := by exact_mod_cast Nat.pos_of_ne_zero hm
  have h2 : (0 : ℝ) < n := by exact_mod_cast Nat.pos_of_ne_zero hn
  have term : ∀ (x : ℝ) (T T' : Res ℝ) (wt a : ℝ), (∀ b, T = .ok b → T' = .ok (m * n * b)) → addLossTerm x wt T = .ok a →
      addLossTerm x (wt / (m * n)) T' = .ok a := by
    intro x T T' wt a hT h
    unfold addLossTerm at h ⊢
    by_cases hw : 0 < wt
    · rw [if_pos hw] at h
      rw [if_pos (by positivity)]
      obtain ⟨b, hb, h⟩ := bind_eq_ok.1 h
      rw [ok_inj] at h
      rw [hT b hb]
      refine congrArg Except.ok ?_
      rw [← h]
      field_simp
    · rw [if_neg hw] at h
      rwa [if_neg (fun h => hw (by
        have := mul_pos h (mul_pos h1 h2)
        rwa [div_mul_cancel₀ _ (mul_pos h1 h2).ne'] at this))]
  unfold Fmmax.fieldLoss at hy ⊢
  simp only [ifftVector_eq y hG hr, ifftVector_eq (placeField place y) hG' hr', h.series hm hn] at hy ⊢
  obtain ⟨a1, ha1, hy⟩ := bind_eq_ok.1 hy
  rw [ok_inj] at ha1
  obtain ⟨a2, ha2, hy⟩ := bind_eq_ok.1 hy
  subst ha1
  refine bind_eq_ok.2 ⟨_, rfl, bind_eq_ok.2 ⟨a2, ?_, ?_⟩⟩
  · rw [alignmentLoss_tile hm hn]
    exact term _ _ _ _ _ (fun b hb => h.fourierLoss hm hn hl hb) ha2
  · exact term _ _ _ _ _ (fun b hb => smoothnessLoss_tile hm hn hb) hy

/-! ### Translations -/

theorem planeWave_shift {a b : ℕ} [NeZero a] [NeZero b] (g : ℤ × ℤ) (i c : Fin a) (j d : Fin b) :
    planeWave a b g (i + c : Fin a) (j + d : Fin b) = planeWave a b g i j * planeWave a b g c d := by
  rw [Fin.val_add, Fin.val_add, planeWave_mod (NeZero.ne a) (NeZero.ne b)]
  unfold planeWave
  rw [← Complex.exp_add]
  congr 1
  push_cast
  ring

theorem norm_planeWave (a b : ℕ) (g : ℤ × ℤ) (i j : ℕ) : ‖planeWave a b g i j‖ = 1 := by
  have e : planeWave a b g i j = Complex.exp (((2 * Real.pi * (g.1 * i / a + g.2 * j / b) : ℝ) : ℂ) * Complex.I) := by
    unfold planeWave
    congr 1
    push_cast
    ring
  rw [e, Complex.norm_exp_ofReal_mul_I]

/-- The coefficients of a translated field. -/
noncomputable def phaseField {a b : ℕ} (G : κ → ℤ × ℤ) (c : Fin a) (d : Fin b) (y : κ × Fin 2 → ℂ) : κ × Fin 2 → ℂ :=
  fun p => y p * planeWave a b (G p.1) c d

theorem sum_shift {a b : ℕ} [NeZero a] [NeZero b] (c : Fin a) (d : Fin b) (F : Fin a → Fin b → ℝ) :
    ∑ i, ∑ j, F (i + c) (j + d) = ∑ i, ∑ j, F i j := by
  have h1 := Equiv.sum_comp (Equiv.addRight c) fun i => ∑ j, F i (j + d)
  simp only [Equiv.coe_addRight] at h1
  rw [h1]
  exact Finset.sum_congr rfl fun i _ => Equiv.sum_comp (Equiv.addRight d) fun j => F i j

theorem seriesMap_shift {a b : ℕ} [NeZero a] [NeZero b] (c : Fin a) (d : Fin b) (y : κ × Fin 2 → ℂ) :
    seriesMap G' a b (phaseField G' c d y) = fun i j => seriesMap G' a b y (i + c) (j + d) := by
  funext i j e
  change (∑ k, y (k, e) * planeWave a b (G' k) c d * planeWave a b (G' k) i j) = ∑ k, y (k, e) * planeWave a b (G' k) (i + c : Fin a) (j + d : Fin b)
  refine Finset.sum_congr rfl fun k _ => ?_
  rw [planeWave_shift]
  ring

theorem smoothnessLoss_shift {a b : ℕ} [NeZero a] [NeZero b] (c : Fin a) (d : Fin b) (f : VectorField a b) (l : LatticeVectors) :
    smoothnessLoss (fun i j => f (i + c) (j + d)) l = smoothnessLoss f l := by
  unfold smoothnessLoss
  cases hb : normalizedBasis l with
  | error e =>
    unfold vectorForwardGradient
    rw [hb]
    rfl
  | ok B =>
    rw [vectorForwardGradient_eq _ hb, vectorForwardGradient_eq _ hb]
    refine congrArg Except.ok (congrArg (· / _) (Finset.sum_congr rfl fun e _ => ?_))
    rw [← sum_shift c d fun i j => ∑ q, ‖gradientMap a b (B.map Complex.ofReal)⁻¹ f e i j q‖ ^ 2]
    refine Finset.sum_congr rfl fun i _ => Finset.sum_congr rfl fun j _ => ?_
    have key : forwardDifferences (fun i j => f (i + c) (j + d)) e i j = forwardDifferences f e (i + c) (j + d) := by
      have e1 : (⟨((i : ℕ) + 1) % a, Nat.mod_lt _ i.pos⟩ : Fin a) + c = ⟨(((i + c : Fin a) : ℕ) + 1) % a, Nat.mod_lt _ i.pos⟩ := by
        apply Fin.ext
        simp only [Fin.val_add, Nat.mod_add_mod]
        congr 1
        ring
      have e2 : (⟨((j : ℕ) + 1) % b, Nat.mod_lt _ j.pos⟩ : Fin b) + d = ⟨(((j + d : Fin b) : ℕ) + 1) % b, Nat.mod_lt _ j.pos⟩ := by
        apply Fin.ext
        simp only [Fin.val_add, Nat.mod_add_mod]
        congr 1
        ring
      unfold forwardDifferences forwardDifference0 forwardDifference1
      simp only [of_apply, e1, e2]
    have k2 : gradientMap a b (B.map Complex.ofReal)⁻¹ (fun i j => f (i + c) (j + d)) e i j =
        gradientMap a b (B.map Complex.ofReal)⁻¹ f e (i + c) (j + d) := congrArg (· ᵥ* (B.map Complex.ofReal)⁻¹) key
    rw [k2]

theorem fieldLoss_shift {a b : ℕ} [NeZero a] [NeZero b] {P : LossParams κ a b} (hG : Function.Injective P.expansion)
    (hr : Resolves a b P.expansion) (c : Fin a) (d : Fin b) (ht : ∀ i j, P.target (i + c) (j + d) = P.target i j)
    (hw : ∀ i j, P.weight (i + c) (j + d) = P.weight i j) (y : κ × Fin 2 → ℂ) :
    fieldLoss P (phaseField P.expansion c d y) = fieldLoss P y := by
  have h1 : alignmentLoss (fun i j => seriesMap P.expansion a b y (i + c) (j + d)) P.target P.weight =
      alignmentLoss (seriesMap P.expansion a b y) P.target P.weight := by
    unfold alignmentLoss
    rw [← sum_shift c d fun i j => P.weight i j * ∑ e, ‖seriesMap P.expansion a b y i j e - P.target i j e‖ ^ 2]
    simp only [ht, hw]
  have h2 : fourierLoss (phaseField P.expansion c d y) P.expansion P.lattice = fourierLoss y P.expansion P.lattice := by
    unfold Fmmax.fourierLoss phaseField
    simp only [norm_mul, norm_planeWave, mul_one]
  unfold fieldLoss
  simp only [ifftVector_eq _ hG hr, seriesMap_shift, h1, h2, smoothnessLoss_shift, bind, Except.bind]

theorem planeWave_ne_one {a b : ℕ} (ha : a ≠ 0) (hm : m ≠ 0) {g : ℤ × ℤ} (h : ¬(m : ℤ) ∣ g.1) : planeWave (m * a) b g a 0 ≠ 1 := by
  intro e
  unfold planeWave at e
  obtain ⟨q, hq⟩ := Complex.exp_eq_one_iff.1 e
  have h1 : (a : ℂ) ≠ 0 := by exact_mod_cast ha
  have h2 : (m : ℂ) ≠ 0 := by exact_mod_cast hm
  have h3 : (2 * Real.pi * Complex.I : ℂ) ≠ 0 := Complex.two_pi_I_ne_zero
  refine h ⟨q, ?_⟩
  have : (g.1 : ℂ) = m * q := by
    have h4 : (g.1 * (a : ℕ) / (m * a : ℕ) + g.2 * (0 : ℕ) / b : ℂ) = q := by
      apply mul_left_cancel₀ h3
      linear_combination hq
    push_cast at h4
    field_simp at h4
    linear_combination h4
  exact_mod_cast this

theorem planeWave_ne_one' {a b : ℕ} (hb : b ≠ 0) (hn : n ≠ 0) {g : ℤ × ℤ} (h : ¬(n : ℤ) ∣ g.2) : planeWave a (n * b) g 0 b ≠ 1 := by
  intro e
  unfold planeWave at e
  obtain ⟨q, hq⟩ := Complex.exp_eq_one_iff.1 e
  have h1 : (b : ℂ) ≠ 0 := by exact_mod_cast hb
  have h2 : (n : ℂ) ≠ 0 := by exact_mod_cast hn
  have h3 : (2 * Real.pi * Complex.I : ℂ) ≠ 0 := Complex.two_pi_I_ne_zero
  refine h ⟨q, ?_⟩
  have : (g.2 : ℂ) = n * q := by
    have h4 : (g.1 * (0 : ℕ) / a + g.2 * (b : ℕ) / (n * b : ℕ) : ℂ) = q := by
      apply mul_left_cancel₀ h3
      linear_combination hq
    push_cast at h4
    field_simp at h4
    linear_combination h4
  exact_mod_cast this

/-- Coefficients that translations by the cell leave alone are those of a repeated field. -/
theorem Places.of_invariant (h : Places m n G G' place) (hm : m ≠ 0) (hn : n ≠ 0) [NeZero nx] [NeZero ny] [NeZero (m * nx)] [NeZero (n * ny)]
    {y : κ × Fin 2 → ℂ}
    (hy : ∀ (c : Fin (m * nx)) (d : Fin (n * ny)), (c : ℕ) % nx = 0 → (d : ℕ) % ny = 0 → phaseField G' c d y = y) :
    y = placeField place fun p => y (place p.1, p.2) := by
  funext ⟨k, e⟩
  by_cases hk : ∃ i, place i = k
  · obtain ⟨i, rfl⟩ := hk
    rw [placeField_place h.injective]
  · rw [placeField_other _ (fun i e => hk ⟨i, e⟩)]
    have hd := h.others k fun i e => hk ⟨i, e⟩
    have hcase : ¬(m : ℤ) ∣ (G' k).1 ∨ ¬(n : ℤ) ∣ (G' k).2 := by tauto
    have fin : ∀ w : ℂ, w ≠ 1 → y (k, e) * w = y (k, e) → y (k, e) = 0 := by
      intro w hw h
      have : y (k, e) * (w - 1) = 0 := by linear_combination h
      exact (mul_eq_zero.1 this).resolve_right (sub_ne_zero.2 hw)
    rcases hcase with hc | hc
    · have hm1 : 1 < m := by
        rcases Nat.lt_or_ge 1 m with h | h
        · exact h
        · have : m = 1 := by omega
          subst this
          exact absurd hc (by simp)
      have hlt : nx < m * nx := by
        have := Nat.pos_of_ne_zero (NeZero.ne nx)
        nlinarith
      have := congrFun (hy ⟨nx, hlt⟩ 0 (Nat.mod_self _) (by simp)) (k, e)
      exact fin _ (by simpa using planeWave_ne_one (b := n * ny) (NeZero.ne nx) hm hc) this
    · have hn1 : 1 < n := by
        rcases Nat.lt_or_ge 1 n with h | h
        · exact h
        · have : n = 1 := by omega
          subst this
          exact absurd hc (by simp)
      have hlt : ny < n * ny := by
        have := Nat.pos_of_ne_zero (NeZero.ne ny)
        nlinarith
      have := congrFun (hy 0 ⟨ny, hlt⟩ (by simp) (Nat.mod_self _)) (k, e)
      exact fin _ (by simpa using planeWave_ne_one' (a := m * nx) (NeZero.ne ny) hn hc) this

theorem tile_shift [NeZero nx] [NeZero ny] [NeZero (m * nx)] [NeZero (n * ny)] (i c : Fin (m * nx)) (j d : Fin (n * ny))
    (hc : (c : ℕ) % nx = 0) (hd : (d : ℕ) % ny = 0) : (tile m n (i + c, j + d) : Fin nx × Fin ny) = tile m n (i, j) := by
  apply Prod.ext <;> apply Fin.ext
  · change ((i + c : Fin _) : ℕ) % nx = (i : ℕ) % nx
    rw [Fin.val_add, Nat.mod_mul_left_mod, Nat.add_mod, hc, add_zero, Nat.mod_mod]
  · change ((j + d : Fin _) : ℕ) % ny = (j : ℕ) % ny
    rw [Fin.val_add, Nat.mod_mul_left_mod, Nat.add_mod, hd, add_zero, Nat.mod_mod]

/-! ### The tangent field -/

theorem Places.newtonStep (h : Places m n G G' place) (hm : m ≠ 0) (hn : n ≠ 0) (hG : Function.Injective G) (hG' : Function.Injective G')
    (hr : Resolves nx ny G) (hr' : Resolves (m * nx) (n * ny) G') {l : LatticeVectors} (hl : Independent l.u l.v)
    (t : VectorField nx ny) (w : Fin nx → Fin ny → ℝ) (hw : ∀ i j, 0 ≤ w i j) (fw sw : ℝ) {y z : ι × Fin 2 → ℂ} {y' z' : κ × Fin 2 → ℂ}
    (hz : newtonStep ⟨G, l, t, w, fw, sw⟩ y = .ok z)
    (hz' : newtonStep ⟨G', supercellLattice m n l, tileField m n t, fun i j => w (tile m n (i, j)).1 (tile m n (i, j)).2, fw / (m * n), sw / (m * n)⟩
      y' = .ok z') : z' = placeField place z := by
  obtain ⟨hx, hy⟩ := hr.pos
  obtain ⟨hx', hy'⟩ := hr'.pos
  have : NeZero nx := ⟨hx.ne'⟩
  have : NeZero ny := ⟨hy.ne'⟩
  have : NeZero (m * nx) := ⟨hx'.ne'⟩
  have : NeZero (n * ny) := ⟨hy'.ne'⟩
  have min := newtonStep_minimizer (P := ⟨G, l, t, w, fw, sw⟩) hG hr hw hz
  have min' := newtonStep_minimizer (P := ⟨G', supercellLattice m n l, tileField m n t, fun i j => w (tile m n (i, j)).1 (tile m n (i, j)).2,
    fw / (m * n), sw / (m * n)⟩) hG' hr' (fun i j => hw _ _) hz'
  have hinv : ∀ (c : Fin (m * nx)) (d : Fin (n * ny)), (c : ℕ) % nx = 0 → (d : ℕ) % ny = 0 → phaseField G' c d z' = z' := by
    intro c d hc hd
    obtain ⟨a, b, ha, hb, -, huniq⟩ := min' (phaseField G' c d z')
    have e := fieldLoss_shift (P := ⟨G', supercellLattice m n l, tileField m n t, fun i j => w (tile m n (i, j)).1 (tile m n (i, j)).2,
      fw / (m * n), sw / (m * n)⟩) hG' hr' c d (fun i j => by simp only [tileField, tile_shift _ _ _ _ hc hd])
      (fun i j => by simp only [tile_shift _ _ _ _ hc hd]) z'
    rw [hb, ha, ok_inj] at e
    exact huniq e.le
  have hplaced := h.of_invariant hm hn hinv
  obtain ⟨a, b, ha, hb, hab, -⟩ := min fun p => z' (place p.1, p.2)
  have ha' := h.fieldLoss hm hn hG hG' hr hr' hl t w fw sw _ ha
  have hb' := h.fieldLoss hm hn hG hG' hr hr' hl t w fw sw _ hb
  rw [← hplaced] at hb'
  obtain ⟨a1, b1, ha1, hb1, -, huniq⟩ := min' (placeField place z)
  rw [hb', ok_inj] at ha1
  rw [ha', ok_inj] at hb1
  exact (huniq (by rw [← ha1, ← hb1]; exact hab)).symm

theorem filteredGradient_tile (h : Places m n G G' place) (hm : m ≠ 0) (hn : n ≠ 0) (hG : Function.Injective G) (hG' : Function.Injective G')
    (hr : Resolves nx ny G) (hr' : Resolves (m * nx) (n * ny) G') {mx my : ℕ} (hM : Resolves mx my G) (hM' : Resolves (m * mx) (n * my) G')
    {x : Matrix (Fin nx) (Fin ny) ℂ} {l : LatticeVectors} {g : VectorField nx ny} (hg : computeGradient x l = .ok g) (r : Fin mx) (s : Fin my)
    (hrs : 1e-8 < magnitude fun c => fourierSeries G (fun k => fourierCoefficient (Matrix.of fun i j => g i j c) (G k)) mx my r s)
    {f : VectorField mx my} (hf : filteredGradient x G l mx my = .ok f) :
    filteredGradient (Grid.pull (tile m n) x) G' (supercellLattice m n l) (m * mx) (n * my) = .ok (tileField m n f) := by
  obtain ⟨hx, hy⟩ := hr.pos
  have hg' := computeGradient_tile hm hn hx.ne' hy.ne' hg
  unfold filteredGradient at hf ⊢
  rw [bandlimitedGradient_eq hG hg hr hM] at hf
  rw [bandlimitedGradient_eq hG' hg' hr' hM']
  simp only [bind, Except.bind] at hf ⊢
  obtain ⟨M, hmax⟩ := maxFieldMagnitude_exists r.pos s.pos fun r s c =>
    fourierSeries G (fun k => fourierCoefficient (Matrix.of fun i j => g i j c) (G k)) mx my r s
  have hle := (maxFieldMagnitude_eq_ok.1 hmax).1 r s
  have hM1 : 1e-8 < M := hrs.trans_le hle
  have hs : 1 ≤ Real.sqrt (m * n) := by
    rw [Real.one_le_sqrt]
    have : 1 ≤ m * n := Nat.one_le_iff_ne_zero.2 (mul_ne_zero hm hn)
    exact_mod_cast this
  have key := normalize_tile hm hn hf
  rw [← maxFieldMagnitude_tile hm hn] at hmax
  have hMpos : 0 < M := lt_trans (by norm_num) hM1
  rw [← normalize_smul (lt_of_lt_of_le one_pos hs) hmax hM1 (hM1.trans_le (le_mul_of_one_le_left hMpos.le hs))] at key
  rw [← key]
  congr 1
  funext i j c
  have e1 := congrFun (congrFun (fourierSeries_filter_smul G' (Matrix.of fun i j => tileField m n g i j c) (Real.sqrt (m * n)) (m * mx) (n * my)) i) j
  have e2 : (fun r s c => fourierSeries G' (fun k => fourierCoefficient (Matrix.of fun i j => tileField m n g i j c) (G' k)) (m * mx) (n * my) r s) =
      tileField m n fun r s c => fourierSeries G (fun k => fourierCoefficient (Matrix.of fun i j => g i j c) (G k)) mx my r s := by
    rw [seriesMap_coefficient, seriesMap_coefficient, h.coefficient hm hn, h.series hm hn]
  have e3 := congrFun (congrFun (congrFun e2 i) j) c
  exact e1.trans (congrArg (fun z : ℂ => (Real.sqrt (m * n) : ℂ) * z) e3)

theorem Places.optimized (h : Places m n G G' place) (hm : m ≠ 0) (hn : n ≠ 0) (hG : Function.Injective G) (hG' : Function.Injective G')
    (hr : Resolves nx ny G) (hr' : Resolves (m * nx) (n * ny) G') {l : LatticeVectors} (hl : Independent l.u l.v)
    {grad : VectorField nx ny} {b : Bool} {fw sw : ℝ} {steps : ℕ} {z : ι × Fin 2 → ℂ} {z' : κ × Fin 2 → ℂ}
    (hz : optimizedFourierField grad G l b fw sw steps = .ok z)
    (hz' : optimizedFourierField (tileField m n grad) G' (supercellLattice m n l) b (fw / (m * n)) (sw / (m * n)) steps = .ok z') :
    z' = placeField place z := by
  unfold optimizedFourierField at hz hz'
  obtain ⟨t, ht, hz⟩ := bind_eq_ok.1 hz
  rw [targetAndInitialField_tile hm hn ht] at hz'
  obtain ⟨_, ht', hz'⟩ := bind_eq_ok.1 hz'
  rw [ok_inj] at ht'
  subst ht'
  rw [fftVector_eq _ hr] at hz
  rw [fftVector_eq _ hr'] at hz'
  simp only [bind, Except.bind] at hz hz'
  cases steps with
  | zero =>
    simp only [newtonLoop, ok_inj] at hz hz'
    rw [← hz, ← hz', h.coefficient hm hn]
  | succ q =>
    rw [newtonLoop_succ (P := ⟨G, l, t.1, fieldMagnitude grad, fw, sw⟩) hG hr (fieldMagnitude_nonneg grad)] at hz
    rw [newtonLoop_succ (P := ⟨G', supercellLattice m n l, tileField m n t.1, fieldMagnitude (tileField m n grad), fw / (m * n), sw / (m * n)⟩)
      hG' hr' (fieldMagnitude_nonneg _)] at hz'
    exact h.newtonStep hm hn hG hG' hr hr' hl t.1 (fieldMagnitude grad) (fieldMagnitude_nonneg grad) fw sw hz hz'

theorem computeTangentField_tile (hm : m ≠ 0) (hn : n ≠ 0) (h : SupercellExpansion m n G G') (hG : Function.Injective G)
    (hG' : Function.Injective G') (hr : Resolves nx ny G) (hr' : Resolves (m * nx) (n * ny) G') {M : ℕ × ℕ}
    (hM : doubledMinShape G nx ny = .ok M) (hM' : doubledMinShape G' (m * nx) (n * ny) = .ok (m * M.1, n * M.2))
    (h1 : m = 1 ∨ 1 < nx) (h2 : n = 1 ∨ 1 < ny)
    {x : Matrix (Fin nx) (Fin ny) ℂ} {l : LatticeVectors} {g : VectorField nx ny} (hg : computeGradient x l = .ok g) (r : Fin M.1) (s : Fin M.2)
    (hrs : 1e-8 < magnitude fun c => fourierSeries G (fun k => fourierCoefficient (Matrix.of fun i j => g i j c) (G k)) M.1 M.2 r s)
    {b : Bool} {fw sw : ℝ} {steps : ℕ} {t : VectorField nx ny} {t' : VectorField (m * nx) (n * ny)}
    (ht : computeTangentFieldNoBatch x G l b fw sw steps = .ok t)
    (ht' : computeTangentFieldNoBatch (Grid.pull (tile m n) x) G' (supercellLattice m n l) b fw sw steps = .ok t') :
    t' = tileField m n t := by
  classical
  obtain ⟨place, hp⟩ := h.places hm hn hG hG'
  have : NeZero nx := ⟨hr.pos.1.ne'⟩
  have : NeZero ny := ⟨hr.pos.2.ne'⟩
  have hl : Independent l.u l.v := (computeGradient_eq_ok.1 hg).1
  have hMr := doubledMinShape_resolves hM
  have hMr' := doubledMinShape_resolves hM'
  have hcard : (Fintype.card κ : ℝ) = m * n * Fintype.card ι := by rw [h.terms]; push_cast; ring
  have hw : ∀ w : ℝ, w / Fintype.card κ = w / Fintype.card ι / (m * n) := by
    intro w; rw [hcard, div_div, mul_comm]
  have hc : Fintype.card ι ≠ 0 := by have := hr.1; exact Fintype.card_ne_zero
  have hc' : Fintype.card κ ≠ 0 := by rw [h.terms]; exact mul_ne_zero (mul_ne_zero hm hn) hc
  unfold computeTangentFieldNoBatch at ht ht'
  rw [if_neg hc, hM] at ht
  rw [if_neg hc', hM'] at ht'
  simp only [bind, Except.bind, hw] at ht ht'
  cases hgrad : filteredGradient x G l M.1 M.2 with
  | error e => rw [hgrad] at ht; cases ht
  | ok grad =>
    rw [hgrad] at ht
    rw [filteredGradient_tile hp hm hn hG hG' hr hr' hMr hMr' hg r s hrs hgrad] at ht'
    simp only at ht ht'
    have hM1 : m = 1 ∨ M.1 ≠ 1 := by
      rcases h1 with h1 | h1
      · exact Or.inl h1
      · refine Or.inr fun e => ?_
        unfold doubledMinShape at hM
        obtain ⟨a, -, hM⟩ := bind_eq_ok.1 hM
        rw [ok_inj, if_pos h1] at hM
        have := congrArg Prod.fst hM
        simp only at this
        omega
    have hM2 : n = 1 ∨ M.2 ≠ 1 := by
      rcases h2 with h2 | h2
      · exact Or.inl h2
      · refine Or.inr fun e => ?_
        unfold doubledMinShape at hM
        obtain ⟨a, -, hM⟩ := bind_eq_ok.1 hM
        rw [ok_inj, if_pos h2] at hM
        have := congrArg Prod.snd hM
        simp only at this
        omega
    cases hf : tangentFieldOfGradient grad G l b (fw / Fintype.card ι) (sw / Fintype.card ι) steps nx ny with
    | error e => rw [hf] at ht; cases ht
    | ok f =>
      cases hf' : tangentFieldOfGradient (tileField m n grad) G' (supercellLattice m n l) b (fw / Fintype.card ι / (m * n))
          (sw / Fintype.card ι / (m * n)) steps (m * nx) (n * ny) with
      | error e => rw [hf'] at ht'; cases ht'
      | ok f' =>
        rw [hf] at ht
        rw [hf'] at ht'
        simp only at ht ht'
        have key : f' = tileField m n f := by
          unfold tangentFieldOfGradient at hf hf'
          obtain ⟨q, hq, hf⟩ := bind_eq_ok.1 hf
          obtain ⟨p, hp1, hp2⟩ := is1dField_tile hm hn hM1 hM2 hq
          rw [hp1] at hf'
          simp only [bind, Except.bind] at hf hf'
          by_cases hq1 : q.1
          · rw [if_pos hq1, ok_inj] at hf
            rw [if_pos (hp2.2 hq1), ok_inj] at hf'
            rw [← hf, ← hf']
            rfl
          · rw [if_neg hq1] at hf
            rw [if_neg (fun h => hq1 (hp2.1 h))] at hf'
            obtain ⟨z, hz, hf⟩ := bind_eq_ok.1 hf
            obtain ⟨z', hz', hf'⟩ := bind_eq_ok.1 hf'
            have e := hp.optimized hm hn hG hG' hMr hMr' hl hz hz'
            rw [ifftVector_eq z hG hr, ok_inj] at hf
            rw [ifftVector_eq z' hG' hr', ok_inj, e, hp.series hm hn] at hf'
            rw [← hf', ← hf]
        rw [key, normalize_tile hm hn ht, ok_inj] at ht'
        exact ht'.symm

end

end Fmmax
