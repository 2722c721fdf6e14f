import Verif.Model.Fft
import Verif.Spec.Fourier
import Verif.Proofs.Basic
import Mathlib.LinearAlgebra.Matrix.ToLinearEquiv
import Mathlib.Tactic.FieldSimp
import Mathlib.Tactic.Ring
import Mathlib.Tactic.LinearCombination

/-! Lemmas about the discrete Fourier transforms. -/

set_option linter.unusedSectionVars false

namespace Fmmax

open Spec Matrix

variable {nx ny : ℕ} {ι κ : Type} [Fintype ι]

theorem validateShape_ok_iff (G : ι → ℤ × ℤ) : validateShapeForExpansion (nx, ny) G = .ok () ↔ Resolves nx ny G := by
  unfold validateShapeForExpansion minArrayShapeForExpansion Resolves
  by_cases hc : Fintype.card ι = 0
  · rw [if_pos hc]
    have : ¬ Nonempty ι := by rw [← Fintype.card_pos_iff]; omega
    simp [bind, Except.bind, this]
  · rw [if_neg hc]
    have hne : Nonempty ι := Fintype.card_pos_iff.1 (by omega)
    simp only [bind, Except.bind, hne, true_and]
    constructor
    · intro h i
      split_ifs at h with h1
      push Not at h1
      have a1 : (G i).1.natAbs ≤ Finset.univ.sup fun i => (G i).1.natAbs :=
        Finset.le_sup (f := fun i => (G i).1.natAbs) (Finset.mem_univ i)
      have a2 : (G i).2.natAbs ≤ Finset.univ.sup fun i => (G i).2.natAbs :=
        Finset.le_sup (f := fun i => (G i).2.natAbs) (Finset.mem_univ i)
      simp only [Int.abs_eq_natAbs]
      omega
    · intro h
      obtain ⟨i1, -, e1⟩ := Finset.exists_mem_eq_sup (Finset.univ : Finset ι) ⟨hne.some, Finset.mem_univ _⟩
        (fun i => (G i).1.natAbs)
      obtain ⟨i2, -, e2⟩ := Finset.exists_mem_eq_sup (Finset.univ : Finset ι) ⟨hne.some, Finset.mem_univ _⟩
        (fun i => (G i).2.natAbs)
      rw [if_neg]
      simp only [Int.abs_eq_natAbs] at h
      have b1 := (h i1).1
      have b2 := (h i2).2
      rw [e1, e2]
      omega

theorem validateShape_error_iff (G : ι → ℤ × ℤ) (e : Err) :
    validateShapeForExpansion (nx, ny) G = .error e ↔ e = .valueError ∧ ¬ Resolves nx ny G := by
  rw [← validateShape_ok_iff]
  unfold validateShapeForExpansion minArrayShapeForExpansion
  split_ifs <;> simp only [bind, Except.bind]
  · simp [eq_comm]
  · split_ifs <;> simp [eq_comm]

/-- The cell addressed by an order. -/
def IsCell (n : ℕ) (d : ℤ) (p : Fin n) : Prop := (p : ℤ) = d ∨ (p : ℤ) = d + n

theorem pyIndex_ok {n : ℕ} {d : ℤ} (h : -n ≤ d ∧ d < n) : ∃ p, pyIndex n d = .ok p := by
  unfold pyIndex
  split_ifs with h1 h2
  · exact ⟨_, rfl⟩
  · exact ⟨_, rfl⟩
  · omega

theorem pyIndex_cell {n : ℕ} {d : ℤ} {p : Fin n} (h : pyIndex n d = .ok p) : IsCell n d p := by
  unfold pyIndex at h
  unfold IsCell
  split_ifs at h with h1 h2
  · cases h; simp; omega
  · cases h; simp; omega

theorem pyIndex2_eq_ok {d : ℤ × ℤ} {p : Fin nx × Fin ny} :
    pyIndex2 nx ny d = .ok p ↔ pyIndex nx d.1 = .ok p.1 ∧ pyIndex ny d.2 = .ok p.2 := by
  unfold pyIndex2
  obtain ⟨p, q⟩ := p
  cases h1 : pyIndex nx d.1 <;> cases h2 : pyIndex ny d.2 <;> simp [bind, Except.bind]

theorem allOk_eq_ok {α : Type} {f : κ → Res α} {g : κ → α} : allOk f = .ok g ↔ ∀ k, f k = .ok (g k) := by
  unfold allOk
  constructor
  · intro h
    split_ifs at h with h1
    cases h
    exact fun k => (h1 k).choose_spec
  · intro h
    have h1 : ∀ k, ∃ a, f k = .ok a := fun k => ⟨_, h k⟩
    rw [dif_pos h1]
    congr 1
    funext k
    exact Except.ok.inj ((h1 k).choose_spec.symm.trans (h k))

theorem allOk_exists {α : Type} {f : κ → Res α} (h : ∀ k, ∃ a, f k = .ok a) : ∃ g, allOk f = .ok g ∧ ∀ k, f k = .ok (g k) :=
  ⟨fun k => (h k).choose, allOk_eq_ok.2 fun k => (h k).choose_spec, fun k => (h k).choose_spec⟩

theorem exp_period (n : ℕ) (hn : n ≠ 0) (d r : ℤ) (k : ℤ) :
    Complex.exp (2 * Real.pi * Complex.I * ((d + k * n : ℤ) * r / n)) = Complex.exp (2 * Real.pi * Complex.I * (d * r / n)) := by
  rw [Complex.exp_eq_exp_iff_exists_int]
  refine ⟨k * r, ?_⟩
  have : (n : ℂ) ≠ 0 := by exact_mod_cast hn
  push_cast
  field_simp

theorem cell_planeWave {d : ℤ × ℤ} {p : Fin nx × Fin ny} (h1 : IsCell nx d.1 p.1) (h2 : IsCell ny d.2 p.2) (r s : ℕ) :
    planeWave nx ny ((p.1 : ℕ), (p.2 : ℕ)) r s = planeWave nx ny d r s := by
  have hx : nx ≠ 0 := by have := p.1.2; omega
  have hy : ny ≠ 0 := by have := p.2.2; omega
  unfold planeWave
  simp only [mul_add, Complex.exp_add]
  congr 1
  · rcases h1 with h | h
    · rw [h]
    · have := exp_period nx hx d.1 r 1
      rw [one_mul, ← h] at this
      exact_mod_cast this
  · rcases h2 with h | h
    · rw [h]
    · have := exp_period ny hy d.2 s 1
      rw [one_mul, ← h] at this
      exact_mod_cast this

theorem planeWave_neg_conj (g : ℤ × ℤ) (r s : ℕ) : planeWave nx ny (-g) r s = star (planeWave nx ny g r s) := by
  unfold planeWave
  rw [Complex.star_def, ← Complex.exp_conj]
  congr 1
  simp only [map_mul, map_add, map_div₀, Complex.conj_ofReal, Complex.conj_I, map_ofNat, map_intCast, map_natCast,
    Prod.fst_neg, Prod.snd_neg]
  push_cast
  ring

theorem planeWave_add (g h : ℤ × ℤ) (r s : ℕ) :
    planeWave nx ny (g + h) r s = planeWave nx ny g r s * planeWave nx ny h r s := by
  unfold planeWave
  rw [← Complex.exp_add]
  congr 1
  simp only [Prod.fst_add, Prod.snd_add]
  push_cast
  ring

/-- Orthogonality in one dimension. -/
theorem sum_exp (n : ℕ) (d : ℤ) :
    ∑ r : Fin n, Complex.exp (2 * Real.pi * Complex.I * (d * (r : ℕ) / n)) = if (n : ℤ) ∣ d then (n : ℂ) else 0 := by
  rcases Nat.eq_zero_or_pos n with rfl | hn
  · simp
  have hn' : (n : ℂ) ≠ 0 := by exact_mod_cast hn.ne'
  have hpow : ∀ r : ℕ, Complex.exp (2 * Real.pi * Complex.I * (d * r / n)) =
      Complex.exp (2 * Real.pi * Complex.I * (d / n)) ^ r := by
    intro r
    rw [← Complex.exp_nat_mul]
    congr 1
    ring
  rw [Fin.sum_univ_eq_sum_range (fun r => Complex.exp (2 * Real.pi * Complex.I * (d * (r : ℕ) / n))) n]
  simp only [hpow]
  set w := Complex.exp (2 * Real.pi * Complex.I * (d / n)) with hw
  have hwn : w ^ n = 1 := by
    rw [← hpow, Complex.exp_eq_one_iff]
    exact ⟨d, by field_simp⟩
  split_ifs with h
  · obtain ⟨k, rfl⟩ := h
    have : w = 1 := by
      rw [hw, Complex.exp_eq_one_iff]
      exact ⟨k, by push_cast; field_simp⟩
    rw [this]
    simp
  · have hne : w ≠ 1 := by
      intro h1
      rw [hw, Complex.exp_eq_one_iff] at h1
      obtain ⟨k, hk⟩ := h1
      apply h
      have h2 : (2 * Real.pi * Complex.I : ℂ) ≠ 0 := by
        simp [Real.pi_ne_zero]
      have h3 : (d : ℂ) / n = k := by
        apply mul_left_cancel₀ h2
        rw [hk]; ring
      rw [div_eq_iff hn'] at h3
      exact ⟨k, by rw [mul_comm]; exact_mod_cast h3⟩
    rw [geom_sum_eq hne, hwn]
    simp

/-- Orthogonality of plane waves on the grid. -/
theorem sum_planeWave (g : ℤ × ℤ) : ∑ r : Fin nx, ∑ s : Fin ny, planeWave nx ny g r s =
    if (nx : ℤ) ∣ g.1 ∧ (ny : ℤ) ∣ g.2 then (nx * ny : ℂ) else 0 := by
  have : ∀ (r : Fin nx) (s : Fin ny), planeWave nx ny g r s =
      Complex.exp (2 * Real.pi * Complex.I * (g.1 * (r : ℕ) / nx)) *
      Complex.exp (2 * Real.pi * Complex.I * (g.2 * (s : ℕ) / ny)) := by
    intro r s
    unfold planeWave
    rw [← Complex.exp_add]
    congr 1
    ring
  simp only [this, ← Finset.mul_sum, ← Finset.sum_mul, sum_exp]
  by_cases h1 : (nx : ℤ) ∣ g.1 <;> by_cases h2 : (ny : ℤ) ∣ g.2 <;> simp [h1, h2]

theorem fft2_eq (x : Matrix (Fin nx) (Fin ny) ℂ) (p : Fin nx) (q : Fin ny) :
    fft2 x p q / (nx * ny) = fourierCoefficient x ((p : ℕ), (q : ℕ)) := by
  unfold fft2 fourierCoefficient fftKernel planeWave
  simp only [Matrix.of_apply]
  congr 1
  refine Finset.sum_congr rfl fun r _ => Finset.sum_congr rfl fun s _ => ?_
  congr 2
  simp only [Prod.fst_neg, Prod.snd_neg]
  push_cast
  ring

theorem cell_fourierCoefficient (x : Matrix (Fin nx) (Fin ny) ℂ) {d : ℤ × ℤ} {p : Fin nx × Fin ny}
    (h1 : IsCell nx d.1 p.1) (h2 : IsCell ny d.2 p.2) :
    fourierCoefficient x ((p.1 : ℕ), (p.2 : ℕ)) = fourierCoefficient x d := by
  unfold fourierCoefficient
  congr 1
  refine Finset.sum_congr rfl fun r _ => Finset.sum_congr rfl fun s _ => ?_
  rw [planeWave_neg_conj, planeWave_neg_conj, cell_planeWave h1 h2]

theorem Spec.Resolves.index {G : ι → ℤ × ℤ} (h : Resolves nx ny G) (i : ι) : ∃ p, pyIndex2 nx ny (G i) = .ok p := by
  have hi := h.2 i
  have a := le_abs_self (G i).1
  have b := neg_abs_le (G i).1
  have c := le_abs_self (G i).2
  have d := neg_abs_le (G i).2
  obtain ⟨p, hp⟩ := pyIndex_ok (n := nx) (d := (G i).1) (by omega)
  obtain ⟨q, hq⟩ := pyIndex_ok (n := ny) (d := (G i).2) (by omega)
  exact ⟨(p, q), pyIndex2_eq_ok.2 ⟨hp, hq⟩⟩

theorem Spec.Resolves.index_diff {G : ι → ℤ × ℤ} (h : Resolves nx ny G) (ij : ι × ι) :
    ∃ p, pyIndex2 nx ny (standardToeplitzIndices G ij) = .ok p := by
  obtain ⟨i, j⟩ := ij
  have hi := h.2 i
  have hj := h.2 j
  have a := le_abs_self (G i).1
  have b := neg_abs_le (G i).1
  have c := le_abs_self (G i).2
  have d := neg_abs_le (G i).2
  have a' := le_abs_self (G j).1
  have b' := neg_abs_le (G j).1
  have c' := le_abs_self (G j).2
  have d' := neg_abs_le (G j).2
  obtain ⟨p, hp⟩ := pyIndex_ok (n := nx) (d := (G i).1 - (G j).1) (by omega)
  obtain ⟨q, hq⟩ := pyIndex_ok (n := ny) (d := (G i).2 - (G j).2) (by omega)
  exact ⟨(p, q), pyIndex2_eq_ok.2 ⟨hp, hq⟩⟩

/-- Orders of a resolved expansion do not alias. -/
theorem Spec.Resolves.no_alias {G : ι → ℤ × ℤ} (h : Resolves nx ny G) (i j : ι) (h1 : (nx : ℤ) ∣ (G i).1 - (G j).1)
    (h2 : (ny : ℤ) ∣ (G i).2 - (G j).2) : G i = G j := by
  have hi := h.2 i
  have hj := h.2 j
  have z : ∀ {n : ℕ} {a b : ℤ}, (n : ℤ) ∣ a - b → 2 * |a| + 1 ≤ n → 2 * |b| + 1 ≤ n → a = b := by
    intro n a b hd ha hb
    have h0 : a - b = 0 := by
      apply Int.eq_zero_of_abs_lt_dvd hd
      have := abs_sub a b
      omega
    omega
  exact Prod.ext (z h1 hi.1 hj.1) (z h2 hi.2 hj.2)

theorem gather2_eq (x : Matrix (Fin nx) (Fin ny) ℂ) (idx : κ → ℤ × ℤ) (h : ∀ k, ∃ p, pyIndex2 nx ny (idx k) = .ok p)
    (X : Matrix (Fin nx) (Fin ny) ℂ) (hX : ∀ p q, X p q = fourierCoefficient x ((p : ℕ), (q : ℕ))) :
    gather2 X idx = .ok fun k => fourierCoefficient x (idx k) := by
  obtain ⟨g, hg, hg'⟩ := allOk_exists h
  unfold gather2
  rw [hg]
  simp only [bind, Except.bind]
  congr 1
  funext k
  have := pyIndex2_eq_ok.1 (hg' k)
  rw [hX, cell_fourierCoefficient x (pyIndex_cell this.1) (pyIndex_cell this.2)]

theorem fft_eq (x : Matrix (Fin nx) (Fin ny) ℂ) {G : ι → ℤ × ℤ} (h : Resolves nx ny G) :
    fft x G = .ok fun i => fourierCoefficient x (G i) := by
  unfold fft
  rw [(validateShape_ok_iff G).2 h]
  simp only [bind, Except.bind]
  exact gather2_eq x G h.index _ fun p q => fft2_eq x p q

theorem fourierConvolutionMatrix_eq (x : Matrix (Fin nx) (Fin ny) ℂ) {G : ι → ℤ × ℤ} (h : Resolves nx ny G) :
    fourierConvolutionMatrix x G = .ok (Matrix.of fun i j => fourierCoefficient x (G i - G j)) := by
  unfold fourierConvolutionMatrix
  rw [(validateShape_ok_iff G).2 h]
  simp only [bind, Except.bind]
  rw [gather2_eq x _ h.index_diff]
  · rfl
  · intro p q
    rw [← fft2_eq]
    simp

/-- Distinct orders address distinct cells. -/
theorem Spec.Resolves.cell_injective {G : ι → ℤ × ℤ} (h : Resolves nx ny G) (hG : Function.Injective G)
    {c : ι → Fin nx × Fin ny} (hc : ∀ k, pyIndex2 nx ny (G k) = .ok (c k)) : Function.Injective c := by
  intro i j hij
  apply hG
  have hi := pyIndex2_eq_ok.1 (hc i)
  have hj := pyIndex2_eq_ok.1 (hc j)
  rw [← hij] at hj
  have c1 := pyIndex_cell hi.1
  have c2 := pyIndex_cell hj.1
  have c3 := pyIndex_cell hi.2
  have c4 := pyIndex_cell hj.2
  have z : ∀ {n : ℕ} {a b : ℤ} {p : Fin n}, IsCell n a p → IsCell n b p → (n : ℤ) ∣ a - b := by
    intro n a b p h1 h2
    rcases h1 with h1 | h1 <;> rcases h2 with h2 | h2
    · exact ⟨0, by omega⟩
    · exact ⟨1, by omega⟩
    · exact ⟨-1, by omega⟩
    · exact ⟨0, by omega⟩
  exact h.no_alias i j (z c1 c2) (z c3 c4)

theorem ifft_eq (y : ι → ℂ) {G : ι → ℤ × ℤ} (h : Resolves nx ny G) (hG : Function.Injective G) :
    ifft y G nx ny = .ok (fourierSeries G y nx ny) := by
  obtain ⟨c, hc, hc'⟩ := allOk_exists (f := fun k => pyIndex2 nx ny (G k)) h.index
  have hinj := h.cell_injective hG hc'
  unfold ifft scatter2
  rw [(validateShape_ok_iff G).2 h, hc]
  simp only [bind, Except.bind]
  congr 1
  ext r s
  unfold ifft2Forward fourierSeries
  simp only [Matrix.of_apply]
  have hpw : ∀ (p : Fin nx) (q : Fin ny),
      Complex.exp (2 * Real.pi * Complex.I * (((p : ℕ) : ℂ) * (r : ℕ) / nx + ((q : ℕ) : ℂ) * (s : ℕ) / ny)) =
        planeWave nx ny ((p : ℕ), (q : ℕ)) r s := by
    intro p q; unfold planeWave; push_cast; rfl
  simp only [hpw]
  classical
  -- the scattered array is a sum of unit cells
  have hsc : ∀ (p : Fin nx) (q : Fin ny),
      (@dite ℂ (∃ k, c k = (p, q)) (Classical.propDecidable _) (fun h => y h.choose) fun _ => 0) =
      ∑ k, if c k = (p, q) then y k else 0 := by
    intro p q
    split_ifs with hex
    · rw [Finset.sum_eq_single hex.choose]
      · rw [if_pos hex.choose_spec]
      · intro b _ hb
        rw [if_neg]
        intro hb'
        exact hb (hinj (hb'.trans hex.choose_spec.symm))
      · intro hb; exact absurd (Finset.mem_univ _) hb
    · push Not at hex
      exact (Finset.sum_eq_zero fun k _ => if_neg (hex k)).symm
  calc ∑ p : Fin nx, ∑ q : Fin ny,
        (@dite ℂ (∃ k, c k = (p, q)) (Classical.propDecidable _) (fun h => y h.choose) fun _ => 0) *
        planeWave nx ny ((p : ℕ), (q : ℕ)) r s
      = ∑ p : Fin nx, ∑ q : Fin ny, ∑ k, (if c k = (p, q) then y k else 0) * planeWave nx ny ((p : ℕ), (q : ℕ)) r s := by
        refine Finset.sum_congr rfl fun p _ => Finset.sum_congr rfl fun q _ => ?_
        rw [hsc p q, Finset.sum_mul]
    _ = ∑ pq : Fin nx × Fin ny, ∑ k, (if c k = pq then y k else 0) * planeWave nx ny ((pq.1 : ℕ), (pq.2 : ℕ)) r s := by
        rw [Fintype.sum_prod_type]
    _ = ∑ k, ∑ pq : Fin nx × Fin ny, (if c k = pq then y k else 0) * planeWave nx ny ((pq.1 : ℕ), (pq.2 : ℕ)) r s :=
        Finset.sum_comm
    _ = ∑ k, y k * planeWave nx ny (G k) r s := by
        refine Finset.sum_congr rfl fun k _ => ?_
        rw [Finset.sum_eq_single (c k)]
        · rw [if_pos rfl]
          have := pyIndex2_eq_ok.1 (hc' k)
          rw [cell_planeWave (pyIndex_cell this.1) (pyIndex_cell this.2)]
        · intro b _ hb
          rw [if_neg (Ne.symm hb), zero_mul]
        · intro hb; exact absurd (Finset.mem_univ _) hb

/-- Coefficients of a product with a series. -/
theorem fourierCoefficient_mul_series (x : Matrix (Fin nx) (Fin ny) ℂ) (G : ι → ℤ × ℤ) (y : ι → ℂ) (g : ℤ × ℤ) :
    fourierCoefficient (Matrix.of fun r s => x r s * fourierSeries G y nx ny r s) g =
      ∑ j, fourierCoefficient x (g - G j) * y j := by
  unfold fourierCoefficient fourierSeries
  simp only [Matrix.of_apply, div_eq_mul_inv, Finset.mul_sum, Finset.sum_mul]
  conv_rhs => rw [Finset.sum_comm]
  refine Finset.sum_congr rfl fun r _ => ?_
  conv_rhs => rw [Finset.sum_comm]
  refine Finset.sum_congr rfl fun s _ => Finset.sum_congr rfl fun j _ => ?_
  have : planeWave nx ny (-(g - G j)) r s = planeWave nx ny (G j) r s * planeWave nx ny (-g) r s := by
    rw [← planeWave_add]; congr 1; abel
  rw [this]
  ring

theorem fourierCoefficient_series {G : ι → ℤ × ℤ} (h : Resolves nx ny G) (hG : Function.Injective G) (y : ι → ℂ) (i : ι) :
    fourierCoefficient (fourierSeries G y nx ny) (G i) = y i := by
  have e : fourierSeries G y nx ny = Matrix.of fun r s => (Matrix.of fun _ _ => (1 : ℂ)) r s * fourierSeries G y nx ny r s := by
    ext r s; simp
  rw [e, fourierCoefficient_mul_series]
  have hx : (nx : ℂ) ≠ 0 := by have := (h.2 i).1; have := abs_nonneg (G i).1; exact_mod_cast (by omega : nx ≠ 0)
  have hy : (ny : ℂ) ≠ 0 := by have := (h.2 i).2; have := abs_nonneg (G i).2; exact_mod_cast (by omega : ny ≠ 0)
  classical
  have hc : ∀ j, fourierCoefficient (Matrix.of fun (_ : Fin nx) (_ : Fin ny) => (1 : ℂ)) (G i - G j) =
      if i = j then 1 else 0 := by
    intro j
    unfold fourierCoefficient
    simp only [Matrix.of_apply, one_mul, sum_planeWave, Prod.fst_neg, Prod.snd_neg, dvd_neg, Prod.fst_sub, Prod.snd_sub]
    by_cases hij : i = j
    · subst hij; simp [hx, hy]
    · rw [if_neg hij, if_neg]
      · simp
      · rintro ⟨h1, h2⟩
        exact hij (hG (h.no_alias i j h1 h2))
  simp only [hc]
  simp

/-- A matrix whose quadratic form has positive real part is invertible. -/
theorem isUnit_det_of_re_form_pos {n : Type} [Fintype n] [DecidableEq n] (T : Matrix n n ℂ)
    (h : ∀ y : n → ℂ, y ≠ 0 → 0 < (star y ⬝ᵥ T *ᵥ y).re) : IsUnit T.det := by
  rw [isUnit_iff_ne_zero]
  intro h0
  obtain ⟨v, hv, hv0⟩ := Matrix.exists_mulVec_eq_zero_iff.2 h0
  have := h v hv
  rw [hv0] at this
  simp at this

/-- The quadratic form of a convolution matrix is the average of `x |f|²`, `f` the field with coefficients `y`. -/
theorem convolution_form (x : Matrix (Fin nx) (Fin ny) ℂ) (G : ι → ℤ × ℤ) (y : ι → ℂ) :
    star y ⬝ᵥ (Matrix.of fun i j => fourierCoefficient x (G i - G j)) *ᵥ y =
      (∑ r : Fin nx, ∑ s : Fin ny, x r s * (Complex.normSq (fourierSeries G y nx ny r s) : ℂ)) / (nx * ny) := by
  have h1 : (Matrix.of fun i j => fourierCoefficient x (G i - G j)) *ᵥ y = fun i =>
      fourierCoefficient (Matrix.of fun r s => x r s * fourierSeries G y nx ny r s) (G i) := by
    funext i
    rw [fourierCoefficient_mul_series]
    rfl
  rw [h1]
  simp only [dotProduct, fourierCoefficient, Matrix.of_apply, div_eq_mul_inv, Finset.mul_sum, Finset.sum_mul, Pi.star_apply]
  rw [Finset.sum_comm]
  refine Finset.sum_congr rfl fun r _ => ?_
  rw [Finset.sum_comm]
  refine Finset.sum_congr rfl fun s _ => ?_
  have h2 : (Complex.normSq (fourierSeries G y nx ny r s) : ℂ) =
      (∑ i, star (y i) * planeWave nx ny (-G i) r s) * fourierSeries G y nx ny r s := by
    rw [← Complex.mul_conj, mul_comm]
    congr 1
    rw [← Complex.star_def]
    simp only [fourierSeries, Matrix.of_apply, star_sum, star_mul', planeWave_neg_conj]
  rw [h2, Finset.sum_mul, Finset.mul_sum, Finset.sum_mul]
  refine Finset.sum_congr rfl fun i _ => ?_
  ring

theorem fourierSeries_ne_zero {G : ι → ℤ × ℤ} (h : Resolves nx ny G) (hG : Function.Injective G) {y : ι → ℂ} (hy : y ≠ 0) :
    ∃ r s, fourierSeries G y nx ny r s ≠ 0 := by
  by_contra hn
  push Not at hn
  apply hy
  funext i
  rw [← fourierCoefficient_series h hG y i]
  simp [fourierCoefficient, hn]

theorem convolution_form_re_pos (x : Matrix (Fin nx) (Fin ny) ℂ) {G : ι → ℤ × ℤ} (h : Resolves nx ny G)
    (hG : Function.Injective G) (hx : ∀ r s, 0 < (x r s).re) (y : ι → ℂ) (hy : y ≠ 0) :
    0 < (star y ⬝ᵥ (Matrix.of fun i j => fourierCoefficient x (G i - G j)) *ᵥ y).re := by
  rw [convolution_form]
  obtain ⟨r₀, s₀, h0⟩ := fourierSeries_ne_zero h hG hy
  have hN : ((nx : ℂ) * ny) = ((nx * ny : ℝ) : ℂ) := by push_cast; rfl
  rw [hN, Complex.div_ofReal_re]
  have hnx : (0 : ℝ) < nx := by exact_mod_cast (by have := r₀.2; omega : 0 < nx)
  have hny : (0 : ℝ) < ny := by exact_mod_cast (by have := s₀.2; omega : 0 < ny)
  apply div_pos _ (by positivity)
  simp only [Complex.re_sum, Complex.re_mul_ofReal]
  have hnn : ∀ r s, 0 ≤ (x r s).re * Complex.normSq (fourierSeries G y nx ny r s) :=
    fun r s => mul_nonneg (hx r s).le (Complex.normSq_nonneg _)
  refine Finset.sum_pos' (fun r _ => Finset.sum_nonneg fun s _ => hnn r s) ⟨r₀, Finset.mem_univ _, ?_⟩
  refine Finset.sum_pos' (fun s _ => hnn r₀ s) ⟨s₀, Finset.mem_univ _, ?_⟩
  exact mul_pos (hx _ _) (Complex.normSq_pos.2 h0)

end Fmmax
