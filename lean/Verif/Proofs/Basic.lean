import Verif.Model.Basic
import Mathlib.Tactic.Module
import Mathlib.Tactic.LinearCombination
import Mathlib.Tactic.NoncommRing

/-! Helper lemmas for the guarded operations. -/

namespace Fmmax

open Matrix

/-- Expand products of (rectangular) matrices and close the remaining linear identity. -/
macro "mat_module" : tactic => `(tactic| (
  (try simp only [Matrix.add_mul, Matrix.mul_add, Matrix.sub_mul, Matrix.mul_sub, Matrix.neg_mul,
    Matrix.mul_neg, Matrix.smul_mul, Matrix.mul_smul, Matrix.mul_assoc, Matrix.one_mul, Matrix.mul_one])
  <;> module))

@[simp] theorem bind_eq_ok {α β : Type} {x : Res α} {f : α → Res β} {b : β} :
    (x >>= f) = .ok b ↔ ∃ a, x = .ok a ∧ f a = .ok b := by
  cases x with
  | error e => simp [bind, Except.bind]
  | ok a => simp [bind, Except.bind]

theorem ok_inj {α : Type} {a b : α} : ((.ok a : Res α) = .ok b) ↔ a = b := by
  constructor
  · intro h; injection h
  · rintro rfl; rfl

section
variable {n β : Type} [Fintype n] [DecidableEq n]

theorem solve_eq_ok {A : Matrix n n ℂ} {B X : Matrix n β ℂ} :
    solve A B = .ok X ↔ IsUnit A.det ∧ A * X = B := by
  unfold solve
  split_ifs with h
  · constructor
    · intro hx
      rw [ok_inj] at hx
      refine ⟨h, ?_⟩
      rw [← hx, Matrix.mul_nonsing_inv_cancel_left _ _ h]
    · rintro ⟨-, rfl⟩
      rw [Matrix.nonsing_inv_mul_cancel_left _ _ h]
  · constructor
    · intro hx; cases hx
    · rintro ⟨hu, -⟩; exact absurd hu h

theorem solve_of_isUnit {A : Matrix n n ℂ} (B : Matrix n β ℂ) (h : IsUnit A.det) :
    solve A B = .ok (A⁻¹ * B) := by
  unfold solve; rw [if_pos h]

theorem solve_exists_iff {A : Matrix n n ℂ} {B : Matrix n β ℂ} :
    (∃ X, solve A B = .ok X) ↔ IsUnit A.det := by
  constructor
  · rintro ⟨X, h⟩; exact (solve_eq_ok.1 h).1
  · intro h; exact ⟨_, solve_of_isUnit B h⟩
end

theorem recip_eq_ok {n : Type} {q r : n → ℂ} :
    recip q = .ok r ↔ (∀ i, q i ≠ 0) ∧ r = fun i => (q i)⁻¹ := by
  unfold recip
  split_ifs with h
  · rw [ok_inj]
    simp only [one_div]
    constructor
    · intro e; exact ⟨h, e.symm⟩
    · rintro ⟨-, e⟩; exact e.symm
  · simp [h]

theorem rowScale_eq {m n : Type} [Fintype m] [DecidableEq m] (v : m → ℂ) (A : Matrix m n ℂ) :
    rowScale v A = Matrix.diagonal v * A := by
  ext i j; simp [rowScale, Matrix.diagonal_mul]

theorem colScale_eq {m n : Type} [Fintype n] [DecidableEq n] (A : Matrix m n ℂ) (v : n → ℂ) :
    colScale A v = A * Matrix.diagonal v := by
  ext i j; simp [colScale, Matrix.mul_diagonal]

theorem diag_eq {n : Type} [DecidableEq n] (v : n → ℂ) : diag v = Matrix.diagonal v := by
  ext i j; simp [diag, Matrix.diagonal_apply]

@[simp] theorem diag_one {n : Type} [DecidableEq n] : diag (fun _ : n => (1 : ℂ)) = 1 := by
  rw [diag_eq]; rfl

theorem angularFrequency_eq_ok {lam w : ℝ} :
    angularFrequency lam = .ok w ↔ lam ≠ 0 ∧ w = 2 * Real.pi / lam := by
  unfold angularFrequency
  split_ifs with h
  · simp [h]
  · rw [ok_inj]; constructor
    · intro e; exact ⟨h, e.symm⟩
    · rintro ⟨-, e⟩; exact e.symm

theorem angularFrequency_ne_zero {lam w : ℝ} (h : angularFrequency lam = .ok w) : w ≠ 0 := by
  obtain ⟨h1, rfl⟩ := angularFrequency_eq_ok.1 h
  have := Real.pi_ne_zero
  positivity

end Fmmax
