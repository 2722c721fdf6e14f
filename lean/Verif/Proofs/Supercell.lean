import Verif.Proofs.Intertwine
import Verif.Proofs.Redescription
import Verif.Spec.Supercell
import Mathlib.LinearAlgebra.Matrix.ToLinearEquiv
import Mathlib.LinearAlgebra.Matrix.Basis
import Mathlib.LinearAlgebra.FiniteDimensional.Basic

/-! Supercells: the orders of one class, from the sampled patterns to the scattering matrix. -/

set_option linter.unusedSectionVars false

namespace Fmmax

open Matrix Spec

variable {ι κ : Type} [Fintype ι] [DecidableEq ι] [Fintype κ] [DecidableEq κ] {nx ny : ℕ}

/-- From matrices with a right inverse one may select independent columns. -/
theorem exists_columns {a a' : Type} [Fintype a] [DecidableEq a] [Fintype a'] [DecidableEq a'] {X : Matrix a a' ℂ} {Y : Matrix a' a ℂ} (h : X * Y = 1) :
    ∃ f : a → a', IsUnit (X.submatrix id f).det := by
  have hspan : Submodule.span ℂ (Set.range X.col) = ⊤ := by
    rw [eq_top_iff]
    intro v _
    have hv : v = X.mulVec (Y.mulVec v) := by rw [mulVec_mulVec, h, one_mulVec]
    rw [hv, ← range_mulVecLin]
    exact ⟨_, rfl⟩
  obtain ⟨s, hs, hb, hli⟩ := exists_linearIndependent ℂ (Set.range X.col)
  rw [hspan] at hb
  let B := Module.Basis.mk hli (by rw [Subtype.range_coe_subtype]; exact hb.ge)
  haveI : Finite s := Set.Finite.subset (Set.finite_range X.col) hs
  haveI := Fintype.ofFinite s
  have hcard : Fintype.card a = Fintype.card s := by
    rw [← Module.finrank_eq_card_basis B, Module.finrank_fintype_fun_eq_card]
  let σ := Fintype.equivOfCardEq hcard
  choose f hf using fun i : a => hs (σ i).2
  refine ⟨f, ?_⟩
  have hli' : LinearIndependent ℂ (fun i : a => X.col (f i)) := by
    have : (fun i : a => X.col (f i)) = (fun x : s => (x : a → ℂ)) ∘ σ := by
      funext i; exact hf i
    rw [this]
    exact hli.comp _ σ.injective
  rw [← isUnit_iff_isUnit_det, ← linearIndependent_cols_iff_isUnit]
  exact hli'

theorem Part.Carries.diagonalise {a a' : Type} [Fintype a] [DecidableEq a] [Fintype a'] [DecidableEq a'] {e : Part a a'} {A' V' : Matrix a' a' ℂ}
    {A : Matrix a a ℂ} (h : e.Carries e A' A) (hV : IsUnit V'.det) {w' : a' → ℂ} (hA : A' * V' = V' * diagonal w') :
    ∃ (V : Matrix a a ℂ) (w : a → ℂ), IsUnit V.det ∧ A * V = V * diagonal w := by
  obtain ⟨f, hf⟩ := exists_columns (X := e.onto * V') (Y := V'⁻¹ * e.into) (by
    calc e.onto * V' * (V'⁻¹ * e.into) = e.onto * (V' * V'⁻¹) * e.into := by mat_module
      _ = 1 := by rw [mul_nonsing_inv _ hV, Matrix.mul_one, e.onto_into])
  refine ⟨_, w' ∘ f, hf, ?_⟩
  have key : A * (e.onto * V') = e.onto * V' * diagonal w' := by
    rw [← Matrix.mul_assoc, ← h.2, Matrix.mul_assoc, hA, Matrix.mul_assoc]
  ext i j
  have := congrFun (congrFun key i) (f j)
  rw [mul_diagonal] at this ⊢
  exact this

/-- Solved layers. -/
theorem layerPart_of_solved {e : Part (ι ⊕ ι) (κ ⊕ κ)} {l' : LayerSolveResult κ} {l : LayerSolveResult ι} {E' : ModeMatrix κ} {E : ModeMatrix ι}
    (hl' : SolvedFor l' E') (hl : SolvedFor l E) (hf' : ∀ i, IsForwardRoot (l'.eigenvalues i ^ 2) (l'.eigenvalues i))
    (hf : ∀ i, IsForwardRoot (l.eigenvalues i ^ 2) (l.eigenvalues i)) (hφ' : IsUnit l'.eigenvectors.det) (hφ : IsUnit l.eigenvectors.det)
    (hE : e.Carries e (magneticToElectric l') (magneticToElectric l)) (hop : e.Carries e (modeOperator l' E') (modeOperator l E)) :
    LayerPart e (e.modes hφ' hφ) l' l := by
  have h1 : modeOperator l E * l.eigenvectors = l.eigenvectors * diagonal fun i => l.eigenvalues i ^ 2 := hl.modes
  have h2 : modeOperator l' E' * l'.eigenvectors = l'.eigenvectors * diagonal fun i => l'.eigenvalues i ^ 2 := hl'.modes
  have hPP : l.eigenvectors * l.eigenvectors⁻¹ = 1 := mul_nonsing_inv _ hφ
  have hPP' : l'.eigenvectors * l'.eigenvectors⁻¹ = 1 := mul_nonsing_inv _ hφ'
  have hQQ : l.eigenvectors⁻¹ * l.eigenvectors = 1 := nonsing_inv_mul _ hφ
  have hQQ' : l'.eigenvectors⁻¹ * l'.eigenvectors = 1 := nonsing_inv_mul _ hφ'
  have h3 : (diagonal fun i => l.eigenvalues i ^ 2) = l.eigenvectors⁻¹ * modeOperator l E * l.eigenvectors := by
    rw [Matrix.mul_assoc, h1, ← Matrix.mul_assoc, hQQ, Matrix.one_mul]
  have h4 : (diagonal fun i => l'.eigenvalues i ^ 2) = l'.eigenvectors⁻¹ * modeOperator l' E' * l'.eigenvectors := by
    rw [Matrix.mul_assoc, h2, ← Matrix.mul_assoc, hQQ', Matrix.one_mul]
  have hm := e.carries_modes hφ' hφ
  have key : (e.modes hφ' hφ).Carries (e.modes hφ' hφ) (diagonal fun i => l'.eigenvalues i ^ 2) (diagonal fun i => l.eigenvalues i ^ 2) := by
    rw [h3, h4]
    exact ((hm.inv hφ' hφ).mul hop).mul hm
  have root : ∀ i j, l'.eigenvalues i ^ 2 = l.eigenvalues j ^ 2 → l'.eigenvalues i = l.eigenvalues j := by
    intro i j h
    have f1 := hf' i
    rw [h] at f1
    exact isForwardRoot_unique f1 (hf j)
  refine ⟨fun _ => hl.wellPosed, hE, hm, ?_, ?_⟩
  · intro i j hT
    have := congrFun (congrFun key.1 i) j
    rw [diagonal_mul, mul_diagonal, mul_comm] at this
    exact root i j (mul_left_cancel₀ hT this)
  · intro i j hT
    have := congrFun (congrFun key.2 j) i
    rw [diagonal_mul, mul_diagonal, mul_comm _ ((e.modes hφ' hφ).onto j i)] at this
    exact root i j (mul_left_cancel₀ hT this)

/-! ### Fourier orders of one class -/

/-- The orders of one class. -/
def placePart (place : ι → κ) (h : Function.Injective place) : Part ι κ :=
  { into := Matrix.of fun x i => if place i = x then 1 else 0
    onto := Matrix.of fun i x => if place i = x then 1 else 0
    onto_into := by
      ext i j
      simp only [Matrix.mul_apply, of_apply, ite_mul, one_mul, zero_mul]
      rw [Finset.sum_ite_eq Finset.univ (place i)]
      simp only [Finset.mem_univ, if_true]
      by_cases hij : i = j
      · subst hij; simp
      · rw [if_neg (fun h0 => hij (h h0).symm), Matrix.one_apply_ne hij] }

variable {place : ι → κ} (hp : Function.Injective place)

theorem placePart_carries_iff {A' : Matrix κ κ ℂ} {A : Matrix ι ι ℂ} :
    (placePart place hp).Carries (placePart place hp) A' A ↔
      (∀ i j, A' (place i) (place j) = A i j) ∧ ∀ x, (∀ i, place i ≠ x) → ∀ j, A' x (place j) = 0 ∧ A' (place j) x = 0 := by
  have l1 : ∀ x j, (A' * (placePart place hp).into) x j = A' x (place j) := by
    intro x j
    simp [placePart, Matrix.mul_apply]
  have l2 : ∀ i j, ((placePart place hp).into * A) (place i) j = A i j := by
    intro i j
    rw [Matrix.mul_apply, Finset.sum_eq_single i]
    · simp [placePart]
    · intro b _ hb
      simp [placePart, hp.ne hb]
    · simp
  have l3 : ∀ x, (∀ i, place i ≠ x) → ∀ j, ((placePart place hp).into * A) x j = 0 := by
    intro x hx j
    rw [Matrix.mul_apply]
    exact Finset.sum_eq_zero fun i _ => by simp [placePart, hx i]
  have r1 : ∀ i x, ((placePart place hp).onto * A') i x = A' (place i) x := by
    intro i x
    simp [placePart, Matrix.mul_apply]
  have r2 : ∀ i j, (A * (placePart place hp).onto) i (place j) = A i j := by
    intro i j
    rw [Matrix.mul_apply, Finset.sum_eq_single j]
    · simp [placePart]
    · intro b _ hb
      simp [placePart, hp.ne hb]
    · simp
  have r3 : ∀ x, (∀ i, place i ≠ x) → ∀ j, (A * (placePart place hp).onto) j x = 0 := by
    intro x hx j
    rw [Matrix.mul_apply]
    exact Finset.sum_eq_zero fun i _ => by simp [placePart, hx i]
  constructor
  · rintro ⟨h1, h2⟩
    refine ⟨fun i j => ?_, fun x hx j => ⟨?_, ?_⟩⟩
    · rw [← l1, h1, l2]
    · rw [← l1, h1, l3 x hx]
    · rw [← r1, h2, r3 x hx]
  · rintro ⟨h1, h2⟩
    refine ⟨?_, ?_⟩
    · ext x j
      rw [l1]
      by_cases hx : ∃ i, place i = x
      · obtain ⟨i, rfl⟩ := hx
        rw [l2, h1]
      · push Not at hx
        rw [l3 x hx, (h2 x hx j).1]
    · ext j x
      rw [r1]
      by_cases hx : ∃ i, place i = x
      · obtain ⟨i, rfl⟩ := hx
        rw [r2, h1]
      · push Not at hx
        rw [r3 x hx, (h2 x hx j).2]

theorem placePart_diagonal {d' : κ → ℂ} {d : ι → ℂ} (h : ∀ i, d' (place i) = d i) :
    (placePart place hp).Carries (placePart place hp) (diagonal d') (diagonal d) := by
  refine Part.carries_diagonal ?_ ?_
  · intro x i hx
    simp only [placePart, of_apply, ne_eq, ite_eq_right_iff, one_ne_zero, imp_false, not_not] at hx
    rw [← hx, h]
  · intro x i hx
    simp only [placePart, of_apply, ne_eq, ite_eq_right_iff, one_ne_zero, imp_false, not_not] at hx
    rw [← hx, h]

theorem placePart_double_iff {A' : ModeMatrix κ} {A : ModeMatrix ι} (h : (placePart place hp).double.Carries (placePart place hp).double A' A) :
    IsBlock place A A' := by
  have hp2 : Function.Injective (Sum.map place place) := Sum.map_injective.2 ⟨hp, hp⟩
  have e1 : (placePart place hp).double.into = (placePart (Sum.map place place) hp2).into := by
    ext x i
    rcases x with x | x <;> rcases i with i | i <;> simp [Part.double, placePart]
  have e2 : (placePart place hp).double.onto = (placePart (Sum.map place place) hp2).onto := by
    ext i x
    rcases x with x | x <;> rcases i with i | i <;> simp [Part.double, placePart]
  have h' : (placePart (Sum.map place place) hp2).Carries (placePart (Sum.map place place) hp2) A' A := by
    refine ⟨?_, ?_⟩
    · rw [← e1]; exact h.1
    · rw [← e2]; exact h.2
  exact (placePart_carries_iff hp2).1 h'

end Fmmax
