import Verif.Model.FluxBatch
import Verif.Proofs.Farfield
import Verif.Proofs.Profile

/-! Sums over axes of arrays. -/

namespace Fmmax

open Spec

theorem sumIndices_add (s : List ℕ) (f g : List ℕ → ℝ) : sumIndices s (fun i => f i + g i) = sumIndices s f + sumIndices s g := by
  induction s generalizing f g with
  | nil => rfl
  | cons d s ih => simp only [sumIndices, ih, Finset.sum_add_distrib]

theorem sumIndices_mul (s : List ℕ) (a : ℝ) (f : List ℕ → ℝ) : sumIndices s (fun i => a * f i) = a * sumIndices s f := by
  induction s generalizing f with
  | nil => rfl
  | cons d s ih => simp only [sumIndices, ih, Finset.mul_sum]

theorem sumIndices_zero (s : List ℕ) : sumIndices s (fun _ => 0) = 0 := by
  induction s with
  | nil => rfl
  | cons d s ih => simp only [sumIndices, ih, Finset.sum_const_zero]

theorem sumIndices_congr {s : List ℕ} {f g : List ℕ → ℝ} (h : ∀ i, ValidIndex s i → f i = g i) : sumIndices s f = sumIndices s g := by
  induction s generalizing f g with
  | nil => exact h [] .nil
  | cons d s ih =>
    simp only [sumIndices]
    exact Finset.sum_congr rfl fun i hi => ih fun idx hidx => h _ (.cons (Finset.mem_range.1 hi) hidx)

theorem sumIndices_append (s t : List ℕ) (f : List ℕ → ℝ) :
    sumIndices (s ++ t) f = sumIndices s fun i => sumIndices t fun j => f (i ++ j) := by
  induction s generalizing f with
  | nil => rfl
  | cons d s ih => simp only [List.cons_append, sumIndices, ih]

theorem sumIndices_finset (s : List ℕ) {ι : Type} (A : Finset ι) (f : ι → List ℕ → ℝ) :
    sumIndices s (fun i => ∑ a ∈ A, f a i) = ∑ a ∈ A, sumIndices s (f a) := by
  induction s generalizing f with
  | nil => rfl
  | cons d s ih =>
    simp only [sumIndices, ih]
    rw [Finset.sum_comm]

/-- The multi-indices of a shape. -/
def indexSet : List ℕ → Finset (List ℕ)
  | [] => {[]}
  | d :: s => (Finset.range d ×ˢ indexSet s).map ⟨fun p => p.1 :: p.2, fun p q h => by
      simp only [List.cons.injEq] at h
      exact Prod.ext h.1 h.2⟩

theorem mem_indexSet {s i : List ℕ} : i ∈ indexSet s ↔ ValidIndex s i := by
  induction s generalizing i with
  | nil =>
    simp only [indexSet, Finset.mem_singleton, ValidIndex]
    constructor
    · rintro rfl; exact .nil
    · intro h; cases h; rfl
  | cons d s ih =>
    simp only [indexSet, Finset.mem_map, Finset.mem_product, Finset.mem_range, Function.Embedding.coeFn_mk, ih]
    constructor
    · rintro ⟨⟨a, b⟩, ⟨h1, h2⟩, rfl⟩
      exact .cons h1 h2
    · intro h
      cases h with
      | cons h1 h2 => exact ⟨(_, _), ⟨h1, h2⟩, rfl⟩

theorem sumIndices_eq_sum (s : List ℕ) (f : List ℕ → ℝ) : sumIndices s f = ∑ i ∈ indexSet s, f i := by
  induction s generalizing f with
  | nil => simp [sumIndices, indexSet]
  | cons d s ih =>
    simp only [sumIndices, indexSet, Finset.sum_map, Finset.sum_product, ih]
    rfl

/-- The sum over two axes of a grid and the second axis from the end. -/
theorem sumAxes_eq (x : NDArray ℝ) {X Y Z : List ℕ} {p q t S : ℕ} (hs : x.shape = X ++ p :: (Y ++ q :: (Z ++ [t, S]))) :
    (x.sumAxes [X.length, X.length + 1 + Y.length, x.shape.length - 2]).shape = X ++ (Y ++ (Z ++ [S])) ∧
      ∀ a b c σ, a.length = X.length → b.length = Y.length → c.length = Z.length →
        (x.sumAxes [X.length, X.length + 1 + Y.length, x.shape.length - 2]).get (a ++ (b ++ (c ++ [σ]))) =
          ∑ i ∈ Finset.range p, ∑ j ∈ Finset.range q, ∑ k ∈ Finset.range t, x.get (a ++ i :: (b ++ j :: (c ++ [k, σ]))) := by
  have hl : x.shape.length = X.length + Y.length + Z.length + 4 := by rw [hs]; simp; omega
  have hsh : (x.transpose (moveToEnd x.shape.length [X.length, X.length + 1 + Y.length, x.shape.length - 2])).shape =
      (X ++ (Y ++ (Z ++ [S]))) ++ [p, q, t] := by
    unfold NDArray.transpose
    simp only
    rw [hl, show X.length + Y.length + Z.length + 4 - 2 = X.length + Y.length + Z.length + 2 by omega, hs, moveToEnd_map rfl rfl rfl]
    simp
  have hn : x.shape.length - 3 = (X ++ (Y ++ (Z ++ [S]))).length := by rw [hl]; simp; omega
  unfold NDArray.sumAxes
  simp only [List.length_cons, List.length_nil]
  rw [hsh, hn, List.take_left, List.drop_left]
  refine ⟨rfl, fun a b c σ ha hb hc => ?_⟩
  simp only [sumIndices]
  refine Finset.sum_congr rfl fun i _ => Finset.sum_congr rfl fun j _ => Finset.sum_congr rfl fun k _ => ?_
  rw [← transpose_get x (axes := moveToEnd x.shape.length [X.length, X.length + 1 + Y.length, x.shape.length - 2])
    (moveToEnd_perm _ _) (by rw [hl]; simp [ha, hb, hc]; omega)]
  rw [hl, show X.length + Y.length + Z.length + 4 - 2 = X.length + Y.length + Z.length + 2 by omega, moveToEnd_map ha hb hc]
  simp

theorem resizeTwo_eq (x : NDArray ℝ) {B D : List ℕ} {r c s : ℕ} (hs : x.shape = B ++ r :: c :: D) :
    (x.resizeTwo B.length s).shape = B ++ s * r :: s * c :: D ∧
      ∀ b d i j, b.length = B.length → (x.resizeTwo B.length s).get (b ++ i :: j :: d) =
        resizeLinear r c s (fun i' j' => x.get (b ++ i' :: j' :: d)) i j := by
  have e1 : x.shape.getD B.length 0 = r := by rw [hs]; exact getD_append_cons rfl
  have e2 : x.shape.getD (B.length + 1) 0 = c := by
    rw [hs, show B ++ r :: c :: D = (B ++ [r]) ++ c :: D by simp]; exact getD_append_cons (by simp)
  have ht : ∀ (b d : List ℕ) (i j : ℕ), b.length = B.length → (b ++ i :: j :: d).take B.length = b := fun b d i j hb =>
    List.take_left' hb
  have hd : ∀ (b d : List ℕ) (i j : ℕ), b.length = B.length → (b ++ i :: j :: d).drop (B.length + 2) = d := by
    intro b d i j hb
    rw [show b ++ i :: j :: d = (b ++ [i, j]) ++ d by simp]
    exact List.drop_left' (by simp [hb])
  unfold NDArray.resizeTwo
  simp only
  rw [e1, e2]
  refine ⟨?_, fun b d i j hb => ?_⟩
  · rw [hs, ht _ _ _ _ rfl, hd _ _ _ _ rfl]
  · rw [ht _ _ _ _ hb, hd _ _ _ _ hb, getD_append_cons hb,
      show b ++ i :: j :: d = (b ++ [i]) ++ j :: d by simp, getD_append_cons (by simp [hb])]

/-- The flux axis of both polarizations as pairs of polarization and order. -/
theorem sum_range_two_mul {n : ℕ} (f : ℕ → ℝ) :
    ∑ k ∈ Finset.range (2 * n), f k = ∑ m : Fin 2 × Fin n, f ((m.1 : ℕ) * n + (m.2 : ℕ)) := by
  rw [Finset.sum_range, ← finProdFinEquiv.sum_comp]
  refine Finset.sum_congr rfl fun m _ => ?_
  simp only [finProdFinEquiv_apply_val]
  congr 1
  ring

end Fmmax
