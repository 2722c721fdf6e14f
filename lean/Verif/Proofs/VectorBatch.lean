import Verif.Model.VectorBatch
import Verif.Proofs.Farfield
import Verif.Proofs.NDArray

/-! Reshaping of batch dimensions. -/

namespace Fmmax

open Spec

theorem ravelIndex_merge {s i : List ℕ} (h : i.length = s.length) (N : ℕ) (t x : List ℕ) :
    ravelIndex (s ++ t) (i ++ x) = ravelIndex (N :: t) (ravelIndex s i :: x) := by
  unfold ravelIndex
  rw [List.zip_append h.symm, List.foldl_append, List.zip_cons_cons, List.foldl_cons, zero_mul, zero_add]

theorem ravelIndex_lt {s i : List ℕ} (h : ValidIndex s i) : ravelIndex s i < s.prod := by
  induction s using List.reverseRecOn generalizing i with
  | nil =>
    obtain rfl : i = [] := List.forall₂_nil_right_iff.1 h
    simp [ravelIndex]
  | append_singleton s N ih =>
    have hl := h.length_eq
    have hne : i ≠ [] := by
      rintro rfl
      simp at hl
    obtain ⟨i', k, rfl⟩ : ∃ i' k, i = i' ++ [k] := ⟨_, _, (List.dropLast_append_getLast hne).symm⟩
    simp only [List.length_append, List.length_singleton] at hl
    have hl : i'.length = s.length := by omega
    have h1 : ValidIndex s i' := by
      have := List.forall₂_take s.length h
      rwa [List.take_left' hl, List.take_left' rfl] at this
    have h2 : k < N := by
      have := List.forall₂_drop s.length h
      rw [List.drop_left' hl, List.drop_left' rfl] at this
      exact (List.forall₂_cons.1 this).1
    rw [ravelIndex_append hl, List.prod_append, List.prod_singleton]
    have := ih h1
    calc ravelIndex s i' * N + k < ravelIndex s i' * N + N := by omega
      _ = (ravelIndex s i' + 1) * N := by ring
      _ ≤ s.prod * N := Nat.mul_le_mul_right _ this

theorem ravelIndex_ones (m : ℕ) (s i : List ℕ) :
    ravelIndex (List.replicate m 1 ++ s) (List.replicate m 0 ++ i) = ravelIndex s i := by
  induction m with
  | zero => rfl
  | succ m ih =>
    rw [List.replicate_succ, List.replicate_succ]
    unfold ravelIndex at ih ⊢
    simpa using ih

/-- If `s` can be broadcast to `t` without repetition, corresponding elements are at the same position. -/
theorem ravelIndex_broadcast {s t i : List ℕ} (h : BroadcastsTo s t) (ht : 0 < t.prod) (hp : s.prod = t.prod)
    (hi : ValidIndex t i) : ravelIndex s (broadcastIndex s i) = ravelIndex t i := by
  obtain ⟨lead, tail, rfl, hf⟩ := h
  rw [List.prod_append] at ht hp
  have hl0 : 0 < lead.prod := Nat.pos_of_mul_pos_right ht
  have ht0 : 0 < tail.prod := Nat.pos_of_mul_pos_left ht
  have key : ∀ {s tail : List ℕ}, List.Forall₂ (fun a b => a = 1 ∨ a = b) s tail → 0 < tail.prod →
      s.prod ≤ tail.prod ∧ (s.prod = tail.prod → s = tail) := by
    intro s tail h
    induction h with
    | nil => simp
    | @cons a b s tail hab _ ih =>
      intro h0
      rw [List.prod_cons] at h0
      have hb : 0 < b := Nat.pos_of_mul_pos_right h0
      have htl : 0 < tail.prod := Nat.pos_of_mul_pos_left h0
      obtain ⟨i1, i2⟩ := ih htl
      have hab' : a ≤ b := by rcases hab with h | h <;> omega
      rw [List.prod_cons, List.prod_cons]
      refine ⟨Nat.mul_le_mul hab' i1, fun he => ?_⟩
      have e1 : a = b := by
        rcases hab with rfl | rfl
        · by_contra hne
          have : 2 ≤ b := by omega
          nlinarith
        · rfl
      subst e1
      rw [i2 (Nat.eq_of_mul_eq_mul_left hb he)]
  obtain ⟨k1, k2⟩ := key hf ht0
  have hlead : lead.prod = 1 := by
    by_contra hne
    have : 2 ≤ lead.prod := by omega
    nlinarith
  have hs := k2 (by rw [hp, hlead, one_mul])
  subst hs
  have hlen := hi.length_eq
  rw [List.length_append] at hlen
  obtain ⟨a, b, rfl, ha⟩ : ∃ a b, i = a ++ b ∧ a.length = lead.length :=
    ⟨i.take lead.length, i.drop lead.length, (List.take_append_drop _ _).symm, by simp; omega⟩
  have hb : b.length = s.length := by rw [List.length_append] at hlen; omega
  have h1 : ValidIndex lead a := by
    have := List.forall₂_take lead.length hi
    rwa [List.take_left' ha, List.take_left' rfl] at this
  have h2 : ValidIndex s b := by
    have := List.forall₂_drop lead.length hi
    rwa [List.drop_left' ha, List.drop_left' rfl] at this
  rw [broadcastIndex_lead hb.symm, broadcastIndex_of_valid h2, ravelIndex_merge ha 1]
  have h3 := ravelIndex_lt h1
  rw [show ravelIndex lead a = 0 by omega]
  simp [ravelIndex]

theorem unravelIndex_spec {s : List ℕ} {k : ℕ} (h : k < s.prod) :
    ValidIndex s (unravelIndex s k) ∧ ravelIndex s (unravelIndex s k) = k := by
  induction s using List.reverseRecOn generalizing k with
  | nil =>
    simp only [List.prod_nil, Nat.lt_one_iff] at h
    subst h
    exact ⟨.nil, rfl⟩
  | append_singleton s N ih =>
    rw [List.prod_append, List.prod_singleton] at h
    have hN : 0 < N := Nat.pos_of_ne_zero (by rintro rfl; simp at h)
    obtain ⟨i1, i2⟩ := ih (Nat.div_lt_of_lt_mul (by rwa [mul_comm] at h) : k / N < s.prod)
    rw [unravelIndex_append]
    refine ⟨validIndex_append i1 (.cons (Nat.mod_lt _ hN) .nil), ?_⟩
    rw [ravelIndex_append i1.length_eq, i2, Nat.div_add_mod']

/-- The lattice in position `k` of the flattened batch; a single lattice is used for all positions. -/
def latticeAtPosition (L : List ℕ) (u v : NDArray ℝ) (k : ℕ) : LatticeVectors :=
  let i := unravelIndex L (if L.prod = 1 then 0 else k)
  { u := (u.get (i ++ [0]), u.get (i ++ [1])), v := (v.get (i ++ [0]), v.get (i ++ [1])) }

theorem latticeRows_eq {L : List ℕ} {a : NDArray ℝ} (ha : a.shape = L ++ [2]) {N : ℕ} (h : L.prod = 1 ∨ L.prod = N) :
    ∃ out, latticeRows a N = .ok out ∧ ∀ k c, k < N → c < 2 →
      out.get [k, c] = a.get (unravelIndex L (if L.prod = 1 then 0 else k) ++ [c]) := by
  have hp : a.shape.prod = L.prod * 2 := by rw [ha, List.prod_append]; simp
  unfold latticeRows
  rw [hp, if_neg (by simp), Nat.mul_div_cancel _ (by norm_num), if_neg (by omega)]
  refine ⟨_, rfl, fun k c hk hc => ?_⟩
  have e1 : broadcastIndex [L.prod, 2] [k, c] = [if L.prod = 1 then 0 else k, c] := by
    simp [broadcastIndex]
  simp only [e1, NDArray.reshape, ha]
  congr 1
  rw [show ravelIndex [L.prod, 2] [if L.prod = 1 then 0 else k, c] = (if L.prod = 1 then 0 else k) * 2 + c by simp [ravelIndex],
    unravelIndex_append]
  congr 2
  · congr 1; omega
  · omega

theorem latticeRows_error {L : List ℕ} {a : NDArray ℝ} (ha : a.shape = L ++ [2]) {N : ℕ} (h : ¬(L.prod = 1 ∨ L.prod = N)) :
    latticeRows a N = .error .valueError := by
  have hp : a.shape.prod = L.prod * 2 := by rw [ha, List.prod_append]; simp
  unfold latticeRows
  rw [hp, if_neg (by simp), Nat.mul_div_cancel _ (by norm_num), if_pos (by omega)]

section

variable {ι : Type} [Fintype ι] [DecidableEq ι] {arr : NDArray ℂ} {G : ι → ℤ × ℤ} {u v : NDArray ℝ} {B L : List ℕ} {nx ny : ℕ}

theorem computeTangentField_shapes (ha : arr.shape = B ++ [nx, ny]) (hx : 0 < nx) (hy : 0 < ny) :
    arr.shape.take (arr.shape.length - 2) = B ∧
    (arr.atleastNd 3).shape.getD ((arr.atleastNd 3).shape.length - 2) 0 = nx ∧
    (arr.atleastNd 3).shape.getD ((arr.atleastNd 3).shape.length - 1) 0 = ny ∧
    (arr.atleastNd 3).shape.prod / (nx * ny) = B.prod := by
  have hs : (arr.atleastNd 3).shape = (List.replicate (3 - (B.length + 2)) 1 ++ B) ++ [nx, ny] := by
    unfold NDArray.atleastNd
    rw [ha]
    simp
  refine ⟨?_, ?_, ?_, ?_⟩
  · rw [ha]
    simp
  · rw [hs]
    generalize List.replicate (3 - (B.length + 2)) 1 ++ B = s
    rw [List.getD_eq_getElem?_getD, List.length_append]
    simp
  · rw [hs]
    generalize List.replicate (3 - (B.length + 2)) 1 ++ B = s
    rw [List.getD_eq_getElem?_getD, List.length_append]
    simp
  · rw [hs, List.prod_append, List.prod_append, List.prod_replicate, one_pow, one_mul]
    have : [nx, ny].prod = nx * ny := by simp
    rw [this, Nat.mul_div_cancel _ (Nat.mul_pos hx hy)]

theorem computeTangentField_flat (ha : arr.shape = B ++ [nx, ny]) {b : List ℕ} (hb : ValidIndex B b) {i j : ℕ} (hi : i < nx)
    (hj : j < ny) : ((arr.atleastNd 3).reshape [B.prod, nx, ny]).get [ravelIndex B b, i, j] = arr.get (b ++ [i, j]) := by
  have hs : (arr.atleastNd 3).shape = List.replicate (3 - (B.length + 2)) 1 ++ (B ++ [nx, ny]) := by
    unfold NDArray.atleastNd
    rw [ha]
    simp
  have hv : ValidIndex (List.replicate (3 - (B.length + 2)) 1 ++ (B ++ [nx, ny]))
      (List.replicate (3 - (B.length + 2)) 0 ++ (b ++ [i, j])) := by
    refine validIndex_append ?_ (validIndex_append hb (.cons hi (.cons hj .nil)))
    have := validIndex_zero (s := List.replicate (3 - (B.length + 2)) 1) (by simp)
    simpa using this
  unfold NDArray.reshape
  simp only
  rw [← ravelIndex_merge hb.length_eq, ← ravelIndex_ones (3 - (B.length + 2)), hs, unravel_ravel hv]
  unfold NDArray.atleastNd
  simp only
  congr 1
  rw [ha]
  exact List.drop_left' (by simp)

/-- The result of `compute_tangent_field`, elements paired with lattices by position. -/
theorem computeTangentField_eq (ha : arr.shape = B ++ [nx, ny]) (hx : 0 < nx) (hy : 0 < ny) (hu : u.shape = L ++ [2])
    (hv : v.shape = L ++ [2]) (hL : L.prod = 1 ∨ L.prod = B.prod) {jd : Bool} {fw sw : ℝ} {steps : ℕ}
    (t : List ℕ → VectorField nx ny)
    (ht : ∀ b, ValidIndex B b → computeTangentFieldNoBatch (Matrix.of fun (i : Fin nx) (j : Fin ny) =>
      arr.get (b ++ [(i : ℕ), (j : ℕ)])) G (latticeAtPosition L u v (ravelIndex B b)) jd fw sw steps = .ok (t b)) :
    ∃ tx ty, computeTangentField arr G u v jd fw sw steps = .ok (tx, ty) ∧ tx.shape = B ++ [nx, ny] ∧ ty.shape = B ++ [nx, ny] ∧
      ∀ b, ValidIndex B b → ∀ (i : Fin nx) (j : Fin ny),
        tx.get (b ++ [(i : ℕ), (j : ℕ)]) = t b i j 0 ∧ ty.get (b ++ [(i : ℕ), (j : ℕ)]) = t b i j 1 := by
  obtain ⟨s1, s2, s3, s4⟩ := computeTangentField_shapes ha hx hy
  obtain ⟨us, hus, eus⟩ := latticeRows_eq hu hL
  obtain ⟨vs, hvs, evs⟩ := latticeRows_eq hv hL
  have hrow : ∀ k, k < B.prod → latticeRow us vs k = latticeAtPosition L u v k := by
    intro k hk
    unfold latticeRow latticeAtPosition
    simp only [eus k 0 hk (by norm_num), eus k 1 hk (by norm_num), evs k 0 hk (by norm_num), evs k 1 hk (by norm_num)]
  have hall : allOk (fun k : Fin B.prod => computeTangentFieldNoBatch (Matrix.of fun (i : Fin nx) (j : Fin ny) =>
      ((arr.atleastNd 3).reshape [B.prod, nx, ny]).get [(k : ℕ), (i : ℕ), (j : ℕ)]) G (latticeRow us vs k) jd fw sw steps) =
      .ok fun k => t (unravelIndex B k) := by
    refine allOk_eq_ok.2 fun k => ?_
    obtain ⟨h1, h2⟩ := unravelIndex_spec k.2
    rw [hrow _ k.2, ← ht _ h1, h2]
    congr 1
    ext i j
    simp only [Matrix.of_apply]
    rw [← computeTangentField_flat ha h1 i.2 j.2, h2]
  unfold computeTangentField
  simp only [s1, s2, s3, s4]
  rw [if_neg (Nat.mul_pos hx hy).ne', hus]
  simp only [bind, Except.bind]
  rw [hvs]
  simp only [mapTangentField, bind, Except.bind]
  rw [hall]
  simp only
  refine ⟨_, _, rfl, ?_, ?_, fun b hb i j => ?_⟩
  · simp [NDArray.selectLast, NDArray.reshape, List.dropLast_append_of_ne_nil]
  · simp [NDArray.selectLast, NDArray.reshape, List.dropLast_append_of_ne_nil]
  · have hlt := ravelIndex_lt hb
    have key : ∀ c, c < 2 → unravelIndex [B.prod, nx, ny, 2] (ravelIndex (B ++ [nx, ny, 2]) (b ++ [(i : ℕ), (j : ℕ)] ++ [c])) =
        [ravelIndex B b, (i : ℕ), (j : ℕ), c] := by
      intro c hc
      rw [List.append_assoc, ravelIndex_merge hb.length_eq B.prod]
      exact unravel_ravel (.cons hlt (.cons i.2 (.cons j.2 (.cons hc .nil))))
    constructor
    · simp only [NDArray.selectLast, NDArray.reshape]
      rw [key 0 (by norm_num), dif_pos ⟨by simpa using hlt, by simp, by simp⟩]
      simp [unravel_ravel hb]
    · simp only [NDArray.selectLast, NDArray.reshape]
      rw [key 1 (by norm_num), dif_pos ⟨by simpa using hlt, by simp, by simp⟩]
      simp [unravel_ravel hb]

theorem computeTangentField_error (ha : arr.shape = B ++ [nx, ny]) (hx : 0 < nx) (hy : 0 < ny) (hu : u.shape = L ++ [2])
    (hL : ¬(L.prod = 1 ∨ L.prod = B.prod)) (jd : Bool) (fw sw : ℝ) (steps : ℕ) :
    computeTangentField arr G u v jd fw sw steps = .error .valueError := by
  obtain ⟨s1, s2, s3, s4⟩ := computeTangentField_shapes ha hx hy
  unfold computeTangentField
  simp only [s1, s2, s3, s4]
  rw [if_neg (Nat.mul_pos hx hy).ne', latticeRows_error hu hL]
  rfl

end

end Fmmax
