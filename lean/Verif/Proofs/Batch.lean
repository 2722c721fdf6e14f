import Verif.Props.Lattice
import Verif.Proofs.NDArray

/-! Lemmas on transverse wavevectors with batch dimensions. -/

namespace Fmmax

open Spec

theorem broadcastShapes_terms (n m : ℕ) :
    broadcastShapes [n] (List.replicate m 1) = some (List.replicate (m - 1) 1 ++ [n]) := by
  cases m with
  | zero => simp [broadcastShapes, broadcastRev]
  | succ m =>
    unfold broadcastShapes
    rw [List.reverse_replicate, List.replicate_succ, List.reverse_singleton, broadcastRev]
    by_cases h : n = 1
    · simp [h, broadcastRev]
    · simp [h, broadcastRev]

theorem broadcastShapes_batch_terms {n m : ℕ} {B : List ℕ} (h : m - 1 ≤ B.length) :
    broadcastShapes (B ++ [1]) (List.replicate (m - 1) 1 ++ [n]) = some (B ++ [n]) := by
  have h1 := broadcastShapes_of_broadcastsTo' (BroadcastsTo.replicate_one h)
  unfold broadcastShapes at h1 ⊢
  rw [List.reverse_replicate, Option.map_eq_some_iff] at h1
  obtain ⟨w, h1, h2⟩ := h1
  have hw : w = B.reverse := by rw [← h2, List.reverse_reverse]
  rw [List.reverse_append, List.reverse_append, List.reverse_singleton, List.reverse_singleton, List.reverse_replicate,
    List.singleton_append, List.singleton_append, broadcastRev, h1, hw]
  by_cases hn : 1 = n
  · simp [← hn]
  · simp [hn]

/-- The sum of terms that is added to the in-plane wavevector. -/
theorem componentBatch_eq {n m : ℕ} {B : List ℕ} (hm : m ≤ B.length + 1) {c1 c2 p q k : NDArray ℝ} (h1 : c1.shape = [n])
    (h2 : c2.shape = [n]) (hp : p.shape = List.replicate m 1) (hq : q.shape = List.replicate m 1) (hk : k.shape = B) :
    ∃ out, (do
      let a ← c1.zipWith (· * ·) p
      let b ← c2.zipWith (· * ·) q
      let s ← a.zipWith (· + ·) b
      k.expandLast.zipWith (· + ·) (s.map fun x => 2 * Real.pi * x)) = Except.ok out ∧ out.shape = B ++ [n] ∧
      ∀ b t, ValidIndex B b → t < n → out.get (b ++ [t]) = k.get b + 2 * Real.pi *
        (c1.get [t] * p.get (List.replicate m 0) + c2.get [t] * q.get (List.replicate m 0)) := by
  simp only [NDArray.zipWith, NDArray.map, NDArray.expandLast, h1, h2, hp, hq, hk, broadcastShapes_terms, bind, Except.bind,
    broadcastShapes_self]
  rw [broadcastShapes_batch_terms (by omega)]
  refine ⟨_, rfl, rfl, fun b t hb ht => ?_⟩
  have hbl := validIndex_length hb
  have e1 : broadcastIndex (B ++ [1]) (b ++ [t]) = b ++ [0] := by
    rw [broadcastIndex_append (by omega) (by simp), broadcastIndex_of_valid hb, broadcastIndex_one]
  have e2 : ∀ i : List ℕ, m - 1 ≤ i.length →
      broadcastIndex (List.replicate (m - 1) 1 ++ [n]) (i ++ [t]) = List.replicate (m - 1) 0 ++ [t] := by
    intro i hi
    rw [broadcastIndex_append (by simp [hi]) (by simp), broadcastIndex_replicate_one hi, broadcastIndex_single ht]
  have e3 : broadcastIndex [n] (List.replicate (m - 1) 0 ++ [t]) = [t] := by
    rw [broadcastIndex_lead (by simp), broadcastIndex_single ht]
  have e4 : broadcastIndex (List.replicate m 1) (List.replicate (m - 1) 0 ++ [t]) = List.replicate m 0 :=
    broadcastIndex_replicate_one (by simp; omega)
  simp only [e1, e2 b (by omega), e2 (List.replicate (m - 1) 0) (by simp), e3, e4, List.dropLast_concat]

/-- Transverse wavevectors are computed for each batch element. -/
theorem transverseWavevectorsBatch_eq {n m : ℕ} {B : List ℕ} {inPlane u v : NDArray ℝ} (hi : inPlane.shape = B ++ [2])
    (hu : u.shape = List.replicate m 1 ++ [2]) (hv : v.shape = List.replicate m 1 ++ [2]) (hm : m ≤ B.length + 1)
    (hl : Independent (latticeAt u v (List.replicate m 0)).u (latticeAt u v (List.replicate m 0)).v)
    (G : Fin n → ℤ × ℤ) :
    ∃ out, transverseWavevectorsBatch inPlane u v G = .ok out ∧ out.shape = B ++ [n, 2] ∧
      ∀ b, ValidIndex B b → ∃ kt, transverseWavevectors (inPlane.get (b ++ [0]), inPlane.get (b ++ [1]))
          (latticeAt u v (List.replicate m 0)) G = .ok kt ∧
        ∀ t : Fin n, out.get (b ++ [(t : ℕ), 0]) = (kt t).1 ∧ out.get (b ++ [(t : ℕ), 1]) = (kt t).2 := by
  have hz : ∀ idx : List ℕ, idx.length = (List.replicate m 1).length →
      (∀ i (h : i < idx.length) (h' : i < (List.replicate m 1).length), idx[i] < (List.replicate m 1)[i]) →
      idx = List.replicate m 0 := by
    intro idx h1 h2
    apply List.ext_getElem
    · simpa using h1
    · intro i h3 h4
      have := h2 i h3 (by simpa using h4)
      simpa using this
  obtain ⟨u', v', hr, hu', hv', hr'⟩ := C02_reciprocal_singleton_batch_partial m u v hu hv (by
    intro idx h1 h2
    rw [hz idx h1 h2]
    exact hl)
  have hr0 := hr' (List.replicate m 0) (by simp) (by intro i h h'; simp)
  have hs : ∀ k, (u'.selectLast k).shape = List.replicate m 1 ∧ (v'.selectLast k).shape = List.replicate m 1 ∧
      (inPlane.selectLast k).shape = B := by
    intro k
    simp [NDArray.selectLast, hu', hv', hi]
  unfold transverseWavevectorsBatch
  rw [hr]
  simp only [bind, Except.bind]
  have key := fun k => componentBatch_eq (n := n) hm (c1 := { shape := [n], get := fun idx => if h : idx.headD 0 < n then ((G ⟨idx.headD 0, h⟩).1 : ℝ) else 0 })
    (c2 := { shape := [n], get := fun idx => if h : idx.headD 0 < n then ((G ⟨idx.headD 0, h⟩).2 : ℝ) else 0 }) rfl rfl
    (hs k).1 (hs k).2.1 (hs k).2.2
  simp only [bind, Except.bind] at key
  obtain ⟨kx, x1, x2, x3⟩ := key 0
  obtain ⟨ky, y1, y2, y3⟩ := key 1
  rw [x1, y1]
  simp only [NDArray.stackLast, x2, y2, ne_eq, not_true_eq_false, if_false]
  refine ⟨_, rfl, by simp, fun b hb => ⟨_, bind_eq_ok.2 ⟨_, hr0, rfl⟩, fun t => ?_⟩⟩
  have hx := x3 b t hb t.2
  have hy := y3 b t hb t.2
  have e : ∀ k : ℕ, b ++ [(t : ℕ), k] = (b ++ [(t : ℕ)]) ++ [k] := by simp
  simp only [e, List.getLastD_concat, List.dropLast_concat, if_true, one_ne_zero, if_false]
  rw [hx, hy]
  simp [NDArray.selectLast, latticeAt]

end Fmmax
