import Verif.Proofs.VectorBatch
import Verif.Props.Farfield
import Verif.Props.TangentField

/-! Property theorem C80: tangent vector fields with batch dimensions. -/

namespace Fmmax

open Spec

variable {ι : Type} [Fintype ι] [DecidableEq ι]

/-- The lattice of a batch element, by broadcasting. -/
def Spec.latticeOfElement (u v : NDArray ℝ) (b : List ℕ) : LatticeVectors :=
  { u := (u.elementAt (b ++ [0]), u.elementAt (b ++ [1])), v := (v.elementAt (b ++ [0]), v.elementAt (b ++ [1])) }

/-- The array of a batch element. -/
def Spec.arrayOfElement (arr : NDArray ℂ) (b : List ℕ) (nx ny : ℕ) : Matrix (Fin nx) (Fin ny) ℂ :=
  Matrix.of fun i j => arr.get (b ++ [(i : ℕ), (j : ℕ)])

/-- What C80 asks of arrays with batch shape `B` and lattice vectors with batch shape `L`: if each batch element has a tangent
field with its own lattice, `compute_tangent_field` returns these fields. -/
def Spec.TangentFieldPerElement (G : ι → ℤ × ℤ) (jonesDirect : Bool) (fw sw : ℝ) (steps : ℕ) (B L : List ℕ) (nx ny : ℕ) : Prop :=
  ∀ (arr : NDArray ℂ) (u v : NDArray ℝ), arr.shape = B ++ [nx, ny] → u.shape = L ++ [2] → v.shape = L ++ [2] →
    ∀ t : List ℕ → VectorField nx ny,
      (∀ b, ValidIndex B b → computeTangentFieldNoBatch (arrayOfElement arr b nx ny) G (latticeOfElement u v b) jonesDirect fw sw
        steps = .ok (t b)) →
      ∃ tx ty, computeTangentField arr G u v jonesDirect fw sw steps = .ok (tx, ty) ∧
        tx.shape = B ++ [nx, ny] ∧ ty.shape = B ++ [nx, ny] ∧
        ∀ b, ValidIndex B b → ∀ (i : Fin nx) (j : Fin ny),
          tx.get (b ++ [(i : ℕ), (j : ℕ)]) = t b i j 0 ∧ ty.get (b ++ [(i : ℕ), (j : ℕ)]) = t b i j 1

theorem unravelIndex_broadcast {L B b : List ℕ} (hB : 0 < B.prod) (hbr : BroadcastsTo L B) (hL : L.prod = 1 ∨ L.prod = B.prod)
    (hb : ValidIndex B b) : unravelIndex L (if L.prod = 1 then 0 else ravelIndex B b) = broadcastIndex L b := by
  have hv := broadcastIndex_valid hbr hb
  have : (if L.prod = 1 then 0 else ravelIndex B b) = ravelIndex L (broadcastIndex L b) := by
    split_ifs with h
    · have := ravelIndex_lt hv
      omega
    · exact (ravelIndex_broadcast hbr hB (hL.resolve_left h) hb).symm
  rw [this, unravel_ravel hv]

/-- C80: the tangent field is computed for each batch element, if there is a single lattice (of any rank up to that of the
batch) or a lattice for each batch element. -/
theorem C80_per_element_partial (G : ι → ℤ × ℤ) (jonesDirect : Bool) (fw sw : ℝ) (steps : ℕ) {B L : List ℕ} {nx ny : ℕ}
    (hx : 0 < nx) (hy : 0 < ny) (hB : ∀ d ∈ B, 0 < d) (hbr : BroadcastsTo L B) (hL : L.prod = 1 ∨ L.prod = B.prod) :
    TangentFieldPerElement G jonesDirect fw sw steps B L nx ny := by
  have hB : 0 < B.prod := List.prod_pos hB
  intro arr u v ha hu hv t ht
  refine computeTangentField_eq ha hx hy hu hv hL t fun b hb => ?_
  rw [← ht b hb]
  congr 1
  unfold latticeAtPosition latticeOfElement NDArray.elementAt
  have hl : L.length ≤ b.length := by rw [hb.length_eq]; exact hbr.length_le
  have hidx : ∀ {a : NDArray ℝ} (c : ℕ), a.shape = L ++ [2] → c < 2 → broadcastIndex a.shape (b ++ [c]) = broadcastIndex L b ++ [c] := by
    intro a c hs hc
    rw [hs, broadcastIndex_append (s' := [2]) (i' := [c]) hl rfl, broadcastIndex_single hc]
  simp only [unravelIndex_broadcast hB hbr hL hb, hidx 0 hu (by norm_num), hidx 1 hu (by norm_num), hidx 0 hv (by norm_num),
    hidx 1 hv (by norm_num)]

/-- A batch of two by three arrays with one lattice. -/
example : ∃ tx ty, computeTangentField ⟨[2, 3, 5, 4], fun i => ((i.getD 0 0 + i.getD 2 0 * i.getD 3 0 : ℕ) : ℂ)⟩
    ![((0 : ℤ), (0 : ℤ)), (1, 0), (-1, 0)] ⟨[2], fun i => if i.getLastD 0 = 0 then 1 else 0⟩
    ⟨[2], fun i => if i.getLastD 0 = 0 then 0 else 1⟩ false 1 0 1 = .ok (tx, ty) ∧ tx.shape = [2, 3, 5, 4] := by
  have hG : Function.Injective ![((0 : ℤ), (0 : ℤ)), (1, 0), (-1, 0)] := by decide
  have hr : Resolves 5 4 ![((0 : ℤ), (0 : ℤ)), (1, 0), (-1, 0)] := ⟨⟨0⟩, by decide⟩
  have hl : ∀ b, Independent (latticeOfElement ⟨[2], fun i => if i.getLastD 0 = 0 then 1 else 0⟩
      ⟨[2], fun i => if i.getLastD 0 = 0 then 0 else 1⟩ b).u (latticeOfElement ⟨[2], fun i => if i.getLastD 0 = 0 then 1 else 0⟩
      ⟨[2], fun i => if i.getLastD 0 = 0 then 0 else 1⟩ b).v := by
    intro b
    simp [Independent, latticeOfElement, NDArray.elementAt, broadcastIndex]
  choose t ht using fun b => computeTangentField_exists (arrayOfElement ⟨[2, 3, 5, 4], fun i =>
    ((i.getD 0 0 + i.getD 2 0 * i.getD 3 0 : ℕ) : ℂ)⟩ b 5 4) false 0 hG hr (hl b) (Or.inl one_pos : (0 : ℝ) < 1 ∨ (0 : ℝ) < 0)
  obtain ⟨tx, ty, h1, h2, -⟩ := C80_per_element_partial ![((0 : ℤ), (0 : ℤ)), (1, 0), (-1, 0)] false 1 0 1 (B := [2, 3])
    (L := []) (nx := 5) (ny := 4) (by norm_num) (by norm_num) (by decide) (BroadcastsTo.nil _) (Or.inl rfl) _ _ _ rfl rfl rfl t
    (fun b _ => ht b)
  exact ⟨tx, ty, h1, h2⟩

/-- C80: for all other lattice batches that can be broadcast to the batch of the array, `ValueError` is raised, whatever the
values. -/
theorem C80_raises_otherwise (arr : NDArray ℂ) (u v : NDArray ℝ) (G : ι → ℤ × ℤ) (jonesDirect : Bool) (fw sw : ℝ) (steps : ℕ)
    {B L : List ℕ} {nx ny : ℕ} (hx : 0 < nx) (hy : 0 < ny) (ha : arr.shape = B ++ [nx, ny]) (hu : u.shape = L ++ [2])
    (h1 : L.prod ≠ 1) (h2 : L.prod ≠ B.prod) : computeTangentField arr G u v jonesDirect fw sw steps = .error .valueError :=
  computeTangentField_error ha hx hy hu (by simp [h1, h2]) jonesDirect fw sw steps

/-- C80 is false: three lattices are not broadcast to a batch of two by three arrays, although each of the batch elements has a
tangent field. -/
theorem C80_false_for_partial_broadcast (G : ι → ℤ × ℤ) (hG : Function.Injective G) (jonesDirect : Bool) (fw sw : ℝ) (steps : ℕ)
    (hp : 0 < fw ∨ 0 < sw) {nx ny : ℕ} (hr : Resolves nx ny G) :
    BroadcastsTo [3] [2, 3] ∧ ¬TangentFieldPerElement G jonesDirect fw sw (steps + 1) [2, 3] [3] nx ny := by
  refine ⟨⟨[2], [3], rfl, .cons (Or.inr rfl) .nil⟩, fun h => ?_⟩
  obtain ⟨hx, hy⟩ := hr.pos
  obtain ⟨u, hu⟩ : ∃ u : NDArray ℝ, u = ⟨[3, 2], fun i => if i.getLastD 0 = 0 then 1 else 0⟩ := ⟨_, rfl⟩
  obtain ⟨v, hv⟩ : ∃ v : NDArray ℝ, v = ⟨[3, 2], fun i => if i.getLastD 0 = 0 then 0 else 1⟩ := ⟨_, rfl⟩
  obtain ⟨arr, harr⟩ : ∃ arr : NDArray ℂ, arr = ⟨[2, 3] ++ [nx, ny], fun i => (i.sum : ℂ)⟩ := ⟨_, rfl⟩
  have hl : ∀ b, ValidIndex [2, 3] b → Independent (latticeOfElement u v b).u (latticeOfElement u v b).v := by
    intro b hb
    have hl : 1 ≤ b.length := by rw [hb.length_eq]; simp
    have hidx : ∀ c, c < 2 → broadcastIndex [3, 2] (b ++ [c]) = broadcastIndex [3] b ++ [c] := fun c hc => by
      rw [show [3, 2] = [3] ++ [2] from rfl, broadcastIndex_append (s := [3]) (s' := [2]) (i' := [c]) hl rfl, broadcastIndex_single hc]
    subst hu hv
    simp [Independent, latticeOfElement, NDArray.elementAt, hidx]
  have hex : ∀ b, ∃ t, ValidIndex [2, 3] b →
      computeTangentFieldNoBatch (arrayOfElement arr b nx ny) G (latticeOfElement u v b) jonesDirect fw sw (steps + 1) = .ok t := by
    intro b
    by_cases hb : ValidIndex [2, 3] b
    · obtain ⟨t, ht⟩ := computeTangentField_exists (arrayOfElement arr b nx ny) jonesDirect steps hG hr (hl b hb) hp
      exact ⟨t, fun _ => ht⟩
    · exact ⟨fun _ _ _ => 0, fun h => absurd h hb⟩
  choose t ht using hex
  obtain ⟨tx, ty, h1, -⟩ := h arr u v (by rw [harr]) (by rw [hu]; rfl) (by rw [hv]; rfl) t ht
  rw [C80_raises_otherwise (B := [2, 3]) (L := [3]) arr u v G jonesDirect fw sw (steps + 1) hx hy (by rw [harr])
    (by rw [hu]; rfl) (by norm_num) (by norm_num)] at h1
  cases h1

/-- C80, side finding: `m` arrays in a column and `m` lattices in a row are silently paired one by one (broadcasting would give
`m²` combinations): the field at `(i, 0)` is that of the lattice at `(0, i)`. -/
theorem C80_finding_silent_pairing (G : ι → ℤ × ℤ) (jonesDirect : Bool) (fw sw : ℝ) (steps m : ℕ) (hm : 2 ≤ m) {nx ny : ℕ}
    (hx : 0 < nx) (hy : 0 < ny) (arr : NDArray ℂ) (u v : NDArray ℝ) (ha : arr.shape = [m, 1, nx, ny]) (hu : u.shape = [1, m, 2])
    (hv : v.shape = [1, m, 2]) (t : ℕ → VectorField nx ny)
    (ht : ∀ k < m, computeTangentFieldNoBatch (arrayOfElement arr [k, 0] nx ny) G
      ⟨(u.get [0, k, 0], u.get [0, k, 1]), (v.get [0, k, 0], v.get [0, k, 1])⟩ jonesDirect fw sw steps = .ok (t k)) :
    ∃ tx ty, computeTangentField arr G u v jonesDirect fw sw steps = .ok (tx, ty) ∧ tx.shape = [m, 1, nx, ny] ∧
      ∀ k < m, ∀ (i : Fin nx) (j : Fin ny), tx.get [k, 0, (i : ℕ), (j : ℕ)] = t k i j 0 ∧
        ty.get [k, 0, (i : ℕ), (j : ℕ)] = t k i j 1 := by
  obtain ⟨tx, ty, h1, h2, -, h4⟩ := computeTangentField_eq (B := [m, 1]) (L := [1, m]) (G := G) (jd := jonesDirect) (fw := fw)
    (sw := sw) (steps := steps) ha hx hy hu hv (Or.inr (by simp)) (fun b => t (b.getD 0 0)) (by
      intro b hb
      obtain ⟨k, b', rfl⟩ : ∃ k b', b = k :: b' := by
        cases hb with
        | cons _ _ => exact ⟨_, _, rfl⟩
      obtain ⟨hk, hb'⟩ := List.forall₂_cons.1 hb
      obtain rfl : b' = [0] := by
        cases hb' with
        | cons h1 h2 => cases h2; rw [Nat.lt_one_iff.1 h1]
      rw [show ([k, 0] : List ℕ).getD 0 0 = k from rfl, ← ht k hk]
      congr 1
      have e : unravelIndex [1, m] (if [1, m].prod = 1 then 0 else ravelIndex [m, 1] [k, 0]) = [0, k] := by
        rw [if_neg (by simp; omega), show ravelIndex [m, 1] [k, 0] = ravelIndex [1, m] [0, k] by simp [ravelIndex]]
        exact unravel_ravel (.cons one_pos (.cons hk .nil))
      unfold latticeAtPosition
      simp only [e]
      rfl)
  exact ⟨tx, ty, h1, h2, fun k hk i j => h4 [k, 0] (.cons hk (.cons one_pos .nil)) i j⟩

end Fmmax
