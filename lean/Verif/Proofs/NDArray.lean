import Verif.Model.NDArray
import Verif.Spec.Shapes
import Verif.Spec.Farfield
import Verif.Proofs.Basic

/-! Lemmas on broadcasting of nd-arrays. -/

namespace Fmmax

open Spec

theorem broadcastRev_self (s : List ℕ) : broadcastRev s s = some s := by
  induction s with
  | nil => rfl
  | cons m s ih => simp [broadcastRev, ih]

theorem broadcastShapes_self (s : List ℕ) : broadcastShapes s s = some s := by
  simp [broadcastShapes, broadcastRev_self]

theorem broadcastRev_nil (s : List ℕ) : broadcastRev s [] = some s := by cases s <;> rfl

theorem broadcastRev_comm (s t : List ℕ) : broadcastRev s t = broadcastRev t s := by
  induction s generalizing t with
  | nil => rw [broadcastRev_nil]; rfl
  | cons m s ih =>
    cases t with
    | nil => rfl
    | cons n t =>
      simp only [broadcastRev]
      rw [ih]
      by_cases h : m = n
      · subst h; rfl
      · have h' : ¬n = m := fun e => h e.symm
        by_cases h1 : m = 1 <;> by_cases h2 : n = 1 <;> simp_all

theorem broadcastShapes_comm (s t : List ℕ) : broadcastShapes s t = broadcastShapes t s := by
  unfold broadcastShapes
  rw [broadcastRev_comm]

theorem broadcastRev_of_forall {s tail : List ℕ} (lead : List ℕ) (h : List.Forall₂ (fun a b => a = 1 ∨ a = b) s tail) :
    broadcastRev s (tail ++ lead) = some (tail ++ lead) := by
  induction h with
  | nil => rfl
  | @cons a b s tail hab _ ih =>
    simp only [List.cons_append, broadcastRev, ih, Option.map_some]
    by_cases h : a = b
    · rw [if_pos h, h]
    · rw [if_neg h, if_pos (hab.resolve_right h)]

/-- An array that can be broadcast to the shape of another one is. -/
theorem broadcastShapes_of_broadcastsTo {s t : List ℕ} (h : BroadcastsTo s t) : broadcastShapes s t = some t := by
  obtain ⟨lead, tail, rfl, h⟩ := h
  unfold broadcastShapes
  rw [List.reverse_append, broadcastRev_of_forall _ (List.forall₂_reverse_iff.2 h)]
  simp

theorem broadcastShapes_of_broadcastsTo' {s t : List ℕ} (h : BroadcastsTo s t) : broadcastShapes t s = some t := by
  rw [broadcastShapes_comm]; exact broadcastShapes_of_broadcastsTo h

theorem Spec.BroadcastsTo.refl (s : List ℕ) : BroadcastsTo s s := by
  refine ⟨[], s, rfl, ?_⟩
  induction s with
  | nil => exact .nil
  | cons a s ih => exact .cons (Or.inr rfl) ih

theorem Spec.BroadcastsTo.nil (s : List ℕ) : BroadcastsTo [] s := ⟨s, [], by simp, .nil⟩

theorem Spec.BroadcastsTo.length_le {s t : List ℕ} (h : BroadcastsTo s t) : s.length ≤ t.length := by
  obtain ⟨lead, tail, rfl, h⟩ := h
  rw [List.length_append, h.length_eq]
  omega

theorem Spec.BroadcastsTo.append {s t s' t' : List ℕ} (h : BroadcastsTo s t)
    (h' : List.Forall₂ (fun a b => a = 1 ∨ a = b) s' t') : BroadcastsTo (s ++ s') (t ++ t') := by
  obtain ⟨lead, tail, rfl, h⟩ := h
  exact ⟨lead, tail ++ t', by simp, List.rel_append (R := fun a b : ℕ => a = 1 ∨ a = b) h h'⟩

theorem Spec.BroadcastsTo.replicate_one {m : ℕ} {t : List ℕ} (h : m ≤ t.length) : BroadcastsTo (List.replicate m 1) t := by
  refine ⟨t.take (t.length - m), t.drop (t.length - m), (List.take_append_drop _ _).symm, ?_⟩
  rw [List.forall₂_iff_get]
  refine ⟨by simp; omega, ?_⟩
  intro i h1 h2
  left
  simp

theorem broadcastIndex_append {s s' i i' : List ℕ} (h : s.length ≤ i.length) (h' : s'.length = i'.length) :
    broadcastIndex (s ++ s') (i ++ i') = broadcastIndex s i ++ broadcastIndex s' i' := by
  unfold broadcastIndex
  rw [List.length_append, List.length_append, h', show i.length + i'.length - (s.length + i'.length) = i.length - s.length by
    omega, List.drop_append_of_le_length (by omega), List.zip_append (by simp; omega), List.map_append, Nat.sub_self,
    List.drop_zero]

theorem broadcastIndex_of_valid {s i : List ℕ} (h : ValidIndex s i) : broadcastIndex s i = i := by
  unfold broadcastIndex
  rw [show i.length = s.length from List.Forall₂.length_eq h, Nat.sub_self, List.drop_zero]
  unfold ValidIndex at h
  induction h with
  | nil => rfl
  | @cons a b i s hab _ ih =>
    simp only [List.zip_cons_cons, List.map_cons, ih]
    split_ifs with h
    · rw [show a = 0 by omega]
    · rfl

/-- An index of a single axis. -/
theorem broadcastIndex_one (i : ℕ) : broadcastIndex [1] [i] = [0] := by simp [broadcastIndex]

theorem broadcastIndex_single {n i : ℕ} (h : i < n) : broadcastIndex [n] [i] = [i] :=
  broadcastIndex_of_valid (.cons h .nil)

theorem broadcastIndex_replicate_one {m : ℕ} {i : List ℕ} (h : m ≤ i.length) :
    broadcastIndex (List.replicate m 1) i = List.replicate m 0 := by
  unfold broadcastIndex
  rw [List.length_replicate]
  apply List.ext_getElem
  · simp; omega
  · intro j h1 h2
    simp

/-- Extra leading axes are ignored. -/
theorem broadcastIndex_lead {s lead i : List ℕ} (h : s.length = i.length) :
    broadcastIndex s (lead ++ i) = broadcastIndex s i := by
  unfold broadcastIndex
  rw [List.length_append, h, show lead.length + i.length - i.length = lead.length by omega, List.drop_left, Nat.sub_self,
    List.drop_zero]

/-- Broadcasting an index of the broadcast shape gives an index of the shape. -/
theorem broadcastIndex_valid {s t i : List ℕ} (h : BroadcastsTo s t) (hi : ValidIndex t i) : ValidIndex s (broadcastIndex s i) := by
  obtain ⟨lead, tail, rfl, h⟩ := h
  unfold ValidIndex at hi ⊢
  have h3 : List.Forall₂ (· < ·) (i.drop lead.length) tail := by
    have := List.forall₂_drop lead.length hi
    rwa [List.drop_left] at this
  have hl : i.length = lead.length + tail.length := by rw [hi.length_eq, List.length_append]
  unfold broadcastIndex
  rw [h.length_eq, hl, Nat.add_sub_cancel]
  generalize i.drop lead.length = j at h3
  clear hi hl
  induction h generalizing j with
  | nil => exact .nil
  | @cons a b s tail hab _ ih =>
    cases h3 with
    | @cons x _ j _ hx h3 =>
      simp only [List.zip_cons_cons, List.map_cons]
      refine .cons ?_ (ih _ h3)
      split_ifs with h1
      · omega
      · rw [hab.resolve_left h1]; exact hx

theorem broadcastIndex_idem {s i : List ℕ} : broadcastIndex s (broadcastIndex s i) = broadcastIndex s i ∨ i.length < s.length := by
  by_cases h : i.length < s.length
  · exact Or.inr h
  left
  unfold broadcastIndex
  have hl : ((s.zip (i.drop (i.length - s.length))).map fun x : ℕ × ℕ => if x.1 = 1 then 0 else x.2).length = s.length := by
    simp; omega
  rw [hl, Nat.sub_self, List.drop_zero]
  apply List.ext_getElem
  · simp
  · intro j h1 h2
    simp
    exact fun h3 h4 => absurd h3 h4

/-- An elementwise operation of arrays of which the first can be broadcast to the shape of the second. -/
theorem zipWith_right {α β γ : Type} (f : α → β → γ) (a : NDArray α) (b : NDArray β) (h : BroadcastsTo a.shape b.shape) :
    ∃ c, a.zipWith f b = .ok c ∧ c.shape = b.shape ∧
      ∀ i, ValidIndex b.shape i → c.get i = f (a.get (broadcastIndex a.shape i)) (b.get i) := by
  unfold NDArray.zipWith
  rw [broadcastShapes_of_broadcastsTo h]
  refine ⟨_, rfl, rfl, fun i hi => ?_⟩
  simp only [broadcastIndex_of_valid hi]

theorem zipWith_left {α β γ : Type} (f : α → β → γ) (a : NDArray α) (b : NDArray β) (h : BroadcastsTo b.shape a.shape) :
    ∃ c, a.zipWith f b = .ok c ∧ c.shape = a.shape ∧
      ∀ i, ValidIndex a.shape i → c.get i = f (a.get i) (b.get (broadcastIndex b.shape i)) := by
  unfold NDArray.zipWith
  rw [broadcastShapes_of_broadcastsTo' h]
  refine ⟨_, rfl, rfl, fun i hi => ?_⟩
  simp only [broadcastIndex_of_valid hi]

theorem validIndex_append {s t i j : List ℕ} (h : ValidIndex s i) (h' : ValidIndex t j) : ValidIndex (s ++ t) (i ++ j) :=
  List.rel_append (R := (· < ·)) h h'

theorem validIndex_length {s i : List ℕ} (h : ValidIndex s i) : i.length = s.length := List.Forall₂.length_eq h

theorem validIndex_zero {s : List ℕ} (h : ∀ d ∈ s, 0 < d) : ValidIndex s (List.replicate s.length 0) := by
  induction s with
  | nil => exact .nil
  | cons a s ih => exact .cons (h a (by simp)) (ih fun d hd => h d (by simp [hd]))

/-! ### Elements of broadcast arrays -/

/-- `BroadcastsTo` on reversed shapes. -/
def BroadcastsRev : List ℕ → List ℕ → Prop
  | [], _ => True
  | _ :: _, [] => False
  | a :: s, b :: t => (a = 1 ∨ a = b) ∧ BroadcastsRev s t

theorem broadcastsRev_iff (s t : List ℕ) :
    BroadcastsRev s t ↔ ∃ tail lead, t = tail ++ lead ∧ List.Forall₂ (fun a b => a = 1 ∨ a = b) s tail := by
  induction s generalizing t with
  | nil => simp [BroadcastsRev]
  | cons a s ih =>
    cases t with
    | nil =>
      simp only [BroadcastsRev, false_iff]
      rintro ⟨tail, lead, h, h'⟩
      have := h'.length_eq
      have h2 := congrArg List.length h
      simp at this h2
      omega
    | cons b t =>
      simp only [BroadcastsRev, ih]
      constructor
      · rintro ⟨h, tail, lead, rfl, h'⟩
        exact ⟨b :: tail, lead, rfl, .cons h h'⟩
      · rintro ⟨tail, lead, h, h'⟩
        cases h' with
        | cons h1 h2 =>
          simp only [List.cons_append, List.cons.injEq] at h
          obtain ⟨rfl, rfl⟩ := h
          exact ⟨h1, _, lead, rfl, h2⟩

theorem broadcastsTo_iff_rev (s t : List ℕ) : BroadcastsTo s t ↔ BroadcastsRev s.reverse t.reverse := by
  rw [broadcastsRev_iff]
  constructor
  · rintro ⟨lead, tail, rfl, h⟩
    exact ⟨tail.reverse, lead.reverse, by simp, List.forall₂_reverse_iff.2 h⟩
  · rintro ⟨tail, lead, h, h'⟩
    refine ⟨lead.reverse, tail.reverse, ?_, ?_⟩
    · rw [← List.reverse_append, ← h, List.reverse_reverse]
    · rw [← List.forall₂_reverse_iff, List.reverse_reverse]
      exact h'

/-- `broadcastIndex` on reversed lists. -/
def broadcastIndexRev (s i : List ℕ) : List ℕ := List.zipWith (fun n i => if n = 1 then 0 else i) s i

theorem broadcastIndex_eq_rev {s i : List ℕ} (h : s.length ≤ i.length) :
    broadcastIndex s i = (broadcastIndexRev s.reverse i.reverse).reverse := by
  unfold broadcastIndex broadcastIndexRev
  have e : i = i.take (i.length - s.length) ++ i.drop (i.length - s.length) := (List.take_append_drop _ _).symm
  have hl : (i.drop (i.length - s.length)).length = s.length := by simp; omega
  generalize i.take (i.length - s.length) = a at e
  generalize i.drop (i.length - s.length) = b at e hl
  rw [e, List.reverse_append]
  have h2 : List.zipWith (fun n i => if n = 1 then 0 else i) s.reverse (b.reverse ++ a.reverse) =
      List.zipWith (fun n i => if n = 1 then 0 else i) s.reverse b.reverse := by
    rw [← List.append_nil s.reverse, List.zipWith_append (by simp [hl])]
    simp
  rw [h2, ← List.reverse_zipWith hl.symm, List.reverse_reverse, List.zip, List.map_zipWith]

theorem broadcastRev_spec (s1 s2 t : List ℕ) (h1 : BroadcastsRev s1 t) (h2 : BroadcastsRev s2 t) :
    ∃ w, broadcastRev s1 s2 = some w ∧ BroadcastsRev w t ∧ s1.length ≤ w.length ∧ s2.length ≤ w.length ∧
      (∀ i, broadcastIndexRev s1 (broadcastIndexRev w i) = broadcastIndexRev s1 i) ∧
      (∀ i, broadcastIndexRev s2 (broadcastIndexRev w i) = broadcastIndexRev s2 i) := by
  have self : ∀ s i, broadcastIndexRev s (broadcastIndexRev s i) = broadcastIndexRev s i := by
    intro s
    induction s with
    | nil => intro i; rfl
    | cons a s ih =>
      intro i
      cases i with
      | nil => rfl
      | cons x i =>
        have := ih i
        simp only [broadcastIndexRev, List.zipWith_cons_cons] at this ⊢
        rw [this]
        split_ifs <;> rfl
  induction s1 generalizing s2 t with
  | nil => exact ⟨s2, rfl, h2, by simp, le_refl _, fun i => rfl, self s2⟩
  | cons a s1 ih =>
    cases s2 with
    | nil => exact ⟨a :: s1, rfl, h1, le_refl _, by simp, self _, fun i => rfl⟩
    | cons b s2 =>
      cases t with
      | nil => exact absurd h1 (by simp [BroadcastsRev])
      | cons d t =>
        obtain ⟨w, e1, e2, e3, e4, e5, e6⟩ := ih s2 t h1.2 h2.2
        have ha := h1.1
        have hb := h2.1
        have main : ∀ m, (a = 1 ∨ a = m) → (b = 1 ∨ b = m) → (m = 1 ∨ m = d) →
            broadcastRev (a :: s1) (b :: s2) = some (m :: w) → ∃ w, broadcastRev (a :: s1) (b :: s2) = some w ∧
              BroadcastsRev w (d :: t) ∧ (a :: s1).length ≤ w.length ∧ (b :: s2).length ≤ w.length ∧
              (∀ i, broadcastIndexRev (a :: s1) (broadcastIndexRev w i) = broadcastIndexRev (a :: s1) i) ∧
              (∀ i, broadcastIndexRev (b :: s2) (broadcastIndexRev w i) = broadcastIndexRev (b :: s2) i) := by
          intro m ham hbm hmd hw
          refine ⟨m :: w, hw, ⟨hmd, e2⟩, by simp [e3], by simp [e4], fun i => ?_, fun i => ?_⟩
          · cases i with
            | nil => rfl
            | cons x i =>
              have := e5 i
              simp only [broadcastIndexRev, List.zipWith_cons_cons] at this ⊢
              rw [this]
              congr 1
              split_ifs with g1 g2
              · rfl
              · exact absurd ((ham.resolve_left g1).trans g2) g1
              · rfl
          · cases i with
            | nil => rfl
            | cons x i =>
              have := e6 i
              simp only [broadcastIndexRev, List.zipWith_cons_cons] at this ⊢
              rw [this]
              congr 1
              split_ifs with g1 g2
              · rfl
              · exact absurd ((hbm.resolve_left g1).trans g2) g1
              · rfl
        by_cases hab : a = b
        · exact main a (Or.inr rfl) (Or.inr hab.symm) ha (by simp [broadcastRev, hab, e1])
        · by_cases ha1 : a = 1
          · exact main b (Or.inl ha1) (Or.inr rfl) hb (by rw [broadcastRev, if_neg hab, if_pos ha1, e1]; rfl)
          · have hb1 : b = 1 := by
              by_contra hb1
              exact hab ((ha.resolve_left ha1).trans (hb.resolve_left hb1).symm)
            exact main a (Or.inr rfl) (Or.inl hb1) ha (by rw [broadcastRev, if_neg hab, if_neg ha1, if_pos hb1, e1]; rfl)

/-- An elementwise operation of arrays that can both be broadcast to a shape: so can the result, and its elements are those
of the operation applied to the elements of the broadcast arrays. -/
theorem zipWith_elementAt {α β γ : Type} (f : α → β → γ) {a : NDArray α} {b : NDArray β} {t : List ℕ}
    (ha : BroadcastsTo a.shape t) (hb : BroadcastsTo b.shape t) :
    ∃ c, a.zipWith f b = .ok c ∧ BroadcastsTo c.shape t ∧ broadcastShapes a.shape b.shape = some c.shape ∧
      ∀ i, i.length = t.length → c.elementAt i = f (a.elementAt i) (b.elementAt i) := by
  obtain ⟨w, e1, e2, e3, e4, e5, e6⟩ := broadcastRev_spec _ _ _ ((broadcastsTo_iff_rev _ _).1 ha) ((broadcastsTo_iff_rev _ _).1 hb)
  have hw : broadcastShapes a.shape b.shape = some w.reverse := by unfold broadcastShapes; rw [e1]; rfl
  have ht : BroadcastsTo w.reverse t := by rw [broadcastsTo_iff_rev, List.reverse_reverse]; exact e2
  unfold NDArray.zipWith
  rw [hw]
  refine ⟨_, rfl, ht, rfl, fun i hi => ?_⟩
  have hwl := ht.length_le
  simp only [List.length_reverse] at hwl e3 e4
  have key : ∀ s : List ℕ, s.length ≤ w.length →
      (∀ i, broadcastIndexRev s.reverse (broadcastIndexRev w i) = broadcastIndexRev s.reverse i) →
      broadcastIndex s (broadcastIndex w.reverse i) = broadcastIndex s i := by
    intro s hs h
    have hwi : w.reverse.length ≤ i.length := by simp; omega
    have hbl : (broadcastIndex w.reverse i).length = w.length := by
      unfold broadcastIndex; simp; omega
    rw [broadcastIndex_eq_rev (by omega : s.length ≤ (broadcastIndex w.reverse i).length), broadcastIndex_eq_rev hwi,
      List.reverse_reverse, List.reverse_reverse, h, broadcastIndex_eq_rev (by omega : s.length ≤ i.length)]
  simp only [NDArray.elementAt]
  rw [key _ e3 e5, key _ e4 e6]

end Fmmax
