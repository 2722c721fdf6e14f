import Verif.Proofs.Batch
import Verif.Proofs.Farfield
import Verif.Model.Farfield

/-! Lemmas for the far-field profile. -/

namespace Fmmax

open Spec

variable {n : ℕ}

theorem forall₂_append_inv {R : ℕ → ℕ → Prop} {A s t : List ℕ} (h : List.Forall₂ R A (s ++ t)) :
    ∃ a b, A = a ++ b ∧ List.Forall₂ R a s ∧ List.Forall₂ R b t := by
  induction s generalizing A with
  | nil => exact ⟨[], A, rfl, .nil, h⟩
  | cons x s ih =>
    cases h with
    | cons h1 h2 =>
      obtain ⟨a, b, rfl, h3, h4⟩ := ih h2
      exact ⟨_ :: a, b, rfl, .cons h1 h3, h4⟩

theorem broadcastsTo_padded {s t : List ℕ} (h : BroadcastsTo s t) :
    List.Forall₂ (fun a b => a = 1 ∨ a = b) (List.replicate (t.length - s.length) 1 ++ s) t := by
  obtain ⟨lead, tail, rfl, h⟩ := h
  rw [List.length_append, h.length_eq, Nat.add_sub_cancel]
  refine List.rel_append (R := fun a b : ℕ => a = 1 ∨ a = b) ?_ h
  rw [List.forall₂_iff_get]
  exact ⟨by simp, fun i h1 h2 => by simp⟩

theorem elementAt_atleastNd {α : Type} (x : NDArray α) {N : ℕ} {i : List ℕ} (hi : i.length = N) (hx : x.shape.length ≤ N) :
    (x.atleastNd N).elementAt i = x.elementAt i := by
  unfold NDArray.elementAt NDArray.atleastNd
  simp only
  obtain ⟨a, b, rfl, ha⟩ : ∃ a b, i = a ++ b ∧ a.length = N - x.shape.length :=
    ⟨i.take (N - x.shape.length), i.drop (N - x.shape.length), (List.take_append_drop _ _).symm, by simp; omega⟩
  have hb : b.length = x.shape.length := by rw [List.length_append] at hi; omega
  rw [broadcastIndex_append (by simp [ha]) hb.symm, broadcastIndex_lead hb.symm,
    broadcastIndex_replicate_one (by rw [ha])]
  congr 1
  exact List.drop_left' (by simp)

theorem elementAt_expandLast {α : Type} (x : NDArray α) {i : List ℕ} (hx : x.shape.length ≤ i.length) (k : ℕ) :
    x.expandLast.elementAt (i ++ [k]) = x.elementAt i := by
  unfold NDArray.elementAt NDArray.expandLast
  simp only
  rw [broadcastIndex_append hx (by simp), broadcastIndex_one, List.dropLast_concat]

theorem broadcastsTo_expandLast {α : Type} {x : NDArray α} {t : List ℕ} (h : BroadcastsTo x.shape t) (k : ℕ) :
    BroadcastsTo x.expandLast.shape (t ++ [k]) := h.append (.cons (Or.inl rfl) .nil)

/-- Removing two axes of length one. -/
theorem squeeze_eq {α : Type} (w : NDArray α) {X Y Z : List ℕ} (hs : w.shape = X ++ 1 :: (Y ++ 1 :: Z)) :
    ∃ out, w.squeeze [X.length, X.length + 1 + Y.length] = .ok out ∧ out.shape = X ++ (Y ++ Z) ∧
      ∀ x y z, x.length = X.length → y.length = Y.length → z.length = Z.length →
        out.get (x ++ (y ++ z)) = w.get (x ++ 0 :: (y ++ 0 :: z)) := by
  have g1 : w.shape.getD X.length 0 = 1 := by rw [hs]; exact getD_append_cons rfl
  have g2 : w.shape.getD (X.length + 1 + Y.length) 0 = 1 := by
    rw [hs, show X ++ 1 :: (Y ++ 1 :: Z) = (X ++ 1 :: Y) ++ 1 :: Z by simp]
    exact getD_append_cons (by simp; omega)
  have hlen : w.shape.length = X.length + (1 + (Y.length + (1 + Z.length))) := by rw [hs]; simp; omega
  have hr : List.range w.shape.length = List.range' 0 X.length ++ (X.length :: (List.range' (X.length + 1) Y.length ++
      ((X.length + 1 + Y.length) :: List.range' (X.length + 1 + Y.length + 1) Z.length))) := by
    rw [hlen, List.range_eq_range', ← List.range'_append_1, ← List.range'_append_1 (m := 1), ← List.range'_append_1 (m := Y.length),
      ← List.range'_append_1 (m := 1)]
    simp
  have hf : (List.range w.shape.length).filter (fun d => decide (d ∉ [X.length, X.length + 1 + Y.length])) =
      List.range' 0 X.length ++ (List.range' (X.length + 1) Y.length ++ List.range' (X.length + 1 + Y.length + 1) Z.length) := by
    rw [hr]
    simp only [List.filter_append, List.filter_cons]
    rw [if_neg (by simp), if_neg (by simp)]
    congr 1
    · rw [List.filter_eq_self]
      intro a ha
      rw [List.mem_range'_1] at ha
      simp; omega
    · congr 1
      · rw [List.filter_eq_self]
        intro a ha
        rw [List.mem_range'_1] at ha
        simp; omega
      · rw [List.filter_eq_self]
        intro a ha
        rw [List.mem_range'_1] at ha
        simp; omega
  unfold NDArray.squeeze
  rw [if_neg (by simp only [List.any_cons, List.any_nil, g1, g2]; simp)]
  refine ⟨_, rfl, ?_, fun x y z hx hy hz => ?_⟩
  · simp only
    rw [hf, List.map_append, List.map_append]
    have h1 := map_range'_getD (X := []) (Y := X) (Z := 1 :: (Y ++ 1 :: Z)) rfl rfl
    have h2 := map_range'_getD (X := X ++ [1]) (Y := Y) (Z := 1 :: Z) rfl rfl
    have h3 := map_range'_getD (X := X ++ 1 :: (Y ++ [1])) (Y := Z) (Z := []) rfl rfl
    simp only [List.nil_append, List.length_nil, List.length_append, List.length_cons, List.append_assoc, List.cons_append, List.append_nil,
      Nat.zero_add] at h1 h2 h3
    rw [hs, h1, h2, show X.length + 1 + Y.length + 1 = X.length + (Y.length + 1 + 1) by omega, h3]
  · simp only
    congr 1
    rw [hr]
    have c1 : ∀ d, d < X.length → ((List.range d).filter fun e => decide (e ∉ [X.length, X.length + 1 + Y.length])).length = d := by
      intro d hd
      rw [List.filter_eq_self.2, List.length_range]
      intro a ha
      rw [List.mem_range] at ha
      simp; omega
    have c2 : ∀ d, X.length < d → d < X.length + 1 + Y.length →
        ((List.range d).filter fun e => decide (e ∉ [X.length, X.length + 1 + Y.length])).length = d - 1 := by
      intro d hd hd'
      obtain ⟨l, rfl⟩ : ∃ l, d = X.length + (1 + l) := ⟨d - X.length - 1, by omega⟩
      rw [List.range_eq_range', ← List.range'_append_1, ← List.range'_append_1 (m := 1), List.filter_append, List.filter_append,
        (List.filter_eq_self (l := List.range' 0 X.length)).2, (List.filter_eq_self (l := List.range' _ l)).2]
      · simp; omega
      · intro a ha
        rw [List.mem_range'_1] at ha
        simp; omega
      · intro a ha
        rw [List.mem_range'_1] at ha
        simp; omega
    have c3 : ∀ d, X.length + 1 + Y.length < d →
        ((List.range d).filter fun e => decide (e ∉ [X.length, X.length + 1 + Y.length])).length = d - 2 := by
      intro d hd
      obtain ⟨l, rfl⟩ : ∃ l, d = X.length + (1 + (Y.length + (1 + l))) := ⟨d - X.length - Y.length - 2, by omega⟩
      rw [List.range_eq_range', ← List.range'_append_1, ← List.range'_append_1 (m := 1), ← List.range'_append_1 (m := Y.length),
        ← List.range'_append_1 (m := 1), List.filter_append, List.filter_append, List.filter_append, List.filter_append,
        (List.filter_eq_self (l := List.range' 0 X.length)).2, (List.filter_eq_self (l := List.range' _ l)).2,
        (List.filter_eq_self (l := List.range' _ Y.length)).2]
      · simp; omega
      all_goals
        intro a ha
        rw [List.mem_range'_1] at ha
        simp; omega
    rw [List.map_append, List.map_cons, List.map_append, List.map_cons]
    rw [if_pos (by simp), if_pos (by simp)]
    congr 1
    · apply List.ext_getElem
      · simp [hx]
      · intro i h1 h2
        simp only [List.length_map, List.length_range'] at h1
        simp only [List.getElem_map, List.getElem_range', Nat.zero_add, Nat.one_mul]
        rw [if_neg (by simp; omega), c1 i h1, List.getD_eq_getElem?_getD, List.getElem?_append_left h2]
        simp [h2]
    · congr 1
      congr 1
      · apply List.ext_getElem
        · simp [hy]
        · intro i h1 h2
          simp only [List.length_map, List.length_range'] at h1
          simp only [List.getElem_map, List.getElem_range', Nat.one_mul]
          rw [if_neg (by simp; omega), c2 _ (by omega) (by omega), List.getD_eq_getElem?_getD,
            List.getElem?_append_right (by omega), List.getElem?_append_left (by omega),
            show X.length + 1 + i - 1 - x.length = i by omega]
          simp [h2]
      · congr 1
        apply List.ext_getElem
        · simp [hz]
        · intro i h1 h2
          simp only [List.length_map, List.length_range'] at h1
          simp only [List.getElem_map, List.getElem_range', Nat.one_mul]
          rw [if_neg (by simp; omega), c3 _ (by omega), List.getD_eq_getElem?_getD,
            List.getElem?_append_right (by omega), List.getElem?_append_right (by omega),
            show X.length + 1 + Y.length + 1 + i - 2 - x.length - y.length = i by omega]
          simp [h2]

theorem broadcastShapes_last_two (s t : List ℕ) (R C : ℕ) :
    broadcastShapes (s ++ [R, C]) (t ++ [1, 1]) = (broadcastShapes s t).map (· ++ [R, C]) := by
  unfold broadcastShapes
  simp only [List.reverse_append, List.reverse_cons, List.reverse_nil, List.nil_append, List.cons_append, broadcastRev]
  cases broadcastRev s.reverse t.reverse with
  | none => by_cases h1 : C = 1 <;> by_cases h2 : R = 1 <;> simp [h1, h2]
  | some w => by_cases h1 : C = 1 <;> by_cases h2 : R = 1 <;> simp [h1, h2]

theorem edgePad_congr {α : Type} {n m : ℕ} {f g : ℕ → ℕ → α} (hn : 0 < n) (hm : 0 < m)
    (h : ∀ i j, i < n → j < m → f i j = g i j) (i j : ℕ) : edgePad n m f i j = edgePad n m g i j :=
  h _ _ (by omega) (by omega)

theorem solidAngleNan_congr {n m : ℕ} {f g : ℕ → ℕ → Option (ℝ × ℝ)} (h : ∀ i j, i < n → j < m → f i j = g i j) {i j : ℕ}
    (hi : i < n) (hj : j < m) : solidAngleNan n m f i j = solidAngleNan n m g i j := by
  unfold solidAngleNan cellVertexNan
  simp only [edgePad_congr (by omega) (by omega) h]
  rw [h i j hi hj]

/-- The far-field profile in terms of the flux, wavelength and wavevectors of each batch element. -/
theorem farfieldProfile_eq {flux w ip u v : NDArray ℝ} {G : Fin n → ℤ × ℤ} {X Y Z P Y2 Z2 : List ℕ} {nx ny S m : ℕ}
    (hs : flux.shape = X ++ nx :: (Y ++ ny :: (Z ++ [2 * n, S]))) (hpos : ∀ d ∈ flux.shape, 0 < d)
    (hw : BroadcastsTo w.shape (X ++ 1 :: (Y ++ 1 :: Z)))
    (hip : ip.shape = P ++ nx :: (Y2 ++ ny :: (Z2 ++ [2]))) (hP : BroadcastsTo P X)
    (hY2 : List.Forall₂ (fun a b => a = 1 ∨ a = b) Y2 Y) (hZ2 : List.Forall₂ (fun a b => a = 1 ∨ a = b) Z2 Z)
    (hu : u.shape = List.replicate m 1 ++ [2]) (hv : v.shape = List.replicate m 1 ++ [2])
    (hm : m ≤ X.length + Y.length + Z.length + 3)
    (hl : Independent (latticeAt u v (List.replicate m 0)).u (latticeAt u v (List.replicate m 0)).v)
    {axes : ℤ × ℤ} (h1 : axes.1 = X.length ∨ axes.1 = X.length - flux.shape.length)
    (h2 : axes.2 = (X.length + 1 + Y.length : ℕ) ∨ axes.2 = (X.length + 1 + Y.length : ℕ) - flux.shape.length)
    {src : (ℕ × ℕ) × (ℕ → ℕ → Option (Fin nx × Fin ny × Fin n))} (hr : unflattenSource G nx ny = .ok src)
    {K : ℝ × ℝ → Fin n → ℝ × ℝ}
    (hK : ∀ k0, transverseWavevectors k0 (latticeAt u v (List.replicate m 0)) G = .ok (K k0)) :
    ∃ out, farfieldProfile flux w ip u v G axes = .ok out ∧
      BroadcastsTo out.polar.shape (X ++ (Y ++ (Z ++ [src.1.1, src.1.2]))) ∧
      BroadcastsTo out.azimuthal.shape (X ++ (Y ++ (Z ++ [src.1.1, src.1.2]))) ∧
      BroadcastsTo out.solidAngle.shape (X ++ (Y ++ (Z ++ [src.1.1, src.1.2]))) ∧
      out.profile.shape = X ++ (Y ++ (Z ++ [src.1.1, src.1.2, 2, S])) ∧
      ∀ x y z, ValidIndex X x → ValidIndex Y y → ValidIndex Z z → ∀ r c, r < src.1.1 → c < src.1.2 →
        out.polar.elementAt (x ++ (y ++ (z ++ [r, c]))) = ((src.2 r c).bind fun i =>
          (anglesFromTransverseWavevector (K (ip.elementAt (x ++ (i.1 : ℕ) :: (y ++ (i.2.1 : ℕ) :: (z ++ [0]))),
            ip.elementAt (x ++ (i.1 : ℕ) :: (y ++ (i.2.1 : ℕ) :: (z ++ [1])))) i.2.2)
            (w.elementAt (x ++ 0 :: (y ++ 0 :: z)))).toOption.map Prod.fst) ∧
        out.azimuthal.elementAt (x ++ (y ++ (z ++ [r, c]))) = ((src.2 r c).map fun i =>
          Complex.arg ((K (ip.elementAt (x ++ (i.1 : ℕ) :: (y ++ (i.2.1 : ℕ) :: (z ++ [0]))),
            ip.elementAt (x ++ (i.1 : ℕ) :: (y ++ (i.2.1 : ℕ) :: (z ++ [1])))) i.2.2).1 +
            Complex.I * (K (ip.elementAt (x ++ (i.1 : ℕ) :: (y ++ (i.2.1 : ℕ) :: (z ++ [0]))),
            ip.elementAt (x ++ (i.1 : ℕ) :: (y ++ (i.2.1 : ℕ) :: (z ++ [1])))) i.2.2).2)) ∧
        out.solidAngle.elementAt (x ++ (y ++ (z ++ [r, c]))) = solidAngleNan src.1.1 src.1.2 (fun r c =>
          if w.elementAt (x ++ 0 :: (y ++ 0 :: z)) = 0 then none else (src.2 r c).map fun i =>
            ((K (ip.elementAt (x ++ (i.1 : ℕ) :: (y ++ (i.2.1 : ℕ) :: (z ++ [0]))),
              ip.elementAt (x ++ (i.1 : ℕ) :: (y ++ (i.2.1 : ℕ) :: (z ++ [1])))) i.2.2).1 /
                (2 * Real.pi / w.elementAt (x ++ 0 :: (y ++ 0 :: z))),
             (K (ip.elementAt (x ++ (i.1 : ℕ) :: (y ++ (i.2.1 : ℕ) :: (z ++ [0]))),
              ip.elementAt (x ++ (i.1 : ℕ) :: (y ++ (i.2.1 : ℕ) :: (z ++ [1])))) i.2.2).2 /
                (2 * Real.pi / w.elementAt (x ++ 0 :: (y ++ 0 :: z))))) r c ∧
        ∀ pol s, pol < 2 → s < S → out.profile.get (x ++ (y ++ (z ++ [r, c, pol, s]))) =
          (src.2 r c).bind fun i => (out.solidAngle.elementAt (x ++ (y ++ (z ++ [r, c])))).bind fun ω =>
            if ω = 0 then none else
              some (flux.get (x ++ (i.1 : ℕ) :: (y ++ (i.2.1 : ℕ) :: (z ++ [pol * n + (i.2.2 : ℕ), s]))) / ω) := by
  have hlen : flux.shape.length = X.length + Y.length + Z.length + 4 := by rw [hs]; simp; omega
  have hs' : flux.shape = (X ++ nx :: (Y ++ ny :: Z)) ++ [2 * n, S] := by rw [hs]; simp
  have e1 : flux.shape.getD (flux.shape.length - 2) 0 = 2 * n := by
    rw [hlen, hs']; exact getD_append_cons (X := X ++ nx :: (Y ++ ny :: Z)) (Z := [S]) (by simp; omega)
  have ha := absoluteAxes_pair (a := X.length) (b := X.length + 1 + Y.length) (ndim := flux.shape.length) (by omega)
    (by omega) h1 h2
  have hY2l := hY2.length_eq
  have hZ2l := hZ2.length_eq
  -- the wavelength
  have hwl : w.shape.length ≤ X.length + Y.length + Z.length + 2 := by
    have := hw.length_le
    simp at this; omega
  have hTl : (X ++ 1 :: (Y ++ 1 :: Z)).length = X.length + Y.length + Z.length + 2 := by simp; omega
  obtain ⟨X1, Y1, Z1, hw1, hX1, hY1, hZ1⟩ : ∃ X1 Y1 Z1, (w.atleastNd (flux.shape.length - 2)).shape = X1 ++ 1 :: (Y1 ++ 1 :: Z1) ∧
      List.Forall₂ (fun a b => a = 1 ∨ a = b) X1 X ∧ List.Forall₂ (fun a b => a = 1 ∨ a = b) Y1 Y ∧
      List.Forall₂ (fun a b => a = 1 ∨ a = b) Z1 Z := by
    have h := broadcastsTo_padded hw
    obtain ⟨X1, b, e, g1, g2⟩ := forall₂_append_inv h
    cases g2 with
    | @cons a _ b' _ g3 g4 =>
      obtain ⟨Y1, b'', e', g5, g6⟩ := forall₂_append_inv g4
      cases g6 with
      | @cons a' _ Z1 _ g7 g8 =>
        refine ⟨X1, Y1, Z1, ?_, g1, g5, g8⟩
        have ea : a = 1 := by tauto
        have ea' : a' = 1 := by tauto
        rw [e', ea, ea'] at e
        unfold NDArray.atleastNd
        simp only
        rw [← e, hTl, hlen]
        rfl
  have hX1l := hX1.length_eq
  have hY1l := hY1.length_eq
  have hZ1l := hZ1.length_eq
  obtain ⟨w', hw', hw's, hw'g⟩ := squeeze_eq _ hw1
  rw [hX1l, hY1l] at hw'
  have hB1 : List.Forall₂ (fun a b : ℕ => a = 1 ∨ a = b) (X1 ++ (Y1 ++ Z1)) (X ++ (Y ++ Z)) :=
    List.rel_append (R := fun a b : ℕ => a = 1 ∨ a = b) hX1 (List.rel_append (R := fun a b : ℕ => a = 1 ∨ a = b) hY1 hZ1)
  have hw'b : BroadcastsTo w'.shape (X ++ (Y ++ Z)) := ⟨[], _, rfl, by rw [hw's]; exact hB1⟩
  have hw'e : ∀ x y z, ValidIndex X x → ValidIndex Y y → ValidIndex Z z →
      w'.elementAt (x ++ (y ++ z)) = w.elementAt (x ++ 0 :: (y ++ 0 :: z)) := by
    intro x y z hx hy hz
    have hxl := validIndex_length hx
    have hyl := validIndex_length hy
    have hzl := validIndex_length hz
    rw [← elementAt_atleastNd w (N := flux.shape.length - 2) (by simp; omega) (by omega)]
    unfold NDArray.elementAt
    rw [hw's, hw1, broadcastIndex_append (by omega) (by simp; omega), broadcastIndex_append (by omega) (by omega),
      broadcastIndex_append (s' := 1 :: (Y1 ++ 1 :: Z1)) (by omega) (by simp; omega),
      show (1 :: (Y1 ++ 1 :: Z1)) = [1] ++ (Y1 ++ ([1] ++ Z1)) by simp, show (0 :: (y ++ 0 :: z)) = [0] ++ (y ++ ([0] ++ z)) by simp,
      broadcastIndex_append (s := [1]) (by simp) (by simp; omega), broadcastIndex_append (s := Y1) (by omega) (by simp; omega),
      broadcastIndex_append (s := [1]) (by simp) (by omega), broadcastIndex_one]
    exact hw'g _ _ _ (by simp [broadcastIndex]; omega) (by simp [broadcastIndex]; omega) (by simp [broadcastIndex]; omega)
  -- the wavevectors
  have hPl := hP.length_le
  obtain ⟨X2, hX2⟩ : ∃ X2, X2 = List.replicate (X.length - P.length) 1 ++ P := ⟨_, rfl⟩
  have hX2f : List.Forall₂ (fun a b => a = 1 ∨ a = b) X2 X := by rw [hX2]; exact broadcastsTo_padded hP
  have hX2l := hX2f.length_eq
  have hipl : ip.shape.length = P.length + Y.length + Z.length + 3 := by rw [hip]; simp; omega
  have hip' : (ip.atleastNd (flux.shape.length - 2 + 1)).shape = (X2 ++ nx :: (Y2 ++ ny :: Z2)) ++ [2] := by
    unfold NDArray.atleastNd
    simp only
    rw [hipl, hlen, show X.length + Y.length + Z.length + 4 - 2 + 1 - (P.length + Y.length + Z.length + 3) =
      X.length - P.length by omega, hip, hX2]
    simp
  obtain ⟨k, hk, hks, hkg⟩ := transverseWavevectorsBatch_eq hip' hu hv (by simp; omega) hl G
  have hks' : k.shape = X2 ++ nx :: (Y2 ++ ny :: (Z2 ++ [n, 2])) := by rw [hks]; simp
  obtain ⟨k', hk', hk's, hk'g⟩ := unflattenTransverseWavevectors_eq k hks' (axes := ((X.length : ℤ), ((X.length + 1 + Y.length : ℕ) : ℤ)))
    (Or.inl (by rw [hX2l])) (Or.inl (by rw [hX2l, hY2l])) hr
  obtain ⟨flux', hf', hf's, hf'g⟩ := unflattenFlux_eq flux hs hpos (axes := ((X.length : ℤ), ((X.length + 1 + Y.length : ℕ) : ℤ)))
    (Or.inl rfl) (Or.inl rfl) hr
  have hB2 : List.Forall₂ (fun a b : ℕ => a = 1 ∨ a = b) (X2 ++ (Y2 ++ Z2)) (X ++ (Y ++ Z)) :=
    List.rel_append (R := fun a b : ℕ => a = 1 ∨ a = b) hX2f (List.rel_append (R := fun a b : ℕ => a = 1 ∨ a = b) hY2 hZ2)
  -- pairs of components
  have hps : (wavevectorPairs k').shape = (X2 ++ (Y2 ++ Z2)) ++ [src.1.1, src.1.2] := by
    unfold wavevectorPairs
    simp only
    rw [hk's, show X2 ++ (Y2 ++ (Z2 ++ [src.1.1, src.1.2, 2])) = ((X2 ++ (Y2 ++ Z2)) ++ [src.1.1, src.1.2]) ++ [2] by simp,
      List.dropLast_concat]
  have hpb : BroadcastsTo (wavevectorPairs k').shape ((X ++ (Y ++ Z)) ++ [src.1.1, src.1.2]) := by
    rw [hps]
    exact BroadcastsTo.append ⟨[], _, rfl, hB2⟩ (.cons (Or.inr rfl) (.cons (Or.inr rfl) .nil))
  have hpe : ∀ x y z, ValidIndex X x → ValidIndex Y y → ValidIndex Z z → ∀ r c, r < src.1.1 → c < src.1.2 →
      (wavevectorPairs k').elementAt ((x ++ (y ++ z)) ++ [r, c]) = (src.2 r c).map fun i =>
        K (ip.elementAt (x ++ (i.1 : ℕ) :: (y ++ (i.2.1 : ℕ) :: (z ++ [0]))),
            ip.elementAt (x ++ (i.1 : ℕ) :: (y ++ (i.2.1 : ℕ) :: (z ++ [1])))) i.2.2 := by
    intro x y z hx hy hz r c hrr hcc
    have hxl := validIndex_length hx
    have hyl := validIndex_length hy
    have hzl := validIndex_length hz
    have hx2 : ValidIndex X2 (broadcastIndex X2 x) := broadcastIndex_valid ⟨[], _, rfl, hX2f⟩ hx
    have hy2 : ValidIndex Y2 (broadcastIndex Y2 y) := broadcastIndex_valid ⟨[], _, rfl, hY2⟩ hy
    have hz2 : ValidIndex Z2 (broadcastIndex Z2 z) := broadcastIndex_valid ⟨[], _, rfl, hZ2⟩ hz
    have hbi : broadcastIndex ((X2 ++ (Y2 ++ Z2)) ++ [src.1.1, src.1.2]) ((x ++ (y ++ z)) ++ [r, c]) =
        broadcastIndex X2 x ++ (broadcastIndex Y2 y ++ (broadcastIndex Z2 z ++ [r, c])) := by
      rw [broadcastIndex_append (by simp; omega) (by simp), broadcastIndex_append (by omega) (by simp; omega),
        broadcastIndex_append (by omega) (by omega), broadcastIndex_of_valid (.cons hrr (.cons hcc .nil))]
      simp
    unfold NDArray.elementAt
    rw [hps, hbi]
    unfold wavevectorPairs
    simp only [List.append_assoc, List.cons_append, List.nil_append]
    rw [hk'g _ _ _ 0 r c (validIndex_length hx2) (validIndex_length hy2) (validIndex_length hz2),
      hk'g _ _ _ 1 r c (validIndex_length hx2) (validIndex_length hy2) (validIndex_length hz2)]
    cases hsrc : src.2 r c with
    | none => rfl
    | some i =>
      simp only [Option.map_some, bind, Option.bind]
      obtain ⟨kt, g1, g2⟩ := hkg (broadcastIndex X2 x ++ (i.1 : ℕ) :: (broadcastIndex Y2 y ++ (i.2.1 : ℕ) :: broadcastIndex Z2 z))
        (validIndex_append hx2 (.cons i.1.2 (validIndex_append hy2 (.cons i.2.1.2 hz2))))
      rw [hK] at g1
      have g1' := ok_inj.1 g1
      have g2' := g2 i.2.2
      simp only [List.append_assoc, List.cons_append] at g2'
      rw [g2'.1, g2'.2, ← g1']
      have hread : ∀ j, j < 2 → (ip.atleastNd (flux.shape.length - 2 + 1)).get
          (broadcastIndex X2 x ++ (i.1 : ℕ) :: (broadcastIndex Y2 y ++ (i.2.1 : ℕ) :: broadcastIndex Z2 z) ++ [j]) =
          ip.elementAt (x ++ (i.1 : ℕ) :: (y ++ (i.2.1 : ℕ) :: (z ++ [j]))) := by
        intro j hj
        rw [← elementAt_atleastNd ip (N := flux.shape.length - 2 + 1) (by simp; omega) (by omega)]
        unfold NDArray.elementAt
        rw [hip', show (X2 ++ nx :: (Y2 ++ ny :: Z2)) ++ [2] = X2 ++ ([nx] ++ (Y2 ++ ([ny] ++ (Z2 ++ [2])))) by simp,
          show x ++ (i.1 : ℕ) :: (y ++ (i.2.1 : ℕ) :: (z ++ [j])) = x ++ ([(i.1 : ℕ)] ++ (y ++ ([(i.2.1 : ℕ)] ++ (z ++ [j])))) by simp,
          broadcastIndex_append (by omega) (by simp; omega), broadcastIndex_append (by simp) (by simp; omega),
          broadcastIndex_append (by omega) (by simp; omega), broadcastIndex_append (by simp) (by simp; omega),
          broadcastIndex_append (by omega) (by simp), broadcastIndex_single i.1.2, broadcastIndex_single i.2.1.2,
          broadcastIndex_single hj]
        simp
      rw [hread 0 (by omega), hread 1 (by omega)]
      rfl
  -- the arrays
  have hwee : BroadcastsTo w'.expandLast.expandLast.shape ((X ++ (Y ++ Z)) ++ [src.1.1, src.1.2]) := by
    have := broadcastsTo_expandLast (broadcastsTo_expandLast hw'b src.1.1) src.1.2
    simpa using this
  have hweg : ∀ x y z, ValidIndex X x → ValidIndex Y y → ValidIndex Z z → ∀ r c,
      w'.expandLast.expandLast.elementAt ((x ++ (y ++ z)) ++ [r, c]) = w.elementAt (x ++ 0 :: (y ++ 0 :: z)) := by
    intro x y z hx hy hz r c
    have hxl := validIndex_length hx
    have hyl := validIndex_length hy
    have hzl := validIndex_length hz
    have hl1 : w'.shape.length ≤ (x ++ (y ++ z)).length := by rw [hw's]; simp; omega
    rw [show (x ++ (y ++ z)) ++ [r, c] = ((x ++ (y ++ z)) ++ [r]) ++ [c] by simp,
      elementAt_expandLast _ (by simp only [NDArray.expandLast, List.length_append, List.length_singleton] at hl1 ⊢; omega),
      elementAt_expandLast _ hl1, hw'e x y z hx hy hz]
  obtain ⟨polar, hp1, hp2, -, hp4⟩ := zipWith_elementAt (fun (k : Option (ℝ × ℝ)) w => k.bind fun k => (anglesFromTransverseWavevector k w).toOption.map Prod.fst) hpb hwee
  obtain ⟨q, hq1, hq2, hq3, hq4⟩ := zipWith_elementAt (fun (k : Option (ℝ × ℝ)) (w : ℝ) => if w = 0 then none else
      k.map fun k => (k.1 / (2 * Real.pi / w), k.2 / (2 * Real.pi / w))) hpb hwee
  obtain ⟨Q, hQ, hQb⟩ : ∃ Q, q.shape = Q ++ [src.1.1, src.1.2] ∧ BroadcastsTo Q (X ++ (Y ++ Z)) := by
    have e : w'.expandLast.expandLast.shape = w'.shape ++ [1, 1] := by simp [NDArray.expandLast]
    rw [hps, e, broadcastShapes_last_two, Option.map_eq_some_iff] at hq3
    obtain ⟨Q, g1, g2⟩ := hq3
    obtain ⟨c, -, c1, c2, -⟩ := zipWith_elementAt (fun (_ : ℕ) (_ : ℕ) => 0)
      (a := ⟨X2 ++ (Y2 ++ Z2), fun _ => 0⟩) (b := ⟨w'.shape, fun _ => 0⟩) (t := X ++ (Y ++ Z)) ⟨[], _, rfl, hB2⟩ hw'b
    simp only at c2
    rw [g1] at c2
    cases c2
    exact ⟨c.shape, g2.symm, c1⟩
  have hqtail1 : q.shape.getD (q.shape.length - 2) 0 = src.1.1 := by
    rw [hQ]; exact getD_append_cons (Z := [src.1.2]) (by simp)
  have hqtail2 : q.shape.getD (q.shape.length - 1) 0 = src.1.2 := by
    rw [hQ, show Q ++ [src.1.1, src.1.2] = (Q ++ [src.1.1]) ++ src.1.2 :: [] by simp]
    exact getD_append_cons (by simp)
  have hqlen : q.shape.length - 2 = Q.length := by rw [hQ]; simp
  have hqlen1 : q.shape.length - 1 = Q.length + 1 := by rw [hQ]; simp
  obtain ⟨solid, hsol⟩ : ∃ solid : NDArray (Option ℝ), solid = ⟨q.shape, fun idx => solidAngleNan (q.shape.getD (q.shape.length - 2) 0) (q.shape.getD (q.shape.length - 1) 0)
            (fun i j => q.get (idx.take (q.shape.length - 2) ++ [i, j])) (idx.getD (q.shape.length - 2) 0) (idx.getD (q.shape.length - 1) 0)⟩ := ⟨_, rfl⟩
  have hsolb : BroadcastsTo solid.shape ((X ++ (Y ++ Z)) ++ [src.1.1, src.1.2]) := by rw [hsol]; exact hq2
  have hsole : ∀ b, ValidIndex (X ++ (Y ++ Z)) b → ∀ r c, r < src.1.1 → c < src.1.2 → solid.elementAt (b ++ [r, c]) =
      solidAngleNan src.1.1 src.1.2 (fun i j => q.elementAt (b ++ [i, j])) r c := by
    intro b hb r c hrr hcc
    have hbl := validIndex_length hb
    have hQl := hQb.length_le
    have hbi : ∀ i j, i < src.1.1 → j < src.1.2 → broadcastIndex q.shape (b ++ [i, j]) = broadcastIndex Q b ++ [i, j] := by
      intro i j hi hj
      rw [hQ, broadcastIndex_append (by omega) (by simp), broadcastIndex_of_valid (.cons hi (.cons hj .nil))]
    have hbl' : (broadcastIndex Q b).length = Q.length := by unfold broadcastIndex; simp; omega
    unfold NDArray.elementAt
    rw [hsol]
    simp only
    rw [hqtail1, hqtail2, hbi r c hrr hcc, hqlen, hqlen1, List.take_left' hbl', getD_append_cons (Z := [c]) hbl',
      show broadcastIndex Q b ++ [r, c] = (broadcastIndex Q b ++ [r]) ++ c :: [] by simp, getD_append_cons (by simp [hbl'])]
    apply solidAngleNan_congr _ hrr hcc
    intro i j hi hj
    rw [hbi i j hi hj]
  have hsee : BroadcastsTo solid.expandLast.expandLast.shape flux'.shape := by
    have := broadcastsTo_expandLast (broadcastsTo_expandLast hsolb 2) S
    rw [hf's]
    simpa using this
  obtain ⟨prof, hpr1, hpr2, hpr3⟩ := zipWith_left (fun (f s : Option ℝ) => f.bind fun f => s.bind fun s => if s = 0 then none else some (f / s))
    flux' solid.expandLast.expandLast hsee
  have hass : ∀ a b c d : List ℕ, a ++ (b ++ (c ++ d)) = (a ++ (b ++ c)) ++ d := by simp
  refine ⟨{ polar := polar, azimuthal := (wavevectorPairs k').map fun k => k.map fun k => Complex.arg (k.1 + Complex.I * k.2), solidAngle := solid, profile := prof }, ?_, ?_, ?_, ?_, ?_, ?_⟩
  rotate_left
  · simp only; rw [hass]; exact hp2
  · simp only; rw [hass]; exact hpb
  · simp only; rw [hass]; exact hsolb
  · simp only; rw [hpr2, hf's]
  · intro x y z hx hy hz r c hrr hcc
    have hb := validIndex_append hx (validIndex_append hy hz)
    have hbl := validIndex_length hb
    refine ⟨?_, ?_, ?_, ?_⟩
    · simp only
      rw [hass, hp4 _ (by simp only [List.length_append, List.length_cons, List.length_nil] at hbl ⊢; omega),
        hpe x y z hx hy hz r c hrr hcc, hweg x y z hx hy hz]
      cases src.2 r c <;> rfl
    · simp only
      rw [hass]
      exact (congrArg (Option.map fun k : ℝ × ℝ => Complex.arg (k.1 + Complex.I * k.2)) (hpe x y z hx hy hz r c hrr hcc)).trans
        (by cases src.2 r c <;> rfl)
    · simp only
      rw [hass, hsole _ hb r c hrr hcc]
      apply solidAngleNan_congr _ hrr hcc
      intro i j hi hj
      rw [hq4 _ (by simp only [List.length_append, List.length_cons, List.length_nil] at hbl ⊢; omega),
        hpe x y z hx hy hz i j hi hj, hweg x y z hx hy hz]
      cases src.2 i j <;> rfl
    · intro pol s hpol hS
      simp only
      rw [hpr3 _ (by rw [hf's]; exact validIndex_append hx (validIndex_append hy (validIndex_append hz
        (.cons hrr (.cons hcc (.cons hpol (.cons hS .nil)))))))]
      rw [hf'g x y z pol s r c hx hy hz hpol hS]
      have hl1 : solid.shape.length ≤ ((x ++ (y ++ z)) ++ [r, c]).length := by
        have := hsolb.length_le
        simp only [List.length_append, List.length_cons, List.length_nil] at this hbl ⊢; omega
      have hg : solid.expandLast.expandLast.get (broadcastIndex solid.expandLast.expandLast.shape (x ++ (y ++ (z ++ [r, c, pol, s])))) =
          solid.elementAt (x ++ (y ++ (z ++ [r, c]))) := by
        rw [hass x y z [r, c]]
        rw [← elementAt_expandLast solid hl1 pol, ← elementAt_expandLast solid.expandLast (by
          simp only [NDArray.expandLast, List.length_append, List.length_singleton] at hl1 ⊢; omega) s]
        unfold NDArray.elementAt
        simp
      rw [hg]
      cases src.2 r c <;> rfl
  · unfold farfieldProfile
    simp only
    rw [if_neg (by omega), if_neg (not_not.2 e1), ha]
    simp only [bind, Except.bind, List.getD_cons_zero, List.getD_cons_succ, List.map_cons, List.map_nil, Int.toNat_natCast]
    rw [hk]
    simp only
    rw [hk']
    simp only
    rw [hf']
    simp only
    rw [hw']
    simp only
    unfold anglesFromUnflattened solidAngleFromUnflattened
    have hk'l : k'.shape.length = X.length + Y.length + Z.length + 3 := by rw [hk's]; simp; omega
    have hw'l : w'.shape.length = X.length + Y.length + Z.length := by rw [hw's]; simp; omega
    rw [if_neg (by rw [hk'l, hw'l]; push_cast; omega), if_neg (by omega)]
    simp only [bind, Except.bind]
    rw [hp1, hq1]
    simp only
    rw [← hsol, hpr1]

end Fmmax
