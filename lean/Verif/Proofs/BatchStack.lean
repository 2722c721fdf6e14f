import Verif.Proofs.BatchScattering
import Verif.Model.BatchStack

/-! Interior scattering matrices, prepended layers, star products and changes of thickness with batch dimensions. -/

namespace Fmmax

open Spec

variable {t : List ℕ} {r n : ℕ}

theorem BatchScatteringMatrix.elementAt_ok {s : BatchScatteringMatrix n} {i : List ℕ} {x : ScatteringMatrix (Fin n)} :
    s.elementAt i = .ok x ↔ s.s11.elementAt i = .ok x.s11 ∧ s.s12.elementAt i = .ok x.s12 ∧ s.s21.elementAt i = .ok x.s21 ∧
      s.s22.elementAt i = .ok x.s22 ∧ s.startLayer.elementAt i = .ok x.startLayer ∧ s.endLayer.elementAt i = .ok x.endLayer ∧
      s.startThickness = x.startThickness ∧ s.endThickness = x.endThickness := by
  unfold BatchScatteringMatrix.elementAt
  simp only [bind_eq_ok, ok_inj]
  constructor
  · rintro ⟨a, ha, b, hb, c, hc, d, hd, e, he, f, hf, rfl⟩
    exact ⟨ha, hb, hc, hd, he, hf, rfl, rfl⟩
  · rintro ⟨ha, hb, hc, hd, he, hf, hg, hh⟩
    refine ⟨_, ha, _, hb, _, hc, _, hd, _, he, _, hf, ?_⟩
    rw [hg, hh]

theorem BatchScatteringMatrix.elementAt_reverse {s : BatchScatteringMatrix n} {i : List ℕ} {x : ScatteringMatrix (Fin n)} :
    s.reverse.elementAt i = .ok x.reverse ↔ s.elementAt i = .ok x := by
  rw [BatchScatteringMatrix.elementAt_ok, BatchScatteringMatrix.elementAt_ok]
  simp only [BatchScatteringMatrix.reverse, ScatteringMatrix.reverse]
  tauto

theorem ScatteringMatrix.reverse_involutive (x : ScatteringMatrix (Fin n)) : x.reverse.reverse = x := rfl

theorem SMatrixFits.reverse {s : BatchScatteringMatrix n} (h : SMatrixFits t r s) : SMatrixFits t r s.reverse :=
  ⟨h.s22, h.s21, h.s12, h.s11, h.last, h.start⟩

theorem identitySMatrixBatch_fits {lat : LatticeVectors} {l : BatchLayer n} (h : LayerFits t r lat l) (d : ℝ) :
    SMatrixFits t r (identitySMatrixBatch l d) :=
  ⟨h.eigenvalues.map _, h.eigenvalues.map _, h.eigenvalues.map _, h.eigenvalues.map _, ⟨lat, h⟩, ⟨lat, h⟩⟩

theorem identitySMatrixBatch_elementAt {l : BatchLayer n} {d : ℝ} {i : List ℕ} {a : LayerSolveResult (Fin n)}
    (h : l.elementAt i = .ok a) : (identitySMatrixBatch l d).elementAt i = .ok (identitySMatrix a d) := by
  have ea := BatchLayer.elementAt_ok h
  rw [BatchScatteringMatrix.elementAt_ok]
  unfold identitySMatrixBatch identitySMatrix
  simp only [Batch.elementAt_map, ea.eigenvalues, h]
  exact ⟨rfl, rfl, rfl, rfl, trivial, trivial, trivial, trivial⟩

/-- A batch element of a list of scattering matrices. -/
def ElementsAt (i : List ℕ) (S : List (BatchScatteringMatrix n)) (s : List (ScatteringMatrix (Fin n))) : Prop :=
  List.Forall₂ (fun S s => S.elementAt i = .ok s) S s

/-- Layers with thicknesses, and their batch elements. -/
def LayersAt (i : List ℕ) (L : List (BatchLayer n × ℝ)) (l : List (LayerSolveResult (Fin n) × ℝ)) : Prop :=
  List.Forall₂ (fun x y => x.1.elementAt i = .ok y.1 ∧ x.2 = y.2) L l

theorem appendAllBatch_ok (L : List (BatchLayer n × ℝ)) (hL : ∀ x ∈ L, ∃ lat, LayerFits t r lat x.1) {s : BatchScatteringMatrix n}
    (hs : SMatrixFits t r s) :
    ∃ S, appendAllBatch s L = .ok S ∧ S.length = L.length ∧ (∀ x ∈ S, SMatrixFits t r x) ∧
      ∀ i, ValidIndex t i → ∀ a b, s.startLayer.elementAt i = .ok a → s.endLayer.elementAt i = .ok b → ∀ l, LayersAt i L l →
        ∀ x xs, (s.elementAt i = .ok x ∧ ElementsAt i S xs) ↔ (s.elementAt i = .ok x ∧ appendLoop x l = .ok xs) := by
  induction L generalizing s with
  | nil =>
    refine ⟨[], rfl, rfl, by simp, fun i _ a b _ _ l hl x xs => ?_⟩
    cases hl
    constructor
    · rintro ⟨h, h'⟩
      cases h'
      exact ⟨h, rfl⟩
    · rintro ⟨h, h'⟩
      cases h'
      exact ⟨h, .nil⟩
  | cons y L ih =>
    obtain ⟨l', d⟩ := y
    obtain ⟨lat, hl⟩ := hL (l', d) (by simp)
    obtain ⟨s', es, fs, st, en, hel⟩ := appendLayerBatch_ok hs hl d
    obtain ⟨S, eS, lS, fS, hS⟩ := ih (fun x hx => hL x (by simp [hx])) fs
    refine ⟨s' :: S, ?_, by simp [lS], ?_, fun i hi a b ha hb l hll x xs => ?_⟩
    · unfold appendAllBatch
      rw [es]
      simp only [bind, Except.bind]
      rw [eS]
    · intro x hx
      rcases List.mem_cons.1 hx with rfl | hx
      · exact fs
      · exact fS x hx
    · cases hll with
      | @cons _ z _ l hz hll =>
        obtain ⟨c, d'⟩ := z
        obtain ⟨hz, rfl⟩ := hz
        have g1 := hel i a b c hi ha hb hz
        refine and_congr_right fun hx => ?_
        have g2 : ∀ v, s'.elementAt i = .ok v ↔ appendLayer x c d = .ok v := by
          intro v
          rw [g1 v, hx]
          rfl
        have g3 := hS i hi a c (by rw [st]; exact ha) (by rw [en]; exact hz) l hll
        constructor
        · intro h
          cases h with
          | @cons _ x' _ xs' h1 h2 =>
            have := (g3 x' xs').1 ⟨h1, h2⟩
            unfold appendLoop
            rw [(g2 x').1 h1]
            simp only [bind, Except.bind, this.2]
        · intro h
          unfold appendLoop at h
          simp only [bind_eq_ok, ok_inj] at h
          obtain ⟨x', h1, xs', h2, rfl⟩ := h
          have h1' := (g2 x').2 h1
          exact .cons h1' ((g3 x' xs').2 ⟨h1', h2⟩).2

theorem layersAt_zip {i : List ℕ} {L : List (BatchLayer n)} {D : List ℝ} {rs : List (LayerSolveResult (Fin n))}
    (h : List.Forall₂ (fun l a => l.elementAt i = .ok a) L rs) : LayersAt i (L.zip D) (rs.zip D) := by
  induction h generalizing D with
  | nil => exact .nil
  | cons hx _ ih =>
    cases D with
    | nil => exact .nil
    | cons d D => exact .cons ⟨hx, rfl⟩ ih

theorem stackSMatricesBatch_ok {layers : List (BatchLayer n)} {thicknesses : List ℝ} (hne : layers ≠ [])
    (hlen : layers.length = thicknesses.length) (h : ∀ l ∈ layers, ∃ lat, LayerFits t r lat l) :
    ∃ S, stackSMatricesBatch layers thicknesses = .ok S ∧ S.length = layers.length ∧ (∀ x ∈ S, SMatrixFits t r x) ∧
      ∀ i, ValidIndex t i → ∀ rs, List.Forall₂ (fun l a => l.elementAt i = .ok a) layers rs → ∀ ss,
        ElementsAt i S ss ↔ stackSMatrices rs thicknesses = .ok ss := by
  unfold stackSMatricesBatch
  rw [if_neg (not_not.2 hlen)]
  match layers, thicknesses, hne, hlen, h with
  | [l], [d], _, _, h =>
    obtain ⟨lat, hl⟩ := h l (by simp)
    refine ⟨_, rfl, rfl, ?_, fun i hi rs hrs ss => ?_⟩
    · intro x hx
      rw [List.mem_singleton.1 hx]
      exact identitySMatrixBatch_fits hl d
    · cases hrs with
      | @cons _ a _ _ ha hrs =>
        cases hrs
        have e := identitySMatrixBatch_elementAt (d := d) ha
        unfold stackSMatrices
        rw [if_neg (by simp)]
        simp only [List.zip_cons_cons, List.zip_nil_right]
        constructor
        · intro h
          cases h with
          | @cons _ x _ _ h1 h2 =>
            cases h2
            rw [e] at h1
            cases h1
            rfl
        · intro h
          cases h
          exact .cons e .nil
  | l0 :: l1 :: rest, d0 :: d1 :: ds, _, hlen, h =>
    obtain ⟨lat0, h0⟩ := h l0 (by simp)
    obtain ⟨lat1, h1⟩ := h l1 (by simp)
    obtain ⟨s, es, fs, st, en, hs⟩ := pairSMatrixBatch_ok h0 h1 d0 d1
    have hl' : rest.length = ds.length := by simpa using hlen
    obtain ⟨S, eS, lS, fS, hS⟩ := appendAllBatch_ok (rest.zip ds) (fun x hx => h x.1 (by
      simp only [List.mem_cons]
      exact Or.inr (Or.inr (List.of_mem_zip hx).1))) fs
    refine ⟨identitySMatrixBatch l0 d0 :: s :: S, ?_, by simp [lS, hl'], ?_, fun i hi rs hrs ss => ?_⟩
    · simp only [List.zip_cons_cons, es, bind, Except.bind, eS]
    · intro x hx
      simp only [List.mem_cons] at hx
      rcases hx with rfl | rfl | hx
      · exact identitySMatrixBatch_fits h0 d0
      · exact fs
      · exact fS x hx
    · cases hrs with
      | @cons _ a _ _ ha hrs =>
        cases hrs with
        | @cons _ b _ rs hb hrs =>
          have g1 := hs i a b hi ha hb
          have g2 := hS i hi a b (by rw [st]; exact ha) (by rw [en]; exact hb) _ (layersAt_zip (D := ds) hrs)
          have e0 := identitySMatrixBatch_elementAt (d := d0) ha
          unfold stackSMatrices
          rw [if_neg (by simp [← hrs.length_eq, hl'])]
          simp only [List.zip_cons_cons, bind_eq_ok, ok_inj]
          constructor
          · intro h
            cases h with
            | @cons _ x0 _ _ k0 h =>
              cases h with
              | @cons _ x1 _ xs k1 h =>
                rw [e0] at k0
                cases k0
                exact ⟨x1, (g1 x1).1 k1, xs, ((g2 x1 xs).1 ⟨k1, h⟩).2, rfl⟩
          · rintro ⟨x1, k1, xs, k2, rfl⟩
            have k1' := (g1 x1).2 k1
            exact .cons e0 (.cons k1' ((g2 x1 xs).2 ⟨k1', k2⟩).2)

theorem forall₂_zip {α β γ δ : Type} {R : α → γ → Prop} {Q : β → δ → Prop} {a : List α} {b : List β} {x : List (γ × δ)}
    (hl : a.length = b.length) : List.Forall₂ (fun P p => R P.1 p.1 ∧ Q P.2 p.2) (a.zip b) x ↔
      ∃ c d, x = c.zip d ∧ c.length = d.length ∧ List.Forall₂ R a c ∧ List.Forall₂ Q b d := by
  induction a generalizing b x with
  | nil =>
    cases b with
    | nil =>
      constructor
      · intro h
        cases h
        exact ⟨[], [], rfl, rfl, .nil, .nil⟩
      · rintro ⟨c, d, rfl, -, h, h'⟩
        cases h
        cases h'
        exact .nil
    | cons => simp at hl
  | cons u a ih =>
    cases b with
    | nil => simp at hl
    | cons v b =>
      have hl' : a.length = b.length := by simpa using hl
      constructor
      · intro h
        cases h with
        | @cons _ p _ x h1 h2 =>
          obtain ⟨c, d, rfl, hcd, hc, hd⟩ := (ih hl').1 h2
          exact ⟨p.1 :: c, p.2 :: d, rfl, by simp [hcd], .cons h1.1 hc, .cons h1.2 hd⟩
      · rintro ⟨c, d, rfl, hcd, hc, hd⟩
        cases hc with
        | @cons _ p _ c h1 h2 =>
          cases hd with
          | @cons _ q _ d h3 h4 =>
            exact .cons ⟨h1, h3⟩ ((ih hl').2 ⟨c, d, rfl, by simpa using hcd, h2, h4⟩)

/-- The batch elements of reversed scattering matrices. -/
theorem elementsAt_reverse {i : List ℕ} {S : List (BatchScatteringMatrix n)} {s : List (ScatteringMatrix (Fin n))} :
    List.Forall₂ (fun S s => S.elementAt i = .ok s) (S.reverse.map BatchScatteringMatrix.reverse) (s.reverse.map ScatteringMatrix.reverse) ↔
      ElementsAt i S s := by
  rw [List.forall₂_map_left_iff, List.forall₂_map_right_iff]
  rw [show (fun (a : BatchScatteringMatrix n) (c : ScatteringMatrix (Fin n)) => a.reverse.elementAt i = .ok c.reverse) =
      fun S s => S.elementAt i = .ok s from by
    funext a c
    exact propext BatchScatteringMatrix.elementAt_reverse]
  exact List.forall₂_reverse_iff

theorem stackSMatricesInteriorBatch_ok {layers : List (BatchLayer n)} {thicknesses : List ℝ} (hne : layers ≠ [])
    (hlen : layers.length = thicknesses.length) (h : ∀ l ∈ layers, ∃ lat, LayerFits t r lat l) :
    ∃ S, stackSMatricesInteriorBatch layers thicknesses = .ok S ∧ S.length = layers.length ∧
      (∀ x ∈ S, SMatrixFits t r x.1 ∧ SMatrixFits t r x.2) ∧
      ∀ i, ValidIndex t i → ∀ rs, List.Forall₂ (fun l a => l.elementAt i = .ok a) layers rs → ∀ ss,
        List.Forall₂ (fun P p => P.1.elementAt i = .ok p.1 ∧ P.2.elementAt i = .ok p.2) S ss ↔
          stackSMatricesInterior rs thicknesses = .ok ss := by
  obtain ⟨B, eB, lB, fB, hB⟩ := stackSMatricesBatch_ok hne hlen h
  obtain ⟨A, eA, lA, fA, hA⟩ := stackSMatricesBatch_ok (t := t) (r := r) (layers := layers.reverse) (thicknesses := thicknesses.reverse)
    (by simpa using hne) (by simpa using hlen) (fun l hl => h l (List.mem_reverse.1 hl))
  have hlBA : B.length = (A.reverse.map BatchScatteringMatrix.reverse).length := by simp [lB, lA]
  refine ⟨B.zip (A.reverse.map BatchScatteringMatrix.reverse), ?_, by simp [lB, lA], ?_, fun i hi rs hrs ss => ?_⟩
  · unfold stackSMatricesInteriorBatch
    rw [eB, eA]
    rfl
  · rintro ⟨x, y⟩ hx
    obtain ⟨h1, h2⟩ := List.of_mem_zip hx
    obtain ⟨y', hy', rfl⟩ := List.mem_map.1 h2
    exact ⟨fB x h1, (fA y' (List.mem_reverse.1 hy')).reverse⟩
  · rw [forall₂_zip (R := fun S s => S.elementAt i = .ok s) (Q := fun S s => S.elementAt i = .ok s) hlBA]
    have hrs' := List.rel_reverse hrs
    unfold stackSMatricesInterior
    simp only [bind_eq_ok, ok_inj]
    constructor
    · rintro ⟨c, d, rfl, hcd, hc, hd⟩
      refine ⟨c, (hB i hi rs hrs c).1 hc, d.reverse.map ScatteringMatrix.reverse, ?_, ?_⟩
      · rw [← hA i hi rs.reverse hrs', ← elementsAt_reverse]
        simpa [Function.comp_def, ScatteringMatrix.reverse_involutive] using hd
      · simp [Function.comp_def, ScatteringMatrix.reverse_involutive]
    · rintro ⟨c, hc, d, hd, rfl⟩
      have hd' := elementsAt_reverse.2 ((hA i hi rs.reverse hrs' d).2 hd)
      have hc' := (hB i hi rs hrs c).2 hc
      exact ⟨c, _, rfl, by rw [← hc'.length_eq, ← hd'.length_eq, hlBA], hc', hd'⟩

theorem prependLayerBatch_ok {lat' : LatticeVectors} {s : BatchScatteringMatrix n} {l' : BatchLayer n} (h : SMatrixFits t r s)
    (h' : LayerFits t r lat' l') (d' : ℝ) :
    ∃ s', prependLayerBatch s l' d' = .ok s' ∧ SMatrixFits t r s' ∧ s'.startLayer = l' ∧ s'.endLayer = s.endLayer ∧
      ∀ i x c, ValidIndex t i → s.elementAt i = .ok x → l'.elementAt i = .ok c → SameOk (s'.elementAt i) (prependLayer x c d') := by
  obtain ⟨b, eb, fb, st, en, hb⟩ := appendLayerBatch_ok h.reverse h' d'
  refine ⟨{ s11 := b.s22, s12 := b.s21, s21 := b.s12, s22 := b.s11, startLayer := l', startThickness := d',
            endLayer := s.endLayer, endThickness := s.endThickness }, ?_, ?_, rfl, rfl, ?_⟩
  · unfold prependLayerBatch
    rw [eb]
    rfl
  · exact ⟨fb.s22, fb.s21, fb.s12, fb.s11, ⟨lat', h'⟩, h.last⟩
  · intro i x c hi hx hc v
    have hr : s.reverse.elementAt i = .ok x.reverse := BatchScatteringMatrix.elementAt_reverse.2 hx
    obtain ⟨-, -, -, -, e5, e6, e7, e8⟩ := BatchScatteringMatrix.elementAt_ok.1 hr
    have g := hb i _ _ c hi e5 e6 hc
    rw [hr] at g
    have et : b.startThickness = s.endThickness ∧ b.endThickness = d' := by
      have := eb
      unfold appendLayerBatch at this
      simp only [bind_eq_ok, ok_inj] at this
      obtain ⟨_, _, _, _, _, _, _, _, _, _, _, _, _, _, _, _, _, _, _, _, _, _, _, _, _, _, _, _, _, _, _, _, _, _, rfl⟩ := this
      exact ⟨rfl, rfl⟩
    have key : BatchScatteringMatrix.mk b.s22 b.s21 b.s12 b.s11 l' d' s.endLayer s.endThickness = b.reverse := by
      unfold BatchScatteringMatrix.reverse
      rw [st, en, et.1, et.2]
      rfl
    rw [key]
    have e1 : b.reverse.elementAt i = .ok v ↔ b.elementAt i = .ok v.reverse := by
      rw [← BatchScatteringMatrix.elementAt_reverse (s := b), ScatteringMatrix.reverse_involutive]
    rw [e1, g]
    unfold prependLayer appendLayer
    show (extendSMatrix _ _ _ _ _ >>= _) = _ ↔ _
    simp only [bind_eq_ok, ok_inj, ScatteringMatrix.reverse]
    constructor
    · rintro ⟨B, hB, hv⟩
      refine ⟨B, hB, ?_⟩
      have := congrArg ScatteringMatrix.reverse hv
      exact this
    · rintro ⟨B, hB, rfl⟩
      exact ⟨B, hB, rfl⟩

theorem redhefferStarProductBatch_ok {a b : BatchScatteringMatrix n} (ha : SMatrixFits t r a) (hb : SMatrixFits t r b) :
    ∃ s, redhefferStarProductBatch a b = .ok s ∧ SMatrixFits t r s ∧
      ∀ i x y, ValidIndex t i → a.elementAt i = .ok x → b.elementAt i = .ok y →
        SameOk (s.elementAt i) (redhefferStarProduct x y) := by
  obtain ⟨lat, hl⟩ := hb.start
  obtain ⟨e, ee, fe, st, en, he⟩ := appendLayerBatch_ok ha hl b.startThickness
  have feye : Fits t r (e.s11.map fun _ => .ok (diag fun _ => 1) : Batch (ModeMatrix (Fin n))) := fe.s11.map _
  obtain ⟨X0, eX0, rX0⟩ := Batch.zip_ok (fun x y : ModeMatrix (Fin n) => .ok (x * y)) fe.s12 hb.s21
  obtain ⟨X, eX, rX⟩ := Batch.zip_ok (fun x y : ModeMatrix (Fin n) => .ok (x - y)) feye rX0.fits
  obtain ⟨Y0, eY0, rY0⟩ := Batch.zip_ok (fun x y : ModeMatrix (Fin n) => .ok (x * y)) hb.s21 fe.s12
  obtain ⟨Y, eY, rY⟩ := Batch.zip_ok (fun x y : ModeMatrix (Fin n) => .ok (x - y)) feye rY0.fits
  obtain ⟨X11, eX11, rX11⟩ := Batch.solve_ok rX.fits fe.s11
  obtain ⟨S11, eS11, rS11⟩ := Batch.zip_ok (fun x y : ModeMatrix (Fin n) => .ok (x * y)) hb.s11 rX11.fits
  obtain ⟨Z1, eZ1, rZ1⟩ := Batch.zip_ok (fun x y : ModeMatrix (Fin n) => .ok (x * y)) fe.s12 hb.s22
  obtain ⟨X12, eX12, rX12⟩ := Batch.solve_ok rX.fits rZ1.fits
  obtain ⟨Z2, eZ2, rZ2⟩ := Batch.zip_ok (fun x y : ModeMatrix (Fin n) => .ok (x * y)) hb.s11 rX12.fits
  obtain ⟨S12, eS12, rS12⟩ := Batch.zip_ok (fun x y : ModeMatrix (Fin n) => .ok (x + y)) hb.s12 rZ2.fits
  obtain ⟨Z3, eZ3, rZ3⟩ := Batch.zip_ok (fun x y : ModeMatrix (Fin n) => .ok (x * y)) hb.s21 fe.s11
  obtain ⟨X21, eX21, rX21⟩ := Batch.solve_ok rY.fits rZ3.fits
  obtain ⟨Z4, eZ4, rZ4⟩ := Batch.zip_ok (fun x y : ModeMatrix (Fin n) => .ok (x * y)) fe.s22 rX21.fits
  obtain ⟨S21, eS21, rS21⟩ := Batch.zip_ok (fun x y : ModeMatrix (Fin n) => .ok (x + y)) fe.s21 rZ4.fits
  obtain ⟨X22, eX22, rX22⟩ := Batch.solve_ok rY.fits hb.s22
  obtain ⟨S22, eS22, rS22⟩ := Batch.zip_ok (fun x y : ModeMatrix (Fin n) => .ok (x * y)) fe.s22 rX22.fits
  refine ⟨{ s11 := S11, s12 := S12, s21 := S21, s22 := S22, startLayer := a.startLayer, startThickness := a.startThickness,
            endLayer := b.endLayer, endThickness := b.endThickness }, ?_,
    ⟨rS11.fits, rS12.fits, rS21.fits, rS22.fits, ha.start, hb.last⟩, fun i x y hi hx hy => ?_⟩
  · unfold redhefferStarProductBatch
    simp only [bind_eq_ok, ok_inj]
    exact ⟨e, ee, X0, eX0, X, eX, Y0, eY0, Y, eY, X11, eX11, S11, eS11, Z1, eZ1, X12, eX12, Z2, eZ2, S12, eS12, Z3, eZ3, X21, eX21,
      Z4, eZ4, S21, eS21, X22, eX22, S22, eS22, rfl⟩
  · have hil := validIndex_length hi
    obtain ⟨-, -, -, -, x5, x6, x7, x8⟩ := BatchScatteringMatrix.elementAt_ok.1 hx
    obtain ⟨y1, y2, y3, y4, y5, y6, y7, y8⟩ := BatchScatteringMatrix.elementAt_ok.1 hy
    have g := he i _ _ _ hi x5 x6 y5
    rw [hx] at g
    have gg : SameOk (e.elementAt i) (appendLayer x y.startLayer y.startThickness) := by rw [← y7]; exact g
    unfold BatchScatteringMatrix.elementAt
    simp only [rS11.element i hil, rS12.element i hil, rS21.element i hil, rS22.element i hil, rX22.element i hil, rZ4.element i hil,
      rX21.element i hil, rZ3.element i hil, rZ2.element i hil, rX12.element i hil, rZ1.element i hil, rX11.element i hil,
      rY.element i hil, rY0.element i hil, rX.element i hil, rX0.element i hil, Batch.elementAt_map, y1, y2, y3, y4, x5, y6]
    unfold redhefferStarProduct
    rcases gg.cases with ⟨z, hz, hz'⟩ | ⟨f, f', hz, hz'⟩
    · obtain ⟨z1, z2, z3, z4, -, -, -, -⟩ := BatchScatteringMatrix.elementAt_ok.1 hz
      rw [hz', z1, z2, z3, z4]
      simp only [bind, Except.bind, x7, y8]
      cases solve (diag (fun _ => 1) - z.s12 * y.s21) z.s11 with
      | error e => exact SameOk.errors
      | ok w1 =>
        simp only []
        cases solve (diag (fun _ => 1) - z.s12 * y.s21) (z.s12 * y.s22) with
        | error e => exact SameOk.errors
        | ok w2 =>
          simp only []
          cases solve (diag (fun _ => 1) - y.s21 * z.s12) (y.s21 * z.s11) with
          | error e => exact SameOk.errors
          | ok w3 =>
            simp only []
            cases solve (diag (fun _ => 1) - y.s21 * z.s12) y.s22 with
            | error e => exact SameOk.errors
            | ok w4 => exact SameOk.rfl
    · rw [hz']
      have hen : e.endLayer.elementAt i = .ok y.startLayer := by rw [en]; exact y5
      have hst : e.startLayer.elementAt i = .ok x.startLayer := by rw [st]; exact x5
      intro v
      refine ⟨fun hv => ?_, fun hv => by cases hv⟩
      exfalso
      cases h1 : e.s11.elementAt i with
      | error f => rw [h1] at hv; simp [bind, Except.bind] at hv
      | ok z1 =>
        cases h2 : e.s12.elementAt i with
        | error f => rw [h1, h2] at hv; simp [bind, Except.bind] at hv
        | ok z2 =>
          rw [h1, h2] at hv
          simp only [bind_eq_ok] at hv
          obtain ⟨_, -, _, -, _, ⟨z3, h3, -⟩, _, ⟨z4, h4, -⟩, -⟩ := hv
          have := (BatchScatteringMatrix.elementAt_ok (x :=
            { s11 := z1, s12 := z2, s21 := z3, s22 := z4, startLayer := x.startLayer, startThickness := e.startThickness,
              endLayer := y.startLayer, endThickness := e.endThickness })).2
            ⟨h1, h2, h3, h4, hst, hen, rfl, rfl⟩
          rw [this] at hz
          cases hz

theorem setEndLayerThicknessBatch_ok {s : BatchScatteringMatrix n} (h : SMatrixFits t r s) (d : ℝ) :
    ∃ s', setEndLayerThicknessBatch s d = .ok s' ∧ SMatrixFits t r s' ∧
      ∀ i x, ValidIndex t i → s.elementAt i = .ok x → s'.elementAt i = .ok (setEndLayerThickness x d) := by
  obtain ⟨lat, hl⟩ := h.last
  have ff : Fits t r (phaseBatch s.endLayer.eigenvalues (d - s.endThickness)) := hl.eigenvalues.map _
  obtain ⟨X, eX, rX⟩ := Batch.zip_ok (fun (x : ModeMatrix (Fin n)) v => .ok (Fmmax.colScale x v)) h.s12 ff
  obtain ⟨Y, eY, rY⟩ := Batch.zip_ok (fun (x : ModeMatrix (Fin n)) v => .ok (Fmmax.colScale x v)) h.s22 ff
  refine ⟨{ s with s12 := X, s22 := Y, endThickness := d }, ?_, ⟨h.s11, rX.fits, h.s21, rY.fits, h.start, h.last⟩, fun i x hi hx => ?_⟩
  · unfold setEndLayerThicknessBatch
    simp only [bind_eq_ok, ok_inj]
    exact ⟨X, eX, Y, eY, rfl⟩
  · have hil := validIndex_length hi
    obtain ⟨x1, x2, x3, x4, x5, x6, x7, x8⟩ := BatchScatteringMatrix.elementAt_ok.1 hx
    have ea := BatchLayer.elementAt_ok x6
    rw [BatchScatteringMatrix.elementAt_ok]
    simp only [rX.element i hil, rY.element i hil, phaseBatch, Batch.elementAt_map, ea.eigenvalues, x1, x2, x3, x4, x5, x6, x8]
    exact ⟨rfl, rfl, rfl, rfl, rfl, rfl, x7, rfl⟩

theorem setStartLayerThicknessBatch_ok {s : BatchScatteringMatrix n} (h : SMatrixFits t r s) (d : ℝ) :
    ∃ s', setStartLayerThicknessBatch s d = .ok s' ∧ SMatrixFits t r s' ∧
      ∀ i x, ValidIndex t i → s.elementAt i = .ok x → s'.elementAt i = .ok (setStartLayerThickness x d) := by
  obtain ⟨lat, hl⟩ := h.start
  have ff : Fits t r (phaseBatch s.startLayer.eigenvalues (d - s.startThickness)) := hl.eigenvalues.map _
  obtain ⟨X, eX, rX⟩ := Batch.zip_ok (fun (x : ModeMatrix (Fin n)) v => .ok (Fmmax.colScale x v)) h.s11 ff
  obtain ⟨Y, eY, rY⟩ := Batch.zip_ok (fun (x : ModeMatrix (Fin n)) v => .ok (Fmmax.colScale x v)) h.s21 ff
  refine ⟨{ s with s11 := X, s21 := Y, startThickness := d }, ?_, ⟨rX.fits, h.s12, rY.fits, h.s22, h.start, h.last⟩, fun i x hi hx => ?_⟩
  · unfold setStartLayerThicknessBatch
    simp only [bind_eq_ok, ok_inj]
    exact ⟨X, eX, Y, eY, rfl⟩
  · have hil := validIndex_length hi
    obtain ⟨x1, x2, x3, x4, x5, x6, x7, x8⟩ := BatchScatteringMatrix.elementAt_ok.1 hx
    have ea := BatchLayer.elementAt_ok x5
    rw [BatchScatteringMatrix.elementAt_ok]
    simp only [rX.element i hil, rY.element i hil, phaseBatch, Batch.elementAt_map, ea.eigenvalues, x1, x2, x3, x4, x5, x6, x7]
    exact ⟨rfl, rfl, rfl, rfl, rfl, rfl, rfl, x8⟩

end Fmmax
