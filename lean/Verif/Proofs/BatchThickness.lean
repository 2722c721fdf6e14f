import Verif.Proofs.BatchFields
import Verif.Proofs.BatchStack
import Verif.Spec.BatchThickness

/-! Scattering matrices with arrays of thicknesses. -/

namespace Fmmax

open Spec

variable {t : List ℕ} {r n : ℕ}

theorem modeThickness_ok {d : NDArray ℝ} (h : ThicknessFits t d) :
    ∃ m : Batch (Fin n ⊕ Fin n → ℝ), modeThickness d = .ok m ∧ BroadcastsTo m.shape t ∧ m.shape.length = thicknessRank d ∧
      ∀ i, i.length = t.length → m.elementAt i = .ok fun _ => thicknessAt d i := by
  unfold modeThickness
  rcases h with h | ⟨T, h, hT⟩
  · rw [if_pos h]
    refine ⟨_, rfl, .nil _, by simp [thicknessRank, h], fun i _ => ?_⟩
    unfold NDArray.elementAt thicknessAt NDArray.elementAt
    simp [h, broadcastIndex]
  · rw [if_neg (by simp [h]), if_pos (by simp [h])]
    refine ⟨_, rfl, by simpa [h] using hT, by simp [thicknessRank, h], fun i hi => ?_⟩
    unfold NDArray.elementAt thicknessAt NDArray.elementAt
    simp only [h, List.dropLast_concat]
    rw [broadcastIndex_append (by rw [hi]; exact hT.length_le) (by simp), broadcastIndex_one]

theorem phaseSweep_ok {q : Batch (Fin n ⊕ Fin n → ℂ)} {d : NDArray ℝ} (hq : BroadcastsTo q.shape t) (h : ThicknessFits t d) :
    ∃ f, phaseSweep q d = .ok f ∧ BroadcastsTo f.shape t ∧ f.shape.length = max q.shape.length (thicknessRank d) ∧
      ∀ i v, i.length = t.length → q.elementAt i = .ok v → f.elementAt i = .ok (phase v (thicknessAt d i)) := by
  obtain ⟨m, em, fm, rm, hm⟩ := modeThickness_ok (n := n) h
  obtain ⟨f, ef, rf⟩ := Batch.zip_to (fun (q : Fin n ⊕ Fin n → ℂ) (d : Fin n ⊕ Fin n → ℝ) =>
    .ok fun j => Complex.exp (Complex.I * q j * (d j : ℂ))) hq fm
  refine ⟨f, ?_, rf.broadcasts, by rw [rf.rank, rm], fun i v hi hv => ?_⟩
  · unfold phaseSweep
    rw [em]
    exact ef
  · rw [rf.element i hi, hv, hm i hi]
    rfl

theorem pairSMatrixSweep_ok {lat lat' : LatticeVectors} {l l' : BatchLayer n} (h : LayerFits t r lat l) (h' : LayerFits t r lat' l')
    {d d' : NDArray ℝ} (hd : ThicknessFits t d) (hd' : ThicknessFits t d') :
    ∃ s, pairSMatrixSweep l d l' d' = .ok s ∧ SweepFits t r s ∧ s.startLayer = l ∧ s.endLayer = l' ∧
      s.startThickness = d ∧ s.endThickness = d' ∧
      ∀ i a b, ValidIndex t i → l.elementAt i = .ok a → l'.elementAt i = .ok b →
        SameOk (s.elementAt i) (pairSMatrix a (thicknessAt d i) b (thicknessAt d' i)) := by
  obtain ⟨I, J, eI, fI, fJ, hI⟩ := interfaceMatricesBatch_ok h h'
  obtain ⟨fd, efd, tfd, rfd, hfd⟩ := phaseSweep_ok h.eigenvalues.broadcasts hd
  obtain ⟨fd', efd', tfd', rfd', hfd'⟩ := phaseSweep_ok h'.eigenvalues.broadcasts hd'
  rw [h.eigenvalues.rank] at rfd
  rw [h'.eigenvalues.rank] at rfd'
  have tdiag : BroadcastsTo (Batch.map (fun v => .ok (diag v)) fd : Batch (ModeMatrix (Fin n))).shape t := tfd
  obtain ⟨A, eA, rA⟩ := Batch.solve_to fI.broadcasts tdiag (by
    rw [fI.rank]
    show r ≤ fd.shape.length
    omega)
  obtain ⟨X, eX, rX⟩ := Batch.zip_to (fun (x : ModeMatrix (Fin n)) v => .ok (Fmmax.colScale x v)) (fJ.map fun x => .ok (-x)).broadcasts tfd'
  have kX := rX.rank
  rw [(fJ.map fun x => .ok (-x)).rank] at kX
  obtain ⟨B, eB, rB⟩ := Batch.solve_to fI.broadcasts rX.broadcasts (by rw [fI.rank]; omega)
  obtain ⟨C, eC, rC⟩ := Batch.zip_to (fun x y : ModeMatrix (Fin n) => .ok (x * y)) fJ.broadcasts rA.broadcasts
  obtain ⟨Y, eY, rY⟩ := Batch.zip_to (fun x y : ModeMatrix (Fin n) => .ok (x * y)) fJ.broadcasts rB.broadcasts
  obtain ⟨Z, eZ, rZ⟩ := Batch.zip_to (fun (x : ModeMatrix (Fin n)) v => .ok (Fmmax.colScale x v)) fI.broadcasts tfd'
  obtain ⟨D, eD, rD⟩ := Batch.zip_to (fun x y : ModeMatrix (Fin n) => .ok (x + y)) rY.broadcasts rZ.broadcasts
  have kA : A.shape.length = max I.shape.length fd.shape.length := rA.rank
  have kB := rB.rank
  have kC := rC.rank
  have kY := rY.rank
  have kZ := rZ.rank
  have kD := rD.rank
  have kI := fI.rank
  have kJ := fJ.rank
  refine ⟨{ s11 := A, s12 := B, s21 := C, s22 := D, startLayer := l, startThickness := d, endLayer := l', endThickness := d' }, ?_,
    ⟨rA.broadcasts, rB.broadcasts, rC.broadcasts, rD.broadcasts, ⟨lat, h⟩, ⟨lat', h'⟩, hd, hd', by dsimp only; omega, by dsimp only; omega,
      by dsimp only; omega, by dsimp only; omega⟩, rfl, rfl, rfl, rfl, fun i a b hi ha hb => ?_⟩
  · unfold pairSMatrixSweep
    simp only [bind_eq_ok, ok_inj]
    refine ⟨(I, J), eI, fd, efd, fd', efd', A, ?_, X, eX, B, eB, C, eC, Y, eY, Z, eZ, D, eD, rfl⟩
    show Batch.solve I (NDArray.atleastNd _ I.shape.length) = _
    have e : (Batch.map (fun v => .ok (diag v)) fd : Batch (ModeMatrix (Fin n))).atleastNd I.shape.length =
        Batch.map (fun v => .ok (diag v)) fd := by
      unfold NDArray.atleastNd
      rw [show I.shape.length - (Batch.map (fun v => .ok (diag v)) fd : Batch (ModeMatrix (Fin n))).shape.length = 0 by
        show I.shape.length - fd.shape.length = 0
        omega]
      simp
    rw [e]
    exact eA
  · have hil := validIndex_length hi
    have ea := BatchLayer.elementAt_ok ha
    have eb := BatchLayer.elementAt_ok hb
    have p1 := hfd i _ hil ea.eigenvalues
    have p2 := hfd' i _ hil eb.eigenvalues
    unfold SweepScatteringMatrix.elementAt
    simp only [rD.element i hil, rZ.element i hil, rY.element i hil, rC.element i hil, rB.element i hil, rX.element i hil,
      rA.element i hil, Batch.elementAt_map, p1, p2, ha, hb]
    unfold pairSMatrix
    rcases (hI i a b hi ha hb).cases with ⟨⟨x, y⟩, h1, h2⟩ | ⟨e, e', h1, h2⟩
    · obtain ⟨x', hx, y', hy, h3⟩ : ∃ x', I.elementAt i = .ok x' ∧ ∃ y', J.elementAt i = .ok y' ∧ (x', y') = (x, y) := by
        simpa only [bind_eq_ok, ok_inj] using h1
      cases h3
      rw [h2, hx, hy]
      simp only [bind, Except.bind]
      cases solve x (diag (phase a.eigenvalues (thicknessAt d i))) with
      | error e => exact SameOk.errors
      | ok x1 =>
        simp only []
        cases solve x (Fmmax.colScale (-y) (phase b.eigenvalues (thicknessAt d' i))) with
        | error e => exact SameOk.errors
        | ok x2 => exact SameOk.rfl
    · rw [h2]
      cases hx : I.elementAt i with
      | error e => exact SameOk.errors
      | ok x =>
        cases hy : J.elementAt i with
        | ok y => rw [hx, hy] at h1; cases h1
        | error e =>
          simp only [bind, Except.bind]
          cases solve x (diag (phase a.eigenvalues (thicknessAt d i))) <;> exact SameOk.errors

/-- The ranks of the matrices in `_extend_s_matrix`. -/
theorem sweep_ranks {r rd fd s11 s12 X Y T F G G' : ℕ} (hfd : fd = max r rd) (q12 : s12 ≤ max (max r rd) s11)
    (hX : X = max fd s12) (hY : Y = max X r) (hT : T = max r Y) (hF : F = max fd s11) (hG : G = max X r) (hG' : G' = max G r) :
    T = X ∧ T ≤ F ∧ G' = T := by
  have h1 : r ≤ X := by omega
  have h2 : Y = X := by rw [hY, max_eq_left h1]
  have h3 : G = X := by rw [hG, max_eq_left h1]
  have h4 : T = X := by rw [hT, h2, max_eq_right h1]
  have h5 : G' = X := by rw [hG', h3, max_eq_left h1]
  refine ⟨h4, ?_, by rw [h4, h5]⟩
  rw [h4, hX, hF, hfd]
  exact max_le (le_max_left _ _) q12

theorem sweep_ranks_next {r rd rd' rs fd fd' s11 s12 s21 s22 T F A G'' B H H1 C H2 H4 D : ℕ} (hfd : fd = max r rd)
    (hfd' : fd' = max r rd') (q22 : s22 ≤ max (max r rd) s11) (q21 : s21 ≤ max (max r rs) s22) (q11 : s11 ≤ max (max r rs) s22)
    (hT : T = max fd s12) (hF : F = max fd s11) (hTF : T ≤ F) (hA : A = max T F) (hG'' : G'' = max T fd') (hB : B = max T G'')
    (hH : H = max s22 r) (hH1 : H1 = max H A) (hC : C = max H1 s21) (hH2 : H2 = max H B) (hH4 : H4 = max H fd')
    (hD : D = max H2 H4) :
    B ≤ max (max r rd') A ∧ D ≤ max (max r rd') A ∧ C ≤ max (max r rs) D ∧ A ≤ max (max r rs) D := by
  have a1 : A = F := by rw [hA, max_eq_right hTF]
  have b1 : B = max T fd' := by rw [hB, hG'']; simp
  have g1 : s22 ≤ A := by rw [a1, hF, hfd]; exact q22
  have g2 : r ≤ fd' := by rw [hfd']; exact le_max_left _ _
  have d1 : s22 ≤ D := by rw [hD, hH2, hH]; simp
  have d2 : T ≤ D := by rw [hD, hH2, b1]; simp
  have d3 : fd ≤ T := by rw [hT]; exact le_max_left _ _
  have z1 : T ≤ A := a1 ▸ hTF
  have a2 : A ≤ max (max r rs) D := by
    rw [a1, hF]
    exact max_le (d3.trans (d2.trans (le_max_right _ _))) (q11.trans (max_le_max_left _ d1))
  have dm : D ≤ max fd' A := by
    rw [hD, hH2, hH4, hH, b1]
    simp only [max_le_iff]
    exact ⟨⟨⟨g1.trans (le_max_right _ _), g2.trans (le_max_left _ _)⟩, z1.trans (le_max_right _ _), le_max_left _ _⟩,
      ⟨g1.trans (le_max_right _ _), g2.trans (le_max_left _ _)⟩, le_max_left _ _⟩
  refine ⟨?_, hfd' ▸ dm, ?_, a2⟩
  · rw [b1, ← hfd']
    exact max_le (z1.trans (le_max_right _ _)) (le_max_left _ _)
  · rw [hC, hH1, hH]
    simp only [max_le_iff]
    exact ⟨⟨⟨d1.trans (le_max_right _ _), (le_max_left _ _).trans (le_max_left _ _)⟩, a2⟩, q21.trans (max_le_max_left _ d1)⟩

theorem appendLayerSweep_ok {lat' : LatticeVectors} {s : SweepScatteringMatrix n} {l' : BatchLayer n} (h : SweepFits t r s)
    (h' : LayerFits t r lat' l') {d' : NDArray ℝ} (hd' : ThicknessFits t d') :
    ∃ s', appendLayerSweep s l' d' = .ok s' ∧ SweepFits t r s' ∧ s'.startLayer = s.startLayer ∧ s'.endLayer = l' ∧
      s'.startThickness = s.startThickness ∧ s'.endThickness = d' ∧
      ∀ i a b c, ValidIndex t i → s.startLayer.elementAt i = .ok a → s.endLayer.elementAt i = .ok b → l'.elementAt i = .ok c →
        SameOk (s'.elementAt i) (do
          let x ← s.elementAt i
          appendLayer x c (thicknessAt d' i)) := by
  obtain ⟨lat, hl⟩ := h.last
  obtain ⟨I, J, eI, fI, fJ, hI⟩ := interfaceMatricesBatch_ok hl h'
  obtain ⟨fd, efd, tfd, rfd, hfd⟩ := phaseSweep_ok hl.eigenvalues.broadcasts h.endThickness
  obtain ⟨fd', efd', tfd', rfd', hfd'⟩ := phaseSweep_ok h'.eigenvalues.broadcasts hd'
  rw [hl.eigenvalues.rank] at rfd
  rw [h'.eigenvalues.rank] at rfd'
  have kI := fI.rank
  have kJ := fJ.rank
  obtain ⟨X, eX, rX⟩ := Batch.zip_to (fun v (x : ModeMatrix (Fin n)) => .ok (Fmmax.rowScale v x)) tfd h.s12
  obtain ⟨Y, eY, rY⟩ := Batch.zip_to (fun x y : ModeMatrix (Fin n) => .ok (x * y)) rX.broadcasts fJ.broadcasts
  obtain ⟨T, eT, rT⟩ := Batch.zip_to (fun x y : ModeMatrix (Fin n) => .ok (x - y)) fI.broadcasts rY.broadcasts
  obtain ⟨F, eF, rF⟩ := Batch.zip_to (fun v (x : ModeMatrix (Fin n)) => .ok (Fmmax.rowScale v x)) tfd h.s11
  obtain ⟨G, eG, rG⟩ := Batch.zip_to (fun x y : ModeMatrix (Fin n) => .ok (x * y)) rX.broadcasts fI.broadcasts
  obtain ⟨G', eG', rG'⟩ := Batch.zip_to (fun x y : ModeMatrix (Fin n) => .ok (x - y)) rG.broadcasts fJ.broadcasts
  obtain ⟨G'', eG'', rG''⟩ := Batch.zip_to (fun (x : ModeMatrix (Fin n)) v => .ok (Fmmax.colScale x v)) rG'.broadcasts tfd'
  obtain ⟨kTX, kTF, kG'⟩ := sweep_ranks rfd h.rank12 rX.rank (kJ ▸ rY.rank) (kI ▸ rT.rank) rF.rank (kI ▸ rG.rank) (kJ ▸ rG'.rank)
  have kG'' : G''.shape.length = max T.shape.length fd'.shape.length := kG' ▸ rG''.rank
  obtain ⟨A, eA, rA⟩ := Batch.solve_to rT.broadcasts rF.broadcasts kTF
  obtain ⟨B, eB, rB⟩ := Batch.solve_to rT.broadcasts rG''.broadcasts (kG'' ▸ le_max_left _ _)
  obtain ⟨H, eH, rH⟩ := Batch.zip_to (fun x y : ModeMatrix (Fin n) => .ok (x * y)) h.s22 fJ.broadcasts
  obtain ⟨H1, eH1, rH1⟩ := Batch.zip_to (fun x y : ModeMatrix (Fin n) => .ok (x * y)) rH.broadcasts rA.broadcasts
  obtain ⟨C, eC, rC⟩ := Batch.zip_to (fun x y : ModeMatrix (Fin n) => .ok (x + y)) rH1.broadcasts h.s21
  obtain ⟨H2, eH2, rH2⟩ := Batch.zip_to (fun x y : ModeMatrix (Fin n) => .ok (x * y)) rH.broadcasts rB.broadcasts
  obtain ⟨H3, eH3, rH3⟩ := Batch.zip_to (fun x y : ModeMatrix (Fin n) => .ok (x * y)) h.s22 fI.broadcasts
  obtain ⟨H4, eH4, rH4⟩ := Batch.zip_to (fun (x : ModeMatrix (Fin n)) v => .ok (Fmmax.colScale x v)) rH3.broadcasts tfd'
  obtain ⟨D, eD, rD⟩ := Batch.zip_to (fun x y : ModeMatrix (Fin n) => .ok (x + y)) rH2.broadcasts rH4.broadcasts
  have kH : H.shape.length = max s.s22.shape.length r := kJ ▸ rH.rank
  have kH3 : H3.shape.length = H.shape.length := by rw [kH, rH3.rank, kI]
  obtain ⟨k1, k2, k3, k4⟩ := sweep_ranks_next rfd rfd' h.rank22 h.rank21 h.rank11 (kTX.trans rX.rank) rF.rank kTF rA.rank kG'' rB.rank kH
    rH1.rank rC.rank rH2.rank (kH3 ▸ rH4.rank) rD.rank
  refine ⟨{ s11 := A, s12 := B, s21 := C, s22 := D, startLayer := s.startLayer, startThickness := s.startThickness, endLayer := l',
            endThickness := d' }, ?_, ⟨rA.broadcasts, rB.broadcasts, rC.broadcasts, rD.broadcasts, h.start, ⟨lat', h'⟩, h.startThickness, hd',
              k1, k2, k3, k4⟩, rfl, rfl, rfl, rfl, fun i a b c hi ha hb hc => ?_⟩
  · unfold appendLayerSweep
    simp only [bind_eq_ok, ok_inj]
    exact ⟨(I, J), eI, fd, efd, fd', efd', X, eX, Y, eY, T, eT, F, eF, A, eA, G, eG, G', eG', G'', eG'', B, eB, H, eH, H1, eH1, C, eC, H2, eH2, H3, eH3,
      H4, eH4, D, eD, rfl⟩
  · have hil := validIndex_length hi
    have eb := BatchLayer.elementAt_ok hb
    have ec := BatchLayer.elementAt_ok hc
    have p1 := hfd i _ hil eb.eigenvalues
    have p2 := hfd' i _ hil ec.eigenvalues
    unfold SweepScatteringMatrix.elementAt
    simp only [rD.element i hil, rH4.element i hil, rH3.element i hil, rH2.element i hil, rC.element i hil, rH1.element i hil,
      rH.element i hil, rB.element i hil, rG''.element i hil, rG'.element i hil, rG.element i hil, rA.element i hil,
      rF.element i hil, rT.element i hil, rY.element i hil, rX.element i hil, p1, p2, ha, hb, hc]
    generalize s.s11.elementAt i = s11
    generalize s.s12.elementAt i = s12
    generalize s.s21.elementAt i = s21
    generalize s.s22.elementAt i = s22
    rcases (hI i b c hi hb hc).cases with ⟨⟨x, y⟩, h1, h2⟩ | ⟨e, e', h1, h2⟩
    · obtain ⟨x', hx, y', hy, h3⟩ : ∃ x', I.elementAt i = .ok x' ∧ ∃ y', J.elementAt i = .ok y' ∧ (x', y') = (x, y) := by
        simpa only [bind_eq_ok, ok_inj] using h1
      cases h3
      rw [hx, hy]
      cases s11 with
      | error e => cases s12 <;> simp only [bind, Except.bind] <;> exact SameOk.errors
      | ok s11 =>
        cases s12 with
        | error e => simp only [bind, Except.bind]; exact SameOk.errors
        | ok s12 =>
          simp only [bind, Except.bind, appendLayer, extendSMatrix, h2]
          cases s21 with
          | error e =>
            cases s22 <;> simp only [] <;>
            cases solve (x - Fmmax.rowScale (phase b.eigenvalues (thicknessAt s.endThickness i)) s12 * y)
              (Fmmax.rowScale (phase b.eigenvalues (thicknessAt s.endThickness i)) s11) <;> simp only [] <;> try exact SameOk.errors
            all_goals
              cases solve (x - Fmmax.rowScale (phase b.eigenvalues (thicknessAt s.endThickness i)) s12 * y)
                (Fmmax.colScale (Fmmax.rowScale (phase b.eigenvalues (thicknessAt s.endThickness i)) s12 * x - y) (phase c.eigenvalues (thicknessAt d' i))) <;>
              exact SameOk.errors
          | ok s21 =>
            cases s22 with
            | error e =>
              simp only []
              cases solve (x - Fmmax.rowScale (phase b.eigenvalues (thicknessAt s.endThickness i)) s12 * y)
                (Fmmax.rowScale (phase b.eigenvalues (thicknessAt s.endThickness i)) s11) <;> simp only [] <;> try exact SameOk.errors
              cases solve (x - Fmmax.rowScale (phase b.eigenvalues (thicknessAt s.endThickness i)) s12 * y)
                (Fmmax.colScale (Fmmax.rowScale (phase b.eigenvalues (thicknessAt s.endThickness i)) s12 * x - y) (phase c.eigenvalues (thicknessAt d' i))) <;>
                exact SameOk.errors
            | ok s22 =>
              simp only [h2]
              cases solve (x - Fmmax.rowScale (phase b.eigenvalues (thicknessAt s.endThickness i)) s12 * y)
                (Fmmax.rowScale (phase b.eigenvalues (thicknessAt s.endThickness i)) s11) with
              | error e => exact SameOk.errors
              | ok z1 =>
              simp only []
              cases solve (x - Fmmax.rowScale (phase b.eigenvalues (thicknessAt s.endThickness i)) s12 * y)
                (Fmmax.colScale (Fmmax.rowScale (phase b.eigenvalues (thicknessAt s.endThickness i)) s12 * x - y) (phase c.eigenvalues (thicknessAt d' i))) with
              | error e => exact SameOk.errors
              | ok z => exact SameOk.rfl
    · have hr : ∃ e, (do
          let s11 ← s11
          let s12 ← s12
          let s21 ← s21
          let s22 ← s22
          let start ← (Except.ok a : Res (LayerSolveResult (Fin n)))
          let last ← (Except.ok b : Res (LayerSolveResult (Fin n)))
          let x : ScatteringMatrix (Fin n) ← Except.ok
            { s11 := s11, s12 := s12, s21 := s21, s22 := s22, startLayer := start, startThickness := thicknessAt s.startThickness i, endLayer := last,
              endThickness := thicknessAt s.endThickness i }
          appendLayer x c (thicknessAt d' i)) = .error e := by
        cases s11 with
        | error e => exact ⟨e, rfl⟩
        | ok s11 =>
          cases s12 with
          | error e => exact ⟨e, rfl⟩
          | ok s12 =>
            cases s21 with
            | error e => exact ⟨e, rfl⟩
            | ok s21 =>
              cases s22 with
              | error e => exact ⟨e, rfl⟩
              | ok s22 => exact ⟨e', by simp only [bind, Except.bind, appendLayer, extendSMatrix, h2]⟩
      obtain ⟨e2, hr⟩ := hr
      have hr' : ∀ z, (do
          let x ← (do
            let s11 ← s11
            let s12 ← s12
            let s21 ← s21
            let s22 ← s22
            let start ← (Except.ok a : Res (LayerSolveResult (Fin n)))
            let last ← (Except.ok b : Res (LayerSolveResult (Fin n)))
            (Except.ok
              { s11 := s11, s12 := s12, s21 := s21, s22 := s22, startLayer := start, startThickness := thicknessAt s.startThickness i, endLayer := last,
                endThickness := thicknessAt s.endThickness i } : Res (ScatteringMatrix (Fin n))))
          appendLayer x c (thicknessAt d' i)) ≠ .ok z := by
        intro z hz
        cases s11 <;> cases s12 <;> cases s21 <;> cases s22 <;> simp only [bind, Except.bind] at hz hr <;>
          first
          | (rw [hr] at hz; cases hz)
          | cases hz
      have hl' : ∀ z, (do
          let x ← I.elementAt i
          let y ← J.elementAt i
          (.ok (x, y) : Res (ModeMatrix (Fin n) × ModeMatrix (Fin n)))) ≠ .ok z := by rw [h1]; simp
      intro z
      refine ⟨fun hz => ?_, fun hz => absurd hz (hr' z)⟩
      exfalso
      cases hx : I.elementAt i with
      | error e => rw [hx] at hz; cases s12 <;> simp [bind, Except.bind] at hz
      | ok x =>
        cases hy : J.elementAt i with
        | error e => rw [hx, hy] at hz; cases s12 <;> simp [bind, Except.bind] at hz
        | ok y => exact hl' (x, y) (by rw [hx, hy]; rfl)

theorem SweepScatteringMatrix.elementAt_ok {s : SweepScatteringMatrix n} {i : List ℕ} {x : ScatteringMatrix (Fin n)} :
    s.elementAt i = .ok x ↔ s.s11.elementAt i = .ok x.s11 ∧ s.s12.elementAt i = .ok x.s12 ∧ s.s21.elementAt i = .ok x.s21 ∧
      s.s22.elementAt i = .ok x.s22 ∧ s.startLayer.elementAt i = .ok x.startLayer ∧ s.endLayer.elementAt i = .ok x.endLayer ∧
      thicknessAt s.startThickness i = x.startThickness ∧ thicknessAt s.endThickness i = x.endThickness := by
  unfold SweepScatteringMatrix.elementAt
  simp only [bind_eq_ok, ok_inj]
  constructor
  · rintro ⟨a, ha, b, hb, c, hc, d, hd, e, he, f, hf, rfl⟩
    exact ⟨ha, hb, hc, hd, he, hf, rfl, rfl⟩
  · rintro ⟨ha, hb, hc, hd, he, hf, hg, hh⟩
    refine ⟨_, ha, _, hb, _, hc, _, hd, _, he, _, hf, ?_⟩
    rw [hg, hh]

theorem SweepScatteringMatrix.elementAt_reverse {s : SweepScatteringMatrix n} {i : List ℕ} {x : ScatteringMatrix (Fin n)} :
    s.reverse.elementAt i = .ok x.reverse ↔ s.elementAt i = .ok x := by
  rw [SweepScatteringMatrix.elementAt_ok, SweepScatteringMatrix.elementAt_ok]
  simp only [SweepScatteringMatrix.reverse, ScatteringMatrix.reverse]
  tauto

theorem SweepFits.reverse {s : SweepScatteringMatrix n} (h : SweepFits t r s) : SweepFits t r s.reverse :=
  ⟨h.s22, h.s21, h.s12, h.s11, h.last, h.start, h.endThickness, h.startThickness, h.rank21, h.rank11, h.rank12, h.rank22⟩

theorem identitySMatrixSweep_fits {lat : LatticeVectors} {l : BatchLayer n} (h : LayerFits t r lat l) {d : NDArray ℝ}
    (hd : ThicknessFits t d) : SweepFits t r (identitySMatrixSweep l d) := by
  have e := h.eigenvalues.rank
  have b := h.eigenvalues.broadcasts
  have k : l.eigenvalues.shape.length ≤ max (max r (thicknessRank d)) l.eigenvalues.shape.length := le_max_right _ _
  exact ⟨b, b, b, b, ⟨lat, h⟩, ⟨lat, h⟩, hd, hd, k, k, k, k⟩

theorem identitySMatrixSweep_elementAt {l : BatchLayer n} {d : NDArray ℝ} {i : List ℕ} {a : LayerSolveResult (Fin n)}
    (h : l.elementAt i = .ok a) : (identitySMatrixSweep l d).elementAt i = .ok (identitySMatrix a (thicknessAt d i)) := by
  have ea := BatchLayer.elementAt_ok h
  rw [SweepScatteringMatrix.elementAt_ok]
  unfold identitySMatrixSweep identitySMatrix
  simp only [Batch.elementAt_map, ea.eigenvalues, h]
  exact ⟨rfl, rfl, rfl, rfl, trivial, trivial, trivial, trivial⟩

/-- A batch element of a list of scattering matrices. -/
def SweepElementsAt (i : List ℕ) (S : List (SweepScatteringMatrix n)) (s : List (ScatteringMatrix (Fin n))) : Prop :=
  List.Forall₂ (fun S s => S.elementAt i = .ok s) S s

/-- Layers with thicknesses, and their batch elements. -/
def SweepLayersAt (i : List ℕ) (L : List (BatchLayer n × NDArray ℝ)) (l : List (LayerSolveResult (Fin n) × ℝ)) : Prop :=
  List.Forall₂ (fun x y => x.1.elementAt i = .ok y.1 ∧ thicknessAt x.2 i = y.2) L l

theorem appendAllSweep_ok (L : List (BatchLayer n × NDArray ℝ)) (hL : ∀ x ∈ L, (∃ lat, LayerFits t r lat x.1) ∧ ThicknessFits t x.2) {s : SweepScatteringMatrix n}
    (hs : SweepFits t r s) :
    ∃ S, appendAllSweep s L = .ok S ∧ S.length = L.length ∧ (∀ x ∈ S, SweepFits t r x) ∧
      ∀ i, ValidIndex t i → ∀ a b, s.startLayer.elementAt i = .ok a → s.endLayer.elementAt i = .ok b → ∀ l, SweepLayersAt i L l →
        ∀ x xs, (s.elementAt i = .ok x ∧ SweepElementsAt i S xs) ↔ (s.elementAt i = .ok x ∧ appendLoop x l = .ok xs) := by
  induction L generalizing s with
  | nil =>
    refine ⟨[], rfl, rfl, by simp, fun i _ a b _ _ l hl x xs => ?_⟩
    cases hl
    constructor
    · rintro ⟨h, h'⟩
      cases h'
      exact ⟨h, rfl⟩
    · rintro ⟨h, h'⟩
      cases h'
      exact ⟨h, .nil⟩
  | cons y L ih =>
    obtain ⟨l', d⟩ := y
    obtain ⟨⟨lat, hl⟩, hd⟩ := hL (l', d) (by simp)
    obtain ⟨s', es, fs, st, en, -, -, hel⟩ := appendLayerSweep_ok hs hl hd
    obtain ⟨S, eS, lS, fS, hS⟩ := ih (fun x hx => hL x (by simp [hx])) fs
    refine ⟨s' :: S, ?_, by simp [lS], ?_, fun i hi a b ha hb l hll x xs => ?_⟩
    · unfold appendAllSweep
      rw [es]
      simp only [bind, Except.bind]
      rw [eS]
    · intro x hx
      rcases List.mem_cons.1 hx with rfl | hx
      · exact fs
      · exact fS x hx
    · cases hll with
      | @cons _ z _ l hz hll =>
        obtain ⟨c, d'⟩ := z
        obtain ⟨hz, rfl⟩ := hz
        have g1 := hel i a b c hi ha hb hz
        refine and_congr_right fun hx => ?_
        have g2 : ∀ v, s'.elementAt i = .ok v ↔ appendLayer x c (thicknessAt d i) = .ok v := by
          intro v
          rw [g1 v, hx]
          rfl
        have g3 := hS i hi a c (by rw [st]; exact ha) (by rw [en]; exact hz) l hll
        constructor
        · intro h
          cases h with
          | @cons _ x' _ xs' h1 h2 =>
            have := (g3 x' xs').1 ⟨h1, h2⟩
            unfold appendLoop
            rw [(g2 x').1 h1]
            simp only [bind, Except.bind, this.2]
        · intro h
          unfold appendLoop at h
          simp only [bind_eq_ok, ok_inj] at h
          obtain ⟨x', h1, xs', h2, rfl⟩ := h
          have h1' := (g2 x').2 h1
          exact .cons h1' ((g3 x' xs').2 ⟨h1', h2⟩).2

theorem sweepLayersAt_zip {i : List ℕ} {L : List (BatchLayer n)} {D : List (NDArray ℝ)} {rs : List (LayerSolveResult (Fin n))}
    (h : List.Forall₂ (fun l a => l.elementAt i = .ok a) L rs) : SweepLayersAt i (L.zip D) (rs.zip (D.map (thicknessAt · i))) := by
  induction h generalizing D with
  | nil => exact .nil
  | cons hx _ ih =>
    cases D with
    | nil => exact .nil
    | cons d D => exact .cons ⟨hx, rfl⟩ ih

theorem stackSMatricesSweep_ok {layers : List (BatchLayer n)} {thicknesses : List (NDArray ℝ)} (hne : layers ≠ [])
    (hlen : layers.length = thicknesses.length) (h : ∀ l ∈ layers, ∃ lat, LayerFits t r lat l)
    (hD : ∀ d ∈ thicknesses, ThicknessFits t d) :
    ∃ S, stackSMatricesSweep layers thicknesses = .ok S ∧ S.length = layers.length ∧ (∀ x ∈ S, SweepFits t r x) ∧
      ∀ i, ValidIndex t i → ∀ rs, List.Forall₂ (fun l a => l.elementAt i = .ok a) layers rs → ∀ ss,
        SweepElementsAt i S ss ↔ stackSMatrices rs (thicknesses.map (thicknessAt · i)) = .ok ss := by
  unfold stackSMatricesSweep
  rw [if_neg (not_not.2 hlen)]
  match layers, thicknesses, hne, hlen, h, hD with
  | [l], [d], _, _, h, hD =>
    obtain ⟨lat, hl⟩ := h l (by simp)
    refine ⟨_, rfl, rfl, ?_, fun i hi rs hrs ss => ?_⟩
    · intro x hx
      rw [List.mem_singleton.1 hx]
      exact identitySMatrixSweep_fits hl (hD d (by simp))
    · cases hrs with
      | @cons _ a _ _ ha hrs =>
        cases hrs
        have e := identitySMatrixSweep_elementAt (d := d) ha
        unfold stackSMatrices
        rw [if_neg (by simp)]
        simp only [List.map_cons, List.map_nil, List.zip_cons_cons, List.zip_nil_right]
        constructor
        · intro h
          cases h with
          | @cons _ x _ _ h1 h2 =>
            cases h2
            rw [e] at h1
            cases h1
            rfl
        · intro h
          cases h
          exact .cons e .nil
  | l0 :: l1 :: rest, d0 :: d1 :: ds, _, hlen, h, hD =>
    obtain ⟨lat0, h0⟩ := h l0 (by simp)
    obtain ⟨lat1, h1⟩ := h l1 (by simp)
    obtain ⟨s, es, fs, st, en, -, -, hs⟩ := pairSMatrixSweep_ok h0 h1 (hD d0 (by simp)) (hD d1 (by simp))
    have hl' : rest.length = ds.length := by simpa using hlen
    obtain ⟨S, eS, lS, fS, hS⟩ := appendAllSweep_ok (rest.zip ds) (fun x hx => ⟨h x.1 (by
      simp only [List.mem_cons]
      exact Or.inr (Or.inr (List.of_mem_zip hx).1)), hD x.2 (by
      simp only [List.mem_cons]
      exact Or.inr (Or.inr (List.of_mem_zip hx).2))⟩) fs
    refine ⟨identitySMatrixSweep l0 d0 :: s :: S, ?_, by simp [lS, hl'], ?_, fun i hi rs hrs ss => ?_⟩
    · simp only [List.zip_cons_cons, es, bind, Except.bind, eS]
    · intro x hx
      simp only [List.mem_cons] at hx
      rcases hx with rfl | rfl | hx
      · exact identitySMatrixSweep_fits h0 (hD d0 (by simp))
      · exact fs
      · exact fS x hx
    · cases hrs with
      | @cons _ a _ _ ha hrs =>
        cases hrs with
        | @cons _ b _ rs hb hrs =>
          have g1 := hs i a b hi ha hb
          have g2 := hS i hi a b (by rw [st]; exact ha) (by rw [en]; exact hb) _ (sweepLayersAt_zip (D := ds) hrs)
          have e0 := identitySMatrixSweep_elementAt (d := d0) ha
          unfold stackSMatrices
          rw [if_neg (by simp [← hrs.length_eq, hl'])]
          simp only [List.map_cons, List.zip_cons_cons, bind_eq_ok, ok_inj]
          constructor
          · intro h
            cases h with
            | @cons _ x0 _ _ k0 h =>
              cases h with
              | @cons _ x1 _ xs k1 h =>
                rw [e0] at k0
                cases k0
                exact ⟨x1, (g1 x1).1 k1, xs, ((g2 x1 xs).1 ⟨k1, h⟩).2, rfl⟩
          · rintro ⟨x1, k1, xs, k2, rfl⟩
            have k1' := (g1 x1).2 k1
            exact .cons e0 (.cons k1' ((g2 x1 xs).2 ⟨k1', k2⟩).2)

/-- The batch elements of reversed scattering matrices. -/
theorem sweepElementsAt_reverse {i : List ℕ} {S : List (SweepScatteringMatrix n)} {s : List (ScatteringMatrix (Fin n))} :
    List.Forall₂ (fun S s => S.elementAt i = .ok s) (S.reverse.map SweepScatteringMatrix.reverse) (s.reverse.map ScatteringMatrix.reverse) ↔
      SweepElementsAt i S s := by
  rw [List.forall₂_map_left_iff, List.forall₂_map_right_iff]
  rw [show (fun (a : SweepScatteringMatrix n) (c : ScatteringMatrix (Fin n)) => a.reverse.elementAt i = .ok c.reverse) =
      fun S s => S.elementAt i = .ok s from by
    funext a c
    exact propext SweepScatteringMatrix.elementAt_reverse]
  exact List.forall₂_reverse_iff

theorem stackSMatricesInteriorSweep_ok {layers : List (BatchLayer n)} {thicknesses : List (NDArray ℝ)} (hne : layers ≠ [])
    (hlen : layers.length = thicknesses.length) (h : ∀ l ∈ layers, ∃ lat, LayerFits t r lat l)
    (hD : ∀ d ∈ thicknesses, ThicknessFits t d) :
    ∃ S, stackSMatricesInteriorSweep layers thicknesses = .ok S ∧ S.length = layers.length ∧
      (∀ x ∈ S, SweepFits t r x.1 ∧ SweepFits t r x.2) ∧
      ∀ i, ValidIndex t i → ∀ rs, List.Forall₂ (fun l a => l.elementAt i = .ok a) layers rs → ∀ ss,
        List.Forall₂ (fun P p => P.1.elementAt i = .ok p.1 ∧ P.2.elementAt i = .ok p.2) S ss ↔
          stackSMatricesInterior rs (thicknesses.map (thicknessAt · i)) = .ok ss := by
  obtain ⟨B, eB, lB, fB, hB⟩ := stackSMatricesSweep_ok hne hlen h hD
  obtain ⟨A, eA, lA, fA, hA⟩ := stackSMatricesSweep_ok (t := t) (r := r) (layers := layers.reverse) (thicknesses := thicknesses.reverse)
    (by simpa using hne) (by simpa using hlen) (fun l hl => h l (List.mem_reverse.1 hl))
    (fun d hd => hD d (List.mem_reverse.1 hd))
  have hlBA : B.length = (A.reverse.map SweepScatteringMatrix.reverse).length := by simp [lB, lA]
  refine ⟨B.zip (A.reverse.map SweepScatteringMatrix.reverse), ?_, by simp [lB, lA], ?_, fun i hi rs hrs ss => ?_⟩
  · unfold stackSMatricesInteriorSweep
    rw [eB, eA]
    rfl
  · rintro ⟨x, y⟩ hx
    obtain ⟨h1, h2⟩ := List.of_mem_zip hx
    obtain ⟨y', hy', rfl⟩ := List.mem_map.1 h2
    exact ⟨fB x h1, (fA y' (List.mem_reverse.1 hy')).reverse⟩
  · rw [forall₂_zip (R := fun S s => S.elementAt i = .ok s) (Q := fun S s => S.elementAt i = .ok s) hlBA]
    have hrs' := List.rel_reverse hrs
    have hA := hA i hi rs.reverse hrs'
    simp only [List.map_reverse] at hA
    unfold stackSMatricesInterior
    simp only [bind_eq_ok, ok_inj]
    constructor
    · rintro ⟨c, d, rfl, hcd, hc, hd⟩
      refine ⟨c, (hB i hi rs hrs c).1 hc, d.reverse.map ScatteringMatrix.reverse, ?_, ?_⟩
      · rw [← hA, ← sweepElementsAt_reverse]
        simpa [Function.comp_def, ScatteringMatrix.reverse_involutive] using hd
      · simp [Function.comp_def, ScatteringMatrix.reverse_involutive]
    · rintro ⟨c, hc, d, hd, rfl⟩
      have hd' := sweepElementsAt_reverse.2 ((hA d).2 hd)
      have hc' := (hB i hi rs hrs c).2 hc
      exact ⟨c, _, rfl, by rw [← hc'.length_eq, ← hd'.length_eq, hlBA], hc', hd'⟩

theorem prependLayerSweep_ok {lat' : LatticeVectors} {s : SweepScatteringMatrix n} {l' : BatchLayer n} (h : SweepFits t r s)
    (h' : LayerFits t r lat' l') {d' : NDArray ℝ}
    (hd' : ThicknessFits t d') :
    ∃ s', prependLayerSweep s l' d' = .ok s' ∧ SweepFits t r s' ∧ s'.startLayer = l' ∧ s'.endLayer = s.endLayer ∧
      ∀ i x c, ValidIndex t i → s.elementAt i = .ok x → l'.elementAt i = .ok c → SameOk (s'.elementAt i) (prependLayer x c (thicknessAt d' i)) := by
  obtain ⟨b, eb, fb, st, en, et1, et2, hb⟩ := appendLayerSweep_ok h.reverse h' hd'
  refine ⟨{ s11 := b.s22, s12 := b.s21, s21 := b.s12, s22 := b.s11, startLayer := l', startThickness := d',
            endLayer := s.endLayer, endThickness := s.endThickness }, ?_, ?_, rfl, rfl, ?_⟩
  · unfold prependLayerSweep
    rw [eb]
    rfl
  · have fr := fb.reverse
    unfold SweepScatteringMatrix.reverse at fr
    rw [st, en, et1, et2] at fr
    exact fr
  · intro i x c hi hx hc v
    have hr : s.reverse.elementAt i = .ok x.reverse := SweepScatteringMatrix.elementAt_reverse.2 hx
    obtain ⟨-, -, -, -, e5, e6, e7, e8⟩ := SweepScatteringMatrix.elementAt_ok.1 hr
    have g := hb i _ _ c hi e5 e6 hc
    rw [hr] at g
    have key : SweepScatteringMatrix.mk b.s22 b.s21 b.s12 b.s11 l' d' s.endLayer s.endThickness = b.reverse := by
      unfold SweepScatteringMatrix.reverse
      rw [st, en, et1, et2]
      rfl
    rw [key]
    have e1 : b.reverse.elementAt i = .ok v ↔ b.elementAt i = .ok v.reverse := by
      rw [← SweepScatteringMatrix.elementAt_reverse (s := b), ScatteringMatrix.reverse_involutive]
    rw [e1, g]
    unfold prependLayer appendLayer
    show (extendSMatrix _ _ _ _ _ >>= _) = _ ↔ _
    simp only [bind_eq_ok, ok_inj, ScatteringMatrix.reverse]
    constructor
    · rintro ⟨B, hB, hv⟩
      refine ⟨B, hB, ?_⟩
      have := congrArg ScatteringMatrix.reverse hv
      exact this
    · rintro ⟨B, hB, rfl⟩
      exact ⟨B, hB, rfl⟩

/-- The last matrix of a stack is only defined where all the others are. -/
theorem appendAllSweep_last (L : List (BatchLayer n × NDArray ℝ)) (hL : ∀ x ∈ L, (∃ lat, LayerFits t r lat x.1) ∧ ThicknessFits t x.2)
    {s : SweepScatteringMatrix n} (hs : SweepFits t r s) {S : List (SweepScatteringMatrix n)} (hS : appendAllSweep s L = .ok S)
    {i : List ℕ} (hi : ValidIndex t i) {a b : LayerSolveResult (Fin n)} (ha : s.startLayer.elementAt i = .ok a)
    (hb : s.endLayer.elementAt i = .ok b) {l : List (LayerSolveResult (Fin n) × ℝ)} (hl : SweepLayersAt i L l)
    {z : ScatteringMatrix (Fin n)} (hz : (S.getLast?.getD s).elementAt i = .ok z) :
    ∃ x xs, s.elementAt i = .ok x ∧ SweepElementsAt i S xs := by
  induction L generalizing s S l b with
  | nil =>
    obtain rfl := ok_inj.1 hS
    exact ⟨z, [], hz, .nil⟩
  | cons y L ih =>
    obtain ⟨l', d⟩ := y
    obtain ⟨⟨lat, hlf⟩, hd⟩ := hL (l', d) (by simp)
    obtain ⟨s', es, fs, st, en, -, -, hel⟩ := appendLayerSweep_ok hs hlf hd
    unfold appendAllSweep at hS
    rw [es] at hS
    obtain ⟨S', eS', hS⟩ := bind_eq_ok.1 (show (appendAllSweep s' L >>= fun tail => .ok (s' :: tail)) = .ok S from hS)
    obtain rfl := ok_inj.1 hS
    cases hl with
    | @cons _ w _ l hw hl =>
      obtain ⟨x', xs', hx', hxs'⟩ := ih (fun x hx => hL x (by simp [hx])) fs eS' (by rw [st]; exact ha) (by rw [en]; exact hw.1) hl
        (by rw [List.getLast?_cons] at hz; exact hz)
      have := (hel i a b w.1 hi ha hb hw.1 x').1 hx'
      obtain ⟨x, hx, -⟩ := bind_eq_ok.1 this
      exact ⟨x, x' :: xs', hx, .cons hx' hxs'⟩

theorem stackSMatrixSweep_ok {layers : List (BatchLayer n)} {thicknesses : List (NDArray ℝ)} (hne : layers ≠ [])
    (hlen : layers.length = thicknesses.length) (h : ∀ l ∈ layers, ∃ lat, LayerFits t r lat l)
    (hD : ∀ d ∈ thicknesses, ThicknessFits t d) :
    ∃ s, stackSMatrixSweep layers thicknesses = .ok s ∧ SweepFits t r s ∧
      ∀ i, ValidIndex t i → ∀ rs, List.Forall₂ (fun l a => l.elementAt i = .ok a) layers rs →
        SameOk (s.elementAt i) (stackSMatrix rs (thicknesses.map (thicknessAt · i))) := by
  obtain ⟨S, eS, lS, fS, hS⟩ := stackSMatricesSweep_ok hne hlen h hD
  have hSne : S ≠ [] := by
    rintro rfl
    exact hne (List.length_eq_zero_iff.1 lS.symm)
  refine ⟨S.getLast hSne, ?_, fS _ (List.getLast_mem hSne), fun i hi rs hrs z => ?_⟩
  · unfold stackSMatrixSweep
    rw [eS]
    simp only [bind, Except.bind, List.getLast?_eq_some_getLast hSne]
  · have last : ∀ {ss : List (ScatteringMatrix (Fin n))}, SweepElementsAt i S ss → ∃ w, ss.getLast? = some w ∧
        (S.getLast hSne).elementAt i = .ok w := by
      intro ss hss
      have hr := List.rel_reverse hss
      have e := List.getLast?_eq_some_getLast hSne
      rw [List.getLast?_eq_head?_reverse] at e
      cases hr' : S.reverse with
      | nil => rw [hr'] at e; cases e
      | cons x xs =>
        rw [hr'] at e hr
        generalize hq : ss.reverse = q at hr
        cases hr with
        | @cons _ y _ ys h1 h2 =>
          refine ⟨y, by rw [List.getLast?_eq_head?_reverse, hq]; rfl, ?_⟩
          rw [← Option.some.inj e]
          exact h1
    have all : ∀ rs, List.Forall₂ (fun l a => l.elementAt i = .ok a) layers rs → (S.getLast hSne).elementAt i = .ok z →
        ∃ ss, SweepElementsAt i S ss := by
      clear hrs rs hS
      unfold stackSMatricesSweep at eS
      rw [if_neg (not_not.2 hlen)] at eS
      match layers, thicknesses, hne, hlen, h, hD, eS with
      | [l], [d], _, _, h, hD, eS =>
        intro rs hrs hz
        obtain rfl := ok_inj.1 eS
        exact ⟨[z], .cons hz .nil⟩
      | l0 :: l1 :: rest, d0 :: d1 :: ds, _, hlen, h, hD, eS =>
        intro rs hrs hz
        obtain ⟨lat0, h0⟩ := h l0 (by simp)
        obtain ⟨lat1, h1⟩ := h l1 (by simp)
        obtain ⟨s, es, fs, st, en, -, -, hs⟩ := pairSMatrixSweep_ok h0 h1 (hD d0 (by simp)) (hD d1 (by simp))
        simp only [List.zip_cons_cons, es, bind_eq_ok, ok_inj] at eS
        obtain ⟨s1, rfl, T, eT, rfl⟩ := eS
        cases hrs with
        | @cons _ a _ _ ha hrs =>
          cases hrs with
          | @cons _ b _ rs hb hrs =>
            obtain ⟨x, xs, hx, hxs⟩ := appendAllSweep_last (rest.zip ds) (fun x hx => ⟨h x.1 (by
              simp only [List.mem_cons]
              exact Or.inr (Or.inr (List.of_mem_zip hx).1)), hD x.2 (by
              simp only [List.mem_cons]
              exact Or.inr (Or.inr (List.of_mem_zip hx).2))⟩) fs eT hi (by rw [st]; exact ha) (by rw [en]; exact hb)
              (sweepLayersAt_zip (D := ds) hrs) (z := z) (by
                have : (T.getLast?.getD s) = (identitySMatrixSweep l0 d0 :: s :: T).getLast hSne := by
                  refine Option.some.inj ?_
                  rw [← List.getLast?_eq_some_getLast, List.getLast?_cons, List.getLast?_cons]
                  rfl
                rw [this]
                exact hz)
            exact ⟨_, .cons (identitySMatrixSweep_elementAt ha) (.cons hx hxs)⟩
    unfold stackSMatrix
    constructor
    · intro hz
      obtain ⟨ss, hss⟩ := all rs hrs hz
      obtain ⟨w, e1, e2⟩ := last hss
      rw [hz] at e2
      cases e2
      rw [(hS i hi rs hrs ss).1 hss]
      simp only [bind, Except.bind, e1]
    · intro hz
      obtain ⟨ss, h1, h2⟩ := bind_eq_ok.1 hz
      obtain ⟨w, e1, e2⟩ := last ((hS i hi rs hrs ss).2 h1)
      rw [e1] at h2
      cases h2
      exact e2

theorem thicknessFits_iff {d : NDArray ℝ} : ThicknessFits t d ↔ BroadcastsTo d.shape (t ++ [1]) := by
  constructor
  · rintro (h | ⟨T, h, hT⟩)
    · rw [h]; exact .nil _
    · rw [h]; exact hT.append (.cons (Or.inl rfl) .nil)
  · intro h
    rcases List.eq_nil_or_concat d.shape with e | ⟨T, x, e⟩
    · exact Or.inl e
    · rw [List.concat_eq_append] at e
      rw [e] at h
      obtain ⟨h1, h2⟩ := broadcastsTo_append_one h
      exact Or.inr ⟨T, by rw [e]; rcases h2 with rfl | rfl <;> rfl, h1⟩

/-- Differences of thicknesses. -/
theorem thickness_change {d e : NDArray ℝ} (hd : ThicknessFits t d) (he : ThicknessFits t e) :
    ∃ c, d.zipWith (fun a b => a - b) e = .ok c ∧ ThicknessFits t c ∧ thicknessRank c = max (thicknessRank d) (thicknessRank e) ∧
      ∀ i, i.length = t.length → thicknessAt c i = thicknessAt d i - thicknessAt e i := by
  obtain ⟨c, h1, h2, h3, h4⟩ := zipWith_elementAt (fun a b : ℝ => a - b) (thicknessFits_iff.1 hd) (thicknessFits_iff.1 he)
  refine ⟨c, h1, thicknessFits_iff.2 h2, ?_, fun i hi => h4 _ (by simp [hi])⟩
  have := broadcastShapes_rank h3
  unfold thicknessRank
  omega

theorem setEndLayerThicknessSweep_ok {s : SweepScatteringMatrix n} (h : SweepFits t r s) {d : NDArray ℝ} (hd : ThicknessFits t d) :
    ∃ s', setEndLayerThicknessSweep s d = .ok s' ∧ (thicknessRank s.endThickness ≤ thicknessRank d → SweepFits t r s') ∧
      ∀ i x, ValidIndex t i → s.elementAt i = .ok x → s'.elementAt i = .ok (setEndLayerThickness x (thicknessAt d i)) := by
  obtain ⟨lat, hl⟩ := h.last
  obtain ⟨c, ec, fc, rc, hc⟩ := thickness_change hd h.endThickness
  obtain ⟨fd, efd, tfd, rfd, hfd⟩ := phaseSweep_ok hl.eigenvalues.broadcasts fc
  rw [hl.eigenvalues.rank] at rfd
  obtain ⟨X, eX, rX⟩ := Batch.zip_to (fun (x : ModeMatrix (Fin n)) v => .ok (Fmmax.colScale x v)) h.s12 tfd
  obtain ⟨Y, eY, rY⟩ := Batch.zip_to (fun (x : ModeMatrix (Fin n)) v => .ok (Fmmax.colScale x v)) h.s22 tfd
  refine ⟨{ s with s12 := X, s22 := Y, endThickness := d }, ?_, fun hr => ⟨h.s11, rX.broadcasts, h.s21, rY.broadcasts, h.start, h.last,
    h.startThickness, hd, ?_, ?_, ?_, ?_⟩, fun i x hi hx => ?_⟩
  · unfold setEndLayerThicknessSweep
    simp only [bind_eq_ok, ok_inj]
    exact ⟨c, ec, fd, efd, X, eX, Y, eY, rfl⟩
  · have k := rX.rank
    have q := h.rank12
    show X.shape.length ≤ max (max r (thicknessRank d)) s.s11.shape.length
    omega
  · have k := rY.rank
    have q := h.rank22
    show Y.shape.length ≤ max (max r (thicknessRank d)) s.s11.shape.length
    omega
  · have k := rY.rank
    have q := h.rank21
    show s.s21.shape.length ≤ max (max r (thicknessRank s.startThickness)) Y.shape.length
    omega
  · have k := rY.rank
    have q := h.rank11
    show s.s11.shape.length ≤ max (max r (thicknessRank s.startThickness)) Y.shape.length
    omega
  · have hil := validIndex_length hi
    obtain ⟨x1, x2, x3, x4, x5, x6, x7, x8⟩ := SweepScatteringMatrix.elementAt_ok.1 hx
    have ea := BatchLayer.elementAt_ok x6
    rw [SweepScatteringMatrix.elementAt_ok]
    simp only [rX.element i hil, rY.element i hil, hfd i _ hil ea.eigenvalues, x1, x2, x3, x4, x5, x6, hc i hil, x8]
    exact ⟨rfl, rfl, rfl, rfl, rfl, rfl, x7, rfl⟩

theorem setStartLayerThicknessSweep_ok {s : SweepScatteringMatrix n} (h : SweepFits t r s) {d : NDArray ℝ} (hd : ThicknessFits t d) :
    ∃ s', setStartLayerThicknessSweep s d = .ok s' ∧ (thicknessRank s.startThickness ≤ thicknessRank d → SweepFits t r s') ∧
      ∀ i x, ValidIndex t i → s.elementAt i = .ok x → s'.elementAt i = .ok (setStartLayerThickness x (thicknessAt d i)) := by
  obtain ⟨lat, hl⟩ := h.start
  obtain ⟨c, ec, fc, rc, hc⟩ := thickness_change hd h.startThickness
  obtain ⟨fd, efd, tfd, rfd, hfd⟩ := phaseSweep_ok hl.eigenvalues.broadcasts fc
  rw [hl.eigenvalues.rank] at rfd
  obtain ⟨X, eX, rX⟩ := Batch.zip_to (fun (x : ModeMatrix (Fin n)) v => .ok (Fmmax.colScale x v)) h.s11 tfd
  obtain ⟨Y, eY, rY⟩ := Batch.zip_to (fun (x : ModeMatrix (Fin n)) v => .ok (Fmmax.colScale x v)) h.s21 tfd
  refine ⟨{ s with s11 := X, s21 := Y, startThickness := d }, ?_, fun hr => ⟨rX.broadcasts, h.s12, rY.broadcasts, h.s22, h.start, h.last,
    hd, h.endThickness, ?_, ?_, ?_, ?_⟩, fun i x hi hx => ?_⟩
  · unfold setStartLayerThicknessSweep
    simp only [bind_eq_ok, ok_inj]
    exact ⟨c, ec, fd, efd, X, eX, Y, eY, rfl⟩
  · have k := rX.rank
    have q := h.rank12
    show s.s12.shape.length ≤ max (max r (thicknessRank s.endThickness)) X.shape.length
    omega
  · have k := rX.rank
    have q := h.rank22
    show s.s22.shape.length ≤ max (max r (thicknessRank s.endThickness)) X.shape.length
    omega
  · have k := rY.rank
    have q := h.rank21
    show Y.shape.length ≤ max (max r (thicknessRank d)) s.s22.shape.length
    omega
  · have k := rX.rank
    have q := h.rank11
    show X.shape.length ≤ max (max r (thicknessRank d)) s.s22.shape.length
    omega
  · have hil := validIndex_length hi
    obtain ⟨x1, x2, x3, x4, x5, x6, x7, x8⟩ := SweepScatteringMatrix.elementAt_ok.1 hx
    have ea := BatchLayer.elementAt_ok x5
    rw [SweepScatteringMatrix.elementAt_ok]
    simp only [rX.element i hil, rY.element i hil, hfd i _ hil ea.eigenvalues, x1, x2, x3, x4, x5, x6, hc i hil, x7]
    exact ⟨rfl, rfl, rfl, rfl, rfl, rfl, rfl, x8⟩

end Fmmax
