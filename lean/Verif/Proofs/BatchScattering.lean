import Verif.Proofs.BatchUniform
import Verif.Model.Scattering

/-! Scattering matrices with batch dimensions. -/

namespace Fmmax

open Spec

variable {α : Type} {t : List ℕ} {r n : ℕ}

theorem SameOk.cases {x y : Res α} (h : SameOk x y) : (∃ v, x = .ok v ∧ y = .ok v) ∨ ∃ e e', x = .error e ∧ y = .error e' := by
  cases hx : x with
  | ok v => exact Or.inl ⟨v, rfl, (h v).1 hx⟩
  | error e =>
    cases hy : y with
    | ok v => exact absurd ((h v).2 hy) (by rw [hx]; simp)
    | error e' => exact Or.inr ⟨e, e', rfl, rfl⟩

theorem SameOk.rfl {x : Res α} : SameOk x x := fun _ => Iff.rfl

theorem SameOk.errors {e e' : Err} : SameOk (.error e : Res α) (.error e') := by intro v; simp

/-- The attributes of a batch element of a layer. -/
structure LayerElement (l : BatchLayer n) (i : List ℕ) (a : LayerSolveResult (Fin n)) : Prop where
  eigenvalues : l.eigenvalues.elementAt i = .ok a.eigenvalues
  eigenvectors : l.eigenvectors.elementAt i = .ok a.eigenvectors
  zPermittivity : l.zPermittivity.elementAt i = .ok a.zPermittivityMatrix
  transversePermeability : l.transversePermeability.elementAt i = .ok a.transversePermeabilityMatrix
  wavelength : a.wavelength = l.wavelength.elementAt i
  inPlaneWavevector : a.inPlaneWavevector = (l.inPlaneWavevector.elementAt (i ++ [0]), l.inPlaneWavevector.elementAt (i ++ [1]))
  lattice : a.primitiveLatticeVectors =
    { u := (l.u.elementAt (i ++ [0]), l.u.elementAt (i ++ [1])), v := (l.v.elementAt (i ++ [0]), l.v.elementAt (i ++ [1])) }
  expansion : a.expansion = l.expansion

theorem BatchLayer.elementAt_ok {l : BatchLayer n} {i : List ℕ} {a : LayerSolveResult (Fin n)} (h : l.elementAt i = .ok a) :
    LayerElement l i a := by
  unfold BatchLayer.elementAt at h
  simp only [bind_eq_ok, ok_inj] at h
  obtain ⟨q, hq, v, hv, z, hz, zi, -, m, -, mi, -, mt, hmt, rfl⟩ := h
  exact ⟨hq, hv, hz, hmt, rfl, rfl, rfl, rfl⟩

theorem BatchLayer.omegaScriptKMatrix_ok {lat : LatticeVectors} {l : BatchLayer n} (h : LayerFits t r lat l) :
    ∃ o, l.omegaScriptKMatrix = .ok o ∧ Fits t r o ∧ ∀ i a, ValidIndex t i → l.elementAt i = .ok a →
      SameOk (o.elementAt i) a.omegaScriptKMatrix := by
  obtain ⟨K, hk, hKt, hKr⟩ := h.inPlaneWavevector
  obtain ⟨kt, hkt, hks, hkw, hke⟩ := transverse_ok (n := n) hk hKt hKr h.lattice l.expansion
  have fk : Fits t r (waveVectors (n := n) kt) := ⟨hkw ▸ hKt, hkw ▸ hKr⟩
  obtain ⟨om, eom, fom, -, -, -, -, hom⟩ := omegaScriptKMatrixBatch_ok h.wavelength h.zPermittivity h.transversePermeability fk
  refine ⟨om, ?_, fom, fun i a hi ha => ?_⟩
  · unfold BatchLayer.omegaScriptKMatrix
    rw [hkt]
    exact eom
  · have hil := validIndex_length hi
    have hlat := h.lattice.elementAt (i := i) (by rw [hil, ← hKr]; exact hKt.length_le)
    have e := BatchLayer.elementAt_ok ha
    have ho := hom i hil
    rw [hke i hi, e.zPermittivity, e.transversePermeability] at ho
    unfold LayerSolveResult.omegaScriptKMatrix
    rw [e.inPlaneWavevector, e.lattice, hlat, e.expansion, e.wavelength]
    exact ho

theorem interfaceMatricesBatch_ok {lat lat' : LatticeVectors} {l l' : BatchLayer n} (h : LayerFits t r lat l) (h' : LayerFits t r lat' l') :
    ∃ p m, interfaceMatricesBatch l l' = .ok (p, m) ∧ Fits t r p ∧ Fits t r m ∧
      ∀ i a b, ValidIndex t i → l.elementAt i = .ok a → l'.elementAt i = .ok b →
        SameOk (do
          let x ← p.elementAt i
          let y ← m.elementAt i
          .ok (x, y)) (interfaceMatrices a b) := by
  obtain ⟨o, eo, fo, ho⟩ := BatchLayer.omegaScriptKMatrix_ok h
  obtain ⟨o', eo', fo', ho'⟩ := BatchLayer.omegaScriptKMatrix_ok h'
  obtain ⟨A, eA, rA⟩ := Batch.zip_ok (fun x y : ModeMatrix (Fin n) => .ok (x * y)) fo h.eigenvectors
  obtain ⟨B, eB, rB⟩ := Batch.zip_ok (fun x y : ModeMatrix (Fin n) => .ok (x * y)) fo' h'.eigenvectors
  obtain ⟨C, eC, rC⟩ := Batch.zip_ok (fun (x : ModeMatrix (Fin n)) v => .ok (Fmmax.colScale x v)) rB.fits (h'.eigenvalues.map recip)
  obtain ⟨X, eX, rX⟩ := Batch.solve_ok rA.fits rC.fits
  obtain ⟨T, eT, rT⟩ := Batch.zip_ok (fun v (x : ModeMatrix (Fin n)) => .ok (Fmmax.rowScale v x)) h.eigenvalues rX.fits
  obtain ⟨D, eD, rD⟩ := Batch.zip_ok (fun x y : ModeMatrix (Fin n) => .ok (x * y)) fo h'.eigenvectors
  obtain ⟨U, eU, rU⟩ := Batch.solve_ok rA.fits rD.fits
  obtain ⟨P, eP, rP⟩ := Batch.zip_ok (fun x y : ModeMatrix (Fin n) => .ok (x + y)) rT.fits rU.fits
  obtain ⟨M, eM, rM⟩ := Batch.zip_ok (fun x y : ModeMatrix (Fin n) => .ok (x + y)) (rT.fits.map fun x => .ok (-x)) rU.fits
  refine ⟨P.map fun x => .ok ((1 / 2 : ℂ) • x), M.map fun x => .ok ((1 / 2 : ℂ) • x), ?_, rP.fits.map _, rM.fits.map _,
    fun i a b hi ha hb => ?_⟩
  · unfold interfaceMatricesBatch
    simp only [bind_eq_ok, ok_inj]
    exact ⟨o, eo, o', eo', A, eA, B, eB, C, eC, X, eX, T, eT, D, eD, U, eU, P, eP, M, eM, rfl⟩
  · have hil := validIndex_length hi
    have ea := BatchLayer.elementAt_ok ha
    have eb := BatchLayer.elementAt_ok hb
    simp only [Batch.elementAt_map, rP.element i hil, rM.element i hil, rU.element i hil, rD.element i hil, rT.element i hil,
      rX.element i hil, rC.element i hil, rB.element i hil, rA.element i hil, ea.eigenvalues, ea.eigenvectors, eb.eigenvalues,
      eb.eigenvectors]
    unfold interfaceMatrices
    rcases (ho i a hi ha).cases with ⟨x, hx, hx'⟩ | ⟨e, e', hx, hx'⟩ <;> rw [hx, hx'] <;>
      rcases (ho' i b hi hb).cases with ⟨y, hy, hy'⟩ | ⟨f, f', hy, hy'⟩ <;> rw [hy, hy']
    · simp only [bind, Except.bind]
      cases recip b.eigenvalues with
      | error e => exact SameOk.errors
      | ok iq =>
        simp only []
        cases solve (x * a.eigenvectors) (Fmmax.colScale (y * b.eigenvectors) iq) with
        | error e => exact SameOk.errors
        | ok x1 =>
          simp only []
          cases solve (x * a.eigenvectors) (x * b.eigenvectors) with
          | error e => exact SameOk.errors
          | ok x2 => exact SameOk.rfl
    all_goals exact SameOk.errors

theorem atleastNd_of_rank {a : NDArray α} (h : a.shape.length = r) : a.atleastNd r = a := by
  unfold NDArray.atleastNd
  rw [h, Nat.sub_self]
  simp

theorem pairSMatrixBatch_ok {lat lat' : LatticeVectors} {l l' : BatchLayer n} (h : LayerFits t r lat l) (h' : LayerFits t r lat' l')
    (d d' : ℝ) :
    ∃ s, pairSMatrixBatch l d l' d' = .ok s ∧ SMatrixFits t r s ∧ s.startLayer = l ∧ s.endLayer = l' ∧
      ∀ i a b, ValidIndex t i → l.elementAt i = .ok a → l'.elementAt i = .ok b →
        SameOk (s.elementAt i) (pairSMatrix a d b d') := by
  obtain ⟨I, J, eI, fI, fJ, hI⟩ := interfaceMatricesBatch_ok h h'
  have ffd : Fits t r (phaseBatch l.eigenvalues d) := h.eigenvalues.map _
  have ffd' : Fits t r (phaseBatch l'.eigenvalues d') := h'.eigenvalues.map _
  have fdiag : Fits t r (Batch.map (fun v => .ok (diag v)) (phaseBatch l.eigenvalues d) : Batch (ModeMatrix (Fin n))) := ffd.map _
  obtain ⟨A, eA, rA⟩ := Batch.solve_ok fI fdiag
  obtain ⟨X, eX, rX⟩ := Batch.zip_ok (fun (x : ModeMatrix (Fin n)) v => .ok (Fmmax.colScale x v)) (fJ.map fun x => .ok (-x)) ffd'
  obtain ⟨B, eB, rB⟩ := Batch.solve_ok fI rX.fits
  obtain ⟨C, eC, rC⟩ := Batch.zip_ok (fun x y : ModeMatrix (Fin n) => .ok (x * y)) fJ rA.fits
  obtain ⟨Y, eY, rY⟩ := Batch.zip_ok (fun x y : ModeMatrix (Fin n) => .ok (x * y)) fJ rB.fits
  obtain ⟨Z, eZ, rZ⟩ := Batch.zip_ok (fun (x : ModeMatrix (Fin n)) v => .ok (Fmmax.colScale x v)) fI ffd'
  obtain ⟨D, eD, rD⟩ := Batch.zip_ok (fun x y : ModeMatrix (Fin n) => .ok (x + y)) rY.fits rZ.fits
  refine ⟨{ s11 := A, s12 := B, s21 := C, s22 := D, startLayer := l, startThickness := d, endLayer := l', endThickness := d' }, ?_,
    ⟨rA.fits, rB.fits, rC.fits, rD.fits, ⟨lat, h⟩, ⟨lat', h'⟩⟩, rfl, rfl, fun i a b hi ha hb => ?_⟩
  · unfold pairSMatrixBatch
    simp only [bind_eq_ok, ok_inj]
    refine ⟨(I, J), eI, A, ?_, X, eX, B, eB, C, eC, Y, eY, Z, eZ, D, eD, rfl⟩
    show Batch.solve I (NDArray.atleastNd _ I.shape.length) = _
    rw [fI.rank, atleastNd_of_rank fdiag.rank]
    exact eA
  · have hil := validIndex_length hi
    have ea := BatchLayer.elementAt_ok ha
    have eb := BatchLayer.elementAt_ok hb
    have p1 : (phaseBatch l.eigenvalues d).elementAt i = .ok (phase a.eigenvalues d) := by
      unfold phaseBatch
      rw [Batch.elementAt_map, ea.eigenvalues]
      rfl
    have p2 : (phaseBatch l'.eigenvalues d').elementAt i = .ok (phase b.eigenvalues d') := by
      unfold phaseBatch
      rw [Batch.elementAt_map, eb.eigenvalues]
      rfl
    unfold BatchScatteringMatrix.elementAt
    simp only [rD.element i hil, rZ.element i hil, rY.element i hil, rC.element i hil, rB.element i hil, rX.element i hil,
      rA.element i hil, Batch.elementAt_map, p1, p2, ha, hb]
    unfold pairSMatrix
    rcases (hI i a b hi ha hb).cases with ⟨⟨x, y⟩, h1, h2⟩ | ⟨e, e', h1, h2⟩
    · obtain ⟨x', hx, y', hy, h3⟩ : ∃ x', I.elementAt i = .ok x' ∧ ∃ y', J.elementAt i = .ok y' ∧ (x', y') = (x, y) := by
        simpa only [bind_eq_ok, ok_inj] using h1
      cases h3
      rw [h2, hx, hy]
      simp only [bind, Except.bind]
      cases solve x (diag (phase a.eigenvalues d)) with
      | error e => exact SameOk.errors
      | ok x1 =>
        simp only []
        cases solve x (Fmmax.colScale (-y) (phase b.eigenvalues d')) with
        | error e => exact SameOk.errors
        | ok x2 => exact SameOk.rfl
    · rw [h2]
      cases hx : I.elementAt i with
      | error e => exact SameOk.errors
      | ok x =>
        cases hy : J.elementAt i with
        | ok y => rw [hx, hy] at h1; cases h1
        | error e =>
          simp only [bind, Except.bind]
          cases solve x (diag (phase a.eigenvalues d)) <;> exact SameOk.errors

theorem appendLayerBatch_ok {lat' : LatticeVectors} {s : BatchScatteringMatrix n} {l' : BatchLayer n} (h : SMatrixFits t r s)
    (h' : LayerFits t r lat' l') (d' : ℝ) :
    ∃ s', appendLayerBatch s l' d' = .ok s' ∧ SMatrixFits t r s' ∧ s'.startLayer = s.startLayer ∧ s'.endLayer = l' ∧
      ∀ i a b c, ValidIndex t i → s.startLayer.elementAt i = .ok a → s.endLayer.elementAt i = .ok b → l'.elementAt i = .ok c →
        SameOk (s'.elementAt i) (do
          let x ← s.elementAt i
          appendLayer x c d') := by
  obtain ⟨lat, hl⟩ := h.last
  obtain ⟨I, J, eI, fI, fJ, hI⟩ := interfaceMatricesBatch_ok hl h'
  have ffd : Fits t r (phaseBatch s.endLayer.eigenvalues s.endThickness) := hl.eigenvalues.map _
  have ffd' : Fits t r (phaseBatch l'.eigenvalues d') := h'.eigenvalues.map _
  obtain ⟨X, eX, rX⟩ := Batch.zip_ok (fun v (x : ModeMatrix (Fin n)) => .ok (Fmmax.rowScale v x)) ffd h.s12
  obtain ⟨Y, eY, rY⟩ := Batch.zip_ok (fun x y : ModeMatrix (Fin n) => .ok (x * y)) rX.fits fJ
  obtain ⟨T, eT, rT⟩ := Batch.zip_ok (fun x y : ModeMatrix (Fin n) => .ok (x - y)) fI rY.fits
  obtain ⟨F, eF, rF⟩ := Batch.zip_ok (fun v (x : ModeMatrix (Fin n)) => .ok (Fmmax.rowScale v x)) ffd h.s11
  obtain ⟨A, eA, rA⟩ := Batch.solve_ok rT.fits rF.fits
  obtain ⟨G, eG, rG⟩ := Batch.zip_ok (fun x y : ModeMatrix (Fin n) => .ok (x * y)) rX.fits fI
  obtain ⟨G', eG', rG'⟩ := Batch.zip_ok (fun x y : ModeMatrix (Fin n) => .ok (x - y)) rG.fits fJ
  obtain ⟨G'', eG'', rG''⟩ := Batch.zip_ok (fun (x : ModeMatrix (Fin n)) v => .ok (Fmmax.colScale x v)) rG'.fits ffd'
  obtain ⟨B, eB, rB⟩ := Batch.solve_ok rT.fits rG''.fits
  obtain ⟨H, eH, rH⟩ := Batch.zip_ok (fun x y : ModeMatrix (Fin n) => .ok (x * y)) h.s22 fJ
  obtain ⟨H1, eH1, rH1⟩ := Batch.zip_ok (fun x y : ModeMatrix (Fin n) => .ok (x * y)) rH.fits rA.fits
  obtain ⟨C, eC, rC⟩ := Batch.zip_ok (fun x y : ModeMatrix (Fin n) => .ok (x + y)) rH1.fits h.s21
  obtain ⟨H2, eH2, rH2⟩ := Batch.zip_ok (fun x y : ModeMatrix (Fin n) => .ok (x * y)) rH.fits rB.fits
  obtain ⟨H3, eH3, rH3⟩ := Batch.zip_ok (fun x y : ModeMatrix (Fin n) => .ok (x * y)) h.s22 fI
  obtain ⟨H4, eH4, rH4⟩ := Batch.zip_ok (fun (x : ModeMatrix (Fin n)) v => .ok (Fmmax.colScale x v)) rH3.fits ffd'
  obtain ⟨D, eD, rD⟩ := Batch.zip_ok (fun x y : ModeMatrix (Fin n) => .ok (x + y)) rH2.fits rH4.fits
  refine ⟨{ s11 := A, s12 := B, s21 := C, s22 := D, startLayer := s.startLayer, startThickness := s.startThickness, endLayer := l',
            endThickness := d' }, ?_, ⟨rA.fits, rB.fits, rC.fits, rD.fits, h.start, ⟨lat', h'⟩⟩, rfl, rfl, fun i a b c hi ha hb hc => ?_⟩
  · unfold appendLayerBatch
    simp only [bind_eq_ok, ok_inj]
    exact ⟨(I, J), eI, X, eX, Y, eY, T, eT, F, eF, A, eA, G, eG, G', eG', G'', eG'', B, eB, H, eH, H1, eH1, C, eC, H2, eH2, H3, eH3,
      H4, eH4, D, eD, rfl⟩
  · have hil := validIndex_length hi
    have eb := BatchLayer.elementAt_ok hb
    have ec := BatchLayer.elementAt_ok hc
    have p1 : (phaseBatch s.endLayer.eigenvalues s.endThickness).elementAt i = .ok (phase b.eigenvalues s.endThickness) := by
      unfold phaseBatch
      rw [Batch.elementAt_map, eb.eigenvalues]
      rfl
    have p2 : (phaseBatch l'.eigenvalues d').elementAt i = .ok (phase c.eigenvalues d') := by
      unfold phaseBatch
      rw [Batch.elementAt_map, ec.eigenvalues]
      rfl
    unfold BatchScatteringMatrix.elementAt
    simp only [rD.element i hil, rH4.element i hil, rH3.element i hil, rH2.element i hil, rC.element i hil, rH1.element i hil,
      rH.element i hil, rB.element i hil, rG''.element i hil, rG'.element i hil, rG.element i hil, rA.element i hil,
      rF.element i hil, rT.element i hil, rY.element i hil, rX.element i hil, p1, p2, ha, hb, hc]
    generalize s.s11.elementAt i = s11
    generalize s.s12.elementAt i = s12
    generalize s.s21.elementAt i = s21
    generalize s.s22.elementAt i = s22
    rcases (hI i b c hi hb hc).cases with ⟨⟨x, y⟩, h1, h2⟩ | ⟨e, e', h1, h2⟩
    · obtain ⟨x', hx, y', hy, h3⟩ : ∃ x', I.elementAt i = .ok x' ∧ ∃ y', J.elementAt i = .ok y' ∧ (x', y') = (x, y) := by
        simpa only [bind_eq_ok, ok_inj] using h1
      cases h3
      rw [hx, hy]
      cases s11 with
      | error e => cases s12 <;> simp only [bind, Except.bind] <;> exact SameOk.errors
      | ok s11 =>
        cases s12 with
        | error e => simp only [bind, Except.bind]; exact SameOk.errors
        | ok s12 =>
          simp only [bind, Except.bind, appendLayer, extendSMatrix, h2]
          cases s21 with
          | error e =>
            cases s22 <;> simp only [] <;>
            cases solve (x - Fmmax.rowScale (phase b.eigenvalues s.endThickness) s12 * y)
              (Fmmax.rowScale (phase b.eigenvalues s.endThickness) s11) <;> simp only [] <;> try exact SameOk.errors
            all_goals
              cases solve (x - Fmmax.rowScale (phase b.eigenvalues s.endThickness) s12 * y)
                (Fmmax.colScale (Fmmax.rowScale (phase b.eigenvalues s.endThickness) s12 * x - y) (phase c.eigenvalues d')) <;>
              exact SameOk.errors
          | ok s21 =>
            cases s22 with
            | error e =>
              simp only []
              cases solve (x - Fmmax.rowScale (phase b.eigenvalues s.endThickness) s12 * y)
                (Fmmax.rowScale (phase b.eigenvalues s.endThickness) s11) <;> simp only [] <;> try exact SameOk.errors
              cases solve (x - Fmmax.rowScale (phase b.eigenvalues s.endThickness) s12 * y)
                (Fmmax.colScale (Fmmax.rowScale (phase b.eigenvalues s.endThickness) s12 * x - y) (phase c.eigenvalues d')) <;>
                exact SameOk.errors
            | ok s22 =>
              simp only [h2]
              cases solve (x - Fmmax.rowScale (phase b.eigenvalues s.endThickness) s12 * y)
                (Fmmax.rowScale (phase b.eigenvalues s.endThickness) s11) with
              | error e => exact SameOk.errors
              | ok z1 =>
              simp only []
              cases solve (x - Fmmax.rowScale (phase b.eigenvalues s.endThickness) s12 * y)
                (Fmmax.colScale (Fmmax.rowScale (phase b.eigenvalues s.endThickness) s12 * x - y) (phase c.eigenvalues d')) with
              | error e => exact SameOk.errors
              | ok z => exact SameOk.rfl
    · have hr : ∃ e, (do
          let s11 ← s11
          let s12 ← s12
          let s21 ← s21
          let s22 ← s22
          let start ← (Except.ok a : Res (LayerSolveResult (Fin n)))
          let last ← (Except.ok b : Res (LayerSolveResult (Fin n)))
          let x : ScatteringMatrix (Fin n) ← Except.ok
            { s11 := s11, s12 := s12, s21 := s21, s22 := s22, startLayer := start, startThickness := s.startThickness, endLayer := last,
              endThickness := s.endThickness }
          appendLayer x c d') = .error e := by
        cases s11 with
        | error e => exact ⟨e, rfl⟩
        | ok s11 =>
          cases s12 with
          | error e => exact ⟨e, rfl⟩
          | ok s12 =>
            cases s21 with
            | error e => exact ⟨e, rfl⟩
            | ok s21 =>
              cases s22 with
              | error e => exact ⟨e, rfl⟩
              | ok s22 => exact ⟨e', by simp only [bind, Except.bind, appendLayer, extendSMatrix, h2]⟩
      obtain ⟨e2, hr⟩ := hr
      have hr' : ∀ z, (do
          let x ← (do
            let s11 ← s11
            let s12 ← s12
            let s21 ← s21
            let s22 ← s22
            let start ← (Except.ok a : Res (LayerSolveResult (Fin n)))
            let last ← (Except.ok b : Res (LayerSolveResult (Fin n)))
            (Except.ok
              { s11 := s11, s12 := s12, s21 := s21, s22 := s22, startLayer := start, startThickness := s.startThickness, endLayer := last,
                endThickness := s.endThickness } : Res (ScatteringMatrix (Fin n))))
          appendLayer x c d') ≠ .ok z := by
        intro z hz
        cases s11 <;> cases s12 <;> cases s21 <;> cases s22 <;> simp only [bind, Except.bind] at hz hr <;>
          first
          | (rw [hr] at hz; cases hz)
          | cases hz
      have hl' : ∀ z, (do
          let x ← I.elementAt i
          let y ← J.elementAt i
          (.ok (x, y) : Res (ModeMatrix (Fin n) × ModeMatrix (Fin n)))) ≠ .ok z := by rw [h1]; simp
      intro z
      refine ⟨fun hz => ?_, fun hz => absurd hz (hr' z)⟩
      exfalso
      cases hx : I.elementAt i with
      | error e => rw [hx] at hz; cases s12 <;> simp [bind, Except.bind] at hz
      | ok x =>
        cases hy : J.elementAt i with
        | error e => rw [hx, hy] at hz; cases s12 <;> simp [bind, Except.bind] at hz
        | ok y => exact hl' (x, y) (by rw [hx, hy]; rfl)

end Fmmax
