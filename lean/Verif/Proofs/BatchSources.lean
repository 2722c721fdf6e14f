import Verif.Proofs.BatchShape
import Verif.Proofs.Profile
import Verif.Model.BatchSources
import Verif.Spec.BatchSources

/-! Sources inside a stack with batch dimensions. -/

namespace Fmmax

open Spec

variable {α : Type} {t : List ℕ} {r n m : ℕ}

theorem elementAt_atleastNd_le (x : NDArray α) {N : ℕ} {i : List ℕ} (hN : N ≤ i.length) :
    (x.atleastNd N).elementAt i = x.elementAt i := by
  by_cases hx : x.shape.length ≤ N
  · obtain ⟨a, b, rfl, hb⟩ : ∃ a b, i = a ++ b ∧ b.length = N :=
      ⟨i.take (i.length - N), i.drop (i.length - N), (List.take_append_drop _ _).symm, by simp; omega⟩
    have lead : ∀ {y : NDArray α}, y.shape.length ≤ b.length → y.elementAt (a ++ b) = y.elementAt b := by
      intro y hy
      unfold NDArray.elementAt broadcastIndex
      rw [List.length_append, show a.length + b.length - y.shape.length = a.length + (b.length - y.shape.length) by omega,
        ← List.drop_drop, List.drop_left]
    rw [lead (by unfold NDArray.atleastNd; simp; omega), lead (by omega)]
    exact elementAt_atleastNd x hb hx
  · unfold NDArray.atleastNd
    rw [Nat.sub_eq_zero_of_le (by omega)]
    simp

theorem atleastNd_broadcasts {x : NDArray α} (h : BroadcastsTo x.shape t) {N : ℕ} (hN : N ≤ t.length) :
    BroadcastsTo (x.atleastNd N).shape t := by
  obtain ⟨lead, tail, rfl, hf⟩ := h
  rw [List.length_append, ← hf.length_eq] at hN
  refine ⟨lead.take (lead.length - (N - x.shape.length)), lead.drop (lead.length - (N - x.shape.length)) ++ tail, ?_, ?_⟩
  · rw [← List.append_assoc, List.take_append_drop]
  · refine List.rel_append (R := fun a b : ℕ => a = 1 ∨ a = b) ?_ hf
    rw [List.forall₂_iff_get]
    exact ⟨by simp; omega, fun i h1 h2 => by simp⟩

theorem broadcastsTo_atleastNd (x : NDArray α) (N : ℕ) : BroadcastsTo x.shape (x.atleastNd N).shape :=
  ⟨_, _, rfl, List.forall₂_same.2 fun _ _ => Or.inr rfl⟩

theorem polarizationTermsBatch_ok {lat : LatticeVectors} {l : BatchLayer n} (h : LayerFits t r lat l) (hc : LayerComplete l)
    {jx jy jz : Batch (Matrix (Fin n) (Fin m) ℂ)} (hj : BroadcastsTo jx.shape t) (hy : jy.shape = jx.shape) (hz : jz.shape = jx.shape) :
    ∃ p, polarizationTermsBatch jx jy jz l = .ok p ∧ BroadcastsTo p.shape t ∧ r ≤ p.shape.length ∧ BroadcastsTo jx.shape p.shape ∧
      (∀ s', BroadcastsTo l.eigenvectors.shape s' → BroadcastsTo jx.shape s' → BroadcastsTo p.shape s') ∧
      ∀ i x a b c, ValidIndex t i → l.elementAt i = .ok x → jx.elementAt i = .ok a → jy.elementAt i = .ok b →
        jz.elementAt i = .ok c → SameOk (p.elementAt i) (polarizationTerms a b c x) := by
  obtain ⟨K, hK1, hK2, hK3⟩ := h.inPlaneWavevector
  obtain ⟨kt, ekt, -, skt, hkt⟩ := transverse_ok hK1 hK2 hK3 h.lattice l.expansion
  set N := max (jx.shape.length - 1) l.inverseZPermittivity.shape.length with hN
  have hNle : ∀ {s' : List ℕ}, BroadcastsTo l.inverseZPermittivity.shape s' → BroadcastsTo jx.shape s' → N ≤ s'.length := by
    intro s' h1 h2
    have := h1.length_le
    have := h2.length_le
    omega
  have hNt := hNle h.inverseZPermittivity.broadcasts hj
  set eta : Batch (Matrix (Fin n) (Fin n) ℂ) := l.inverseZPermittivity.atleastNd N with heta
  set jx' : Batch (Matrix (Fin n) (Fin m) ℂ) := jx.atleastNd N with hjx'
  set jy' : Batch (Matrix (Fin n) (Fin m) ℂ) := jy.atleastNd N with hjy'
  set jz' : Batch (Matrix (Fin n) (Fin m) ℂ) := jz.atleastNd N with hjz'
  have sy : jy'.shape = jx'.shape := by rw [hjx', hjy']; unfold NDArray.atleastNd; rw [hy]
  have sz : jz'.shape = jx'.shape := by rw [hjx', hjz']; unfold NDArray.atleastNd; rw [hz]
  have beta : BroadcastsTo eta.shape t := atleastNd_broadcasts h.inverseZPermittivity.broadcasts hNt
  have bx : BroadcastsTo jx'.shape t := atleastNd_broadcasts hj hNt
  have bz : BroadcastsTo jz'.shape t := sz ▸ bx
  have bk : BroadcastsTo (waveVectors (n := n) kt).shape t := skt ▸ hK2
  obtain ⟨P0, eP0, sP0, hP0⟩ := Batch.concatRows_ok (a := jy') (b := jx'.map fun x => .ok (-x)) sy.symm
  have times := fun c : (Fin n → ℝ × ℝ) → Fin n → ℂ =>
    Batch.zip_to (fun (k : Fin n → ℝ × ℝ) (eta : Matrix (Fin n) (Fin n) ℂ) => .ok (Fmmax.rowScale (c k) eta)) bk beta
  obtain ⟨Y0, eY0, rY0⟩ := times kyOf
  obtain ⟨X0, eX0, rX0⟩ := times kxOf
  have sXY0 : X0.shape = Y0.shape := Option.some.inj (rX0.shape.symm.trans rY0.shape)
  obtain ⟨Y, eY, rY⟩ := Batch.zip_to (fun (x : Matrix (Fin n) (Fin n) ℂ) (y : Matrix (Fin n) (Fin m) ℂ) => .ok (x * y)) rY0.broadcasts bz
  obtain ⟨X, eX, rX⟩ := Batch.zip_to (fun (x : Matrix (Fin n) (Fin n) ℂ) (y : Matrix (Fin n) (Fin m) ℂ) => .ok (x * y)) rX0.broadcasts bz
  have sXY : X.shape = Y.shape := Option.some.inj (by rw [← rX.shape, ← rY.shape, sXY0])
  obtain ⟨Z, eZ, sZ, hZ⟩ := Batch.concatRows_ok (a := Y.map fun x => .ok (-x)) (b := X) sXY
  have sZ' : Z.shape = Y.shape := sZ
  have bZ : BroadcastsTo Z.shape t := sZ' ▸ rY.broadcasts
  have bP0 : BroadcastsTo P0.shape Z.shape := by
    rw [sP0, sy, ← sz, sZ']
    exact rY.right
  obtain ⟨P, eP, sP, hP⟩ := broadcastTo_ok bP0 bZ
  obtain ⟨Q, eQ, sQ, hQ⟩ := Batch.concatRows_ok (a := Z) (b := (P : Batch (Matrix (Fin n ⊕ Fin n) (Fin m) ℂ))) sP
  have sQ' : Q.shape = Y.shape := sQ.trans sZ'
  refine ⟨Q, ?_, sQ' ▸ rY.broadcasts, ?_, ?_, fun s' hl hs => ?_, ?_⟩
  · unfold polarizationTermsBatch
    rw [if_neg (not_not.2 ⟨hy.symm, by rw [hy, hz]⟩)]
    simp only [bind_eq_ok]
    refine ⟨P0, eP0, kt, ekt, Y, ?_, X, ?_, Z, eZ, P, eP, eQ⟩
    · unfold Batch.wavevectorTimes
      rw [eY0]
      exact eY
    · unfold Batch.wavevectorTimes
      rw [eX0]
      exact eX
  · have h1 := rY0.left.length_le
    have h2 := rY.left.length_le
    rw [skt, hK3] at h1
    rw [sQ']
    omega
  · rw [sQ']
    exact (broadcastsTo_atleastNd jx N).trans (sz ▸ rY.right)
  · rw [sQ']
    have he := hc.inverseZPermittivity.trans hl
    have hle := hNle he hs
    refine rY.least (rY0.least ?_ (atleastNd_broadcasts he hle)) ?_
    · rw [skt]
      exact (hc.inPlaneWavevector K hK1).trans hl
    · rw [sz]
      exact atleastNd_broadcasts hs hle
  · intro i x a b c hi hx ha hb hcc
    have hil := validIndex_length hi
    have ea := BatchLayer.elementAt_ok hx
    have hlat := h.lattice.elementAt (i := i) (by rw [hil, ← hK3]; exact hK2.length_le)
    have k1 : eta.elementAt i = .ok x.inverseZPermittivityMatrix := by
      rw [heta, elementAt_atleastNd_le _ (by omega)]
      exact (BatchLayer.elementAt_inverse hx).1
    have k2 : jx'.elementAt i = .ok a := by rw [hjx', elementAt_atleastNd_le _ (by omega), ha]
    have k3 : jy'.elementAt i = .ok b := by rw [hjy', elementAt_atleastNd_le _ (by omega), hb]
    have k4 : jz'.elementAt i = .ok c := by rw [hjz', elementAt_atleastNd_le _ (by omega), hcc]
    rw [hQ, hZ, hP i hil, hP0, Batch.elementAt_map, Batch.elementAt_map, rY.element i hil, rX.element i hil, rY0.element i hil,
      rX0.element i hil, hkt i hi, k1, k2, k3, k4]
    unfold polarizationTerms
    rw [ea.inPlaneWavevector, ea.lattice, hlat, ea.expansion]
    cases transverseWavevectors (l.inPlaneWavevector.elementAt (i ++ [0]), l.inPlaneWavevector.elementAt (i ++ [1])) lat l.expansion with
    | error e => exact SameOk.errors
    | ok k => exact SameOk.rfl

/-- The blocks of the emission matrix that belong to one of the two layers. -/
theorem emissionHalf_ok {lat : LatticeVectors} {l : BatchLayer n} (h : LayerFits t r lat l) (hc : LayerComplete l)
    {eye s : Batch (ModeMatrix (Fin n))} (he : BroadcastsTo eye.shape t) (hle : BroadcastsTo l.eigenvectors.shape eye.shape)
    (hs : BroadcastsTo s.shape t) :
    ∃ o a0 a1 x a, l.omegaScriptKMatrix = .ok o ∧ o.mul l.eigenvectors = .ok a0 ∧
      a0.mul ((l.eigenvalues.map recip).map fun v => .ok (diag v) : Batch (ModeMatrix (Fin n))) = .ok a1 ∧ eye.sub s = .ok x ∧
      a1.mul x = .ok a ∧ IsBroadcastOf [eye.shape, s.shape] a.shape ∧
      ∀ i y e v, ValidIndex t i → l.elementAt i = .ok y → eye.elementAt i = .ok e → s.elementAt i = .ok v →
        SameOk (a.elementAt i) (do
          let o ← y.omegaScriptKMatrix
          let q ← recip y.eigenvalues
          .ok (o * y.eigenvectors * diag q * (e - v))) := by
  obtain ⟨o, eo, fo, ho⟩ := BatchLayer.omegaScriptKMatrix_ok h
  have so : BroadcastsTo o.shape l.eigenvectors.shape := by
    obtain ⟨o', eo', fo', -⟩ := BatchLayer.omegaScriptKMatrix_ok (hc.fits h)
    rw [ok_inj.1 (eo.symm.trans eo')]
    exact fo'.broadcasts
  obtain ⟨A0, eA0, rA0⟩ := Batch.zip_to (fun x y : ModeMatrix (Fin n) => .ok (x * y)) fo.broadcasts h.eigenvectors.broadcasts
  have bq : BroadcastsTo ((l.eigenvalues.map recip).map fun v => .ok (diag v) : Batch (ModeMatrix (Fin n))).shape t :=
    h.eigenvalues.broadcasts
  obtain ⟨A1, eA1, rA1⟩ := Batch.zip_to (fun x y : ModeMatrix (Fin n) => .ok (x * y)) rA0.broadcasts bq
  obtain ⟨X, eX, rX⟩ := Batch.zip_to (fun x y : ModeMatrix (Fin n) => .ok (x - y)) he hs
  obtain ⟨A, eA, rA⟩ := Batch.zip_to (fun x y : ModeMatrix (Fin n) => .ok (x * y)) rA1.broadcasts rX.broadcasts
  have bA1 : BroadcastsTo A1.shape l.eigenvectors.shape := rA1.least (rA0.least so (.refl _)) (hc.eigenvalues ▸ .refl _)
  refine ⟨o, A0, A1, X, A, eo, eA0, eA1, eX, eA, ⟨fun x hx => ?_, fun s' hs' => ?_⟩, fun i y e v hi hy hei hv => ?_⟩
  · simp only [List.mem_cons, List.not_mem_nil, or_false] at hx
    rcases hx with rfl | rfl
    exacts [rX.left.trans rA.right, rX.right.trans rA.right]
  · have k1 := hs' eye.shape (by simp)
    exact rA.least (bA1.trans (hle.trans k1)) (rX.least k1 (hs' s.shape (by simp)))
  · have hil := validIndex_length hi
    have ey := BatchLayer.elementAt_ok hy
    rw [rA.element i hil, rX.element i hil, rA1.element i hil, rA0.element i hil, Batch.elementAt_map, Batch.elementAt_map,
      ey.eigenvectors, ey.eigenvalues, hei, hv]
    rcases (ho i y hi hy).cases with ⟨x, hx, hx'⟩ | ⟨f, f', hx, hx'⟩ <;> rw [hx, hx']
    · simp only [bind, Except.bind]
      cases recip y.eigenvalues with
      | error e => exact SameOk.errors
      | ok q => exact SameOk.rfl
    · exact SameOk.errors

/-- `emission_matrix` at every batch index. -/
theorem emissionMatrixBatch_ok {before after : BatchScatteringMatrix n} (hb : SMatrixFits t r before) (ha : SMatrixFits t r after)
    (cb : LayerComplete before.endLayer) (ca : LayerComplete after.startLayer) :
    ∃ sa sb, IsBroadcastOf [before.endLayer.eigenvectors.shape, after.startLayer.eigenvectors.shape, after.s21.shape] sa ∧
      IsBroadcastOf [before.endLayer.eigenvectors.shape, after.startLayer.eigenvectors.shape, before.s12.shape] sb ∧
      (sa ≠ sb → emissionMatrixBatch before after = .error .typeError) ∧
      (sa = sb → ∃ M, emissionMatrixBatch before after = .ok M ∧ M.shape = sa ∧ Fits t r M ∧
        ∀ i x y, ValidIndex t i → before.elementAt i = .ok x → after.elementAt i = .ok y →
          SameOk (M.elementAt i) (emissionMatrix x y)) := by
  obtain ⟨latb, lb⟩ := hb.last
  obtain ⟨lata, la⟩ := ha.start
  set q := before.endLayer.eigenvalues with hq
  set q' := after.startLayer.eigenvalues with hq'
  obtain ⟨E0, eE0, rE0⟩ := Batch.zip_to (fun (_ _ : Fin n ⊕ Fin n → ℂ) => (.ok (diag fun _ => 1) : Res (ModeMatrix (Fin n))))
    lb.eigenvalues.broadcasts la.eigenvalues.broadcasts
  set eye : Batch (ModeMatrix (Fin n)) := { shape := E0.shape, get := fun _ => .ok (diag fun _ => 1) } with heye
  have beye : BroadcastsTo eye.shape t := rE0.broadcasts
  obtain ⟨S, eS, rS⟩ := Batch.zip_to (fun x y : ModeMatrix (Fin n) => .ok (x * y))
    (a := (phaseBatch q before.endThickness).map fun v => .ok (diag v)) (t := t) lb.eigenvalues.broadcasts hb.s12.broadcasts
  obtain ⟨S', eS', rS'⟩ := Batch.zip_to (fun x y : ModeMatrix (Fin n) => .ok (x * y))
    (a := (phaseBatch q' after.startThickness).map fun v => .ok (diag v)) (t := t) la.eigenvalues.broadcasts ha.s21.broadcasts
  have ub : BroadcastsTo before.endLayer.eigenvectors.shape eye.shape := cb.eigenvalues ▸ rE0.left
  have ua : BroadcastsTo after.startLayer.eigenvectors.shape eye.shape := ca.eigenvalues ▸ rE0.right
  obtain ⟨o', A0, A1, A2, A, eo', eA0, eA1, eA2, eA, sA, hA⟩ := emissionHalf_ok la ca beye ua rS'.broadcasts
  obtain ⟨o, B0, B1, B2, B, eo, eB0, eB1, eB2, eB, sB, hB⟩ := emissionHalf_ok lb cb beye ub rS.broadcasts
  obtain ⟨C0, eC0, rC0⟩ := Batch.zip_to (fun x y : ModeMatrix (Fin n) => .ok (x + y)) beye rS'.broadcasts
  obtain ⟨C, eC, rC⟩ := Batch.zip_to (fun x y : ModeMatrix (Fin n) => .ok (x * y)) la.eigenvectors.broadcasts rC0.broadcasts
  obtain ⟨D0, eD0, rD0⟩ := Batch.zip_to (fun x y : ModeMatrix (Fin n) => .ok (x + y)) beye rS.broadcasts
  obtain ⟨D, eD, rD⟩ := Batch.zip_to (fun x y : ModeMatrix (Fin n) => .ok (x * y))
    (a := before.endLayer.eigenvectors.map fun p => .ok (-p)) (t := t) lb.eigenvectors.broadcasts rD0.broadcasts
  have sC : IsBroadcastOf [eye.shape, S'.shape] C.shape := by
    refine ⟨fun x hx => ?_, fun s' hs' => ?_⟩
    · simp only [List.mem_cons, List.not_mem_nil, or_false] at hx
      rcases hx with rfl | rfl
      exacts [rC0.left.trans rC.right, rC0.right.trans rC.right]
    · have k1 := hs' eye.shape (by simp)
      exact rC.least (ua.trans k1) (rC0.least k1 (hs' S'.shape (by simp)))
  have sD : IsBroadcastOf [eye.shape, S.shape] D.shape := by
    refine ⟨fun x hx => ?_, fun s' hs' => ?_⟩
    · simp only [List.mem_cons, List.not_mem_nil, or_false] at hx
      rcases hx with rfl | rfl
      exacts [rD0.left.trans rD.right, rD0.right.trans rD.right]
    · have k1 := hs' eye.shape (by simp)
      exact rD.least (ub.trans k1) (rD0.least k1 (hs' S.shape (by simp)))
  have cA : C.shape = A.shape := sC.unique sA
  have dB : D.shape = B.shape := sD.unique sB
  have run : emissionMatrixBatch before after = Batch.block A B C D := by
    unfold emissionMatrixBatch
    have eS1 : Batch.mul ((phaseBatch before.endLayer.eigenvalues before.endThickness).map fun v => .ok (diag v)) before.s12 = .ok S := eS
    have eS1' : Batch.mul ((phaseBatch after.startLayer.eigenvalues after.startThickness).map fun v => .ok (diag v)) after.s21 = .ok S' := eS'
    have hsh : broadcastShapes before.endLayer.eigenvalues.shape after.startLayer.eigenvalues.shape = some E0.shape := rE0.shape
    have eA0' : o'.mul after.startLayer.eigenvectors = .ok A0 := eA0
    have eB0' : o.mul before.endLayer.eigenvectors = .ok B0 := eB0
    have eC' : after.startLayer.eigenvectors.mul C0 = .ok C := eC
    have eA1' : A0.mul ((after.startLayer.eigenvalues.map recip).map fun v => .ok (diag v) : Batch (ModeMatrix (Fin n))) = .ok A1 := eA1
    have eB1' : B0.mul ((before.endLayer.eigenvalues.map recip).map fun v => .ok (diag v) : Batch (ModeMatrix (Fin n))) = .ok B1 := eB1
    have eC0' : eye.add S' = .ok C0 := eC0
    have eD0' : eye.add S = .ok D0 := eD0
    have eD' : Batch.mul (before.endLayer.eigenvectors.map fun p => .ok (-p)) D0 = .ok D := eD
    simp only [eo, eo', eS1, eS1', hsh, bind, Except.bind]
    simp only [eA0', eA1', eB0', eB1']
    rw [← heye]
    simp only [eA2, eA, eB2, eB, eC0', eC', eD0', eD']
  have lift : ∀ {x : List ℕ} {z : Batch (ModeMatrix (Fin n))} {w : Batch (ModeMatrix (Fin n))} {c : List ℕ}
      (hz : ∀ s', BroadcastsTo z.shape s' ↔ BroadcastsTo x s' ∧ BroadcastsTo w.shape s'), IsBroadcastOf [eye.shape, z.shape] c →
      BroadcastsTo x eye.shape →
      IsBroadcastOf [before.endLayer.eigenvectors.shape, after.startLayer.eigenvectors.shape, w.shape] c := by
    intro x z w c hz hc' hx
    refine ⟨fun y hy => ?_, fun s' hs' => ?_⟩
    · have k1 := hc'.upper eye.shape (by simp)
      have k2 := (hz _).1 (hc'.upper z.shape (by simp))
      simp only [List.mem_cons, List.not_mem_nil, or_false] at hy
      rcases hy with rfl | rfl | rfl
      exacts [ub.trans k1, ua.trans k1, k2.2]
    · have k1 := hs' before.endLayer.eigenvectors.shape (by simp)
      have k2 := hs' after.startLayer.eigenvectors.shape (by simp)
      have k3 := hs' w.shape (by simp)
      have k4 : BroadcastsTo eye.shape s' := rE0.least (by rw [cb.eigenvalues]; exact k1) (by rw [ca.eigenvalues]; exact k2)
      refine hc'.least _ fun y hy => ?_
      simp only [List.mem_cons, List.not_mem_nil, or_false] at hy
      rcases hy with rfl | rfl
      exacts [k4, (hz s').2 ⟨hx.trans k4, k3⟩]
  refine ⟨A.shape, B.shape, lift (x := q'.shape) (fun s' => ⟨fun h => ⟨rS'.left.trans h, rS'.right.trans h⟩, fun h => rS'.least h.1 h.2⟩) sA rE0.right,
    lift (x := q.shape) (fun s' => ⟨fun h => ⟨rS.left.trans h, rS.right.trans h⟩, fun h => rS.least h.1 h.2⟩) sB rE0.left, fun hne => ?_, fun heq => ?_⟩
  · rw [run]
    unfold Batch.block
    rw [if_neg fun h => hne h.1]
  · have fA : Fits t r A := by
      refine ⟨sA.least _ fun x hx => ?_, ?_⟩
      · simp only [List.mem_cons, List.not_mem_nil, or_false] at hx
        rcases hx with rfl | rfl
        exacts [beye, rS'.broadcasts]
      · rw [← cA, rC.rank, rC0.rank, rS'.rank, la.eigenvectors.rank, ha.s21.rank]
        show max r (max E0.shape.length (max q'.shape.length r)) = r
        rw [rE0.rank, lb.eigenvalues.rank, la.eigenvalues.rank]
        simp
    obtain ⟨M, eM, fM, sM, hM⟩ := Batch.block_ok fA heq.symm cA (by rw [dB, heq])
    refine ⟨M, run.trans eM, sM, fM, fun i x y hi hx hy => ?_⟩
    have hil := validIndex_length hi
    obtain ⟨x1, x2, x3, x4, x5, x6, x7, x8⟩ := BatchScatteringMatrix.elementAt_ok.1 hx
    obtain ⟨y1, y2, y3, y4, y5, y6, y7, y8⟩ := BatchScatteringMatrix.elementAt_ok.1 hy
    have ex := BatchLayer.elementAt_ok x6
    have ey := BatchLayer.elementAt_ok y5
    have p1 : (phaseBatch q before.endThickness).elementAt i = .ok (phase x.endLayer.eigenvalues x.endThickness) := by
      unfold phaseBatch
      rw [Batch.elementAt_map, ex.eigenvalues, x8]
      rfl
    have p2 : (phaseBatch q' after.startThickness).elementAt i = .ok (phase y.startLayer.eigenvalues y.startThickness) := by
      unfold phaseBatch
      rw [Batch.elementAt_map, ey.eigenvalues, y7]
      rfl
    have k1 : S.elementAt i = .ok (diag (phase x.endLayer.eigenvalues x.endThickness) * x.s12) := by
      rw [rS.element i hil, Batch.elementAt_map, p1, x2]
      rfl
    have k2 : S'.elementAt i = .ok (diag (phase y.startLayer.eigenvalues y.startThickness) * y.s21) := by
      rw [rS'.element i hil, Batch.elementAt_map, p2, y3]
      rfl
    have k3 : eye.elementAt i = .ok (diag fun _ => 1) := rfl
    have k4 : C.elementAt i = .ok (y.startLayer.eigenvectors *
        (diag (fun _ => 1) + diag (phase y.startLayer.eigenvalues y.startThickness) * y.s21)) := by
      rw [rC.element i hil, rC0.element i hil, ey.eigenvectors, k3, k2]
      rfl
    have k5 : D.elementAt i = .ok (-x.endLayer.eigenvectors *
        (diag (fun _ => 1) + diag (phase x.endLayer.eigenvalues x.endThickness) * x.s12)) := by
      rw [rD.element i hil, rD0.element i hil, Batch.elementAt_map, ex.eigenvectors, k3, k1]
      rfl
    have k6 := hA i _ _ _ hi y5 k3 k2
    have k7 := hB i _ _ _ hi x6 k3 k1
    rw [hM, k4, k5]
    unfold emissionMatrix
    intro z
    have m1 := fun w => k6 w
    have m2 := fun w => k7 w
    simp only [bind_eq_ok, ok_inj] at m1 m2 ⊢
    constructor
    · rintro ⟨w1, h1, w2, h2, w3, h3, w4, h4, rfl⟩
      obtain ⟨o1, ho1, q1, hq1, rfl⟩ := (m1 w1).1 h1
      obtain ⟨o2, ho2, q2, hq2, rfl⟩ := (m2 w2).1 h2
      subst h3 h4
      exact ⟨o2, ho2, o1, ho1, q1, hq1, q2, hq2, rfl⟩
    · rintro ⟨o2, ho2, o1, ho1, q1, hq1, q2, hq2, rfl⟩
      exact ⟨_, (m1 _).2 ⟨o1, ho1, q1, hq1, rfl⟩, _, (m2 _).2 ⟨o2, ho2, q2, hq2, rfl⟩, _, rfl, _, rfl, rfl⟩

/-- `amplitudes_for_source` at every batch index. -/
theorem amplitudesForSourceBatch_ok {before after : BatchScatteringMatrix n} {Sb Sa : List (List ℕ)} (hb : SMatrixFits t r before)
    (ha : SMatrixFits t r after) (eb : SMatrixExact Sb before) (ea : SMatrixExact Sa after) {s : List ℕ}
    (h1 : IsBroadcastOf (after.startLayer.eigenvectors.shape :: Sb) s) (h2 : IsBroadcastOf (before.endLayer.eigenvectors.shape :: Sa) s)
    {jx jy jz : Batch (Matrix (Fin n) (Fin m) ℂ)} (hj : BroadcastsTo jx.shape t) (hy : jy.shape = jx.shape) (hz : jz.shape = jx.shape) :
    ∃ A T, amplitudesForSourceBatch jx jy jz before after = .ok A ∧ IsBroadcastOf [s, jx.shape] T ∧ BroadcastsTo T t ∧
      SourceAmplitudesShape A T ∧
      ∀ i x y a b c, ValidIndex t i → before.elementAt i = .ok x → after.elementAt i = .ok y → jx.elementAt i = .ok a →
        jy.elementAt i = .ok b → jz.elementAt i = .ok c → ∀ v, SourceAmplitudesAt A i v ↔ amplitudesForSource a b c x y = .ok v := by
  obtain ⟨latb, lb⟩ := hb.last
  obtain ⟨sa, sb, k1, k2, -, k3⟩ := emissionMatrixBatch_ok hb ha eb.lastComplete ea.startComplete
  have bb : IsBroadcastOf Sb before.s12.shape := eb.s12 ▸ eb.s11
  have ba : IsBroadcastOf Sa after.s21.shape := ea.s21 ▸ ea.s11
  have esa : sa = s := by
    refine k1.unique ⟨fun x hx => ?_, fun s' hs' => h2.least _ fun x hx => ?_⟩
    · simp only [List.mem_cons, List.not_mem_nil, or_false] at hx
      rcases hx with rfl | rfl | rfl
      · exact h2.upper _ (by simp)
      · exact h1.upper _ (by simp)
      · exact ba.least _ fun x hx => h2.upper _ (List.mem_cons_of_mem _ hx)
    · rcases List.mem_cons.1 hx with rfl | hx
      · exact hs' _ (by simp)
      · exact (ba.upper _ hx).trans (hs' _ (by simp))
  have esb : sb = s := by
    refine k2.unique ⟨fun x hx => ?_, fun s' hs' => h1.least _ fun x hx => ?_⟩
    · simp only [List.mem_cons, List.not_mem_nil, or_false] at hx
      rcases hx with rfl | rfl | rfl
      · exact h2.upper _ (by simp)
      · exact h1.upper _ (by simp)
      · exact bb.least _ fun x hx => h1.upper _ (List.mem_cons_of_mem _ hx)
    · rcases List.mem_cons.1 hx with rfl | hx
      · exact hs' _ (by simp)
      · exact (bb.upper _ hx).trans (hs' _ (by simp))
  obtain ⟨M, eM, sM, fM, hM⟩ := k3 (esa.trans esb.symm)
  rw [esa] at sM
  obtain ⟨P, eP, bP, rP, jP, lP, hP⟩ := polarizationTermsBatch_ok lb eb.lastComplete hj hy hz
  obtain ⟨X, eX, rX⟩ := Batch.solve_to (t := t) fM.broadcasts bP (by rw [fM.rank]; exact rP)
  set A : Amplitudes n m := X.map fun x => .ok (Matrix.of fun i c => x (.inl i) c) with hA
  set B : Amplitudes n m := X.map fun x => .ok (Matrix.of fun i c => x (.inr i) c) with hB
  have bA : BroadcastsTo A.shape t := rX.broadcasts
  have bB : BroadcastsTo B.shape t := rX.broadcasts
  have times := fun {x : Batch (ModeMatrix (Fin n))} (hx : Fits t r x) {y : Amplitudes n m} (hy : BroadcastsTo y.shape t) =>
    Batch.zip_to (t := t) (fun (x : ModeMatrix (Fin n)) (y : Matrix (Fin n ⊕ Fin n) (Fin m) ℂ) => .ok (x * y)) hx.broadcasts hy
  obtain ⟨B0, eB0, rB0⟩ := times hb.s22 bB
  obtain ⟨A1, eA1, rA1⟩ := times hb.s12 bB
  obtain ⟨B1, eB1, rB1⟩ := times ha.s21 bA
  obtain ⟨AN, eAN, rAN⟩ := times ha.s11 bA
  have sX : BroadcastsTo s X.shape := sM ▸ rX.left
  have ub : ∀ {z : List ℕ}, z = before.s11.shape → BroadcastsTo z X.shape := by
    rintro z rfl
    exact (eb.s11.least _ fun x hx => h1.upper _ (List.mem_cons_of_mem _ hx)).trans sX
  have ua : ∀ {z : List ℕ}, z = after.s11.shape → BroadcastsTo z X.shape := by
    rintro z rfl
    exact (ea.s11.least _ fun x hx => h2.upper _ (List.mem_cons_of_mem _ hx)).trans sX
  refine ⟨{ backward0End := B0, forwardBeforeStart := A1, backwardBeforeEnd := B, forwardAfterStart := A, backwardAfterEnd := B1,
            forwardNStart := AN }, X.shape, ?_, ⟨fun x hx => ?_, fun s' hs' => ?_⟩, rX.broadcasts, ⟨?_, ?_, rfl, rfl, ?_, ?_⟩, ?_⟩
  · unfold amplitudesForSourceBatch
    simp only [bind_eq_ok, ok_inj]
    exact ⟨P, eP, M, eM, X, eX, B0, eB0, A1, eA1, B1, eB1, AN, eAN, rfl⟩
  · simp only [List.mem_cons, List.not_mem_nil, or_false] at hx
    rcases hx with rfl | rfl
    exacts [sX, jP.trans rX.right]
  · have q1 := hs' s (by simp)
    exact rX.least (sM ▸ q1) (lP _ ((h2.upper _ (by simp)).trans q1) (hs' _ (by simp)))
  · exact (rB0.least (ub eb.s22) (.refl _)).antisymm rB0.right
  · exact (rA1.least (ub eb.s12) (.refl _)).antisymm rA1.right
  · exact (rB1.least (ua ea.s21) (.refl _)).antisymm rB1.right
  · exact (rAN.least (ua rfl) (.refl _)).antisymm rAN.right
  · intro i x y a b c hi hx hy' hja hjb hjc v
    have hil := validIndex_length hi
    obtain ⟨x1, x2, x3, x4, x5, x6, x7, x8⟩ := BatchScatteringMatrix.elementAt_ok.1 hx
    obtain ⟨y1, y2, y3, y4, y5, y6, y7, y8⟩ := BatchScatteringMatrix.elementAt_ok.1 hy'
    have eXi : SameOk (X.elementAt i) (do
        let pol ← polarizationTerms a b c x.endLayer
        let matrix ← emissionMatrix x y
        solve matrix pol) := by
      rw [rX.element i hil]
      rcases (hM i x y hi hx hy').cases with ⟨z, hz1, hz2⟩ | ⟨e, e', hz1, hz2⟩ <;>
        rcases (hP i _ a b c hi x6 hja hjb hjc).cases with ⟨w, hw1, hw2⟩ | ⟨f, f', hw1, hw2⟩ <;> rw [hz1, hz2, hw1, hw2]
      · exact SameOk.rfl
      all_goals exact SameOk.errors
    have rest : ∀ w, X.elementAt i = .ok w → A.elementAt i = .ok (Matrix.of fun i c => w (.inl i) c) ∧
        B.elementAt i = .ok (Matrix.of fun i c => w (.inr i) c) ∧
        B0.elementAt i = .ok (x.s22 * Matrix.of fun i c => w (.inr i) c) ∧
        A1.elementAt i = .ok (x.s12 * Matrix.of fun i c => w (.inr i) c) ∧
        B1.elementAt i = .ok (y.s21 * Matrix.of fun i c => w (.inl i) c) ∧
        AN.elementAt i = .ok (y.s11 * Matrix.of fun i c => w (.inl i) c) := by
      intro w hw
      have hAi : A.elementAt i = .ok (Matrix.of fun i c => w (.inl i) c) := by rw [hA, Batch.elementAt_map, hw]; rfl
      have hBi : B.elementAt i = .ok (Matrix.of fun i c => w (.inr i) c) := by rw [hB, Batch.elementAt_map, hw]; rfl
      refine ⟨hAi, hBi, ?_, ?_, ?_, ?_⟩
      · rw [rB0.element i hil, x4, hBi]; rfl
      · rw [rA1.element i hil, x2, hBi]; rfl
      · rw [rB1.element i hil, y3, hAi]; rfl
      · rw [rAN.element i hil, y1, hAi]; rfl
    unfold amplitudesForSource
    have e1 := fun w => eXi w
    simp only [bind_eq_ok, ok_inj] at e1 ⊢
    constructor
    · intro hv
      cases hw : X.elementAt i with
      | error e =>
        have := hv.forwardAfterStart
        simp only [hA, Batch.elementAt_map, hw] at this
        cases this
      | ok w =>
        obtain ⟨g1, g2, g3, g4, g5, g6⟩ := rest w hw
        obtain ⟨pol, hpol, mat, hmat, hsol⟩ := (e1 w).1 hw
        refine ⟨pol, hpol, mat, hmat, w, hsol, ?_⟩
        obtain ⟨v1, v2, v3, v4, v5, v6⟩ := v
        have q1 := ok_inj.1 (g3.symm.trans hv.backward0End)
        have q2 := ok_inj.1 (g4.symm.trans hv.forwardBeforeStart)
        have q3 := ok_inj.1 (g2.symm.trans hv.backwardBeforeEnd)
        have q4 := ok_inj.1 (g1.symm.trans hv.forwardAfterStart)
        have q5 := ok_inj.1 (g5.symm.trans hv.backwardAfterEnd)
        have q6 := ok_inj.1 (g6.symm.trans hv.forwardNStart)
        simp only at q1 q2 q3 q4 q5 q6
        rw [← q1, ← q2, ← q3, ← q4, ← q5, ← q6]
    · rintro ⟨pol, hpol, mat, hmat, w, hsol, rfl⟩
      obtain ⟨g1, g2, g3, g4, g5, g6⟩ := rest w ((e1 w).2 ⟨pol, hpol, mat, hmat, hsol⟩)
      exact ⟨g3, g4, g2, g1, g5, g6⟩

/-- The scattering matrix of a stack has the batch shape to which all layers are broadcast, and its outer layers. -/
theorem appendLoopBatch_exact (L : List (BatchLayer n × ℝ)) (hL : ∀ x ∈ L, (∃ lat, LayerFits t r lat x.1) ∧ LayerComplete x.1)
    {shapes : List (List ℕ)} {s S : BatchScatteringMatrix n} (h : SMatrixFits t r s) (he : SMatrixExact shapes s)
    (hS : appendLoopBatch s L = .ok S) :
    SMatrixExact (shapes ++ L.map fun x => x.1.eigenvectors.shape) S ∧ S.startLayer = s.startLayer ∧
      (L.map Prod.fst).getLast?.getD s.endLayer = S.endLayer := by
  induction L generalizing s shapes with
  | nil =>
    obtain rfl := ok_inj.1 hS
    exact ⟨by simpa using he, rfl, rfl⟩
  | cons x L ih =>
    obtain ⟨l, d⟩ := x
    obtain ⟨⟨lat, hl⟩, hc⟩ := hL (l, d) (by simp)
    unfold appendLoopBatch at hS
    obtain ⟨s', hs', hS⟩ := bind_eq_ok.1 hS
    obtain ⟨s2, e2, f2, g1, g2, -⟩ := appendLayerBatch_ok h hl d
    obtain rfl := ok_inj.1 (hs'.symm.trans e2)
    obtain ⟨q1, q2, q3⟩ := ih (fun x hx => hL x (List.mem_cons_of_mem _ hx)) f2 (appendLayerBatch_exact h he hl hc hs') hS
    refine ⟨q1.congr fun x => ?_, q2.trans g1, ?_⟩
    · simp only [List.cons_append, List.mem_cons, List.mem_append, List.map_cons]
      tauto
    · rw [← q3, g2]
      cases L with
      | nil => rfl
      | cons y L => simp [List.getLast?_cons]

theorem stackSMatrixBatch_exact {layers : List (BatchLayer n)} {thicknesses : List ℝ} (hlen : layers.length = thicknesses.length)
    (h : ∀ l ∈ layers, (∃ lat, LayerFits t r lat l) ∧ LayerComplete l) {S : BatchScatteringMatrix n}
    (hS : stackSMatrixBatch layers thicknesses = .ok S) :
    SMatrixExact (layers.map fun l => l.eigenvectors.shape) S ∧ layers.head? = some S.startLayer ∧
      layers.getLast? = some S.endLayer := by
  unfold stackSMatrixBatch at hS
  rw [if_neg (not_not.2 hlen)] at hS
  match layers, thicknesses, hlen, h with
  | [], [], _, h => cases hS
  | [l], [d], _, h =>
    obtain rfl := ok_inj.1 hS
    exact ⟨identitySMatrixBatch_exact (h l (by simp)).2 d, rfl, rfl⟩
  | l0 :: l1 :: rest, d0 :: d1 :: ds, hlen, h =>
    obtain ⟨⟨lat0, h0⟩, c0⟩ := h l0 (by simp)
    obtain ⟨⟨lat1, h1⟩, c1⟩ := h l1 (by simp)
    simp only [List.zip_cons_cons, bind_eq_ok] at hS
    obtain ⟨s1, hs1, hS⟩ := hS
    obtain ⟨s2, e2, f2, g1, g2, -⟩ := pairSMatrixBatch_ok h0 h1 d0 d1
    obtain rfl := ok_inj.1 (hs1.symm.trans e2)
    have hz : (rest.zip ds).map Prod.fst = rest := List.map_fst_zip (by simp at hlen; omega)
    obtain ⟨q1, q2, q3⟩ := appendLoopBatch_exact (rest.zip ds) (fun x hx => h x.1 (by
      simp only [List.mem_cons]
      exact Or.inr (Or.inr (List.of_mem_zip hx).1))) f2 (pairSMatrixBatch_exact h0 c0 h1 c1 hs1) hS
    have hz' : (rest.zip ds).map (fun x => x.1.eigenvectors.shape) = rest.map fun l => l.eigenvectors.shape := by
      conv_rhs => rw [← hz, List.map_map]
      rfl
    rw [hz] at q3
    rw [hz'] at q1
    refine ⟨q1.congr fun x => ?_, by rw [q2, g1]; rfl, ?_⟩
    · simp
      tauto
    · rw [← q3, g2]
      cases rest with
      | nil => rfl
      | cons y L => simp [List.getLast?_cons]

end Fmmax
