import Verif.Proofs.BatchFields3d
import Verif.Model.BatchAmplitudes

/-! `amplitudes_for_fields` with batch dimensions. -/

namespace Fmmax

open Spec

variable {t : List ℕ} {r n m : ℕ}

theorem processFieldBatch_ok {G : Fin n → ℤ × ℤ} {shape cells : ℕ × ℕ} (hv : validateShapeForExpansion shape G = .ok ())
    {phase : Batch (Fin (cells.1 * shape.1) × Fin (cells.2 * shape.2) → ℂ)} (hp : BroadcastsTo phase.shape t) {s : List ℕ}
    {field : Batch (ℕ → ℕ → Fin m → ℂ)} (hs : field.shape = s) (hst : BroadcastsTo s t) :
    ∃ y, processFieldBatch G shape cells phase field = .ok y ∧ broadcastShapes s phase.shape = some y.shape ∧
      BroadcastsTo y.shape t ∧
      ∀ i (x : LayerSolveResult (Fin n)), i.length = t.length → x.expansion = G →
        (phase.elementAt i = .ok fun p => let xy := unitCellCoordinates x.primitiveLatticeVectors shape cells p.1 p.2
          Complex.exp (Complex.I * (x.inPlaneWavevector.1 * xy.1 + x.inPlaneWavevector.2 * xy.2))) →
        ∀ f, field.elementAt i = .ok f → y.elementAt i = processField x shape cells f := by
  obtain ⟨c, ec, rc⟩ := Batch.zip_to (t := t) (fun (f : ℕ → ℕ → Fin m → ℂ) (phase : Fin (cells.1 * shape.1) × Fin (cells.2 * shape.2) → ℂ) =>
    (.ok fun c b => Matrix.of fun r s => f (flatIndex c.1 r) (flatIndex c.2 s) b / phase (flatIndex c.1 r, flatIndex c.2 s) :
      Res (Fin cells.1 × Fin cells.2 → Fin m → Matrix (Fin shape.1) (Fin shape.2) ℂ))) (a := field) (hs ▸ hst) hp
  refine ⟨c.map fun f => do
    let f ← allOk fun p : (Fin cells.1 × Fin cells.2) × Fin m => fft (f p.1 p.2) G
    .ok (Matrix.of fun i b => ∑ c, f (c, b) i), ?_, ?_, ?_, ?_⟩
  · unfold processFieldBatch
    rw [ec, hv]
    rfl
  · exact hs ▸ rc.shape
  · exact rc.broadcasts
  · intro i x hi hx hph f hf
    rw [Batch.elementAt_map, rc.element i hi, hf, hph]
    unfold processField
    rw [hx, hv]
    rfl

theorem amplitudesForFieldsBatch_ok {lat : LatticeVectors} {l : BatchLayer n} (h : LayerFits t r lat l) (hc : LayerComplete l)
    {N grid shape : ℕ × ℕ} {ex ey hx hy : Batch (ℕ → ℕ → Fin m → ℂ)} {s : List ℕ} (hst : BroadcastsTo s t) (hex : ex.shape = s)
    (hey : ey.shape = s) (hhx : hx.shape = s) (hhy : hy.shape = s) {axes : Option (ℤ × ℤ)}
    (hg : fieldGridShapes (s ++ [N.1, N.2, m]) (s ++ [N.1, N.2, m]) (s ++ [N.1, N.2, m]) (s ++ [N.1, N.2, m]) l.eigenvectors.shape axes =
      .ok (grid, shape)) (hN1 : N.1 = grid.1 * shape.1) (hN2 : N.2 = grid.2 * shape.2) (hg1 : 0 < grid.1) (hg2 : 0 < grid.2)
    (hv : validateShapeForExpansion shape l.expansion = .ok ()) :
    ∃ A B, amplitudesForFieldsBatch N ex ey hx hy l axes = .ok (A, B) ∧ IsBroadcastOf [l.eigenvectors.shape, s] A.shape ∧
      B.shape = A.shape ∧
      ∀ i x, ValidIndex t i → l.elementAt i = .ok x → ∀ fex fey fhx fhy, ex.elementAt i = .ok fex → ey.elementAt i = .ok fey →
        hx.elementAt i = .ok fhx → hy.elementAt i = .ok fhy → ∀ a b,
          (A.elementAt i = .ok a ∧ B.elementAt i = .ok b) ↔ amplitudesForFields N fex fey fhx fhy x grid = .ok (a, b) := by
  obtain ⟨xy, exy, sxy, hxy⟩ := unitCellCoordinatesBatch_ok h shape grid
  obtain ⟨K, hK1, hK2, hK3⟩ := h.inPlaneWavevector
  obtain ⟨sk, hk⟩ := vectorsOf_ok (t := t) hK1 hK2
  have hr : r ≤ t.length := by
    have := hK2.length_le
    omega
  obtain ⟨ph, eph, rph⟩ := Batch.zip_to (t := t) (fun (k : ℝ × ℝ) (xy : Fin (grid.1 * shape.1) × Fin (grid.2 * shape.2) → ℝ × ℝ) =>
    (.ok fun p => Complex.exp (Complex.I * (k.1 * (xy p).1 + k.2 * (xy p).2)) :
      Res (Fin (grid.1 * shape.1) × Fin (grid.2 * shape.2) → ℂ))) (a := vectorsOf l.inPlaneWavevector) (b := xy) (sk ▸ hK2)
      (sxy ▸ ones_broadcastsTo hr)
  obtain ⟨yex, e1, s1, b1, v1⟩ := processFieldBatch_ok hv rph.broadcasts hex hst
  obtain ⟨yey, e2, s2, b2, v2⟩ := processFieldBatch_ok hv rph.broadcasts hey hst
  obtain ⟨yhx, e3, s3, b3, v3⟩ := processFieldBatch_ok hv rph.broadcasts hhx hst
  obtain ⟨yhy, e4, s4, b4, v4⟩ := processFieldBatch_ok hv rph.broadcasts hhy hst
  have q2 : yex.shape = yey.shape := Option.some.inj (s1.symm.trans s2)
  have q3 : yhx.shape = yey.shape := Option.some.inj (s3.symm.trans s2)
  have q4 : yhy.shape = yhx.shape := Option.some.inj (s4.symm.trans s3)
  set minus : Batch (Matrix (Fin n) (Fin m) ℂ) := yey.map fun y => .ok (-y) with hminus
  obtain ⟨up, eup, sup, vup⟩ := Batch.concatRows_ok (a := minus) (b := yex) q2
  obtain ⟨lo, elo, slo, vlo⟩ := Batch.concatRows_ok (a := yhx) (b := yhy) q4
  have sup' : up.shape = yey.shape := sup
  obtain ⟨st, est, sst, vst⟩ := Batch.concatRows_ok (a := up) (b := lo) (slo.trans (q3.trans sup'.symm))
  obtain ⟨M, eM, sM, hM⟩ := fieldConversionMatrixBatch_ok h hc
  have sst' : st.shape = yey.shape := sst.trans sup'
  have hphl : r ≤ ph.shape.length := by
    rw [rph.rank, sxy, List.length_replicate]
    exact le_max_right _ _
  obtain ⟨w1, w2⟩ := broadcastShapes_bounds s2
  obtain ⟨A, eA, rA⟩ := Batch.solve_to (t := t) (a := M) (b := st) (sM ▸ h.eigenvectors.broadcasts) (sst' ▸ b2) (by
    rw [sM, h.eigenvectors.rank, sst']
    exact hphl.trans w2.length_le)
  have hphK : BroadcastsTo ph.shape l.eigenvectors.shape := by
    refine rph.least (sk ▸ hc.inPlaneWavevector K hK1) (sxy ▸ ones_broadcastsTo ?_)
    rw [h.eigenvectors.rank]
  refine ⟨A.rows fun i => .inl i, A.rows fun i => .inr i, ?_, ?_, ?_, ?_⟩
  · unfold amplitudesForFieldsBatch
    rw [hex, hey, hhx, hhy, hg]
    refine bind_eq_ok.2 ⟨_, rfl, ?_⟩
    dsimp only
    simp only [bind_eq_ok]
    exact ⟨xy, exy, ph, eph, yex, e1, yey, e2, yhx, e3, yhy, e4, up, eup, lo, elo, st, est, M, eM, A, eA, rfl⟩
  · refine ⟨fun s' hs' => ?_, fun s' hs' => ?_⟩
    · simp only [List.mem_cons, List.not_mem_nil, or_false] at hs'
      rcases hs' with rfl | rfl
      · exact sM ▸ rA.left
      · exact w1.trans (sst' ▸ rA.right)
    · refine rA.least (sM ▸ hs' _ (by simp)) (sst' ▸ ?_)
      obtain ⟨c', -, h'⟩ := Batch.zip_to (t := s') (fun (_ _ : Unit) => (.error .typeError : Res Unit))
        (a := { shape := s, get := fun _ => .error .typeError }) (b := { shape := ph.shape, get := fun _ => .error .typeError })
        (hs' s (by simp)) (hphK.trans (hs' _ (by simp)))
      have hsame : yey.shape = c'.shape := Option.some.inj (s2.symm.trans h'.shape)
      rw [hsame]
      exact h'.broadcasts
  · rfl
  · intro i x hi hx' fex fey fhx fhy h1 h2 h3 h4 a b
    have hil := validIndex_length hi
    have ea := BatchLayer.elementAt_ok hx'
    have eph' := rph.element i hil
    rw [hk i hil, hxy i x hil hx', ← ea.inPlaneWavevector] at eph'
    have k1 := v1 i x hil ea.expansion eph' fex h1
    have k2 := v2 i x hil ea.expansion eph' fey h2
    have k3 := v3 i x hil ea.expansion eph' fhx h3
    have k4 := v4 i x hil ea.expansion eph' fhy h4
    have hA := rA.element i hil
    rw [vst, vup, vlo, hminus, Batch.elementAt_map, k1, k2, k3, k4] at hA
    have hdiv : (N.1 / grid.1, N.2 / grid.2) = shape := by
      rw [hN1, hN2, Nat.mul_div_cancel_left _ hg1, Nat.mul_div_cancel_left _ hg2]
    unfold amplitudesForFields
    rw [if_neg (by omega), if_neg (by rw [hN1, hN2]; simp), hdiv]
    dsimp only
    rw [Batch.rows, Batch.rows, Batch.elementAt_map, Batch.elementAt_map, hA]
    generalize processField x shape grid fex = P1
    generalize processField x shape grid fey = P2
    generalize processField x shape grid fhx = P3
    generalize processField x shape grid fhy = P4
    cases P1 with
    | error e => cases P2 <;> rcases (hM i x hi hx').cases with ⟨y, hy', hy''⟩ | ⟨e, e', hy', hy''⟩ <;> rw [hy'] <;> simp [bind, Except.bind]
    | ok P1 =>
      cases P2 with
      | error e => rcases (hM i x hi hx').cases with ⟨y, hy', hy''⟩ | ⟨e, e', hy', hy''⟩ <;> rw [hy'] <;> simp [bind, Except.bind]
      | ok P2 =>
        cases P3 with
        | error e => rcases (hM i x hi hx').cases with ⟨y, hy', hy''⟩ | ⟨e, e', hy', hy''⟩ <;> rw [hy'] <;> simp [bind, Except.bind]
        | ok P3 =>
          cases P4 with
          | error e => rcases (hM i x hi hx').cases with ⟨y, hy', hy''⟩ | ⟨e, e', hy', hy''⟩ <;> rw [hy'] <;> simp [bind, Except.bind]
          | ok P4 =>
            rcases (hM i x hi hx').cases with ⟨y, hy', hy''⟩ | ⟨e, e', hy', hy''⟩
            · rw [hy', hy'']
              simp only [bind, Except.bind]
              cases solve y ((-P2).fromRows P1 |>.fromRows (P3.fromRows P4)) with
              | error e => simp
              | ok z => simp [Prod.mk.injEq]
            · rw [hy', hy'']
              simp [bind, Except.bind]

end Fmmax
