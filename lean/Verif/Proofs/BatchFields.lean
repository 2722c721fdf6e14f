import Verif.Proofs.BatchStack
import Verif.Model.BatchFields
import Verif.Spec.BatchFields

/-! Amplitudes, Poynting flux and fields with batch dimensions. -/

namespace Fmmax

open Spec

variable {α β γ : Type} {t : List ℕ} {r n m : ℕ}

/-- The result of an operation on two arrays with broadcasting, for arrays of any rank. -/
structure ZipTo (t : List ℕ) (f : α → β → Res γ) (a : Batch α) (b : Batch β) (c : Batch γ) : Prop where
  broadcasts : BroadcastsTo c.shape t
  shape : broadcastShapes a.shape b.shape = some c.shape
  left : BroadcastsTo a.shape c.shape
  right : BroadcastsTo b.shape c.shape
  element : ∀ i, i.length = t.length → c.elementAt i = (do
    let x ← a.elementAt i
    let y ← b.elementAt i
    f x y)

theorem Batch.zip_to (f : α → β → Res γ) {a : Batch α} {b : Batch β} (ha : BroadcastsTo a.shape t) (hb : BroadcastsTo b.shape t) :
    ∃ c, Batch.zip f a b = .ok c ∧ ZipTo t f a b c := by
  obtain ⟨c, h1, h2, h3, h4⟩ := zipWith_elementAt (fun x y => do
    let x ← x
    let y ← y
    f x y) ha hb
  exact ⟨c, h1, h2, h3, (broadcastShapes_bounds h3).1, (broadcastShapes_bounds h3).2, h4⟩

theorem ZipTo.rank {f : α → β → Res γ} {a : Batch α} {b : Batch β} {c : Batch γ} (h : ZipTo t f a b c) :
    c.shape.length = max a.shape.length b.shape.length := broadcastShapes_rank h.shape

theorem Batch.solve_to {p q : Type} [Fintype p] [DecidableEq p] {a : Batch (Matrix p p ℂ)} {b : Batch (Matrix p q ℂ)}
    (ha : BroadcastsTo a.shape t) (hb : BroadcastsTo b.shape t) (hr : a.shape.length ≤ b.shape.length) :
    ∃ c, a.solve b = .ok c ∧ ZipTo t Fmmax.solve a b c := by
  unfold Batch.solve
  rw [if_neg (by omega)]
  exact Batch.zip_to _ ha hb

/-- The least shape to which two shapes can be broadcast. -/
theorem ZipTo.least {f : α → β → Res γ} {a : Batch α} {b : Batch β} {c : Batch γ} (h : ZipTo t f a b c) {s : List ℕ}
    (ha : BroadcastsTo a.shape s) (hb : BroadcastsTo b.shape s) : BroadcastsTo c.shape s := by
  obtain ⟨c', -, h'⟩ := Batch.zip_to (fun (_ : α) (_ : β) => (.error .typeError : Res γ)) ha hb
  have := h'.shape
  rw [h.shape] at this
  rw [Option.some.inj this]
  exact h'.broadcasts

theorem LayerComplete.fits {lat : LatticeVectors} {l : BatchLayer n} (hc : LayerComplete l) (h : LayerFits t r lat l) :
    LayerFits l.eigenvectors.shape r lat l := by
  obtain ⟨K, hK1, hK2, hK3⟩ := h.inPlaneWavevector
  exact ⟨⟨hc.wavelength, h.wavelength.rank⟩, ⟨K, hK1, hc.inPlaneWavevector K hK1, hK3⟩, h.lattice,
    ⟨hc.eigenvalues ▸ .refl _, h.eigenvalues.rank⟩, ⟨.refl _, h.eigenvectors.rank⟩, ⟨hc.zPermittivity, h.zPermittivity.rank⟩,
    ⟨hc.inverseZPermittivity, h.inverseZPermittivity.rank⟩, ⟨hc.zPermeability, h.zPermeability.rank⟩,
    ⟨hc.inverseZPermeability, h.inverseZPermeability.rank⟩, ⟨hc.transversePermeability, h.transversePermeability.rank⟩⟩

theorem BatchLayer.elementAt_inverse {l : BatchLayer n} {i : List ℕ} {a : LayerSolveResult (Fin n)} (h : l.elementAt i = .ok a) :
    l.inverseZPermittivity.elementAt i = .ok a.inverseZPermittivityMatrix ∧
      l.inverseZPermeability.elementAt i = .ok a.inverseZPermeabilityMatrix := by
  unfold BatchLayer.elementAt at h
  simp only [bind_eq_ok, ok_inj] at h
  obtain ⟨q, hq, v, hv, z, hz, zi, hzi, m, -, mi, hmi, mt, hmt, rfl⟩ := h
  exact ⟨hzi, hmi⟩

theorem validateAmplitudes_ok (hn : 0 < n) (hm : 0 < m) (ht : ∀ d ∈ t, 0 < d) {a b : Amplitudes n m} (ha : BroadcastsTo a.shape t)
    (hb : BroadcastsTo b.shape t) : validateAmplitudesBatch a b = .ok () := by
  have p : ∀ d ∈ [2 * n, m], 0 < d := by
    intro d hd
    simp only [List.mem_cons, List.not_mem_nil, or_false] at hd
    omega
  refine (C76_amplitudes (a.shape ++ [2 * n, m]) [b.shape ++ [2 * n, m]] (2 * n) ?_).1 ⟨⟨_, _, rfl⟩, t ++ [2 * n, m], ?_⟩
  · intro s hs
    simp only [List.mem_cons, List.not_mem_nil, or_false] at hs
    rcases hs with rfl | rfl
    · exact positive_append (broadcastsTo_pos ha ht) p
    · exact positive_append (broadcastsTo_pos hb ht) p
  · have e : List.Forall₂ (fun a b : ℕ => a = 1 ∨ a = b) [2 * n, m] [2 * n, m] := List.forall₂_same.2 fun _ _ => Or.inr rfl
    intro s hs
    simp only [List.mem_cons, List.not_mem_nil, or_false] at hs
    rcases hs with rfl | rfl
    · exact ha.append e
    · exact hb.append e

/-! ### Amplitudes inside a stack -/

theorem amplitudesInteriorBatch_ok (hn : 0 < n) (hm : 0 < m) (ht : ∀ d ∈ t, 0 < d) {before after : BatchScatteringMatrix n}
    (hb : SMatrixFits t r before) (ha : SMatrixFits t r after) {a0 bN : Amplitudes n m} (h0 : BroadcastsTo a0.shape t)
    (hN : BroadcastsTo bN.shape t) :
    ∃ ai bi, amplitudesInteriorBatch before after a0 bN = .ok (ai, bi) ∧ BroadcastsTo ai.shape t ∧ bi.shape = ai.shape ∧
      IsBroadcastOf [before.s11.shape, before.s12.shape, after.s21.shape, after.s22.shape, a0.shape, bN.shape] ai.shape ∧
      ∀ i x y a b, ValidIndex t i → before.elementAt i = .ok x → after.elementAt i = .ok y → a0.elementAt i = .ok a →
        bN.elementAt i = .ok b → ∀ p q,
          (ai.elementAt i = .ok p ∧ bi.elementAt i = .ok q) ↔ amplitudesInterior x.toBlocks y.toBlocks a b = .ok (p, q) := by
  obtain ⟨X, eX, rX⟩ := Batch.zip_to (fun (x : ModeMatrix (Fin n)) (y : Matrix (Fin n ⊕ Fin n) (Fin m) ℂ) => .ok (x * y))
    hb.s11.broadcasts h0
  obtain ⟨Y0, eY0, rY0⟩ := Batch.zip_to (fun x y : ModeMatrix (Fin n) => .ok (x * y)) hb.s12.broadcasts ha.s22.broadcasts
  obtain ⟨Y, eY, rY⟩ := Batch.zip_to (fun (x : ModeMatrix (Fin n)) (y : Matrix (Fin n ⊕ Fin n) (Fin m) ℂ) => .ok (x * y))
    rY0.broadcasts hN
  obtain ⟨R, eR, rR⟩ := Batch.zip_to (fun x y : Matrix (Fin n ⊕ Fin n) (Fin m) ℂ => .ok (x + y)) rX.broadcasts rY.broadcasts
  obtain ⟨P, eP, rP⟩ := Batch.zip_to (fun x y : ModeMatrix (Fin n) => .ok (x * y)) hb.s12.broadcasts ha.s21.broadcasts
  set M : Batch (ModeMatrix (Fin n)) := P.map fun p => .ok (1 - p) with hM
  have hMt : BroadcastsTo M.shape t := rP.broadcasts
  obtain ⟨A, eA, rA⟩ := Batch.solve_to (q := Fin m) (b := R) hMt rR.broadcasts (by
    have h1 := rP.rank
    have h2 := rX.left.length_le
    have h3 := rR.left.length_le
    rw [hb.s12.rank, ha.s21.rank, max_self] at h1
    rw [hb.s11.rank] at h2
    show P.shape.length ≤ _
    omega)
  obtain ⟨U, eU, rU⟩ := Batch.zip_to (fun (x : ModeMatrix (Fin n)) (y : Matrix (Fin n ⊕ Fin n) (Fin m) ℂ) => .ok (x * y))
    ha.s21.broadcasts rA.broadcasts
  obtain ⟨V, eV, rV⟩ := Batch.zip_to (fun (x : ModeMatrix (Fin n)) (y : Matrix (Fin n ⊕ Fin n) (Fin m) ℂ) => .ok (x * y))
    ha.s22.broadcasts hN
  obtain ⟨B, eB, rB⟩ := Batch.zip_to (fun x y : Matrix (Fin n ⊕ Fin n) (Fin m) ℂ => .ok (x + y)) rU.broadcasts rV.broadcasts
  have b21 : BroadcastsTo after.s21.shape A.shape := rP.right.trans rA.left
  have b22 : BroadcastsTo after.s22.shape A.shape := ((rY0.right.trans rY.left).trans rR.right).trans rA.right
  have bN' : BroadcastsTo bN.shape A.shape := (rY.right.trans rR.right).trans rA.right
  refine ⟨A, B, ?_, rA.broadcasts, ?_, ⟨fun x hx => ?_, fun s' hs => ?_⟩, ?_⟩
  · unfold amplitudesInteriorBatch
    rw [validateAmplitudes_ok hn hm ht h0 hN]
    simp only [bind_eq_ok, ok_inj]
    exact ⟨(), trivial, X, eX, Y0, eY0, Y, eY, R, eR, P, eP, A, eA, U, eU, V, eV, B, eB, rfl⟩
  · exact (rB.least (rU.least b21 (.refl _)) (rV.least b22 bN')).antisymm (rU.right.trans rB.left)
  · simp only [List.mem_cons, List.not_mem_nil, or_false] at hx
    rcases hx with rfl | rfl | rfl | rfl | rfl | rfl
    exacts [(rX.left.trans rR.left).trans rA.right, rP.left.trans rA.left, b21, b22, (rX.right.trans rR.left).trans rA.right, bN']
  · have k1 := hs before.s11.shape (by simp)
    have k2 := hs before.s12.shape (by simp)
    have k3 := hs after.s21.shape (by simp)
    have k4 := hs after.s22.shape (by simp)
    have k5 := hs a0.shape (by simp)
    have k6 := hs bN.shape (by simp)
    exact rA.least (rP.least k2 k3) (rR.least (rX.least k1 k5) (rY.least (rY0.least k2 k4) k6))
  · intro i x y a b hi hx hy h0i hNi p q
    have hil := validIndex_length hi
    obtain ⟨x1, x2, x3, x4, -, -, -, -⟩ := BatchScatteringMatrix.elementAt_ok.1 hx
    obtain ⟨y1, y2, y3, y4, -, -, -, -⟩ := BatchScatteringMatrix.elementAt_ok.1 hy
    have eAi : A.elementAt i = solve (1 - x.s12 * y.s21) (x.s11 * a + x.s12 * y.s22 * b) := by
      rw [rA.element i hil, hM, Batch.elementAt_map, rP.element i hil, rR.element i hil, rX.element i hil, rY.element i hil,
        rY0.element i hil, x1, x2, y3, y4, h0i, hNi]
      rfl
    have eBi : B.elementAt i = (do
        let z ← A.elementAt i
        .ok (y.s21 * z + y.s22 * b)) := by
      rw [rB.element i hil, rU.element i hil, rV.element i hil, y3, y4, hNi]
      cases A.elementAt i <;> rfl
    rw [eBi, eAi]
    unfold amplitudesInterior
    simp only [bind_eq_ok, ok_inj, Prod.mk.injEq]
    constructor
    · rintro ⟨h1, z, h2, h3⟩
      exact ⟨p, h1, rfl, by rw [h1] at h2; cases h2; exact h3⟩
    · rintro ⟨z, h1, rfl, h3⟩
      exact ⟨h1, z, h1, h3⟩

theorem stackAmplitudesInteriorBatch_ok (hn : 0 < n) (hm : 0 < m) (ht : ∀ d ∈ t, 0 < d)
    (S : List (BatchScatteringMatrix n × BatchScatteringMatrix n)) (hS : ∀ x ∈ S, SMatrixFits t r x.1 ∧ SMatrixFits t r x.2)
    {a0 bN : Amplitudes n m} (h0 : BroadcastsTo a0.shape t) (hN : BroadcastsTo bN.shape t) :
    ∃ out, stackAmplitudesInteriorBatch a0 bN S = .ok out ∧
      List.Forall₂ (fun P x => BroadcastsTo x.1.shape t ∧ x.2.shape = x.1.shape ∧
        IsBroadcastOf [P.1.s11.shape, P.1.s12.shape, P.2.s21.shape, P.2.s22.shape, a0.shape, bN.shape] x.1.shape) S out ∧
      ∀ i, ValidIndex t i → ∀ a b, a0.elementAt i = .ok a → bN.elementAt i = .ok b → ∀ ss,
        List.Forall₂ (fun P p => P.1.elementAt i = .ok p.1 ∧ P.2.elementAt i = .ok p.2) S ss → ∀ out',
          List.Forall₂ (fun P p => P.1.elementAt i = .ok p.1 ∧ P.2.elementAt i = .ok p.2) out out' ↔
            stackAmplitudesInterior a b ss = .ok out' := by
  induction S with
  | nil =>
    refine ⟨[], rfl, .nil, fun i _ a b _ _ ss hss out' => ?_⟩
    cases hss
    constructor
    · intro h
      cases h
      rfl
    · intro h
      cases h
      exact .nil
  | cons s S ih =>
    obtain ⟨before, after⟩ := s
    obtain ⟨f1, f2⟩ := hS (before, after) (by simp)
    obtain ⟨ai, bi, e, ht1, ht2, ht3, hel⟩ := amplitudesInteriorBatch_ok hn hm ht f1 f2 h0 hN
    obtain ⟨out, eo, fo, ho⟩ := ih fun x hx => hS x (by simp [hx])
    refine ⟨(ai, bi) :: out, ?_, .cons ⟨ht1, ht2, ht3⟩ fo, fun i hi a b ha hb ss hss out' => ?_⟩
    · unfold stackAmplitudesInteriorBatch
      rw [e]
      simp only [bind, Except.bind]
      rw [eo]
    · cases hss with
      | @cons _ z _ ss hz hss =>
        obtain ⟨x, y⟩ := z
        have g1 := hel i x y a b hi hz.1 hz.2 ha hb
        have g2 := ho i hi a b ha hb ss hss
        unfold stackAmplitudesInterior
        simp only [bind_eq_ok, ok_inj]
        constructor
        · intro h
          cases h with
          | @cons _ w _ ws h1 h2 => exact ⟨w, (g1 w.1 w.2).1 h1, ws, (g2 ws).1 h2, rfl⟩
        · rintro ⟨w, h1, ws, h2, rfl⟩
          exact .cons ((g1 w.1 w.2).2 h1) ((g2 ws).2 h2)

/-! ### Poynting flux -/

theorem poyntingFluxAMatrixBatch_ok {lat : LatticeVectors} {l : BatchLayer n} (h : LayerFits t r lat l) (hc : LayerComplete l) :
    ∃ A, poyntingFluxAMatrixBatch l = .ok A ∧ A.shape = l.eigenvectors.shape ∧
      ∀ i a, ValidIndex t i → l.elementAt i = .ok a → SameOk (A.elementAt i) (poyntingFluxAMatrix a) := by
  obtain ⟨o, eo, fo, ho⟩ := BatchLayer.omegaScriptKMatrix_ok h
  obtain ⟨o', eo', fo', -⟩ := BatchLayer.omegaScriptKMatrix_ok (hc.fits h)
  obtain rfl := ok_inj.1 (eo.symm.trans eo')
  obtain ⟨X, eX, rX⟩ := Batch.zip_to (fun x y : ModeMatrix (Fin n) => .ok (x * y)) fo.broadcasts h.eigenvectors.broadcasts
  have fw : BroadcastsTo (angularFrequencyBatch l.wavelength).shape t := h.wavelength.broadcasts
  obtain ⟨Q, eQ, rQ⟩ := Batch.zip_to (fun (w : ℂ) (q : Fin n ⊕ Fin n → ℂ) => .ok fun i => w * q i) fw h.eigenvalues.broadcasts
  set D : Batch (ModeMatrix (Fin n)) := (Q.map recip).map fun v => .ok (diag v) with hD
  have fD : BroadcastsTo D.shape t := rQ.broadcasts
  obtain ⟨A, eA, rA⟩ := Batch.zip_to (fun x y : ModeMatrix (Fin n) => .ok (x * y)) rX.broadcasts fD
  refine ⟨A, ?_, ?_, fun i a hi ha => ?_⟩
  · unfold poyntingFluxAMatrixBatch
    simp only [bind_eq_ok]
    exact ⟨o, eo, X, eX, Q, eQ, eA⟩
  · refine (rA.least (rX.least fo'.broadcasts (.refl _)) ?_).antisymm (rX.right.trans rA.left)
    exact rQ.least hc.wavelength (hc.eigenvalues ▸ .refl _)
  · have hil := validIndex_length hi
    have ea := BatchLayer.elementAt_ok ha
    have ew : (angularFrequencyBatch l.wavelength).elementAt i = (do
        let o ← angularFrequency a.wavelength
        .ok (o : ℂ)) := by
      rw [ea.wavelength]
      rfl
    rw [rA.element i hil, rX.element i hil, hD, Batch.elementAt_map, Batch.elementAt_map, rQ.element i hil, ew, ea.eigenvalues,
      ea.eigenvectors]
    unfold poyntingFluxAMatrix
    rcases (ho i a hi ha).cases with ⟨x, hx, hx'⟩ | ⟨e, e', hx, hx'⟩ <;> rw [hx, hx']
    · cases angularFrequency a.wavelength with
      | error e => exact SameOk.errors
      | ok w =>
        simp only [bind, Except.bind]
        cases recip fun i => (w : ℂ) * a.eigenvalues i with
        | error e => exact SameOk.errors
        | ok v => exact SameOk.rfl
    · exact SameOk.errors

theorem eigenmodePoyntingFluxBatch_ok {lat : LatticeVectors} {l : BatchLayer n} (h : LayerFits t r lat l) (hc : LayerComplete l) :
    ∃ F, eigenmodePoyntingFluxBatch l = .ok F ∧ F.shape = l.eigenvalues.shape ∧
      ∀ i a, ValidIndex t i → l.elementAt i = .ok a → SameOk (F.elementAt i) (eigenmodePoyntingFlux a) := by
  obtain ⟨A, eA, sA, hA⟩ := poyntingFluxAMatrixBatch_ok h hc
  have fA : BroadcastsTo A.shape t := sA ▸ h.eigenvectors.broadcasts
  obtain ⟨X, eX, rX⟩ := Batch.zip_to (fun x y : ModeMatrix (Fin n) => .ok (Matrix.of fun i c => star (x i c) * y i c)) fA
    h.eigenvectors.broadcasts
  obtain ⟨Y, eY, rY⟩ := Batch.zip_to (fun x y : ModeMatrix (Fin n) => .ok (Matrix.of fun i c => star (x i c) * y i c))
    h.eigenvectors.broadcasts fA
  obtain ⟨S, eS, rS⟩ := Batch.zip_to (fun x y : ModeMatrix (Fin n) => .ok (x + y)) rX.broadcasts rY.broadcasts
  have sS : S.shape = l.eigenvectors.shape := by
    refine (rS.least (rX.least (sA ▸ .refl _) (.refl _)) (rY.least (.refl _) (sA ▸ .refl _))).antisymm (rX.right.trans rS.left)
  refine ⟨S.halfReal.map fun s => .ok fun j => ∑ i, s i j, ?_, ?_, fun i a hi ha => ?_⟩
  · unfold eigenmodePoyntingFluxBatch
    simp only [bind_eq_ok]
    refine ⟨A, eA, X, eX, Y, eY, S, eS, ?_⟩
    rw [if_pos]
    show S.shape = _
    rw [sS, hc.eigenvalues]
  · show S.shape = _
    rw [sS, hc.eigenvalues]
  · have hil := validIndex_length hi
    have ea := BatchLayer.elementAt_ok ha
    unfold Batch.halfReal eigenmodePoyntingFlux
    rw [Batch.elementAt_map, Batch.elementAt_map, rS.element i hil, rX.element i hil, rY.element i hil, ea.eigenvectors]
    rcases (hA i a hi ha).cases with ⟨x, hx, hx'⟩ | ⟨e, e', hx, hx'⟩ <;> rw [hx, hx']
    · exact SameOk.rfl
    · exact SameOk.errors

theorem isBroadcastOf_of {shapes : List (List ℕ)} {s : List ℕ} (h1 : ∀ x ∈ shapes, BroadcastsTo x s)
    (h2 : ∀ s', (∀ x ∈ shapes, BroadcastsTo x s') → BroadcastsTo s s') : IsBroadcastOf shapes s := ⟨h1, h2⟩

/-- `amplitude_poynting_flux` at every batch index. -/
theorem amplitudePoyntingFluxBatch_ok (hn : 0 < n) (hm : 0 < m) (ht : ∀ d ∈ t, 0 < d) {lat : LatticeVectors} {l : BatchLayer n}
    (h : LayerFits t r lat l) (hc : LayerComplete l) {a b : Amplitudes n m} (ha : BroadcastsTo a.shape t)
    (hb : BroadcastsTo b.shape t) :
    ∃ F B, amplitudePoyntingFluxBatch a b l = .ok (F, B) ∧ IsBroadcastOf [l.eigenvectors.shape, a.shape, b.shape] F.shape ∧
      B.shape = F.shape ∧
      ∀ i x p q, ValidIndex t i → l.elementAt i = .ok x → a.elementAt i = .ok p → b.elementAt i = .ok q → ∀ f g,
        (F.elementAt i = .ok f ∧ B.elementAt i = .ok g) ↔ amplitudePoyntingFlux p q x = .ok (f, g) := by
  obtain ⟨A, eA, sA, hA⟩ := poyntingFluxAMatrixBatch_ok h hc
  have fA : BroadcastsTo A.shape t := sA ▸ h.eigenvectors.broadcasts
  have mul := fun {x : Batch (ModeMatrix (Fin n))} {y : Amplitudes n m} (hx : BroadcastsTo x.shape t) (hy : BroadcastsTo y.shape t) =>
    Batch.zip_to (fun (x : ModeMatrix (Fin n)) (y : Matrix (Fin n ⊕ Fin n) (Fin m) ℂ) => .ok (x * y)) hx hy
  have cm := fun {x y : Amplitudes n m} (hx : BroadcastsTo x.shape t) (hy : BroadcastsTo y.shape t) =>
    Batch.zip_to (fun x y : Matrix (Fin n ⊕ Fin n) (Fin m) ℂ => .ok (Matrix.of fun i c => star (x i c) * y i c)) hx hy
  have add := fun {x y : Amplitudes n m} (hx : BroadcastsTo x.shape t) (hy : BroadcastsTo y.shape t) =>
    Batch.zip_to (fun x y : Matrix (Fin n ⊕ Fin n) (Fin m) ℂ => .ok (x + y)) hx hy
  have sub := fun {x y : Amplitudes n m} (hx : BroadcastsTo x.shape t) (hy : BroadcastsTo y.shape t) =>
    Batch.zip_to (fun x y : Matrix (Fin n ⊕ Fin n) (Fin m) ℂ => .ok (x - y)) hx hy
  obtain ⟨aH, eaH, raH⟩ := mul h.eigenvectors.broadcasts ha
  obtain ⟨bH, ebH, rbH⟩ := mul h.eigenvectors.broadcasts hb
  obtain ⟨aE, eaE, raE⟩ := mul fA ha
  obtain ⟨bE, ebE, rbE⟩ := mul fA hb
  obtain ⟨X, eX, rX⟩ := cm raE.broadcasts raH.broadcasts
  obtain ⟨Y, eY, rY⟩ := cm raH.broadcasts raE.broadcasts
  obtain ⟨XY, eXY, rXY⟩ := add rX.broadcasts rY.broadcasts
  obtain ⟨P, eP, rP⟩ := cm rbH.broadcasts raE.broadcasts
  obtain ⟨Q, eQ, rQ⟩ := cm rbE.broadcasts raH.broadcasts
  obtain ⟨PQ, ePQ, rPQ⟩ := sub rP.broadcasts rQ.broadcasts
  obtain ⟨F, eF, rF⟩ := add rXY.broadcasts rPQ.broadcasts
  obtain ⟨U, eU, rU⟩ := cm rbE.broadcasts rbH.broadcasts
  obtain ⟨V, eV, rV⟩ := cm rbH.broadcasts rbE.broadcasts
  obtain ⟨UV, eUV, rUV⟩ := add rU.broadcasts rV.broadcasts
  obtain ⟨B, eB, rB⟩ := add (x := UV.map fun x => .ok (-x)) (y := PQ.map fun x => .ok (Matrix.of fun i c => star (x i c)))
    rUV.broadcasts rPQ.broadcasts
  have up : ∀ s', BroadcastsTo l.eigenvectors.shape s' → BroadcastsTo a.shape s' → BroadcastsTo b.shape s' →
      BroadcastsTo F.shape s' ∧ BroadcastsTo B.shape s' := by
    intro s' hl ha hb
    have hA' : BroadcastsTo A.shape s' := sA ▸ hl
    have kaH := raH.least hl ha
    have kbH := rbH.least hl hb
    have kaE := raE.least hA' ha
    have kbE := rbE.least hA' hb
    have kPQ := rPQ.least (rP.least kbH kaE) (rQ.least kbE kaH)
    exact ⟨rF.least (rXY.least (rX.least kaE kaH) (rY.least kaH kaE)) kPQ,
      rB.least (rUV.least (rU.least kbE kbH) (rV.least kbH kbE)) kPQ⟩
  have kP : BroadcastsTo P.shape PQ.shape := rPQ.left
  have lF : BroadcastsTo PQ.shape F.shape := rF.right
  have lB : BroadcastsTo PQ.shape B.shape := rB.right
  have l1 : BroadcastsTo l.eigenvectors.shape PQ.shape := (rbH.left.trans rP.left).trans kP
  have l2 : BroadcastsTo a.shape PQ.shape := (raE.right.trans rP.right).trans kP
  have l3 : BroadcastsTo b.shape PQ.shape := (rbH.right.trans rP.left).trans kP
  have hF := up _ l1 l2 l3
  refine ⟨F.halfReal, B.halfReal, ?_, ⟨?_, fun s' hs => (up s' (hs _ (by simp)) (hs _ (by simp)) (hs _ (by simp))).1⟩, ?_, ?_⟩
  · unfold amplitudePoyntingFluxBatch
    rw [validateAmplitudes_ok hn hm ht ha hb]
    simp only [bind_eq_ok, ok_inj]
    exact ⟨(), trivial, aH, eaH, bH, ebH, A, eA, aE, eaE, bE, ebE, X, eX, Y, eY, XY, eXY, P, eP, Q, eQ, PQ, ePQ, F, eF, U, eU, V, eV,
      UV, eUV, B, eB, rfl⟩
  · intro s hs
    simp only [List.mem_cons, List.not_mem_nil, or_false] at hs
    rcases hs with rfl | rfl | rfl
    · exact l1.trans lF
    · exact l2.trans lF
    · exact l3.trans lF
  · exact (hF.2.trans lF).antisymm (hF.1.trans lB)
  · intro i x p q hi hx hp hq f g
    have hil := validIndex_length hi
    have ea := BatchLayer.elementAt_ok hx
    unfold Batch.halfReal amplitudePoyntingFlux
    rw [Batch.elementAt_map, Batch.elementAt_map, rF.element i hil, rB.element i hil, Batch.elementAt_map, Batch.elementAt_map,
      rXY.element i hil, rPQ.element i hil, rUV.element i hil, rX.element i hil, rY.element i hil, rP.element i hil,
      rQ.element i hil, rU.element i hil, rV.element i hil, raH.element i hil, rbH.element i hil, raE.element i hil,
      rbE.element i hil, ea.eigenvectors, hp, hq]
    rcases (hA i x hi hx).cases with ⟨y, hy, hy'⟩ | ⟨e, e', hy, hy'⟩ <;> rw [hy, hy']
    · simp only [bind, Except.bind, Except.ok.injEq, Prod.mk.injEq]
      exact Iff.rfl
    · simp [bind, Except.bind]

/-- One term of `directional_poynting_flux` at every batch index. -/
theorem poyntingFluxSubsetBatch_ok {L : List ℕ} {A phi : Batch (ModeMatrix (Fin n))} {a b a' b' : Amplitudes n m}
    (sA : A.shape = L) (sphi : phi.shape = L) (hL : BroadcastsTo L t) (ha : BroadcastsTo a.shape t) (hb : BroadcastsTo b.shape t)
    (ha' : BroadcastsTo a'.shape t) (hb' : BroadcastsTo b'.shape t) :
    ∃ S, poyntingFluxSubsetBatch A phi a b a' b' = .ok S ∧ IsBroadcastOf [L, a.shape, b.shape, a'.shape, b'.shape] S.shape ∧
      ∀ i x y, ValidIndex t i → a.elementAt i = .ok x → b.elementAt i = .ok y →
        (∀ w v x' y', A.elementAt i = .ok w → phi.elementAt i = .ok v → a'.elementAt i = .ok x' → b'.elementAt i = .ok y' →
          S.elementAt i = .ok (Matrix.of fun i c => (poyntingFluxSubset w v x y x' y' i c).re)) ∧
        ∀ e, A.elementAt i = .error e → S.elementAt i = .error e := by
  have mul := fun {x : Batch (ModeMatrix (Fin n))} {y : Amplitudes n m} (hx : BroadcastsTo x.shape t) (hy : BroadcastsTo y.shape t) =>
    Batch.zip_to (fun (x : ModeMatrix (Fin n)) (y : Matrix (Fin n ⊕ Fin n) (Fin m) ℂ) => .ok (x * y)) hx hy
  have cm := fun {x y : Amplitudes n m} (hx : BroadcastsTo x.shape t) (hy : BroadcastsTo y.shape t) =>
    Batch.zip_to (fun x y : Matrix (Fin n ⊕ Fin n) (Fin m) ℂ => .ok (Matrix.of fun i c => star (x i c) * y i c)) hx hy
  have add := fun {x y : Amplitudes n m} (hx : BroadcastsTo x.shape t) (hy : BroadcastsTo y.shape t) =>
    Batch.zip_to (fun x y : Matrix (Fin n ⊕ Fin n) (Fin m) ℂ => .ok (x + y)) hx hy
  have sub := fun {x y : Amplitudes n m} (hx : BroadcastsTo x.shape t) (hy : BroadcastsTo y.shape t) =>
    Batch.zip_to (fun x y : Matrix (Fin n ⊕ Fin n) (Fin m) ℂ => .ok (x - y)) hx hy
  have fA : BroadcastsTo A.shape t := sA ▸ hL
  have fphi : BroadcastsTo phi.shape t := sphi ▸ hL
  obtain ⟨X, eX, rX⟩ := sub ha hb
  obtain ⟨AX, eAX, rAX⟩ := mul fA rX.broadcasts
  obtain ⟨Y, eY, rY⟩ := add ha' hb'
  obtain ⟨AY, eAY, rAY⟩ := mul fphi rY.broadcasts
  obtain ⟨XY, eXY, rXY⟩ := cm rAX.broadcasts rAY.broadcasts
  obtain ⟨U, eU, rU⟩ := add ha hb
  obtain ⟨AU, eAU, rAU⟩ := mul fphi rU.broadcasts
  obtain ⟨V, eV, rV⟩ := sub ha' hb'
  obtain ⟨AV, eAV, rAV⟩ := mul fA rV.broadcasts
  obtain ⟨UV, eUV, rUV⟩ := cm rAU.broadcasts rAV.broadcasts
  obtain ⟨S, eS, rS⟩ := add rXY.broadcasts rUV.broadcasts
  have lX : BroadcastsTo AX.shape S.shape := rXY.left.trans rS.left
  have lY : BroadcastsTo AY.shape S.shape := rXY.right.trans rS.left
  refine ⟨S.halfReal, ?_, ⟨?_, fun s' hs => ?_⟩, ?_⟩
  · unfold poyntingFluxSubsetBatch
    simp only [bind_eq_ok, ok_inj]
    exact ⟨X, eX, AX, eAX, Y, eY, AY, eAY, XY, eXY, U, eU, AU, eAU, V, eV, AV, eAV, UV, eUV, S, eS, rfl⟩
  · intro s hs
    simp only [List.mem_cons, List.not_mem_nil, or_false] at hs
    rcases hs with rfl | rfl | rfl | rfl | rfl
    · exact sA ▸ rAX.left.trans lX
    · exact (rX.left.trans rAX.right).trans lX
    · exact (rX.right.trans rAX.right).trans lX
    · exact (rY.left.trans rAY.right).trans lY
    · exact (rY.right.trans rAY.right).trans lY
  · have k0 := hs L (by simp)
    have k1 := hs a.shape (by simp)
    have k2 := hs b.shape (by simp)
    have k3 := hs a'.shape (by simp)
    have k4 := hs b'.shape (by simp)
    exact rS.least (rXY.least (rAX.least (sA ▸ k0) (rX.least k1 k2)) (rAY.least (sphi ▸ k0) (rY.least k3 k4)))
      (rUV.least (rAU.least (sphi ▸ k0) (rU.least k1 k2)) (rAV.least (sA ▸ k0) (rV.least k3 k4)))
  · intro i x y hi hx hy
    have hil := validIndex_length hi
    unfold Batch.halfReal
    rw [Batch.elementAt_map, rS.element i hil, rXY.element i hil, rUV.element i hil, rAX.element i hil, rAY.element i hil,
      rAU.element i hil, rAV.element i hil, rX.element i hil, rY.element i hil, rU.element i hil, rV.element i hil, hx, hy]
    constructor
    · intro w v x' y' hw hv hx' hy'
      rw [hw, hv, hx', hy']
      rfl
    · intro e he
      rw [he]
      rfl

/-- `directional_poynting_flux` at every batch index. -/
theorem directionalPoyntingFluxBatch_ok {lat : LatticeVectors} {l : BatchLayer n} (h : LayerFits t r lat l) (hc : LayerComplete l)
    {a b : Amplitudes n m} (ha : BroadcastsTo a.shape t) (hb : BroadcastsTo b.shape t) :
    ∃ F B, directionalPoyntingFluxBatch a b l = .ok (F, B) ∧ IsBroadcastOf [l.eigenvectors.shape, a.shape, b.shape] F.shape ∧
      B.shape = F.shape ∧
      ∀ i x p q, ValidIndex t i → l.elementAt i = .ok x → a.elementAt i = .ok p → b.elementAt i = .ok q → ∀ f g,
        (F.elementAt i = .ok f ∧ B.elementAt i = .ok g) ↔ directionalPoyntingFlux p q x = .ok (f, g) := by
  obtain ⟨A, eA, sA, hA⟩ := poyntingFluxAMatrixBatch_ok h hc
  obtain ⟨φ, eφ, sφ, hφ⟩ := eigenmodePoyntingFluxBatch_ok h hc
  have sφL : φ.shape = l.eigenvectors.shape := sφ.trans hc.eigenvalues
  have fφ : BroadcastsTo φ.shape t := sφL ▸ h.eigenvectors.broadcasts
  have mask := fun (P : ℝ → Prop) {y : Amplitudes n m} (hy : BroadcastsTo y.shape t) =>
    Batch.zip_to (fun (f : Fin n ⊕ Fin n → ℝ) (x : Matrix (Fin n ⊕ Fin n) (Fin m) ℂ) => .ok (maskRows (fun i => P (f i)) x)) fφ hy
  obtain ⟨aF, eaF, raF⟩ := mask (fun f => 0 < f) ha
  obtain ⟨aB, eaB, raB⟩ := mask (fun f => ¬0 < f) ha
  obtain ⟨bF, ebF, rbF⟩ := mask (fun f => ¬0 < f) hb
  obtain ⟨bB, ebB, rbB⟩ := mask (fun f => 0 < f) hb
  obtain ⟨F, eF, sF, hF⟩ := poyntingFluxSubsetBatch_ok sA rfl h.eigenvectors.broadcasts ha hb raF.broadcasts rbF.broadcasts
  obtain ⟨B, eB, sB, hB⟩ := poyntingFluxSubsetBatch_ok sA rfl h.eigenvectors.broadcasts ha hb raB.broadcasts rbB.broadcasts
  have up : ∀ s', BroadcastsTo l.eigenvectors.shape s' → BroadcastsTo a.shape s' → BroadcastsTo b.shape s' →
      BroadcastsTo F.shape s' ∧ BroadcastsTo B.shape s' := by
    intro s' hl ha hb
    have hφ' : BroadcastsTo φ.shape s' := sφL ▸ hl
    constructor
    · refine sF.least s' fun s hs => ?_
      simp only [List.mem_cons, List.not_mem_nil, or_false] at hs
      rcases hs with rfl | rfl | rfl | rfl | rfl
      exacts [hl, ha, hb, raF.least hφ' ha, rbF.least hφ' hb]
    · refine sB.least s' fun s hs => ?_
      simp only [List.mem_cons, List.not_mem_nil, or_false] at hs
      rcases hs with rfl | rfl | rfl | rfl | rfl
      exacts [hl, ha, hb, raB.least hφ' ha, rbB.least hφ' hb]
  refine ⟨F, B, ?_, ⟨?_, fun s' hs => (up s' (hs _ (by simp)) (hs _ (by simp)) (hs _ (by simp))).1⟩, ?_, ?_⟩
  · unfold directionalPoyntingFluxBatch
    simp only [bind_eq_ok, ok_inj]
    exact ⟨φ, eφ, aF, eaF, aB, eaB, bF, ebF, bB, ebB, A, eA, F, eF, B, eB, rfl⟩
  · intro s hs
    refine sF.upper s ?_
    simp only [List.mem_cons, List.not_mem_nil, or_false] at hs ⊢
    tauto
  · refine BroadcastsTo.antisymm ?_ ?_
    · exact (up _ (sF.upper _ (by simp)) (sF.upper _ (by simp)) (sF.upper _ (by simp))).2
    · exact (up _ (sB.upper _ (by simp)) (sB.upper _ (by simp)) (sB.upper _ (by simp))).1
  · intro i x p q hi hx hp hq f g
    have hil := validIndex_length hi
    have ea := BatchLayer.elementAt_ok hx
    obtain ⟨hF1, hF2⟩ := hF i p q hi hp hq
    obtain ⟨hB1, hB2⟩ := hB i p q hi hp hq
    unfold directionalPoyntingFlux
    rcases (hφ i x hi hx).cases with ⟨y, hy, hy'⟩ | ⟨e, e', hy, hy'⟩
    · have m1 := raF.element i hil
      have m2 := raB.element i hil
      have m3 := rbF.element i hil
      have m4 := rbB.element i hil
      rw [hy, hp] at m1 m2
      rw [hy, hq] at m3 m4
      rcases (hA i x hi hx).cases with ⟨z, hz, hz'⟩ | ⟨e, e', hz, hz'⟩
      · rw [hF1 z _ _ _ hz ea.eigenvectors m1 m3, hB1 z _ _ _ hz ea.eigenvectors m2 m4, hy', hz']
        simp only [bind, Except.bind, Except.ok.injEq, Prod.mk.injEq]
      · rw [hF2 e hz, hy', hz']
        simp [bind, Except.bind]
    · rcases (hA i x hi hx).cases with ⟨z, hz, hz'⟩ | ⟨e, e', hz, hz'⟩
      · exfalso
        unfold eigenmodePoyntingFlux at hy'
        rw [hz'] at hy'
        cases hy'
      · rw [hF2 e hz, hy']
        simp [bind, Except.bind]

/-! ### Fields -/

theorem Batch.concatRows_ok {p q c : Type} {a : Batch (Matrix p c ℂ)} {b : Batch (Matrix q c ℂ)} (h : b.shape = a.shape) :
    ∃ x, a.concatRows b = .ok x ∧ x.shape = a.shape ∧ ∀ i, x.elementAt i = (do
      let x ← a.elementAt i
      let y ← b.elementAt i
      .ok (Matrix.fromRows x y)) := by
  unfold Batch.concatRows
  rw [if_pos h.symm]
  refine ⟨_, rfl, rfl, fun i => ?_⟩
  unfold NDArray.elementAt
  rw [h]

theorem fieldConversionMatrixBatch_ok {lat : LatticeVectors} {l : BatchLayer n} (h : LayerFits t r lat l) (hc : LayerComplete l) :
    ∃ M, fieldConversionMatrixBatch l = .ok M ∧ M.shape = l.eigenvectors.shape ∧
      ∀ i a, ValidIndex t i → l.elementAt i = .ok a → SameOk (M.elementAt i) (fieldConversionMatrix a) := by
  obtain ⟨A, eA, sA, hA⟩ := poyntingFluxAMatrixBatch_ok h hc
  have fA : Fits t r A := ⟨sA ▸ h.eigenvectors.broadcasts, sA ▸ h.eigenvectors.rank⟩
  obtain ⟨M, eM, -, sM, hM⟩ := Batch.block_ok (b := A.map fun x => .ok (-x)) (c := l.eigenvectors) (d := l.eigenvectors) fA rfl
    sA.symm sA.symm
  refine ⟨M, ?_, sM.trans sA, fun i a hi ha => ?_⟩
  · unfold fieldConversionMatrixBatch
    simp only [bind_eq_ok]
    exact ⟨A, eA, eM⟩
  · unfold fieldConversionMatrix
    rw [hM, Batch.elementAt_map, (BatchLayer.elementAt_ok ha).eigenvectors]
    rcases (hA i a hi ha).cases with ⟨x, hx, hx'⟩ | ⟨e, e', hx, hx'⟩ <;> rw [hx, hx']
    · exact SameOk.rfl
    · exact SameOk.errors

theorem curlZBatch_ok {k : Batch (Fin n → ℝ × ℝ)} {x y : Batch (Matrix (Fin n) (Fin m) ℂ)} (hk : BroadcastsTo k.shape t)
    (hx : BroadcastsTo x.shape t) (hy : BroadcastsTo y.shape t) :
    ∃ z, curlZBatch k x y = .ok z ∧ IsBroadcastOf [k.shape, x.shape, y.shape] z.shape ∧
      ∀ i, i.length = t.length → ∀ u v w, k.elementAt i = .ok u → x.elementAt i = .ok v → y.elementAt i = .ok w →
        z.elementAt i = .ok (Matrix.of fun j c => Complex.I * kxOf u j * w j c - Complex.I * kyOf u j * v j c) := by
  obtain ⟨U, eU, rU⟩ := Batch.zip_to (fun (k : Fin n → ℝ × ℝ) (y : Matrix (Fin n) (Fin m) ℂ) =>
    .ok (Matrix.of fun i c => Complex.I * kxOf k i * y i c)) hk hy
  obtain ⟨V, eV, rV⟩ := Batch.zip_to (fun (k : Fin n → ℝ × ℝ) (x : Matrix (Fin n) (Fin m) ℂ) =>
    .ok (Matrix.of fun i c => Complex.I * kyOf k i * x i c)) hk hx
  obtain ⟨Z, eZ, rZ⟩ := Batch.zip_to (fun x y : Matrix (Fin n) (Fin m) ℂ => .ok (x - y)) rU.broadcasts rV.broadcasts
  refine ⟨Z, ?_, ⟨fun s hs => ?_, fun s' hs => ?_⟩, fun i hi u v w hu hv hw => ?_⟩
  · unfold curlZBatch
    simp only [bind_eq_ok]
    exact ⟨U, eU, V, eV, eZ⟩
  · simp only [List.mem_cons, List.not_mem_nil, or_false] at hs
    rcases hs with rfl | rfl | rfl
    exacts [rU.left.trans rZ.left, rV.right.trans rZ.right, rU.right.trans rZ.left]
  · exact rZ.least (rU.least (hs _ (by simp)) (hs _ (by simp))) (rV.least (hs _ (by simp)) (hs _ (by simp)))
  · rw [rZ.element i hi, rU.element i hi, rV.element i hi, hu, hv, hw]
    rfl

theorem fieldsFromWaveAmplitudesBatch_ok (hn : 0 < n) (hm : 0 < m) (ht : ∀ d ∈ t, 0 < d) {lat : LatticeVectors} {l : BatchLayer n}
    (h : LayerFits t r lat l) (hc : LayerComplete l) {a b : Amplitudes n m} (ha : BroadcastsTo a.shape t) (hab : b.shape = a.shape) :
    ∃ F s, fieldsFromWaveAmplitudesBatch a b l = .ok F ∧ IsBroadcastOf [l.eigenvectors.shape, a.shape] s ∧
      BatchFieldsShape F s ∧
      ∀ i x p q, ValidIndex t i → l.elementAt i = .ok x → a.elementAt i = .ok p → b.elementAt i = .ok q → ∀ f,
        BatchFieldsAt F i f ↔ fieldsFromWaveAmplitudes p q x = .ok f := by
  obtain ⟨M, eM, sM, hM⟩ := fieldConversionMatrixBatch_ok h hc
  have fM : BroadcastsTo M.shape t := sM ▸ h.eigenvectors.broadcasts
  obtain ⟨C, eC, sC, hC⟩ := Batch.concatRows_ok hab
  have fC : BroadcastsTo C.shape t := sC ▸ ha
  obtain ⟨D, eD, rD⟩ := Batch.zip_to (fun (x : Matrix ((Fin n ⊕ Fin n) ⊕ (Fin n ⊕ Fin n)) ((Fin n ⊕ Fin n) ⊕ (Fin n ⊕ Fin n)) ℂ)
    (y : Matrix ((Fin n ⊕ Fin n) ⊕ (Fin n ⊕ Fin n)) (Fin m) ℂ) => .ok (x * y)) fM fC
  obtain ⟨K, hK1, hK2, hK3⟩ := h.inPlaneWavevector
  obtain ⟨kt, ekt, -, skt, hkt⟩ := transverse_ok hK1 hK2 hK3 h.lattice l.expansion
  have fkt : BroadcastsTo (waveVectors (n := n) kt).shape t := skt ▸ hK2
  have lD : BroadcastsTo l.eigenvectors.shape D.shape := sM ▸ rD.left
  have lk : BroadcastsTo (waveVectors (n := n) kt).shape D.shape := skt ▸ (hc.inPlaneWavevector K hK1).trans lD
  set ney := D.rows fun i : Fin n => .inl (.inl i) with hney
  set ex := D.rows fun i : Fin n => .inl (.inr i) with hex
  set hx := D.rows fun i : Fin n => .inr (.inl i) with hhx
  set hy := D.rows fun i : Fin n => .inr (.inr i) with hhy
  set ey : Batch (Matrix (Fin n) (Fin m) ℂ) := ney.map fun x => .ok (-x) with hey
  have fD : BroadcastsTo D.shape t := rD.broadcasts
  obtain ⟨cH, ecH, scH, hcH⟩ := curlZBatch_ok (x := hx) (y := hy) fkt fD fD
  obtain ⟨cE, ecE, scE, hcE⟩ := curlZBatch_ok (x := ex) (y := ey) fkt fD fD
  have scH' : cH.shape = D.shape := by
    refine (scH.least _ fun s hs => ?_).antisymm (scH.upper hx.shape (by simp))
    simp only [List.mem_cons, List.not_mem_nil, or_false] at hs
    rcases hs with rfl | rfl | rfl
    exacts [lk, .refl _, .refl _]
  have scE' : cE.shape = D.shape := by
    refine (scE.least _ fun s hs => ?_).antisymm (scE.upper ex.shape (by simp))
    simp only [List.mem_cons, List.not_mem_nil, or_false] at hs
    rcases hs with rfl | rfl | rfl
    exacts [lk, .refl _, .refl _]
  have mul := fun {x : Batch (Matrix (Fin n) (Fin n) ℂ)} {y : Batch (Matrix (Fin n) (Fin m) ℂ)} (hx : BroadcastsTo x.shape t)
    (hy : BroadcastsTo y.shape t) => Batch.zip_to (fun (x : Matrix (Fin n) (Fin n) ℂ) (y : Matrix (Fin n) (Fin m) ℂ) => .ok (x * y)) hx hy
  have fw : BroadcastsTo (angularFrequencyBatch l.wavelength).shape t := h.wavelength.broadcasts
  have dv := fun {x : Batch (Matrix (Fin n) (Fin m) ℂ)} (hx : BroadcastsTo x.shape t) =>
    Batch.zip_to (fun (x : Matrix (Fin n) (Fin m) ℂ) (w : ℂ) => .ok (Matrix.of fun i c => x i c / (Complex.I * w))) hx fw
  obtain ⟨z1, ez1, rz1⟩ := mul (x := l.inverseZPermittivity.map fun x => .ok (-x)) (y := cH) h.inverseZPermittivity.broadcasts (scH' ▸ fD)
  obtain ⟨z2, ez2, rz2⟩ := dv rz1.broadcasts
  obtain ⟨z3, ez3, rz3⟩ := mul (y := cE) h.inverseZPermeability.broadcasts (scE' ▸ fD)
  obtain ⟨z4, ez4, rz4⟩ := dv rz3.broadcasts
  have s2 : z2.shape = D.shape := by
    refine (rz2.least (rz1.least (hc.inverseZPermittivity.trans lD) (scH' ▸ .refl _)) (hc.wavelength.trans lD)).antisymm ?_
    exact scH' ▸ rz1.right.trans rz2.left
  have s4 : z4.shape = D.shape := by
    refine (rz4.least (rz3.least (hc.inverseZPermeability.trans lD) (scE' ▸ .refl _)) (hc.wavelength.trans lD)).antisymm ?_
    exact scE' ▸ rz3.right.trans rz4.left
  refine ⟨{ ex := ex, ey := ey, ez := z2, hx := hx, hy := hy, hz := z4 }, D.shape, ?_, ⟨?_, ?_⟩, ⟨rfl, rfl, s2, rfl, rfl, s4⟩, ?_⟩
  · unfold fieldsFromWaveAmplitudesBatch
    rw [validateAmplitudes_ok hn hm ht ha (hab ▸ ha)]
    simp only [bind_eq_ok]
    refine ⟨(), trivial, M, eM, C, eC, D, eD, kt, ekt, cH, ecH, z1, ez1, z2, ez2, cE, ecE, z3, ez3, z4, ez4, ?_⟩
    rw [if_pos]
    exact ⟨rfl, s2.symm, s2, rfl, s4.symm⟩
  · intro s hs
    simp only [List.mem_cons, List.not_mem_nil, or_false] at hs
    rcases hs with rfl | rfl
    exacts [lD, sC ▸ rD.right]
  · intro s' hs
    exact rD.least (sM ▸ hs _ (by simp)) (sC ▸ hs _ (by simp))
  · intro i x p q hi hx' hp hq f
    have hil := validIndex_length hi
    have ea := BatchLayer.elementAt_ok hx'
    obtain ⟨ei1, ei2⟩ := BatchLayer.elementAt_inverse hx'
    have eDi := rD.element i hil
    rw [hC, hp, hq] at eDi
    unfold fieldsFromWaveAmplitudes
    rcases (hM i x hi hx').cases with ⟨y, hy', hy''⟩ | ⟨e, e', hy', hy''⟩
    · rw [hy'] at eDi
      replace eDi : D.elementAt i = .ok (y * Matrix.fromRows p q) := eDi
      have kx : ex.elementAt i = .ok (Matrix.of fun j c => (y * Matrix.fromRows p q) (.inl (.inr j)) c) := by
        rw [hex, Batch.rows, Batch.elementAt_map, eDi]
        rfl
      have ky : ey.elementAt i = .ok (-Matrix.of fun j c => (y * Matrix.fromRows p q) (.inl (.inl j)) c) := by
        rw [hey, hney, Batch.elementAt_map, Batch.rows, Batch.elementAt_map, eDi]
        rfl
      have kx' : hx.elementAt i = .ok (Matrix.of fun j c => (y * Matrix.fromRows p q) (.inr (.inl j)) c) := by
        rw [hhx, Batch.rows, Batch.elementAt_map, eDi]
        rfl
      have ky' : hy.elementAt i = .ok (Matrix.of fun j c => (y * Matrix.fromRows p q) (.inr (.inr j)) c) := by
        rw [hhy, Batch.rows, Batch.elementAt_map, eDi]
        rfl
      have hlat := h.lattice.elementAt (i := i) (by rw [hil, ← hK3]; exact hK2.length_le)
      have ekti := hkt i hi
      rw [← hlat, ← ea.lattice, ← ea.inPlaneWavevector, ← ea.expansion] at ekti
      have ew : (angularFrequencyBatch l.wavelength).elementAt i = (do
          let o ← angularFrequency x.wavelength
          .ok (o : ℂ)) := by
        rw [ea.wavelength]
        rfl
      have hok := hy''
      unfold fieldConversionMatrix poyntingFluxAMatrix LayerSolveResult.omegaScriptKMatrix at hok
      simp only [bind_eq_ok] at hok
      obtain ⟨-, ⟨-, ⟨k, hk, -⟩, w, hw, -⟩, -⟩ := hok
      rw [hk] at ekti
      rw [hw] at ew
      have e2 := rz2.element i hil
      rw [rz1.element i hil, Batch.elementAt_map, ei1, hcH i hil _ _ _ ekti kx' ky', ew] at e2
      have e4 := rz4.element i hil
      rw [rz3.element i hil, ei2, hcE i hil _ _ _ ekti kx ky, ew] at e4
      rw [hy'', hk, hw]
      simp only [bind, Except.bind, Except.ok.injEq]
      constructor
      · rintro ⟨g1, g2, g3, g4, g5, g6⟩
        obtain ⟨f1, f2, f3, f4, f5, f6⟩ := f
        have g1 := ok_inj.1 (kx.symm.trans g1)
        have g2 := ok_inj.1 (ky.symm.trans g2)
        have g3 := ok_inj.1 (e2.symm.trans g3)
        have g4 := ok_inj.1 (kx'.symm.trans g4)
        have g5 := ok_inj.1 (ky'.symm.trans g5)
        have g6 := ok_inj.1 (e4.symm.trans g6)
        simp only at g1 g2 g3 g4 g5 g6
        rw [← g1, ← g2, ← g3, ← g4, ← g5, ← g6]
      · rintro rfl
        exact ⟨kx, ky, e2, kx', ky', e4⟩
    · rw [hy'] at eDi
      replace eDi : D.elementAt i = .error e := eDi
      constructor
      · intro hf
        have := hf.ex
        simp only at this
        rw [hex, Batch.rows, Batch.elementAt_map, eDi] at this
        cases this
      · intro hf
        rw [hy''] at hf
        cases hf

end Fmmax
