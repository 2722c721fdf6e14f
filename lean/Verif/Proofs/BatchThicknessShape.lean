import Verif.Proofs.BatchThickness
import Verif.Proofs.BatchShape

/-! The batch shapes of the blocks of scattering matrices with arrays of thicknesses. -/

namespace Fmmax

open Spec

variable {α β γ : Type} {t : List ℕ} {r n : ℕ}

theorem isBroadcastOf_iff {S : List (List ℕ)} {s : List ℕ} :
    IsBroadcastOf S s ↔ ∀ x, BroadcastsTo s x ↔ ∀ y ∈ S, BroadcastsTo y x :=
  ⟨fun h x => ⟨fun hx y hy => (h.upper y hy).trans hx, h.least x⟩, fun h => ⟨(h s).1 (.refl s), fun x => (h x).2⟩⟩

theorem Batch.zip_iff {f : α → β → Res γ} {a : Batch α} {b : Batch β} {c : Batch γ} (h : Batch.zip f a b = .ok c) (x : List ℕ) :
    BroadcastsTo c.shape x ↔ BroadcastsTo a.shape x ∧ BroadcastsTo b.shape x := by
  obtain ⟨h1, h2⟩ := Batch.zip_bounds h
  refine ⟨fun hx => ⟨h1.trans hx, h2.trans hx⟩, fun hx => ?_⟩
  obtain ⟨c', e, r⟩ := Batch.zip_to f hx.1 hx.2
  obtain rfl := ok_inj.1 (h.symm.trans e)
  exact r.broadcasts

theorem Batch.solve_iff {p q : Type} [Fintype p] [DecidableEq p] {a : Batch (Matrix p p ℂ)} {b c : Batch (Matrix p q ℂ)}
    (h : a.solve b = .ok c) (x : List ℕ) : BroadcastsTo c.shape x ↔ BroadcastsTo a.shape x ∧ BroadcastsTo b.shape x := by
  unfold Batch.solve at h
  split at h
  · cases h
  · exact Batch.zip_iff h x

theorem atleastNd_of_le {a : NDArray α} {N : ℕ} (h : N ≤ a.shape.length) : a.atleastNd N = a := by
  unfold NDArray.atleastNd
  rw [Nat.sub_eq_zero_of_le h]
  simp

theorem modeThickness_shape {d : NDArray ℝ} {m : Batch (Fin n ⊕ Fin n → ℝ)} (h : modeThickness d = .ok m) :
    m.shape = d.shape.dropLast := by
  unfold modeThickness at h
  split at h
  · next h0 =>
    obtain rfl := ok_inj.1 h
    simp [h0]
  · split at h
    · obtain rfl := ok_inj.1 h
      rfl
    · split at h
      · obtain rfl := ok_inj.1 h
        rfl
      · cases h

theorem phaseSweep_iff {q f : Batch (Fin n ⊕ Fin n → ℂ)} {d : NDArray ℝ} (h : phaseSweep q d = .ok f) (x : List ℕ) :
    BroadcastsTo f.shape x ↔ BroadcastsTo q.shape x ∧ BroadcastsTo d.shape.dropLast x := by
  obtain ⟨m, hm, h⟩ := bind_eq_ok.1 h
  rw [Batch.zip_iff h, modeThickness_shape hm]

theorem interfaceMatricesBatch_iff {lat lat' : LatticeVectors} {l l' : BatchLayer n} {p q : Batch (ModeMatrix (Fin n))}
    (hl : LayerFits t r lat l) (hc : LayerComplete l) (hl' : LayerFits t r lat' l') (hc' : LayerComplete l')
    (h : interfaceMatricesBatch l l' = .ok (p, q)) (x : List ℕ) :
    (BroadcastsTo p.shape x ↔ BroadcastsTo l.eigenvectors.shape x ∧ BroadcastsTo l'.eigenvectors.shape x) ∧
      (BroadcastsTo q.shape x ↔ BroadcastsTo l.eigenvectors.shape x ∧ BroadcastsTo l'.eigenvectors.shape x) := by
  obtain ⟨h1, h2, h3, h4⟩ := interfaceMatricesBatch_bounds h
  have key : BroadcastsTo l.eigenvectors.shape x ∧ BroadcastsTo l'.eigenvectors.shape x →
      BroadcastsTo p.shape x ∧ BroadcastsTo q.shape x := by
    rintro ⟨k1, k2⟩
    obtain ⟨p', q', e, fp, fq, -⟩ := interfaceMatricesBatch_ok (hc.fits_of hl k1) (hc'.fits_of hl' k2)
    obtain ⟨rfl, rfl⟩ := Prod.mk.inj (ok_inj.1 (h.symm.trans e))
    exact ⟨fp.broadcasts, fq.broadcasts⟩
  exact ⟨⟨fun k => ⟨h1.trans k, h2.trans k⟩, fun k => (key k).1⟩, ⟨fun k => ⟨h3.trans k, h4.trans k⟩, fun k => (key k).2⟩⟩

/-- The blocks have the batch shapes to which those of the layers and of the thicknesses, except for the one on the outgoing side,
are broadcast.  `mid` are the batch shapes of the inner thicknesses. -/
structure SweepExact (L : List (List ℕ)) (mid : List (List ℕ)) (s : SweepScatteringMatrix n) : Prop where
  s11 : ∀ x, BroadcastsTo s.s11.shape x ↔
    BroadcastsTo s.startThickness.shape.dropLast x ∧ (∀ y ∈ L, BroadcastsTo y x) ∧ ∀ y ∈ mid, BroadcastsTo y x
  s21 : ∀ x, BroadcastsTo s.s21.shape x ↔
    BroadcastsTo s.startThickness.shape.dropLast x ∧ (∀ y ∈ L, BroadcastsTo y x) ∧ ∀ y ∈ mid, BroadcastsTo y x
  s12 : ∀ x, BroadcastsTo s.s12.shape x ↔
    BroadcastsTo s.endThickness.shape.dropLast x ∧ (∀ y ∈ L, BroadcastsTo y x) ∧ ∀ y ∈ mid, BroadcastsTo y x
  s22 : ∀ x, BroadcastsTo s.s22.shape x ↔
    BroadcastsTo s.endThickness.shape.dropLast x ∧ (∀ y ∈ L, BroadcastsTo y x) ∧ ∀ y ∈ mid, BroadcastsTo y x
  last : s.endLayer.eigenvectors.shape ∈ L
  lastComplete : LayerComplete s.endLayer

theorem pairSMatrixSweep_exact {lat lat' : LatticeVectors} {l l' : BatchLayer n} {d d' : NDArray ℝ} {s : SweepScatteringMatrix n}
    (h : LayerFits t r lat l) (hc : LayerComplete l) (h' : LayerFits t r lat' l') (hc' : LayerComplete l')
    (hs : pairSMatrixSweep l d l' d' = .ok s) : SweepExact [l.eigenvectors.shape, l'.eigenvectors.shape] [] s := by
  unfold pairSMatrixSweep at hs
  simp only [bind_eq_ok, ok_inj] at hs
  obtain ⟨⟨I, J⟩, eI, fd, efd, fd', efd', A, eA, X, eX, B, eB, C, eC, Y, eY, Z, eZ, D, eD, rfl⟩ := hs
  have kI := fun x => (interfaceMatricesBatch_iff h hc h' hc' eI x).1
  have kJ := fun x => (interfaceMatricesBatch_iff h hc h' hc' eI x).2
  have kf := fun x => phaseSweep_iff efd x
  have kf' := fun x => phaseSweep_iff efd' x
  simp only [hc.eigenvalues, hc'.eigenvalues] at kf kf'
  have hr : I.shape.length ≤ fd.shape.length := by
    obtain ⟨I', J', e, fI, -⟩ := interfaceMatricesBatch_ok h h'
    obtain ⟨rfl, rfl⟩ := Prod.mk.inj (ok_inj.1 (eI.symm.trans e))
    rw [fI.rank, ← h.eigenvectors.rank]
    exact ((kf fd.shape).1 (.refl _)).1.length_le
  replace eA : I.solve (Batch.map (fun v => .ok (diag v)) fd : Batch (ModeMatrix (Fin n))) = .ok A := by
    rw [← eA]
    congr 1
    exact (atleastNd_of_le (a := (Batch.map (fun v => .ok (diag v)) fd : Batch (ModeMatrix (Fin n)))) hr).symm
  have kA : ∀ x, BroadcastsTo A.shape x ↔ BroadcastsTo I.shape x ∧ BroadcastsTo fd.shape x := Batch.solve_iff eA
  have kX : ∀ x, BroadcastsTo X.shape x ↔ BroadcastsTo J.shape x ∧ BroadcastsTo fd'.shape x := fun x => Batch.zip_iff eX x
  have kB := Batch.solve_iff eB
  have kC := Batch.zip_iff eC
  have kY := Batch.zip_iff eY
  have kZ := Batch.zip_iff eZ
  have kD := Batch.zip_iff eD
  simp only [kX, kI, kJ, kf'] at kB
  simp only [kI, kf] at kA
  simp only [kJ, kA] at kC
  simp only [kJ, kB] at kY
  simp only [kI, kf'] at kZ
  simp only [kY, kZ] at kD
  refine ⟨fun x => ?_, fun x => ?_, fun x => ?_, fun x => ?_, by simp, hc'⟩ <;>
    simp only [kA, kB, kC, kD, List.mem_cons, List.not_mem_nil, or_false, forall_eq_or_imp, forall_eq, IsEmpty.forall_iff, implies_true] <;>
    tauto

theorem appendLayerSweep_exact {lat' : LatticeVectors} {L mid : List (List ℕ)} {s s' : SweepScatteringMatrix n} {l' : BatchLayer n}
    {d' : NDArray ℝ} (h : SweepFits t r s) (he : SweepExact L mid s) (h' : LayerFits t r lat' l') (hc' : LayerComplete l')
    (hs : appendLayerSweep s l' d' = .ok s') :
    SweepExact (l'.eigenvectors.shape :: L) (s.endThickness.shape.dropLast :: mid) s' := by
  obtain ⟨lat, hl⟩ := h.last
  unfold appendLayerSweep at hs
  simp only [bind_eq_ok, ok_inj] at hs
  obtain ⟨⟨I, J⟩, eI, fd, efd, fd', efd', X, eX, Y, eY, T, eT, F, eF, A, eA, G, eG, G', eG', G'', eG'', B, eB, H, eH, H1, eH1, C, eC,
    H2, eH2, H3, eH3, H4, eH4, D, eD, rfl⟩ := hs
  have kI := fun x => (interfaceMatricesBatch_iff hl he.lastComplete h' hc' eI x).1
  have kJ := fun x => (interfaceMatricesBatch_iff hl he.lastComplete h' hc' eI x).2
  have kf := fun x => phaseSweep_iff efd x
  have kf' := fun x => phaseSweep_iff efd' x
  simp only [he.lastComplete.eigenvalues, hc'.eigenvalues] at kf kf'
  have hm : ∀ x, (∀ y ∈ L, BroadcastsTo y x) → BroadcastsTo s.endLayer.eigenvectors.shape x := fun x hx => hx _ he.last
  have k11 := he.s11
  have k12 := he.s12
  have k21 := he.s21
  have k22 := he.s22
  have kX := Batch.zip_iff eX
  simp only [kf, k12] at kX
  have kT := Batch.zip_iff eT
  simp only [kI, Batch.zip_iff eY, kX, kJ] at kT
  have kA := Batch.solve_iff eA
  simp only [kT, Batch.zip_iff eF, kf, k11] at kA
  have kB := Batch.solve_iff eB
  simp only [kT, Batch.zip_iff eG'', Batch.zip_iff eG', Batch.zip_iff eG, kX, kI, kJ, kf'] at kB
  have kH := Batch.zip_iff eH
  simp only [k22, kJ] at kH
  have kC := Batch.zip_iff eC
  simp only [Batch.zip_iff eH1, kH, kA, k21] at kC
  have kD := Batch.zip_iff eD
  simp only [Batch.zip_iff eH2, kH, kB, Batch.zip_iff eH4, Batch.zip_iff eH3, k22, kI, kf'] at kD
  refine ⟨fun x => ?_, fun x => ?_, fun x => ?_, fun x => ?_, List.mem_cons_self, hc'⟩
  · simp only [kA, List.mem_cons, forall_eq_or_imp]
    have := hm x
    tauto
  · simp only [kC, List.mem_cons, forall_eq_or_imp]
    have := hm x
    tauto
  · simp only [kB, List.mem_cons, forall_eq_or_imp]
    have := hm x
    tauto
  · simp only [kD, List.mem_cons, forall_eq_or_imp]
    have := hm x
    tauto

theorem appendAllSweep_exact (L : List (BatchLayer n × NDArray ℝ))
    (hL : ∀ x ∈ L, ((∃ lat, LayerFits t r lat x.1) ∧ LayerComplete x.1) ∧ ThicknessFits t x.2) {LL mid : List (List ℕ)}
    {s : SweepScatteringMatrix n} (h : SweepFits t r s) (he : SweepExact LL mid s) {S : List (SweepScatteringMatrix n)}
    (hS : appendAllSweep s L = .ok S) :
    SweepExact ((L.map fun x => x.1.eigenvectors.shape).reverse ++ LL)
        (((s.endThickness :: L.map Prod.snd).dropLast.map fun d => d.shape.dropLast).reverse ++ mid) (S.getLast?.getD s) ∧
      (S.getLast?.getD s).startThickness = s.startThickness ∧
      some (S.getLast?.getD s).endThickness = (s.endThickness :: L.map Prod.snd).getLast? := by
  induction L generalizing s S LL mid with
  | nil =>
    obtain rfl := ok_inj.1 hS
    exact ⟨he, rfl, rfl⟩
  | cons y L ih =>
    obtain ⟨l', d⟩ := y
    obtain ⟨⟨⟨lat, hl⟩, hc⟩, hd⟩ := hL (l', d) (by simp)
    obtain ⟨s', es, fs, st, en, st', en', -⟩ := appendLayerSweep_ok h hl hd
    have hx := appendLayerSweep_exact h he hl hc es
    unfold appendAllSweep at hS
    rw [es] at hS
    obtain ⟨S', eS', hS⟩ := bind_eq_ok.1 (show (appendAllSweep s' L >>= fun tail => .ok (s' :: tail)) = .ok S from hS)
    obtain rfl := ok_inj.1 hS
    obtain ⟨h1, h2, h3⟩ := ih (fun x hx => hL x (by simp [hx])) fs hx eS'
    rw [List.getLast?_cons]
    refine ⟨?_, h2.trans st', ?_⟩
    · rw [en'] at h1
      simpa using h1
    · rw [en'] at h3
      simpa [List.getLast?_cons] using h3

theorem stackSMatrixSweep_exact {layers : List (BatchLayer n)} {thicknesses : List (NDArray ℝ)} (h2 : 2 ≤ layers.length)
    (hlen : layers.length = thicknesses.length) (h : ∀ l ∈ layers, (∃ lat, LayerFits t r lat l) ∧ LayerComplete l)
    (hD : ∀ d ∈ thicknesses, ThicknessFits t d) {s : SweepScatteringMatrix n} (hs : stackSMatrixSweep layers thicknesses = .ok s) :
    IsBroadcastOf (layers.map (fun l => l.eigenvectors.shape) ++ thicknesses.dropLast.map fun d => d.shape.dropLast) s.s11.shape ∧
    IsBroadcastOf (layers.map (fun l => l.eigenvectors.shape) ++ thicknesses.dropLast.map fun d => d.shape.dropLast) s.s21.shape ∧
    IsBroadcastOf (layers.map (fun l => l.eigenvectors.shape) ++ thicknesses.tail.map fun d => d.shape.dropLast) s.s12.shape ∧
    IsBroadcastOf (layers.map (fun l => l.eigenvectors.shape) ++ thicknesses.tail.map fun d => d.shape.dropLast) s.s22.shape := by
  unfold stackSMatrixSweep at hs
  obtain ⟨S, eS, hs⟩ := bind_eq_ok.1 hs
  unfold stackSMatricesSweep at eS
  rw [if_neg (not_not.2 hlen)] at eS
  match layers, thicknesses, h2, hlen, h, hD, eS with
  | l0 :: l1 :: rest, d0 :: d1 :: ds, _, hlen, h, hD, eS =>
    obtain ⟨⟨lat0, h0⟩, c0⟩ := h l0 (by simp)
    obtain ⟨⟨lat1, h1⟩, c1⟩ := h l1 (by simp)
    have hl' : rest.length = ds.length := by simpa using hlen
    obtain ⟨p, ep, fp, st, en, st', en', -⟩ := pairSMatrixSweep_ok h0 h1 (hD d0 (by simp)) (hD d1 (by simp))
    simp only [List.zip_cons_cons, ep, bind_eq_ok, ok_inj] at eS
    obtain ⟨p', rfl, T, eT, rfl⟩ := eS
    obtain ⟨k1, k2, k3⟩ := appendAllSweep_exact (rest.zip ds) (fun x hx => ⟨h x.1 (by
      simp only [List.mem_cons]
      exact Or.inr (Or.inr (List.of_mem_zip hx).1)), hD x.2 (by
      simp only [List.mem_cons]
      exact Or.inr (Or.inr (List.of_mem_zip hx).2))⟩) fp (pairSMatrixSweep_exact h0 c0 h1 c1 ep) eT
    obtain rfl : T.getLast?.getD p = s := by
      rw [List.getLast?_cons, List.getLast?_cons] at hs
      exact ok_inj.1 hs
    have e1 : (rest.zip ds).map (fun x => x.1.eigenvectors.shape) = rest.map fun l => l.eigenvectors.shape := by
      rw [show (fun x : BatchLayer n × NDArray ℝ => x.1.eigenvectors.shape) = (fun l => l.eigenvectors.shape) ∘ Prod.fst from rfl,
        ← List.map_map, List.map_fst_zip (by omega)]
    rw [e1, List.map_snd_zip (by omega), en'] at k1
    rw [List.map_snd_zip (by omega), en'] at k3
    rw [st'] at k2
    generalize T.getLast?.getD p = s at *
    have hL : ∀ x, (∀ y ∈ (rest.map fun l => l.eigenvectors.shape).reverse ++ [l0.eigenvectors.shape, l1.eigenvectors.shape],
        BroadcastsTo y x) ↔ ∀ y ∈ (l0 :: l1 :: rest).map fun l => l.eigenvectors.shape, BroadcastsTo y x := by
      intro x
      refine forall_congr' fun y => ?_
      simp only [List.mem_append, List.mem_reverse, List.mem_cons, List.map_cons, List.not_mem_nil, or_false]
      tauto
    have hM : ∀ x, (∀ y ∈ ((d1 :: ds).dropLast.map fun d => d.shape.dropLast).reverse ++ [], BroadcastsTo y x) ↔
        ∀ y ∈ (d1 :: ds).dropLast.map fun d => d.shape.dropLast, BroadcastsTo y x := by
      intro x
      simp
    have hT : ∀ x, (BroadcastsTo s.endThickness.shape.dropLast x ∧
        ∀ y ∈ (d1 :: ds).dropLast.map fun d => d.shape.dropLast, BroadcastsTo y x) ↔
        ∀ y ∈ (d1 :: ds).map fun d => d.shape.dropLast, BroadcastsTo y x := by
      intro x
      have e2 : (d1 :: ds).dropLast ++ [s.endThickness] = d1 :: ds := by
        rw [List.getLast?_eq_some_getLast (by simp)] at k3
        rw [Option.some.inj k3]
        exact List.dropLast_append_getLast _
      conv_rhs => rw [← e2]
      simp only [List.map_append, List.mem_append, List.map_cons, List.map_nil, List.mem_singleton]
      constructor
      · rintro ⟨a, b⟩ y (hy | rfl)
        exacts [b y hy, a]
      · intro hy
        exact ⟨hy _ (Or.inr rfl), fun y h => hy y (Or.inl h)⟩
    have s1 := k1.s11
    have s2 := k1.s21
    have s3 := k1.s12
    have s4 := k1.s22
    simp only [hL, hM, k2] at s1 s2 s3 s4
    have splitL : ∀ x, (BroadcastsTo d0.shape.dropLast x ∧ (∀ y ∈ (l0 :: l1 :: rest).map fun l => l.eigenvectors.shape, BroadcastsTo y x) ∧
        ∀ y ∈ (d1 :: ds).dropLast.map fun d => d.shape.dropLast, BroadcastsTo y x) ↔
        ∀ y ∈ (l0 :: l1 :: rest).map (fun l => l.eigenvectors.shape) ++ ((d0 :: d1 :: ds).dropLast.map fun d => d.shape.dropLast),
          BroadcastsTo y x := by
      intro x
      rw [show (d0 :: d1 :: ds).dropLast = d0 :: (d1 :: ds).dropLast from rfl, List.map_cons (f := fun d : NDArray ℝ => d.shape.dropLast)]
      simp only [List.mem_append, List.mem_cons (b := d0.shape.dropLast), or_imp, forall_and, forall_eq]
      tauto
    have splitR : ∀ x, (BroadcastsTo s.endThickness.shape.dropLast x ∧
        (∀ y ∈ (l0 :: l1 :: rest).map fun l => l.eigenvectors.shape, BroadcastsTo y x) ∧
        ∀ y ∈ (d1 :: ds).dropLast.map fun d => d.shape.dropLast, BroadcastsTo y x) ↔
        ∀ y ∈ (l0 :: l1 :: rest).map (fun l => l.eigenvectors.shape) ++ ((d0 :: d1 :: ds).tail.map fun d => d.shape.dropLast),
          BroadcastsTo y x := by
      intro x
      rw [List.tail_cons]
      have := hT x
      simp only [List.mem_append, or_imp, forall_and]
      tauto
    simp only [splitL] at s1 s2
    simp only [splitR] at s3 s4
    exact ⟨isBroadcastOf_iff.2 s1, isBroadcastOf_iff.2 s2, isBroadcastOf_iff.2 s3, isBroadcastOf_iff.2 s4⟩

/-- The last axis of an array of thicknesses. -/
theorem phaseSweep_axis {q f : Batch (Fin n ⊕ Fin n → ℂ)} {d : NDArray ℝ} (h : phaseSweep q d = .ok f) :
    d.shape = [] ∨ d.shape.getLastD 0 = 1 ∨ d.shape.getLastD 0 = 2 * n := by
  obtain ⟨m, hm, -⟩ := bind_eq_ok.1 h
  unfold modeThickness at hm
  split at hm
  · next h0 => exact Or.inl h0
  · split at hm
    · next h1 => exact Or.inr (Or.inl h1)
    · split at hm
      · next h2 => exact Or.inr (Or.inr h2)
      · cases hm

theorem appendAllSweep_axis (L : List (BatchLayer n × NDArray ℝ)) {s : SweepScatteringMatrix n} {S : List (SweepScatteringMatrix n)}
    (hS : appendAllSweep s L = .ok S) :
    ∀ x ∈ L, x.2.shape = [] ∨ x.2.shape.getLastD 0 = 1 ∨ x.2.shape.getLastD 0 = 2 * n := by
  induction L generalizing s S with
  | nil => simp
  | cons y L ih =>
    obtain ⟨l', d⟩ := y
    unfold appendAllSweep at hS
    obtain ⟨s', es, hS⟩ := bind_eq_ok.1 hS
    obtain ⟨S', eS', -⟩ := bind_eq_ok.1 hS
    unfold appendLayerSweep at es
    simp only [bind_eq_ok, ok_inj] at es
    obtain ⟨-, -, fd, -, fd', efd', -⟩ := es
    intro x hx
    rcases List.mem_cons.1 hx with rfl | hx
    · exact phaseSweep_axis efd'
    · exact ih eS' x hx

end Fmmax
