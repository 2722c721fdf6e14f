import Verif.Proofs.BatchSolve

/-! The eigensolves with batch dimensions, from the arguments as given. -/

namespace Fmmax

open Spec

variable {α : Type} {t : List ℕ} {n : ℕ}

theorem broadcastsTo_pad {s t : List ℕ} (h : BroadcastsTo s t) {r : ℕ} (h1 : s.length ≤ r) (h2 : r ≤ t.length) :
    BroadcastsTo (List.replicate (r - s.length) 1 ++ s) t := by
  refine ⟨t.take (t.length - r), t.drop (t.length - r), (List.take_append_drop _ _).symm, ?_⟩
  have := List.forall₂_drop (t.length - r) (broadcastsTo_padded h)
  rwa [List.drop_append_of_le_length (by simp; omega), List.drop_replicate,
    show t.length - s.length - (t.length - r) = r - s.length by omega] at this

theorem broadcastsTo_self_pad (s : List ℕ) (m : ℕ) : BroadcastsTo s (List.replicate m 1 ++ s) :=
  let ⟨lead, tail, e, h⟩ := Spec.BroadcastsTo.refl s
  ⟨List.replicate m 1 ++ lead, tail, by rw [List.append_assoc, ← e], h⟩

theorem elementAt_atleastNd' (x : NDArray α) {N : ℕ} {i : List ℕ} (hi : N ≤ i.length) (hx : x.shape.length ≤ N) :
    (x.atleastNd N).elementAt i = x.elementAt i := by
  obtain ⟨a, b, rfl, ha⟩ : ∃ a b, i = a ++ b ∧ a.length = i.length - N :=
    ⟨i.take (i.length - N), i.drop (i.length - N), (List.take_append_drop _ _).symm, by simp⟩
  have hb : b.length = N := by rw [List.length_append] at hi ha; omega
  have h1 := elementAt_atleastNd x hb hx
  have e1 : (x.atleastNd N).elementAt (a ++ b) = (x.atleastNd N).elementAt b := by
    unfold NDArray.elementAt
    rw [broadcastIndex_lead]
    simp only [NDArray.atleastNd, List.length_append, List.length_replicate]
    omega
  rw [e1, h1]
  unfold NDArray.elementAt
  obtain ⟨c, d, rfl, hc⟩ : ∃ c d, b = c ++ d ∧ c.length = b.length - x.shape.length :=
    ⟨b.take (b.length - x.shape.length), b.drop (b.length - x.shape.length), (List.take_append_drop _ _).symm, by simp⟩
  have hd : d.length = x.shape.length := by rw [List.length_append] at hb hc; omega
  rw [broadcastIndex_lead hd.symm, ← List.append_assoc, broadcastIndex_lead hd.symm]

theorem SingleLattice.pad {m r : ℕ} {u v : NDArray ℝ} {l : LatticeVectors} (h : SingleLattice m u v l) (hr : m ≤ r) :
    SingleLattice r (u.atleastNd (r + 1)) (v.atleastNd (r + 1)) l := by
  have hl : ∀ x : NDArray ℝ, x.shape = List.replicate m 1 ++ [2] → x.shape.length = m + 1 := by
    intro x hx
    rw [hx]
    simp
  have hs : ∀ x : NDArray ℝ, x.shape = List.replicate m 1 ++ [2] → (x.atleastNd (r + 1)).shape = List.replicate r 1 ++ [2] := by
    intro x hx
    simp only [NDArray.atleastNd]
    rw [hl x hx, hx, ← List.append_assoc, List.replicate_append_replicate]
    congr 2
    omega
  refine ⟨hs u h.u_shape, hs v h.v_shape, ?_, h.independent⟩
  rw [← h.eq]
  have hg : ∀ x : NDArray ℝ, x.shape = List.replicate m 1 ++ [2] → ∀ c, (x.atleastNd (r + 1)).get (List.replicate r 0 ++ [c]) =
      x.get (List.replicate m 0 ++ [c]) := by
    intro x hx c
    simp only [NDArray.atleastNd]
    rw [hl x hx, List.drop_append_of_le_length (by simp), List.drop_replicate]
    congr 3
    omega
  unfold latticeAt
  simp only [hg u h.u_shape, hg v h.v_shape]

/-- The arguments after `_validate_and_broadcast`. -/
structure AlignedArgs (t : List ℕ) (r : ℕ) (w k : NDArray ℝ) (K : List ℕ) (l : LatticeVectors) (args : BroadcastArgs) : Prop where
  wavelength : Fits t r args.angularFrequency
  wavelength_le : BroadcastsTo w.shape args.angularFrequency.shape
  wavevector : ∃ K', args.inPlaneWavevector.shape = K' ++ [2] ∧ BroadcastsTo K' t ∧ K'.length = r ∧ BroadcastsTo K K'
  lattice : SingleLattice r args.u args.v l
  wavelength_element : ∀ i, i.length = t.length → args.angularFrequency.elementAt i = w.elementAt i
  wavevector_element : ∀ i c, i.length = t.length → args.inPlaneWavevector.elementAt (i ++ [c]) = k.elementAt (i ++ [c])

theorem validate_ok {w k u v : NDArray ℝ} {K : List ℕ} {m : ℕ} {l : LatticeVectors} (h : BatchInputs t w k u v K m l)
    {p : NDArray ℂ} {ps : List (NDArray ℂ)} {P : List ℕ} {nx ny : ℕ} (hp : ∀ q ∈ p :: ps, q.shape = P ++ [nx, ny])
    (hP : BroadcastsTo P t) :
    ∃ args, validateAndBroadcast w k u v (p :: ps) = .ok args ∧
      args.permittivities = (p :: ps).map (fun q => q.atleastNd (batchRank w K m P + 2)) ∧
      AlignedArgs t (batchRank w K m P) w k K l args := by
  have hp0 := hp p (by simp)
  have eK : dropLastN 1 k.shape = K := by rw [dropLastN_one, h.wavevector_shape]; simp
  have eu : u.shape.dropLast = List.replicate m 1 := by rw [h.lattice.u_shape]; simp
  have ev : v.shape.dropLast = List.replicate m 1 := by rw [h.lattice.v_shape]; simp
  have ek : k.shape.dropLast = K := by rw [h.wavevector_shape]; simp
  have eP : p.shape.dropLast.dropLast = P := by rw [hp0]; simp
  have hsh : batchShapesOf w k u v p = [w.shape, K, List.replicate m 1, List.replicate m 1, P] := by
    unfold batchShapesOf
    rw [eu, ev, ek, eP]
  have hall : ∀ s ∈ batchShapesOf w k u v p, BroadcastsTo s t := by
    rw [hsh]
    intro s hs
    simp only [List.mem_cons, List.not_mem_nil, or_false] at hs
    rcases hs with rfl | rfl | rfl | rfl | rfl
    · exact h.wavelength
    · exact h.wavevector
    · exact Spec.BroadcastsTo.replicate_one h.lattice_rank
    · exact Spec.BroadcastsTo.replicate_one h.lattice_rank
    · exact hP
  obtain ⟨b, hb, hbr⟩ := C67_batch_compatible (batchShapesOf w k u v p) (by simp [batchShapesOf])
    (fun s hs => broadcastsTo_pos (hall s hs) h.positive)
  have hbt : b = true := hbr.2 ⟨t, hall⟩
  subst hbt
  have lu : u.shape.length = m + 1 := by rw [h.lattice.u_shape]; simp
  have lv : v.shape.length = m + 1 := by rw [h.lattice.v_shape]; simp
  have lk : k.shape.length = K.length + 1 := by rw [h.wavevector_shape]; simp
  have lp : p.shape.length = P.length + 2 := by rw [hp0]; simp
  have hr : maxList [w.shape.length, k.shape.length - 1, u.shape.length - 1, v.shape.length - 1, p.shape.length - 2] =
      batchRank w K m P := by
    rw [lu, lv, lk, lp]
    have h1 := fun x => @le_maxList [w.shape.length, K.length + 1 - 1, m + 1 - 1, m + 1 - 1, P.length + 2 - 2] x
    have h2 := maxList_mem (l := [w.shape.length, K.length + 1 - 1, m + 1 - 1, m + 1 - 1, P.length + 2 - 2]) (by simp)
    generalize maxList [w.shape.length, K.length + 1 - 1, m + 1 - 1, m + 1 - 1, P.length + 2 - 2] = y at h1 h2
    simp only [List.mem_cons, List.not_mem_nil, or_false, forall_eq_or_imp, forall_eq] at h1 h2
    unfold batchRank
    omega
  set r := batchRank w K m P with hrdef
  have hrt : r ≤ t.length := by
    have := h.wavelength.length_le
    have := h.wavevector.length_le
    have := hP.length_le
    have := h.lattice_rank
    rw [hrdef]
    unfold batchRank
    omega
  have hwr : w.shape.length ≤ r := by rw [hrdef]; unfold batchRank; omega
  have hKr : K.length ≤ r := by rw [hrdef]; unfold batchRank; omega
  have hmr : m ≤ r := by rw [hrdef]; unfold batchRank; omega
  refine ⟨⟨w.atleastNd r, k.atleastNd (r + 1), u.atleastNd (r + 1), v.atleastNd (r + 1), (p :: ps).map fun q => q.atleastNd (r + 2)⟩,
    ?_, rfl, ⟨⟨broadcastsTo_pad h.wavelength hwr hrt, ?_⟩, broadcastsTo_self_pad _ _, ⟨List.replicate (r - K.length) 1 ++ K, ?_,
    broadcastsTo_pad h.wavevector hKr hrt, ?_, broadcastsTo_self_pad _ _⟩, h.lattice.pad hmr, ?_, ?_⟩⟩
  · rw [validateAndBroadcast_two (by rw [h.wavevector_shape]; simp), hb, hr,
      if_neg (not_not.2 ((all_shapes_eq p ps).2 fun q hq => by rw [hp q (List.mem_cons_of_mem _ hq), hp0]))]
    rfl
  · simp only [NDArray.atleastNd, List.length_append, List.length_replicate]
    omega
  · simp only [NDArray.atleastNd]
    rw [lk, h.wavevector_shape, Nat.add_sub_add_right, List.append_assoc]
  · simp only [List.length_append, List.length_replicate]
    omega
  · intro i hi
    exact elementAt_atleastNd' w (by omega) hwr
  · intro i c hi
    exact elementAt_atleastNd' k (by simp; omega) (by omega)

theorem SingleLattice.firstLattice {r : ℕ} {u v : NDArray ℝ} {l : LatticeVectors} (h : SingleLattice r u v l) :
    Fmmax.firstLattice u v = l := by
  rw [← h.eq]
  unfold Fmmax.firstLattice latticeAt
  rw [h.u_shape]
  simp

theorem gridsOf_pad {p : NDArray ℂ} {P : List ℕ} {nx ny r : ℕ} (hp : p.shape = P ++ [nx, ny]) (hP : BroadcastsTo P t)
    (h1 : P.length ≤ r) (h2 : r ≤ t.length) :
    Fits t r (gridsOf (p.atleastNd (r + 2)) nx ny) ∧ BroadcastsTo P (gridsOf (p.atleastNd (r + 2)) nx ny).shape ∧
      ∀ i, i.length = t.length → (gridsOf (p.atleastNd (r + 2)) nx ny).elementAt i = .ok (gridAt p nx ny i) := by
  have lp : p.shape.length = P.length + 2 := by rw [hp]; simp
  have sp : (p.atleastNd (r + 2)).shape = (List.replicate (r - P.length) 1 ++ P) ++ [nx, ny] := by
    simp only [NDArray.atleastNd]
    rw [lp, hp, Nat.add_sub_add_right, List.append_assoc]
  have hs : (gridsOf (p.atleastNd (r + 2)) nx ny).shape = List.replicate (r - P.length) 1 ++ P := by
    show dropLastN 2 (p.atleastNd (r + 2)).shape = _
    rw [sp, dropLastN_two]
    simp
  refine ⟨⟨hs ▸ broadcastsTo_pad hP h1 h2, by rw [hs]; simp; omega⟩, hs ▸ broadcastsTo_self_pad _ _, fun i hi => ?_⟩
  unfold NDArray.elementAt gridAt
  rw [hs]
  show Except.ok _ = _
  congr 1
  ext x y
  simp only [Matrix.of_apply]
  have e := elementAt_atleastNd' p (N := r + 2) (i := i ++ [(x : ℕ), (y : ℕ)]) (by simp; omega) (by omega)
  rw [← e]
  unfold NDArray.elementAt
  rw [sp, broadcastIndex_append (by simp; omega) (by simp), broadcastIndex_of_valid (s := [nx, ny]) (.cons x.2 (.cons y.2 .nil))]

theorem batchRank_bounds {w k u v : NDArray ℝ} {K : List ℕ} {m : ℕ} {l : LatticeVectors} (h : BatchInputs t w k u v K m l)
    {P : List ℕ} (hP : BroadcastsTo P t) : P.length ≤ batchRank w K m P ∧ batchRank w K m P ≤ t.length := by
  have := h.wavelength.length_le
  have := h.wavevector.length_le
  have := hP.length_le
  have := h.lattice_rank
  unfold batchRank
  omega

variable (eig : Matrix (Fin n ⊕ Fin n) (Fin n ⊕ Fin n) ℂ → (Fin n ⊕ Fin n → ℂ) × Matrix (Fin n ⊕ Fin n) (Fin n ⊕ Fin n) ℂ)

/-- The numerical eigensolve of aligned arguments. -/
theorem numericalEigensolve_aligned {w k : NDArray ℝ} {K : List ℕ} {r : ℕ} {l : LatticeVectors} {args : BroadcastArgs} (hn : 0 < n)
    (ht : ∀ d ∈ t, 0 < d) (h : AlignedArgs t r w k K l args) {M : Batch (FourierMatrices (Fin n))} (hM : Fits t r M) {P : List ℕ}
    (hP : BroadcastsTo P M.shape) (G : Fin n → ℤ × ℤ) {tan : Option ℕ} (htan : ∀ d, tan = some d → d = r + 2) :
    ∃ out, numericalEigensolveBatch eig args.angularFrequency args.inPlaneWavevector args.u args.v (BatchMatrices.of M) G tan = .ok out ∧
      SolvedLayer t r l [w.shape, K, P] (fun i => do
        let m ← M.elementAt i
        numericalEigensolve eig (w.elementAt i) (k.elementAt (i ++ [0]), k.elementAt (i ++ [1])) l m G) out := by
  obtain ⟨K', hK1, hK2, hK3, hK4⟩ := h.wavevector
  obtain ⟨out, h1, h2, hc, h3, h4, h5, h6⟩ := numericalEigensolveBatch_ok eig hn ht h.wavelength hK1 hK2 hK3 h.lattice hM G htan
  refine ⟨out, h1, h2, hc, ?_, fun i hi => ?_⟩
  · intro s hs
    simp only [List.mem_cons, List.not_mem_nil, or_false] at hs
    rcases hs with rfl | rfl | rfl
    · exact h.wavelength_le.trans h3
    · exact hK4.trans h4
    · exact hP.trans h5
  · have := h6 i hi
    have hil := validIndex_length hi
    rwa [h.wavelength_element i hil, h.wavevector_element i 0 hil, h.wavevector_element i 1 hil] at this

/-- A patterned isotropic layer with batch dimensions. -/
theorem eigensolvePatternedIsotropicBatch_ok {w k u v : NDArray ℝ} {K : List ℕ} {m : ℕ} {l : LatticeVectors} (hn : 0 < n)
    (h : BatchInputs t w k u v K m l) {p : NDArray ℂ} {P : List ℕ} {nx ny : ℕ} (hp : p.shape = P ++ [nx, ny]) (hP : BroadcastsTo P t)
    (G : Fin n → ℤ × ℤ) (formulation : Formulation nx ny (Fin n)) :
    ∃ out, eigensolvePatternedIsotropicBatch eig w k u v p G formulation = .ok out ∧
      SolvedLayer t (batchRank w K m P) l [w.shape, K, P] (fun i =>
        eigensolvePatternedIsotropic eig (w.elementAt i) (k.elementAt (i ++ [0]), k.elementAt (i ++ [1])) l (gridAt p nx ny i) G
          formulation) out := by
  obtain ⟨args, ha, hps, hal⟩ := validate_ok h (p := p) (ps := []) (P := P) (nx := nx) (ny := ny) (by simpa using hp) hP
  obtain ⟨hb1, hb2⟩ := batchRank_bounds h hP
  obtain ⟨hg1, hg2, hg3⟩ := gridsOf_pad hp hP hb1 hb2
  simp only [List.map_cons, List.map_nil] at hps
  have lp : (p.atleastNd (batchRank w K m P + 2)).shape.length = batchRank w K m P + 2 := by
    have : p.shape.length = P.length + 2 := by rw [hp]; simp
    simp only [NDArray.atleastNd, List.length_append, List.length_replicate]
    omega
  obtain ⟨out, h1, h2⟩ := numericalEigensolve_aligned eig hn h.positive hal
    (hg1.map fun p => fourierMatricesPatternedIsotropic (firstLattice args.u args.v) p G formulation) (P := P) hg2 G
    (tan := tangentRank (p.atleastNd (batchRank w K m P + 2)) formulation) (by
      intro d hd
      cases formulation with
      | fft => cases hd
      | vector f => cases hd; exact lp)
  refine ⟨out, ?_, h2.fits, h2.complete, h2.shape, fun i hi => ?_⟩
  · unfold eigensolvePatternedIsotropicBatch
    rw [ha]
    show (match args.permittivities with
      | [p] => _
      | _ => _) = _
    rw [hps]
    exact h1
  · have := h2.element i hi
    rw [Batch.elementAt_map, hg3 i (validIndex_length hi), hal.lattice.firstLattice] at this
    exact this

theorem tensorsOf_pad {xx xy yx yy zz : NDArray ℂ} {P : List ℕ} {nx ny r : ℕ}
    (hp : ∀ p ∈ [xx, xy, yx, yy, zz], p.shape = P ++ [nx, ny]) (hP : BroadcastsTo P t) (h1 : P.length ≤ r) (h2 : r ≤ t.length)
    {T : Batch (TensorComponents nx ny)}
    (hT : T = tensorsOf (xx.atleastNd (r + 2)) (xy.atleastNd (r + 2)) (yx.atleastNd (r + 2)) (yy.atleastNd (r + 2))
      (zz.atleastNd (r + 2)) nx ny) :
    Fits t r T ∧ BroadcastsTo P T.shape ∧ ∀ i, i.length = t.length → T.elementAt i = .ok (tensorAt xx xy yx yy zz nx ny i) := by
  have hx := gridsOf_pad (hp xx (by simp)) hP h1 h2
  have hs : T.shape = (gridsOf (xx.atleastNd (r + 2)) nx ny).shape := by rw [hT]; rfl
  refine ⟨hx.1.of_shape hs, hs ▸ hx.2.1, fun i hi => ?_⟩
  have ge : ∀ p ∈ [xx, xy, yx, yy, zz], gridAt p nx ny i =
      (Matrix.of fun x y => (p.atleastNd (r + 2)).get (broadcastIndex T.shape i ++ [(x : ℕ), (y : ℕ)]) : Grid nx ny) := by
    intro p hpm
    have e := (gridsOf_pad (hp p hpm) hP h1 h2).2.2 i hi
    have hs' : (gridsOf (p.atleastNd (r + 2)) nx ny).shape = T.shape := by
      rw [hs]
      show dropLastN 2 (p.atleastNd (r + 2)).shape = dropLastN 2 (xx.atleastNd (r + 2)).shape
      simp only [NDArray.atleastNd, hp p hpm, hp xx (by simp)]
    unfold NDArray.elementAt at e
    rw [hs'] at e
    exact (Except.ok.inj e).symm
  unfold tensorAt
  rw [ge xx (by simp), ge xy (by simp), ge yx (by simp), ge yy (by simp), ge zz (by simp)]
  unfold NDArray.elementAt
  rw [hT]
  rfl

/-- A patterned anisotropic layer with batch dimensions. -/
theorem eigensolvePatternedAnisotropicBatch_ok {w k u v : NDArray ℝ} {K : List ℕ} {m : ℕ} {l : LatticeVectors} (hn : 0 < n)
    (h : BatchInputs t w k u v K m l) {exx exy eyx eyy ezz mxx mxy myx myy mzz source : NDArray ℂ} {P : List ℕ} {nx ny : ℕ}
    (hp : ∀ p ∈ [exx, exy, eyx, eyy, ezz, mxx, mxy, myx, myy, mzz, source], p.shape = P ++ [nx, ny]) (hP : BroadcastsTo P t)
    (G : Fin n → ℤ × ℤ) (formulation : Formulation nx ny (Fin n)) :
    ∃ out, eigensolvePatternedAnisotropicBatch eig w k u v exx exy eyx eyy ezz mxx mxy myx myy mzz source G formulation = .ok out ∧
      SolvedLayer t (batchRank w K m P) l [w.shape, K, P] (fun i =>
        eigensolvePatternedAnisotropic eig (w.elementAt i) (k.elementAt (i ++ [0]), k.elementAt (i ++ [1])) l
          (tensorAt exx exy eyx eyy ezz nx ny i) (tensorAt mxx mxy myx myy mzz nx ny i) G formulation (gridAt source nx ny i)) out := by
  obtain ⟨args, ha, hps, hal⟩ := validate_ok h hp hP
  obtain ⟨hb1, hb2⟩ := batchRank_bounds h hP
  have he := tensorsOf_pad (t := t) (xx := exx) (xy := exy) (yx := eyx) (yy := eyy) (zz := ezz)
    (fun p hpm => hp p (by simp at hpm ⊢; tauto)) hP hb1 hb2 rfl
  have hm := tensorsOf_pad (t := t) (xx := mxx) (xy := mxy) (yx := myx) (yy := myy) (zz := mzz)
    (fun p hpm => hp p (by simp at hpm ⊢; tauto)) hP hb1 hb2 rfl
  have hs := gridsOf_pad (t := t) (hp source (by simp)) hP hb1 hb2
  simp only [List.map_cons, List.map_nil] at hps
  obtain ⟨T, eT, rT⟩ := Batch.zip_ok (fun (e m : TensorComponents nx ny) => .ok (e, m)) he.1 hm.1
  obtain ⟨M, eM, rM⟩ := Batch.zip_ok (fun (t : TensorComponents nx ny × TensorComponents nx ny) (s : Grid nx ny) =>
    fourierMatricesPatternedAnisotropic (firstLattice args.u args.v) t.1 t.2 G formulation s) rT.fits hs.1
  have lp : (source.atleastNd (batchRank w K m P + 2)).shape.length = batchRank w K m P + 2 := by
    have : source.shape.length = P.length + 2 := by rw [hp source (by simp)]; simp
    simp only [NDArray.atleastNd, List.length_append, List.length_replicate]
    omega
  obtain ⟨out, h1, h2⟩ := numericalEigensolve_aligned eig hn h.positive hal rM.fits (P := P) (hs.2.1.trans rM.right) G
    (tan := tangentRank (source.atleastNd (batchRank w K m P + 2)) formulation) (by
      intro d hd
      cases formulation with
      | fft => cases hd
      | vector f => cases hd; exact lp)
  refine ⟨out, ?_, h2.fits, h2.complete, h2.shape, fun i hi => ?_⟩
  · unfold eigensolvePatternedAnisotropicBatch
    rw [ha]
    simp only [bind, Except.bind, hps]
    rw [eT]
    simp only []
    rw [eM]
    exact h1
  · have := h2.element i hi
    have hil := validIndex_length hi
    rw [rM.element i hil, rT.element i hil, he.2.2 i hil, hm.2.2 i hil, hs.2.2 i hil, hal.lattice.firstLattice] at this
    exact this

theorem broadcastShapes_exists {a b T : List ℕ} (ha : BroadcastsTo a T) (hb : BroadcastsTo b T) :
    ∃ c, broadcastShapes a b = some c ∧ BroadcastsTo c T ∧ BroadcastsTo a c ∧ BroadcastsTo b c := by
  obtain ⟨c, -, h2, h3, -⟩ := zipWith_elementAt (fun _ _ : Unit => ()) (a := ⟨a, fun _ => ()⟩) (b := ⟨b, fun _ => ()⟩) ha hb
  exact ⟨c.shape, h3, h2, broadcastShapes_bounds h3⟩

theorem broadcastShapes3_exists {a b c T : List ℕ} (ha : BroadcastsTo a T) (hb : BroadcastsTo b T) (hc : BroadcastsTo c T) :
    ∃ s, broadcastShapes3 a b c = .ok s ∧ BroadcastsTo s T ∧ BroadcastsTo a s ∧ BroadcastsTo b s ∧ BroadcastsTo c s ∧
      s.length = max (max a.length b.length) c.length := by
  obtain ⟨x, h1, h2, h3, h4⟩ := broadcastShapes_exists ha hb
  obtain ⟨s, g1, g2, g3, g4⟩ := broadcastShapes_exists h2 hc
  refine ⟨s, ?_, g2, h3.trans g3, h4.trans g3, g4, ?_⟩
  · simp only [broadcastShapes3, h1, g1]
  · rw [broadcastShapes_rank g1, broadcastShapes_rank h1]

theorem broadcastTo_ok {a : NDArray α} {s T : List ℕ} (h : BroadcastsTo a.shape s) (hs : BroadcastsTo s T) :
    ∃ b, a.broadcastTo s = .ok b ∧ b.shape = s ∧ ∀ i, i.length = T.length → b.elementAt i = a.elementAt i := by
  have e := broadcastShapes_of_broadcastsTo h
  obtain ⟨c, h1, -, h3, h4⟩ := zipWith_elementAt (fun (x : α) (_ : Unit) => x) (a := a) (b := ⟨s, fun _ => ()⟩) (h.trans hs) hs
  unfold NDArray.broadcastTo
  rw [if_pos e]
  refine ⟨_, rfl, rfl, fun i hi => ?_⟩
  rw [← h4 i hi]
  unfold NDArray.zipWith at h1
  simp only [e] at h1
  cases h1
  rfl

/-- A uniform anisotropic layer with batch dimensions. -/
theorem eigensolveUniformAnisotropicBatch_ok {w k u v : NDArray ℝ} {K : List ℕ} {m : ℕ} {l : LatticeVectors} (hn : 0 < n)
    (h : BatchInputs t w k u v K m l) {exx exy eyx eyy ezz mxx mxy myx myy mzz : NDArray ℂ} {P : List ℕ}
    (hp : ∀ p ∈ [exx, exy, eyx, eyy, ezz, mxx, mxy, myx, myy, mzz], p.shape = P ++ [1, 1]) (hP : BroadcastsTo P t)
    (G : Fin n → ℤ × ℤ) :
    ∃ out, eigensolveUniformAnisotropicBatch eig w k u v exx exy eyx eyy ezz mxx mxy myx myy mzz G = .ok out ∧
      SolvedLayer t (batchRank w K m P) l [w.shape, K, P] (fun i =>
        eigensolveUniformAnisotropic eig (w.elementAt i) (k.elementAt (i ++ [0]), k.elementAt (i ++ [1])) l
          (tensorAt exx exy eyx eyy ezz 1 1 i) (tensorAt mxx mxy myx myy mzz 1 1 i) G) out := by
  obtain ⟨args, ha, hps, hal⟩ := validate_ok h hp hP
  obtain ⟨hb1, hb2⟩ := batchRank_bounds h hP
  set r := batchRank w K m P with hr
  have he := tensorsOf_pad (t := t) (xx := exx) (xy := exy) (yx := eyx) (yy := eyy) (zz := ezz)
    (fun p hpm => hp p (by simp at hpm ⊢; tauto)) hP hb1 hb2 rfl
  have hm := tensorsOf_pad (t := t) (xx := mxx) (xy := mxy) (yx := myx) (yy := myy) (zz := mzz)
    (fun p hpm => hp p (by simp at hpm ⊢; tauto)) hP hb1 hb2 rfl
  simp only [List.map_cons, List.map_nil] at hps
  set E := tensorsOf (exx.atleastNd (r + 2)) (exy.atleastNd (r + 2)) (eyx.atleastNd (r + 2)) (eyy.atleastNd (r + 2))
    (ezz.atleastNd (r + 2)) 1 1 with hE
  set U := tensorsOf (mxx.atleastNd (r + 2)) (mxy.atleastNd (r + 2)) (myx.atleastNd (r + 2)) (myy.atleastNd (r + 2))
    (mzz.atleastNd (r + 2)) 1 1 with hU
  have hEs : dropLastN 2 (exx.atleastNd (r + 2)).shape = E.shape := rfl
  have hUs : U.shape = E.shape := by
    show dropLastN 2 (mxx.atleastNd (r + 2)).shape = dropLastN 2 (exx.atleastNd (r + 2)).shape
    simp only [NDArray.atleastNd, hp mxx (by simp), hp exx (by simp)]
  obtain ⟨K', hK1, hK2, hK3, hK4⟩ := hal.wavevector
  have eK : dropLastN 1 args.inPlaneWavevector.shape = K' := by rw [dropLastN_one, hK1]; simp
  obtain ⟨s, es, s1, s2, s3, s4, s5⟩ := broadcastShapes3_exists hal.wavelength.broadcasts hK2 he.1.broadcasts
  have s6 : s.length = r := by rw [s5, hal.wavelength.rank, hK3, he.1.rank]; simp
  obtain ⟨E', eE, sE, hE'⟩ := broadcastTo_ok s4 s1
  obtain ⟨U', eU, sU, hU'⟩ := broadcastTo_ok (hUs ▸ s4) s1
  have fE : Fits t r E' := ⟨sE ▸ s1, sE ▸ s6⟩
  have fU : Fits t r U' := ⟨sU ▸ s1, sU ▸ s6⟩
  obtain ⟨M, eM, rM⟩ := Batch.zip_ok (fourierMatricesUniformAnisotropic (ι := Fin n)) fE fU
  obtain ⟨out, h1, h2⟩ := numericalEigensolve_aligned eig hn h.positive hal rM.fits (P := P)
    ((he.2.1.trans s4).trans (sE ▸ rM.left)) G (tan := none) (by simp)
  refine ⟨out, ?_, h2.fits, h2.complete, h2.shape, fun i hi => ?_⟩
  · unfold eigensolveUniformAnisotropicBatch
    rw [if_neg, ha]
    · simp only [bind, Except.bind, hps]
      rw [eK, hEs, es]
      simp only [← hE, ← hU]
      rw [eE]
      simp only []
      rw [eU]
      simp only []
      rw [eM]
      exact h1
    · rw [not_not, List.all_eq_true]
      intro q hq
      rw [hp q hq]
      simp [isUniformShape]
  · have := h2.element i hi
    have hil := validIndex_length hi
    rw [rM.element i hil, hE' i hil, hU' i hil, he.2.2 i hil, hm.2.2 i hil] at this
    exact this

end Fmmax
