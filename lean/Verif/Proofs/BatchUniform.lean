import Verif.Proofs.BatchEigensolve

/-! The uniform isotropic eigensolve with batch dimensions, and the public functions. -/

namespace Fmmax

open Spec

variable {α : Type} {t : List ℕ} {n : ℕ}

theorem Spec.BroadcastsTo.antisymm {a b : List ℕ} (h : BroadcastsTo a b) (h' : BroadcastsTo b a) : a = b := by
  have hl : a.length = b.length := le_antisymm h.length_le h'.length_le
  refine List.ext_getElem hl fun i h1 h2 => ?_
  have e1 := (List.forall₂_iff_get.1 (h.sameRank hl)).2 i h1 h2
  have e2 := (List.forall₂_iff_get.1 (h'.sameRank hl.symm)).2 i h2 h1
  simp only [List.get_eq_getElem] at e1 e2
  omega

theorem broadcastsTo_append_one {a s : List ℕ} {x y : ℕ} (h : BroadcastsTo (a ++ [x]) (s ++ [y])) : BroadcastsTo a s ∧ (x = 1 ∨ x = y) := by
  rw [broadcastsTo_iff_rev, List.reverse_append, List.reverse_append] at h
  rw [broadcastsTo_iff_rev]
  exact ⟨h.2, h.1⟩

theorem last_axis {a X T : List ℕ} {x : ℕ} (h : BroadcastsTo (a ++ [x]) X) (h' : BroadcastsTo X (T ++ [x])) :
    ∃ s, X = s ++ [x] ∧ BroadcastsTo a s ∧ BroadcastsTo s T := by
  rcases X.eq_nil_or_concat with rfl | ⟨s, y, rfl⟩
  · have := h.length_le
    simp at this
  · rw [List.concat_eq_append] at h h' ⊢
    obtain ⟨h1, h2⟩ := broadcastsTo_append_one h
    obtain ⟨h3, h4⟩ := broadcastsTo_append_one h'
    have : y = x := by omega
    subst this
    exact ⟨s, rfl, h1, h3⟩

/-- The array under the square root in the eigenvalues of uniform layers (fmm.py 434-440). -/
theorem uniformEigenvalues_ok {eps : NDArray ℂ} {w kt : NDArray ℝ} {K T : List ℕ} (he : BroadcastsTo eps.shape T)
    (hw : BroadcastsTo w.shape T) (hk : kt.shape = K ++ [n, 2]) (hK : BroadcastsTo K T) :
    ∃ x1 x2 x3, eps.expandLast.zipWith (fun e (o : ℝ) => e * (o : ℂ) ^ 2) (w.map fun w => 2 * Real.pi / w).expandLast = .ok x1 ∧
      x1.zipWith (fun x (k : ℝ) => x - (k : ℂ) ^ 2) (kt.selectLast 0) = .ok x2 ∧
      x2.zipWith (fun x (k : ℝ) => x - (k : ℂ) ^ 2) (kt.selectLast 1) = .ok x3 ∧
      BroadcastsTo x3.shape (T ++ [n]) ∧ BroadcastsTo (eps.shape ++ [1]) x3.shape ∧ BroadcastsTo (w.shape ++ [1]) x3.shape ∧
      BroadcastsTo (K ++ [n]) x3.shape ∧
      ∀ i, i.length = T.length → ∀ j, j < n → x3.elementAt (i ++ [j]) =
        eps.elementAt i * ((2 * Real.pi / w.elementAt i : ℝ) : ℂ) ^ 2 - (kt.get (broadcastIndex K i ++ [j, 0]) : ℂ) ^ 2 -
          (kt.get (broadcastIndex K i ++ [j, 1]) : ℂ) ^ 2 := by
  have sk : ∀ c, (kt.selectLast c).shape = K ++ [n] := by
    intro c
    show kt.shape.dropLast = _
    rw [hk]
    simp
  have bk : ∀ c, BroadcastsTo (kt.selectLast c).shape (T ++ [n]) := by
    intro c
    rw [sk]
    exact hK.append (.cons (Or.inr rfl) .nil)
  have ek : ∀ c i j, i.length = T.length → j < n → (kt.selectLast c).elementAt (i ++ [j]) = kt.get (broadcastIndex K i ++ [j, c]) := by
    intro c i j hi hj
    unfold NDArray.elementAt
    rw [sk, broadcastIndex_append (by rw [hi]; exact hK.length_le) (by simp), broadcastIndex_single hj]
    simp [NDArray.selectLast]
  obtain ⟨x1, e1, b1, s1, v1⟩ := zipWith_elementAt (fun e (o : ℝ) => e * (o : ℂ) ^ 2) (broadcastsTo_expandLast he n)
    (broadcastsTo_expandLast (x := w.map fun w => 2 * Real.pi / w) hw n)
  obtain ⟨x2, e2, b2, s2, v2⟩ := zipWith_elementAt (fun x (k : ℝ) => x - (k : ℂ) ^ 2) b1 (bk 0)
  obtain ⟨x3, e3, b3, s3, v3⟩ := zipWith_elementAt (fun x (k : ℝ) => x - (k : ℂ) ^ 2) b2 (bk 1)
  obtain ⟨l1, r1⟩ := broadcastShapes_bounds s1
  obtain ⟨l2, r2⟩ := broadcastShapes_bounds s2
  obtain ⟨l3, r3⟩ := broadcastShapes_bounds s3
  refine ⟨x1, x2, x3, e1, e2, e3, b3, (l1.trans l2).trans l3, (r1.trans l2).trans l3, ?_, fun i hi j hj => ?_⟩
  · rw [sk] at r3
    exact r3
  · have hl : (i ++ [j]).length = (T ++ [n]).length := by simp [hi]
    rw [v3 _ hl, v2 _ hl, v1 _ hl, ek 0 i j hi hj, ek 1 i j hi hj, elementAt_expandLast _ (by rw [hi]; exact he.length_le),
      elementAt_expandLast _ (by rw [hi]; exact hw.length_le)]
    rfl

/-- A uniform isotropic layer with batch dimensions. -/
theorem eigensolveUniformIsotropicBatch_ok {w k u v : NDArray ℝ} {K : List ℕ} {m : ℕ} {l : LatticeVectors} (hn : 0 < n)
    (h : BatchInputs t w k u v K m l) {p : NDArray ℂ} {P : List ℕ} (hp : p.shape = P ++ [1, 1]) (hP : BroadcastsTo P t)
    (hw0 : ∀ i, ValidIndex t i → w.elementAt i ≠ 0) (hp0 : ∀ i, ValidIndex t i → p.elementAt (i ++ [0, 0]) ≠ 0) (G : Fin n → ℤ × ℤ) :
    ∃ out, eigensolveUniformIsotropicBatch w k u v p G = .ok out ∧
      SolvedLayer t (batchRank w K m P) l [w.shape, K, P] (fun i =>
        eigensolveUniformIsotropic (w.elementAt i) (k.elementAt (i ++ [0]), k.elementAt (i ++ [1])) l (p.elementAt (i ++ [0, 0])) G)
        out := by
  obtain ⟨args, ha, hps, hal⟩ := validate_ok h (p := p) (ps := []) (P := P) (nx := 1) (ny := 1) (by simpa using hp) hP
  obtain ⟨hb1, hb2⟩ := batchRank_bounds h hP
  set r := batchRank w K m P with hr
  simp only [List.map_cons, List.map_nil] at hps
  obtain ⟨hg1, hg2, hg3⟩ := gridsOf_pad hp hP hb1 hb2
  set q := p.atleastNd (r + 2) with hq
  set eps : NDArray ℂ := { shape := dropLastN 2 q.shape, get := fun b => q.get (b ++ [0, 0]) } with heps
  have fe : Fits t r eps := hg1.of_shape rfl
  have hPe : BroadcastsTo P eps.shape := hg2
  have ee : ∀ i, i.length = t.length → eps.elementAt i = p.elementAt (i ++ [0, 0]) := by
    intro i hi
    have e := congrArg (fun g => (Except.toOption g).map fun m : Grid 1 1 => m 0 0) (hg3 i hi)
    simpa [gridsOf, gridAt, NDArray.elementAt, Except.toOption] using e
  obtain ⟨K', hK1, hK2, hK3, hK4⟩ := hal.wavevector
  have eK : dropLastN 1 args.inPlaneWavevector.shape = K' := by rw [dropLastN_one, hK1]; simp
  have huni : isUniformShape q.shape = true := by
    have : q.shape = (List.replicate (r + 2 - p.shape.length) 1 ++ P) ++ [1, 1] := by
      rw [hq]
      simp only [NDArray.atleastNd]
      rw [hp, List.append_assoc]
    rw [this, isUniformShape, List.length_append, show [1, 1].length = 2 from rfl, Nat.add_sub_cancel, List.drop_left]
    rfl
  obtain ⟨kt, hkt, hks, hkw, hke⟩ := transverse_ok (n := n) hK1 hK2 hK3 hal.lattice G
  obtain ⟨s, es, s1, s2, s3, s4, s5⟩ := broadcastShapes3_exists hal.wavelength.broadcasts hK2 fe.broadcasts
  have s6 : s.length = r := by rw [s5, hal.wavelength.rank, hK3, fe.rank]; simp
  obtain ⟨x1, x2, x3, e1, e2, e3, -, -, -, -, hx⟩ := uniformEigenvalues_ok fe.broadcasts hal.wavelength.broadcasts hks hK2
  obtain ⟨y1, y2, y3, f1, f2, f3, b1, b2, b3, b4, -⟩ := uniformEigenvalues_ok s4 s2 hks s3
  obtain rfl := ok_inj.1 (e1.symm.trans f1)
  obtain rfl := ok_inj.1 (e2.symm.trans f2)
  obtain rfl := ok_inj.1 (e3.symm.trans f3)
  obtain ⟨s', hs', hKs, hss⟩ := last_axis b4 b1
  rw [hs'] at b2 b3
  have es' : s' = s := by
    obtain ⟨c, hc1, hc2, hc3, hc4, hc5, -⟩ := broadcastShapes3_exists (broadcastsTo_append_one b3).1 hKs (broadcastsTo_append_one b2).1
    obtain rfl := ok_inj.1 (es.symm.trans hc1)
    exact hss.antisymm hc2
  subst es'
  set Q := (x3.map fun x => selectEigenvaluesSign (csqrt x)).tileTwice with hQ
  have hQs : Q.shape.dropLast = s' := by
    show (x3.shape.dropLast ++ [_]).dropLast = _
    rw [List.dropLast_concat, hs', List.dropLast_concat]
  have hsn : BroadcastsTo (s' ++ [n]) (t ++ [n]) := s1.append (.cons (Or.inr rfl) .nil)
  have hen : BroadcastsTo eps.expandLast.shape (s' ++ [n]) := broadcastsTo_expandLast s4 n
  obtain ⟨iz, eiz, siz, hiz⟩ := broadcastTo_ok (a := recipOf eps.expandLast) hen hsn
  obtain ⟨z, ez, sz, hz⟩ := broadcastTo_ok (a := eps.expandLast) hen hsn
  set ones : Batch (Matrix (Fin n) (Fin n) ℂ) := { shape := z.shape.dropLast, get := fun _ => .ok (diag fun _ => 1) } with hones
  set out : BatchLayer n :=
    { wavelength := args.angularFrequency, inPlaneWavevector := args.inPlaneWavevector, u := args.u, v := args.v,
      expansion := G, eigenvalues := modesOf Q, eigenvectors := { shape := s', get := fun _ => .ok 1 },
      zPermittivity := diagOf z, inverseZPermittivity := diagOf iz, zPermeability := ones, inverseZPermeability := ones,
      transversePermeability := { shape := Q.shape.dropLast, get := fun _ => .ok (diag fun _ => 1) }, tangentNdim := none } with hout
  have szd : z.shape.dropLast = s' := by rw [sz, List.dropLast_concat]
  have sizd : iz.shape.dropLast = s' := by rw [siz, List.dropLast_concat]
  have fq : Fits t r out.eigenvalues := ⟨by show BroadcastsTo Q.shape.dropLast t; rw [hQs]; exact s1, by show Q.shape.dropLast.length = r; rw [hQs]; exact s6⟩
  have fz : Fits t r out.zPermittivity := ⟨by show BroadcastsTo z.shape.dropLast t; rw [szd]; exact s1, by show z.shape.dropLast.length = r; rw [szd]; exact s6⟩
  have fiz : Fits t r out.inverseZPermittivity := ⟨by show BroadcastsTo iz.shape.dropLast t; rw [sizd]; exact s1, by show iz.shape.dropLast.length = r; rw [sizd]; exact s6⟩
  have hfits : LayerFits t r l out := ⟨hal.wavelength, ⟨K', hK1, hK2, hK3⟩, hal.lattice, fq, ⟨s1, s6⟩, fz, fiz, fz.of_shape rfl,
    fz.of_shape rfl, fq.of_shape rfl⟩
  have hcomplete : LayerComplete out := by
    refine ⟨hQs, s2, ?_, ?_, ?_, ?_, ?_, ?_⟩
    · intro K'' hK''
      have e := hK1.symm.trans hK''
      rw [← List.append_cancel_right e]
      exact s3
    · show BroadcastsTo z.shape.dropLast s'
      rw [szd]; exact .refl _
    · show BroadcastsTo iz.shape.dropLast s'
      rw [sizd]; exact .refl _
    · show BroadcastsTo z.shape.dropLast s'
      rw [szd]; exact .refl _
    · show BroadcastsTo z.shape.dropLast s'
      rw [szd]; exact .refl _
    · show BroadcastsTo Q.shape.dropLast s'
      rw [hQs]; exact .refl _
  refine ⟨out, ?_, hfits, hcomplete, ?_, fun i hi => ?_⟩
  · unfold eigensolveUniformIsotropicBatch
    rw [ha]
    simp only [bind, Except.bind, hps]
    rw [if_neg (by rw [huni]; simp), eK]
    rw [show dropLastN 2 q.shape = eps.shape from rfl, es]
    simp only []
    rw [hkt]
    simp only []
    rw [show (⟨eps.shape, fun b => q.get (b ++ [0, 0])⟩ : NDArray ℂ) = eps from rfl, e1]
    simp only []
    rw [e2]
    simp only []
    rw [e3]
    simp only []
    rw [← hQ, hQs, eiz]
    simp only []
    rw [ez]
    simp only []
    have key : out.build = .ok out := BatchLayer.build_ok hn h.positive hfits hcomplete (by simp [hout])
    rw [← key, hout, hQs]
  · intro x hx
    simp only [List.mem_cons, List.not_mem_nil, or_false] at hx
    rcases hx with rfl | rfl | rfl
    · exact hal.wavelength_le.trans s2
    · exact hK4.trans s3
    · exact hPe.trans s4
  · intro res
    have hil := validIndex_length hi
    have hsi : s'.length ≤ i.length := by rw [hil]; exact s1.length_le
    have hlat := hal.lattice.elementAt (i := i) (by rw [hil, ← s6]; exact s1.length_le)
    have hkk := hke i hi
    have ekw : (waveVectors (n := n) kt).elementAt i =
        .ok fun x => (kt.get (broadcastIndex K' i ++ [(x : ℕ), 0]), kt.get (broadcastIndex K' i ++ [(x : ℕ), 1])) := by
      unfold NDArray.elementAt
      rw [hkw]
      rfl
    rw [ekw, hal.wavevector_element i 0 hil, hal.wavevector_element i 1 hil] at hkk
    have x3at : ∀ j, j < n → x3.get (broadcastIndex s' i ++ [j]) = x3.elementAt (i ++ [j]) := by
      intro j hj
      unfold NDArray.elementAt
      rw [hs', broadcastIndex_append hsi (by simp), broadcastIndex_single hj]
    have hQe : (modesOf (n := n) Q).elementAt i = .ok (fun j => selectEigenvaluesSign (csqrt (x3.elementAt (i ++ [modePosition j % n])))) := by
      have : (modesOf (n := n) Q).elementAt i = .ok (fun j => Q.get (broadcastIndex s' i ++ [modePosition j])) := by
        unfold NDArray.elementAt
        rw [show (modesOf (n := n) Q).shape = s' from hQs]
        rfl
      rw [this]
      congr 1
      funext j
      rw [← x3at _ (Nat.mod_lt _ hn), hQ]
      simp only [NDArray.tileTwice, NDArray.map, hs', List.dropLast_concat, List.getLastD_concat]
    have hze : (diagOf (n := n) z).elementAt i = .ok (diag fun _ => p.elementAt (i ++ [0, 0])) := by
      have : (diagOf (n := n) z).elementAt i = .ok (diag fun x : Fin n => z.get (broadcastIndex s' i ++ [(x : ℕ)])) := by
        unfold NDArray.elementAt
        rw [show (diagOf (n := n) z).shape = s' from szd]
        rfl
      rw [this]
      congr 2
      funext x
      have e := hz (i ++ [(x : ℕ)]) (by simp [hil])
      rw [elementAt_expandLast _ (by rw [hil]; exact fe.broadcasts.length_le), ee i hil] at e
      rw [← e]
      unfold NDArray.elementAt
      rw [sz, broadcastIndex_append hsi (by simp), broadcastIndex_single x.2]
    have hize : (diagOf (n := n) iz).elementAt i = .ok (diag fun _ => 1 / p.elementAt (i ++ [0, 0])) := by
      have : (diagOf (n := n) iz).elementAt i = .ok (diag fun x : Fin n => iz.get (broadcastIndex s' i ++ [(x : ℕ)])) := by
        unfold NDArray.elementAt
        rw [show (diagOf (n := n) iz).shape = s' from sizd]
        rfl
      rw [this]
      congr 2
      funext x
      have e := hiz (i ++ [(x : ℕ)]) (by simp [hil])
      have e' : (recipOf eps.expandLast).elementAt (i ++ [(x : ℕ)]) = 1 / eps.expandLast.elementAt (i ++ [(x : ℕ)]) := rfl
      rw [e', elementAt_expandLast _ (by rw [hil]; exact fe.broadcasts.length_le), ee i hil] at e
      rw [← e]
      unfold NDArray.elementAt
      rw [siz, broadcastIndex_append hsi (by simp), broadcastIndex_single x.2]
    have single : eigensolveUniformIsotropic (w.elementAt i) (k.elementAt (i ++ [0]), k.elementAt (i ++ [1])) l
        (p.elementAt (i ++ [0, 0])) G = out.elementAt i := by
      unfold eigensolveUniformIsotropic BatchLayer.elementAt angularFrequency
      rw [hout]
      simp only [hQe, hze, hize, hlat]
      rw [← hkk, hal.wavelength_element i hil, hal.wavevector_element i 0 hil, hal.wavevector_element i 1 hil]
      simp only [bind, Except.bind, if_neg (hw0 i hi), if_neg (hp0 i hi)]
      simp only [NDArray.elementAt, hones]
      congr 2
      funext j
      have ev : ∀ x : Fin n, x3.elementAt (i ++ [(x : ℕ)]) =
          p.elementAt (i ++ [0, 0]) * ((2 * Real.pi / w.elementAt i : ℝ) : ℂ) ^ 2 -
            (kt.get (broadcastIndex K' i ++ [(x : ℕ), 0]) : ℂ) ^ 2 - (kt.get (broadcastIndex K' i ++ [(x : ℕ), 1]) : ℂ) ^ 2 := by
        intro x
        rw [hx i hil x x.2, ee i hil, hal.wavelength_element i hil]
      cases j with
      | inl x =>
        have hm : modePosition (Sum.inl x : Fin n ⊕ Fin n) % n = x := Nat.mod_eq_of_lt x.2
        have := ev x
        simp only [NDArray.elementAt] at this
        simp only [Sum.elim_inl, hm, this]
      | inr x =>
        have hm : modePosition (Sum.inr x : Fin n ⊕ Fin n) % n = x := by
          show (n + (x : ℕ)) % n = x
          rw [Nat.add_mod_left, Nat.mod_eq_of_lt x.2]
        have := ev x
        simp only [NDArray.elementAt] at this
        simp only [Sum.elim_inr, hm, this]
    rw [single]

end Fmmax
