import Verif.Proofs.BatchScattering

/-! Property C96: eigensolves and scattering matrices with batch dimensions are those of each batch element. -/

namespace Fmmax

open Spec

variable {t : List ℕ} {r n nx ny : ℕ}

theorem isUniformShape_append (P : List ℕ) : isUniformShape (P ++ [nx, ny]) = true ↔ nx = 1 ∧ ny = 1 := by
  rw [isUniformShape, List.length_append, show [nx, ny].length = 2 from rfl, Nat.add_sub_cancel, List.drop_left]
  simp

section

variable (eig : Matrix (Fin n ⊕ Fin n) (Fin n ⊕ Fin n) ℂ → (Fin n ⊕ Fin n → ℂ) × Matrix (Fin n ⊕ Fin n) (Fin n ⊕ Fin n) ℂ)

/-- C96: `eigensolve_isotropic_media`, for a wavelength, in-plane wavevectors and a permittivity whose batch shapes can be broadcast to
`t` and one lattice, succeeds; the result has the common batch shape, and its element at every batch index is the result for the
elements of the arguments at that index. -/
theorem C96_isotropic {w k u v : NDArray ℝ} {K : List ℕ} {m : ℕ} {l : LatticeVectors} (hn : 0 < n) (h : BatchInputs t w k u v K m l)
    {p : NDArray ℂ} {P : List ℕ} (hp : p.shape = P ++ [nx, ny]) (hP : BroadcastsTo P t)
    (hw0 : ∀ i, ValidIndex t i → w.elementAt i ≠ 0) (hp0 : nx = 1 ∧ ny = 1 → ∀ i, ValidIndex t i → p.elementAt (i ++ [0, 0]) ≠ 0)
    (G : Fin n → ℤ × ℤ) (formulation : Formulation nx ny (Fin n)) :
    ∃ out, eigensolveIsotropicMediaBatch eig w k u v p G formulation = .ok out ∧
      SolvedLayer t (batchRank w K m P) l [w.shape, K, P] (fun i =>
        eigensolveIsotropicMedia eig (w.elementAt i) (k.elementAt (i ++ [0]), k.elementAt (i ++ [1])) l (gridAt p nx ny i) G
          formulation) out := by
  unfold eigensolveIsotropicMediaBatch eigensolveIsotropicMedia
  by_cases hu : nx = 1 ∧ ny = 1
  · rw [if_pos (by rw [hp]; exact (isUniformShape_append P).2 hu)]
    simp only [dif_pos hu]
    obtain ⟨rfl, rfl⟩ := hu
    exact eigensolveUniformIsotropicBatch_ok hn h hp hP hw0 (hp0 ⟨rfl, rfl⟩) G
  · rw [if_neg (by rw [hp, isUniformShape_append]; exact hu)]
    simp only [dif_neg hu]
    exact eigensolvePatternedIsotropicBatch_ok eig hn h hp hP G formulation

theorem gridAt_average {exx eyy source : NDArray ℂ} {P : List ℕ} (hx : exx.shape = P ++ [nx, ny]) (hy : eyy.shape = P ++ [nx, ny])
    (hP : BroadcastsTo P t) (h : exx.zipWith (fun x y => (x + y) / 2) eyy = .ok source) :
    source.shape = P ++ [nx, ny] ∧ ∀ i, ValidIndex t i → gridAt source nx ny i =
      Matrix.of fun r s => (gridAt exx nx ny i r s + gridAt eyy nx ny i r s) / 2 := by
  have ht : BroadcastsTo (P ++ [nx, ny]) (t ++ [nx, ny]) := hP.append (.cons (Or.inr rfl) (.cons (Or.inr rfl) .nil))
  obtain ⟨c, h1, -, h3, h4⟩ := zipWith_elementAt (fun x y : ℂ => (x + y) / 2) (a := exx) (b := eyy) (hx ▸ ht) (hy ▸ ht)
  obtain rfl := ok_inj.1 (h.symm.trans h1)
  refine ⟨?_, fun i hi => ?_⟩
  · rw [hx, hy, broadcastShapes_of_broadcastsTo (.refl _)] at h3
    exact (Option.some.inj h3).symm
  · ext a b
    have := h4 (i ++ [(a : ℕ), (b : ℕ)]) (by simp [validIndex_length hi])
    simpa [gridAt] using this

/-- C96: `eigensolve_general_anisotropic_media` with batch dimensions, with and without a source of the vector field. -/
theorem C96_anisotropic {w k u v : NDArray ℝ} {K : List ℕ} {m : ℕ} {l : LatticeVectors} (hn : 0 < n)
    (h : BatchInputs t w k u v K m l) {exx exy eyx eyy ezz mxx mxy myx myy mzz : NDArray ℂ} {P : List ℕ}
    (hp : ∀ p ∈ [exx, exy, eyx, eyy, ezz, mxx, mxy, myx, myy, mzz], p.shape = P ++ [nx, ny]) (hP : BroadcastsTo P t)
    (source : Option (NDArray ℂ)) (hs : ∀ s, source = some s → s.shape = P ++ [nx, ny])
    (G : Fin n → ℤ × ℤ) (formulation : Formulation nx ny (Fin n)) :
    ∃ out, eigensolveGeneralAnisotropicMediaBatch eig w k u v exx exy eyx eyy ezz mxx mxy myx myy mzz source G formulation = .ok out ∧
      SolvedLayer t (batchRank w K m P) l [w.shape, K, P] (fun i =>
        eigensolveGeneralAnisotropicMedia eig (w.elementAt i) (k.elementAt (i ++ [0]), k.elementAt (i ++ [1])) l
          (tensorAt exx exy eyx eyy ezz nx ny i) (tensorAt mxx mxy myx myy mzz nx ny i) G formulation
          (source.map fun s => gridAt s nx ny i)) out := by
  unfold eigensolveGeneralAnisotropicMediaBatch eigensolveGeneralAnisotropicMedia
  have hx := hp exx (by simp)
  have hy := hp eyy (by simp)
  by_cases hu : nx = 1 ∧ ny = 1
  · rw [if_pos (by rw [hx]; exact (isUniformShape_append P).2 hu)]
    simp only [dif_pos hu]
    obtain ⟨rfl, rfl⟩ := hu
    have e : ∀ t : TensorComponents 1 1, t.uniform ⟨rfl, rfl⟩ = t := by
      intro t
      cases t
      unfold TensorComponents.uniform
      congr 1 <;>
      · ext a b
        rw [Subsingleton.elim a 0, Subsingleton.elim b 0]
        rfl
    simp only [e]
    exact eigensolveUniformAnisotropicBatch_ok eig hn h hp hP G
  · rw [if_neg (by rw [hx, isUniformShape_append]; exact hu)]
    simp only [dif_neg hu]
    cases source with
    | some s =>
      obtain ⟨out, h1, h2⟩ := eigensolvePatternedAnisotropicBatch_ok eig hn h
        (exx := exx) (exy := exy) (eyx := eyx) (eyy := eyy) (ezz := ezz) (mxx := mxx) (mxy := mxy) (myx := myx) (myy := myy)
        (mzz := mzz) (source := s) (by
          intro p hpm
          have hs' := hs s rfl
          simp only [List.mem_cons, List.not_mem_nil, or_false] at hpm hp
          rcases hpm with hpm | hpm | hpm | hpm | hpm | hpm | hpm | hpm | hpm | hpm | hpm
          · exact hp p (by tauto)
          · exact hp p (by tauto)
          · exact hp p (by tauto)
          · exact hp p (by tauto)
          · exact hp p (by tauto)
          · exact hp p (by tauto)
          · exact hp p (by tauto)
          · exact hp p (by tauto)
          · exact hp p (by tauto)
          · exact hp p (by tauto)
          · rw [hpm]; exact hs') hP G formulation
      exact ⟨out, h1, h2⟩
    | none =>
      have ht : BroadcastsTo (P ++ [nx, ny]) (t ++ [nx, ny]) := hP.append (.cons (Or.inr rfl) (.cons (Or.inr rfl) .nil))
      obtain ⟨src, hz, -⟩ := zipWith_elementAt (fun x y : ℂ => (x + y) / 2) (a := exx) (b := eyy) (hx ▸ ht) (hy ▸ ht)
      obtain ⟨hss, hse⟩ := gridAt_average hx hy hP hz
      obtain ⟨out, h1, h2⟩ := eigensolvePatternedAnisotropicBatch_ok eig hn h
        (exx := exx) (exy := exy) (eyx := eyx) (eyy := eyy) (ezz := ezz) (mxx := mxx) (mxy := mxy) (myx := myx) (myy := myy)
        (mzz := mzz) (source := src) (by
          intro p hpm
          simp only [List.mem_cons, List.not_mem_nil, or_false] at hpm hp
          rcases hpm with hpm | hpm | hpm | hpm | hpm | hpm | hpm | hpm | hpm | hpm | hpm
          · exact hp p (by tauto)
          · exact hp p (by tauto)
          · exact hp p (by tauto)
          · exact hp p (by tauto)
          · exact hp p (by tauto)
          · exact hp p (by tauto)
          · exact hp p (by tauto)
          · exact hp p (by tauto)
          · exact hp p (by tauto)
          · exact hp p (by tauto)
          · rw [hpm]; exact hss) hP G formulation
      rw [hz]
      refine ⟨out, h1, h2.fits, h2.complete, h2.shape, fun i hi => ?_⟩
      have := h2.element i hi
      rw [hse i hi] at this
      exact this

/-- C96: `eigensolve_anisotropic_media` with batch dimensions. -/
theorem C96_anisotropic_unit_permeability {w k u v : NDArray ℝ} {K : List ℕ} {m : ℕ} {l : LatticeVectors} (hn : 0 < n)
    (h : BatchInputs t w k u v K m l) {exx exy eyx eyy ezz : NDArray ℂ} {P : List ℕ}
    (hp : ∀ p ∈ [exx, exy, eyx, eyy, ezz], p.shape = P ++ [nx, ny]) (hP : BroadcastsTo P t)
    (G : Fin n → ℤ × ℤ) (formulation : Formulation nx ny (Fin n)) :
    ∃ out, eigensolveAnisotropicMediaBatch eig w k u v exx exy eyx eyy ezz G formulation = .ok out ∧
      SolvedLayer t (batchRank w K m P) l [w.shape, K, P] (fun i =>
        eigensolveAnisotropicMedia eig (w.elementAt i) (k.elementAt (i ++ [0]), k.elementAt (i ++ [1])) l
          (tensorAt exx exy eyx eyy ezz nx ny i) G formulation) out := by
  have hx := hp exx (by simp)
  obtain ⟨out, h1, h2⟩ := C96_anisotropic eig hn h (mxx := exx.map fun _ => 1) (mxy := exx.map fun _ => 0)
    (myx := exx.map fun _ => 0) (myy := exx.map fun _ => 1) (mzz := exx.map fun _ => 1) (exx := exx) (exy := exy) (eyx := eyx)
    (eyy := eyy) (ezz := ezz) (P := P) (nx := nx) (ny := ny) (by
      have e : ∀ c : ℂ, (exx.map fun _ => c).shape = P ++ [nx, ny] := fun _ => hx
      simp only [List.mem_cons, List.not_mem_nil, or_false] at hp ⊢
      rintro p (hq | hq | hq | hq | hq | hq | hq | hq | hq | hq)
      · exact hp p (by tauto)
      · exact hp p (by tauto)
      · exact hp p (by tauto)
      · exact hp p (by tauto)
      · exact hp p (by tauto)
      all_goals rw [hq]; exact e _) hP none (by simp) G formulation
  exact ⟨out, h1, h2.fits, h2.complete, h2.shape, fun i hi => h2.element i hi⟩

end

/-! ### Stacks -/

theorem appendLoop_last_eq_scanLoop {ι : Type} [Fintype ι] [DecidableEq ι] (s : ScatteringMatrix ι) (rest : List (LayerSolveResult ι × ℝ)) (x : ScatteringMatrix ι) :
    (do
      let tail ← appendLoop s rest
      match (x :: s :: tail).getLast? with
      | some s => .ok s
      | none => .error .indexError) = scanLoop s rest := by
  induction rest generalizing s x with
  | nil => simp [appendLoop, scanLoop, bind, Except.bind]
  | cons a rest ih =>
    obtain ⟨l, d⟩ := a
    unfold appendLoop scanLoop
    cases h : appendLayer s l d with
    | error e => rfl
    | ok s' =>
      have := ih s' s
      simp only [bind, Except.bind] at this ⊢
      rw [← this]
      cases appendLoop s' rest with
      | error e => rfl
      | ok tail => simp

theorem appendLoopBatch_ok (pairs : List (BatchLayer n × ℝ)) (h : ∀ x ∈ pairs, ∃ lat, LayerFits t r lat x.1)
    {s : BatchScatteringMatrix n} (hs : SMatrixFits t r s) :
    ∃ s', appendLoopBatch s pairs = .ok s' ∧ SMatrixFits t r s' ∧
      ∀ i a b, ValidIndex t i → s.startLayer.elementAt i = .ok a → s.endLayer.elementAt i = .ok b →
        ∀ rs : List (LayerSolveResult (Fin n) × ℝ),
          List.Forall₂ (fun (x : BatchLayer n × ℝ) (y : LayerSolveResult (Fin n) × ℝ) => x.1.elementAt i = .ok y.1 ∧ x.2 = y.2) pairs rs →
          SameOk (s'.elementAt i) (do
            let x ← s.elementAt i
            scanLoop x rs) := by
  induction pairs generalizing s with
  | nil =>
    refine ⟨s, rfl, hs, fun i a b hi ha hb rs hrs => ?_⟩
    cases hrs
    cases s.elementAt i <;> exact SameOk.rfl
  | cons x pairs ih =>
    obtain ⟨l, d⟩ := x
    obtain ⟨lat, hl⟩ := h (l, d) (by simp)
    obtain ⟨s1, e1, f1, st, en, h1⟩ := appendLayerBatch_ok hs hl d
    obtain ⟨s2, e2, f2, h2⟩ := ih (fun x hx => h x (by simp [hx])) f1
    refine ⟨s2, ?_, f2, fun i a b hi ha hb rs hrs => ?_⟩
    · unfold appendLoopBatch
      rw [e1]
      exact e2
    · cases hrs with
      | @cons _ y _ rs hy hrs =>
        obtain ⟨c, d'⟩ := y
        obtain ⟨hy1, hy2⟩ := hy
        simp only at hy1 hy2
        subst hy2
        have g1 := h1 i a b c hi ha hb hy1
        have g2 := h2 i a c hi (by rw [st]; exact ha) (by rw [en]; exact hy1) rs hrs
        intro v
        rw [g2 v]
        rcases g1.cases with ⟨x, hx, hx'⟩ | ⟨e, e', hx, hx'⟩
        · rw [hx]
          obtain ⟨y, hy, hy'⟩ := bind_eq_ok.1 hx'
          rw [hy]
          simp only [bind, Except.bind, scanLoop]
          rw [hy']
        · rw [hx]
          cases hs' : s.elementAt i with
          | error e => simp [bind, Except.bind]
          | ok x =>
            rw [hs'] at hx'
            simp only [bind, Except.bind] at hx'
            simp only [bind, Except.bind, scanLoop]
            rw [hx']
            simp

/-- C96: `stack_s_matrix` of layers with batch dimensions of the same rank that can be broadcast to `t` succeeds, and its element at a
batch index at which the layers are solved is the scattering matrix of the layers' elements. -/
theorem C96_stack {layers : List (BatchLayer n)} {thicknesses : List ℝ} (hne : layers ≠ []) (hlen : layers.length = thicknesses.length)
    (h : ∀ l ∈ layers, ∃ lat, LayerFits t r lat l) :
    ∃ S, stackSMatrixBatch layers thicknesses = .ok S ∧ SMatrixFits t r S ∧
      ∀ i, ValidIndex t i → ∀ rs : List (LayerSolveResult (Fin n)), List.Forall₂ (fun l a => l.elementAt i = .ok a) layers rs →
        SameOk (S.elementAt i) (stackSMatrix rs thicknesses) := by
  have key : ∀ {L : List (BatchLayer n)} {D : List ℝ} {rs : List (LayerSolveResult (Fin n))} {i : List ℕ}, L.length = D.length →
      List.Forall₂ (fun l a => l.elementAt i = .ok a) L rs →
      List.Forall₂ (fun (x : BatchLayer n × ℝ) (y : LayerSolveResult (Fin n) × ℝ) => x.1.elementAt i = .ok y.1 ∧ x.2 = y.2)
        (L.zip D) (rs.zip D) := by
    intro L D rs i hl hf
    induction hf generalizing D with
    | nil => exact .nil
    | cons hx _ ih =>
      cases D with
      | nil => exact .nil
      | cons d D => exact .cons ⟨hx, rfl⟩ (ih (by simpa using hl))
  unfold stackSMatrixBatch
  rw [if_neg (not_not.2 hlen)]
  match layers, thicknesses, hne, hlen, h with
  | [l], [d], _, _, h =>
    obtain ⟨lat, hl⟩ := h l (by simp)
    refine ⟨_, rfl, ⟨hl.eigenvalues.map _, hl.eigenvalues.map _, hl.eigenvalues.map _, hl.eigenvalues.map _, ⟨lat, hl⟩, ⟨lat, hl⟩⟩,
      fun i hi rs hrs => ?_⟩
    cases hrs with
    | @cons _ a _ _ ha hrs =>
      cases hrs
      have ea := BatchLayer.elementAt_ok ha
      have : BatchScatteringMatrix.elementAt (n := n) { s11 := l.eigenvalues.map fun _ => .ok (diag fun _ => 1), s12 := l.eigenvalues.map fun _ => .ok 0, s21 := l.eigenvalues.map fun _ => .ok 0, s22 := l.eigenvalues.map fun _ => .ok (diag fun _ => 1), startLayer := l, startThickness := d, endLayer := l, endThickness := d } i =
          .ok (identitySMatrix a d) := by
        unfold BatchScatteringMatrix.elementAt
        simp only [Batch.elementAt_map, ea.eigenvalues, ha]
        rfl
      intro v
      show BatchScatteringMatrix.elementAt (n := n) { s11 := l.eigenvalues.map fun _ => .ok (diag fun _ => 1), s12 := l.eigenvalues.map fun _ => .ok 0, s21 := l.eigenvalues.map fun _ => .ok 0, s22 := l.eigenvalues.map fun _ => .ok (diag fun _ => 1), startLayer := l, startThickness := d, endLayer := l, endThickness := d } i = .ok v ↔ _
      rw [this]
      exact Iff.rfl
  | l0 :: l1 :: rest, d0 :: d1 :: ds, _, hlen, h =>
    obtain ⟨lat0, h0⟩ := h l0 (by simp)
    obtain ⟨lat1, h1⟩ := h l1 (by simp)
    obtain ⟨s, es, fs, st, en, hs⟩ := pairSMatrixBatch_ok h0 h1 d0 d1
    obtain ⟨S, eS, fS, hS⟩ := appendLoopBatch_ok (rest.zip ds) (fun x hx => h x.1 (by
      simp only [List.mem_cons]
      exact Or.inr (Or.inr (List.of_mem_zip hx).1))) fs
    refine ⟨S, ?_, fS, fun i hi rs hrs => ?_⟩
    · show (pairSMatrixBatch l0 d0 l1 d1 >>= fun s => appendLoopBatch s (rest.zip ds)) = _
      rw [es]
      exact eS
    · cases hrs with
      | @cons _ a _ _ ha hrs =>
        cases hrs with
        | @cons _ b _ rs hb hrs =>
          have hl' : rest.length = ds.length := by simpa using hlen
          have g1 := hs i a b hi ha hb
          have g2 := hS i a b hi (by rw [st]; exact ha) (by rw [en]; exact hb) _ (key hl' hrs)
          intro v
          rw [g2 v]
          have e : stackSMatrix (a :: b :: rs) (d0 :: d1 :: ds) = (do
              let s ← pairSMatrix a d0 b d1
              scanLoop s (rs.zip ds)) := by
            unfold stackSMatrix stackSMatrices
            rw [if_neg (by simp [← hrs.length_eq, hl'])]
            simp only [List.zip_cons_cons]
            cases hp : pairSMatrix a d0 b d1 with
            | error e => rfl
            | ok s1 =>
              have := appendLoop_last_eq_scanLoop s1 (rs.zip ds) (identitySMatrix a d0)
              simp only [bind, Except.bind] at this ⊢
              rw [← this]
              cases appendLoop s1 (rs.zip ds) <;> rfl
          rw [e]
          rcases g1.cases with ⟨x, hx, hx'⟩ | ⟨e, e', hx, hx'⟩
          · rw [hx, hx']
          · rw [hx, hx']
            simp [bind, Except.bind]

/-- A layer of an isotropic medium with batch dimensions. -/
structure BatchMedium (n : ℕ) where
  nx : ℕ
  ny : ℕ
  permittivity : NDArray ℂ
  batchShape : List ℕ
  formulation : Formulation nx ny (Fin n)

/-- C96, from the arguments to the scattering matrix: solving every layer of a stack with batch dimensions and one lattice and
computing the scattering matrix succeeds, and the element at a batch index at which the layers can be solved is the scattering
matrix computed from the elements of the arguments at that index.  The permittivities may have different batch shapes, as long as
the layers have the same batch rank (for instance, that of the wavelength). -/
theorem C96_calculation
    (eig : Matrix (Fin n ⊕ Fin n) (Fin n ⊕ Fin n) ℂ → (Fin n ⊕ Fin n → ℂ) × Matrix (Fin n ⊕ Fin n) (Fin n ⊕ Fin n) ℂ)
    {w k u v : NDArray ℝ} {K : List ℕ} {m : ℕ} {l : LatticeVectors} (hn : 0 < n) (h : BatchInputs t w k u v K m l)
    {media : List (BatchMedium n)} {thicknesses : List ℝ} (hne : media ≠ []) (hlen : media.length = thicknesses.length)
    (hw0 : ∀ i, ValidIndex t i → w.elementAt i ≠ 0)
    (hm : ∀ M ∈ media, M.permittivity.shape = M.batchShape ++ [M.nx, M.ny] ∧ BroadcastsTo M.batchShape t ∧
      batchRank w K m M.batchShape = r ∧
      (M.nx = 1 ∧ M.ny = 1 → ∀ i, ValidIndex t i → M.permittivity.elementAt (i ++ [0, 0]) ≠ 0)) (G : Fin n → ℤ × ℤ) :
    ∃ layers S,
      List.Forall₂ (fun M L => eigensolveIsotropicMediaBatch eig w k u v M.permittivity G M.formulation = .ok L) media layers ∧
      stackSMatrixBatch layers thicknesses = .ok S ∧
      ∀ i, ValidIndex t i → ∀ rs : List (LayerSolveResult (Fin n)),
        List.Forall₂ (fun M a => eigensolveIsotropicMedia eig (w.elementAt i) (k.elementAt (i ++ [0]), k.elementAt (i ++ [1])) l
          (gridAt M.permittivity M.nx M.ny i) G M.formulation = .ok a) media rs →
        ∀ s, S.elementAt i = .ok s ↔ stackSMatrix rs thicknesses = .ok s := by
  have solved : ∀ ms : List (BatchMedium n), (∀ M ∈ ms, M ∈ media) → ∃ layers,
      List.Forall₂ (fun M L => eigensolveIsotropicMediaBatch eig w k u v M.permittivity G M.formulation = .ok L ∧
        SolvedLayer t r l [w.shape, K, M.batchShape] (fun i =>
          eigensolveIsotropicMedia eig (w.elementAt i) (k.elementAt (i ++ [0]), k.elementAt (i ++ [1])) l
            (gridAt M.permittivity M.nx M.ny i) G M.formulation) L) ms layers := by
    intro ms hms
    induction ms with
    | nil => exact ⟨[], .nil⟩
    | cons M ms ih =>
      obtain ⟨Ls, hLs⟩ := ih fun x hx => hms x (by simp [hx])
      obtain ⟨h1, h2, h3, h4⟩ := hm M (hms M (by simp))
      obtain ⟨L, hL, hs⟩ := C96_isotropic eig hn h h1 h2 hw0 h4 G M.formulation
      rw [h3] at hs
      exact ⟨L :: Ls, .cons ⟨hL, hs⟩ hLs⟩
  obtain ⟨layers, hl⟩ := solved media fun _ hM => hM
  have hll := hl.length_eq
  have hfit : ∀ L ∈ layers, ∃ lat, LayerFits t r lat L := by
    intro L hL
    obtain ⟨j, hj, rfl⟩ := List.mem_iff_getElem.1 hL
    have := (List.forall₂_iff_get.1 hl).2 j (by omega) hj
    exact ⟨l, this.2.fits⟩
  obtain ⟨S, hS, -, hE⟩ := C96_stack (t := t) (r := r) (layers := layers) (thicknesses := thicknesses) (by
    rintro rfl
    apply hne
    cases hl
    rfl) (by omega) hfit
  refine ⟨layers, S, hl.imp fun _ _ h => h.1, hS, fun i hi rs hrs s => ?_⟩
  refine hE i hi rs ?_ s
  rw [List.forall₂_iff_get] at hl hrs ⊢
  refine ⟨by have := hl.1; have := hrs.1; omega, fun j h1 h2 => ?_⟩
  have g1 := (hl.2 j (by omega) h1).2.element i hi
  exact (g1 _).2 (hrs.2 j (by omega) h2)

/-! ### A calculation for three wavelengths and two in-plane wavevectors -/

/-- Wavelengths `1, 2, 3`, of shape `(3, 1)`. -/
def exampleWavelengths : NDArray ℝ := { shape := [3, 1], get := fun i => i.headD 0 + 1 }

/-- In-plane wavevectors `(0, 0)` and `(1, 0)`, of shape `(2, 2)`. -/
def exampleWavevectors : NDArray ℝ := { shape := [2, 2], get := fun i => if i = [1, 0] then 1 else 0 }

/-- A unit vector along an axis, of shape `(2,)`. -/
def exampleAxis (a : ℕ) : NDArray ℝ := { shape := [2], get := fun i => if i = [a] then 1 else 0 }

theorem example_batchInputs : BatchInputs [3, 2] exampleWavelengths exampleWavevectors (exampleAxis 0) (exampleAxis 1) [2] 0
    ⟨(1, 0), (0, 1)⟩ where
  positive := by simp
  wavelength := ⟨[], [3, 2], rfl, .cons (Or.inr rfl) (.cons (Or.inl rfl) .nil)⟩
  wavevector_shape := rfl
  wavevector := ⟨[3], [2], rfl, .cons (Or.inr rfl) .nil⟩
  lattice_rank := by simp
  lattice :=
    { u_shape := rfl, v_shape := rfl, eq := by simp [latticeAt, exampleAxis], independent := by simp [Independent] }

theorem example_wavelengths_ne_zero (i : List ℕ) : exampleWavelengths.elementAt i ≠ 0 := by
  show (((broadcastIndex [3, 1] i).headD 0 : ℕ) : ℝ) + 1 ≠ 0
  positivity

/-- Vacuum, the same at every wavelength. -/
def exampleVacuum : BatchMedium 1 :=
  { nx := 1, ny := 1, permittivity := { shape := [1, 1], get := fun _ => 1 }, batchShape := [], formulation := .fft }

/-- A uniform layer whose permittivity depends on the wavelength, of shape `(3, 1, 1, 1)`. -/
def exampleDispersive : BatchMedium 1 :=
  { nx := 1, ny := 1, permittivity := { shape := [3, 1, 1, 1], get := fun i => i.headD 0 + 2 }, batchShape := [3, 1],
    formulation := .fft }

/-- A patterned layer, of shape `(2, 2)`. -/
def examplePatterned : BatchMedium 1 :=
  { nx := 2, ny := 2, permittivity := { shape := [2, 2], get := fun i => if i = [0, 0] then 4 else 1 }, batchShape := [],
    formulation := .fft }

theorem example_media : ∀ M ∈ [exampleVacuum, exampleDispersive, examplePatterned, exampleVacuum],
    M.permittivity.shape = M.batchShape ++ [M.nx, M.ny] ∧ BroadcastsTo M.batchShape [3, 2] ∧
      batchRank exampleWavelengths [2] 0 M.batchShape = 2 ∧
      (M.nx = 1 ∧ M.ny = 1 → ∀ i, ValidIndex [3, 2] i → M.permittivity.elementAt (i ++ [0, 0]) ≠ 0) := by
  intro M hM
  simp only [List.mem_cons, List.not_mem_nil, or_false] at hM
  have hv : exampleVacuum.permittivity.shape = exampleVacuum.batchShape ++ [exampleVacuum.nx, exampleVacuum.ny] ∧
      BroadcastsTo exampleVacuum.batchShape [3, 2] ∧ batchRank exampleWavelengths [2] 0 exampleVacuum.batchShape = 2 ∧
      (exampleVacuum.nx = 1 ∧ exampleVacuum.ny = 1 →
        ∀ i, ValidIndex [3, 2] i → exampleVacuum.permittivity.elementAt (i ++ [0, 0]) ≠ 0) :=
    ⟨rfl, .nil _, by simp [batchRank, exampleWavelengths, exampleVacuum], fun _ i _ => one_ne_zero⟩
  rcases hM with rfl | rfl | rfl | rfl
  · exact hv
  · refine ⟨rfl, ⟨[], [3, 2], rfl, .cons (Or.inr rfl) (.cons (Or.inl rfl) .nil)⟩, by simp [batchRank, exampleWavelengths, exampleDispersive],
      fun _ i _ => ?_⟩
    show (((broadcastIndex [3, 1, 1, 1] (i ++ [0, 0])).headD 0 : ℕ) : ℂ) + 2 ≠ 0
    norm_cast
  · exact ⟨rfl, .nil _, by simp [batchRank, exampleWavelengths, examplePatterned], fun h => absurd h.1 (by simp [examplePatterned])⟩
  · exact hv

/-- The stack of these layers is computed for all wavelengths and wavevectors at once. -/
example (eig : Matrix (Fin 1 ⊕ Fin 1) (Fin 1 ⊕ Fin 1) ℂ → (Fin 1 ⊕ Fin 1 → ℂ) × Matrix (Fin 1 ⊕ Fin 1) (Fin 1 ⊕ Fin 1) ℂ) :
    ∃ layers S,
      List.Forall₂ (fun M L => eigensolveIsotropicMediaBatch eig exampleWavelengths exampleWavevectors (exampleAxis 0) (exampleAxis 1)
        M.permittivity (fun _ => (0, 0)) M.formulation = .ok L) [exampleVacuum, exampleDispersive, examplePatterned, exampleVacuum]
        layers ∧ stackSMatrixBatch layers [1, 2, 3, 1] = .ok S := by
  obtain ⟨layers, S, h1, h2, -⟩ := C96_calculation eig (by omega) example_batchInputs (thicknesses := [1, 2, 3, 1])
    (by simp) (by simp) (fun i _ => example_wavelengths_ne_zero i) example_media (fun _ => (0, 0))
  exact ⟨layers, S, h1, h2⟩

/-- At the third wavelength and second wavevector, the vacuum layer is solved for wavelength 3 and wavevector `(1, 0)`. -/
example (eig : Matrix (Fin 1 ⊕ Fin 1) (Fin 1 ⊕ Fin 1) ℂ → (Fin 1 ⊕ Fin 1 → ℂ) × Matrix (Fin 1 ⊕ Fin 1) (Fin 1 ⊕ Fin 1) ℂ) :
    ∃ out a, eigensolveIsotropicMediaBatch eig exampleWavelengths exampleWavevectors (exampleAxis 0) (exampleAxis 1)
        exampleDispersive.permittivity (fun _ => (0, 0)) exampleDispersive.formulation = .ok out ∧
      eigensolveUniformIsotropic 3 (1, 0) ⟨(1, 0), (0, 1)⟩ 4 (fun _ => (0, 0)) = .ok a ∧ out.elementAt [2, 1] = .ok a := by
  obtain ⟨h1, h2, h3, h4⟩ := example_media exampleDispersive (by simp)
  obtain ⟨out, ho, hs⟩ := C96_isotropic eig (by omega) example_batchInputs h1 h2 (fun i _ => example_wavelengths_ne_zero i) h4
    (fun _ => (0, 0)) exampleDispersive.formulation
  have hi : ValidIndex [3, 2] [2, 1] := .cons (by simp) (.cons (by simp) .nil)
  obtain ⟨a, ha⟩ : ∃ a, eigensolveUniformIsotropic 3 (1, 0) ⟨(1, 0), (0, 1)⟩ 4 (fun _ : Fin 1 => (0, 0)) = .ok a := by
    unfold eigensolveUniformIsotropic transverseWavevectors reciprocal angularFrequency
    simp [crossProduct, bind, Except.bind]
  refine ⟨out, a, ho, ha, (hs.element _ hi a).2 ?_⟩
  rw [← ha]
  have e1 : exampleWavelengths.elementAt [2, 1] = 3 := by
    simp [exampleWavelengths, NDArray.elementAt, broadcastIndex]
    norm_num
  have e2 : exampleWavevectors.elementAt ([2, 1] ++ [0]) = 1 := by simp [exampleWavevectors, NDArray.elementAt, broadcastIndex]
  have e3 : exampleWavevectors.elementAt ([2, 1] ++ [1]) = 0 := by simp [exampleWavevectors, NDArray.elementAt, broadcastIndex]
  have e4 : gridAt exampleDispersive.permittivity exampleDispersive.nx exampleDispersive.ny [2, 1] ⟨0, by decide⟩ ⟨0, by decide⟩ = 4 := by
    show ((2 : ℕ) : ℂ) + 2 = 4
    norm_num
  rw [e1, e2, e3]
  unfold eigensolveIsotropicMedia
  rw [dif_pos ⟨rfl, rfl⟩, e4]

end Fmmax
