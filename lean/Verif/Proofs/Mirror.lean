import Verif.Spec.Mirror
import Verif.Props.Fields3d

/-! Stacks turned upside down: interior scattering matrices, amplitudes and fields. -/

set_option linter.unusedSectionVars false

namespace Fmmax

open Spec Matrix

variable {ι : Type} [Fintype ι] [DecidableEq ι] {β κ : Type}

/-! ### Scattering matrices -/

theorem appendLoop_length {rest : List (LayerSolveResult ι × ℝ)} : ∀ {S : ScatteringMatrix ι} {tail : List (ScatteringMatrix ι)},
    appendLoop S rest = .ok tail → tail.length = rest.length := by
  induction rest with
  | nil =>
    intro S tail h
    cases h
    rfl
  | cons p rest ih =>
    intro S tail h
    obtain ⟨l, d⟩ := p
    simp only [appendLoop, bind_eq_ok, ok_inj] at h
    obtain ⟨S', hS', tl, htl, rfl⟩ := h
    simp [ih htl]

theorem stackSMatrices_count {layers : List (LayerSolveResult ι)} {ds : List ℝ} {ss : List (ScatteringMatrix ι)}
    (h : stackSMatrices layers ds = .ok ss) : ss.length = layers.length := by
  obtain ⟨hlen, p, rest, hz⟩ := stackSMatrices_length h
  rw [stackSMatrices_eq layers ds hlen p rest hz, bind_eq_ok] at h
  obtain ⟨tail, ht, h⟩ := h
  rw [ok_inj] at h
  subst h
  have := congrArg List.length hz
  rw [List.length_zip, hlen, min_self] at this
  rw [List.length_cons, appendLoop_length ht, hlen, this, List.length_cons]

theorem stackSMatricesInterior_reverse {layers : List (LayerSolveResult ι)} {ds : List ℝ}
    {ps : List (ScatteringMatrix ι × ScatteringMatrix ι)} (h : stackSMatricesInterior layers ds = .ok ps) :
    stackSMatricesInterior layers.reverse ds.reverse = .ok (ps.map fun p => (p.2.reverse, p.1.reverse)).reverse := by
  unfold stackSMatricesInterior at *
  obtain ⟨before, h1, h⟩ := bind_eq_ok.1 h
  obtain ⟨rev, h2, h⟩ := bind_eq_ok.1 h
  cases h
  refine bind_eq_ok.2 ⟨rev, h2, ?_⟩
  rw [List.reverse_reverse, List.reverse_reverse]
  refine bind_eq_ok.2 ⟨before, h1, congrArg Except.ok ?_⟩
  have hl : before.length = rev.length := by
    rw [stackSMatrices_count h1, stackSMatrices_count h2, List.length_reverse]
  refine List.ext_getElem (by simp only [List.length_zip, List.length_map, List.length_reverse, hl]) fun n e1 e2 => ?_
  have e3 : n < rev.length := by
    rw [List.length_zip] at e1
    omega
  simp only [List.getElem_zip, List.getElem_map, List.getElem_reverse, List.length_map, List.length_zip, List.length_reverse, hl,
    min_self]
  have e4 : rev.length - 1 - (rev.length - 1 - n) = n := by omega
  simp only [e4]
  rfl

/-! ### Amplitudes -/

theorem amplitudes_reverse {lam : ℝ} {layers : List (LayerSolveResult ι)} {ds : List ℝ}
    {ps ps' : List (ScatteringMatrix ι × ScatteringMatrix ι)} (hlen : layers.length = ds.length)
    (hr : Regular lam (layers.zip ds)) (h : stackSMatricesInterior layers ds = .ok ps)
    (h' : stackSMatricesInterior layers.reverse ds.reverse = .ok ps') {a0 bN : Matrix (ι ⊕ ι) β ℂ} {xs}
    (hx : stackAmplitudesInterior a0 bN ps = .ok xs) :
    stackAmplitudesInterior bN a0 ps' = .ok (xs.map Prod.swap).reverse := by
  obtain ⟨st, first, last, hg, hc, hf, hl, rfl, rfl, hx'⟩ := C40_interior_amplitudes hr h a0 bN
  rw [hx'] at hx
  cases hx
  have hz : layers.reverse.zip ds.reverse = (layers.zip ds).reverse := by
    refine List.ext_getElem (by simp) fun n e1 e2 => ?_
    simp only [List.getElem_zip, List.getElem_reverse, List.length_zip, hlen, min_self]
  have := C40_recovers_consistent_amplitudes (st := (st.map swapState).reverse) (first := swapState last)
    (last := swapState first) (by rw [hz]; exact regular_reverse hr) h'
    (by rw [geometry_reverse_swap, hg, hz]) (consistent_reverse_swap hc)
    (by rw [List.head?_reverse, List.getLast?_map, hl]; rfl)
    (by rw [List.getLast?_reverse, List.head?_map, hf]; rfl)
  refine this.trans ?_
  rw [List.map_reverse, List.map_map, List.map_map]
  rfl

/-! ### Fields of a layer -/

/-- A function which evaluates fields in a plane as sums of plane waves at the points `X l`. -/
def PlaneWaves (Q : LayerSolveResult ι → Prop) (slice : FieldsXYSliceFn ι κ) (X : LayerSolveResult ι → κ → ℝ × ℝ) : Prop :=
  ∀ l, Q l → cellArea l ≠ 0 → ∀ m F R, slice m F l = .ok R → ∀ F' : Fields (Matrix ι (Fin m) ℂ),
    slice m F' l = .ok (F'.map fun c p b => planeWaveSum l (fun i => c i b) (X l p), X l)

theorem coordinateSlice_planeWaves (xy : κ → ℝ × ℝ) :
    PlaneWaves (ι := ι) (fun _ => True) (coordinateSlice xy) fun _ => xy := by
  intro l _ hc m F R _ F'
  exact fieldsOnCoordinates_eq_ok.2 ⟨hc, rfl⟩

/-- The points of the grid. -/
noncomputable def gridPoints (shape cells : ℕ × ℕ) (l : LayerSolveResult ι) (p : Fin (cells.1 * shape.1) × Fin (cells.2 * shape.2)) :
    ℝ × ℝ :=
  latticePoint l.primitiveLatticeVectors ((p.1 : ℕ) / (shape.1 : ℝ)) ((p.2 : ℕ) / (shape.2 : ℝ))

theorem gridSlice_planeWaves (shape cells : ℕ × ℕ) :
    PlaneWaves (ι := ι) (fun l => Function.Injective l.expansion) (gridSlice shape cells) (gridPoints shape cells) := by
  intro l hG hc m F R h F'
  exact fieldsOnGrid_eq (fieldsOnGrid_resolves h) hG hc

theorem planeWaveSum_neg (l : LayerSolveResult ι) (c : ι → ℂ) (r : ℝ × ℝ) :
    planeWaveSum l (fun i => -c i) r = -planeWaveSum l c r := by
  unfold planeWaveSum
  rw [← Finset.sum_neg_distrib]
  exact Finset.sum_congr rfl fun i _ => neg_mul _ _

theorem mul_col {m n β' : Type} [Fintype n] {M : Matrix m n ℂ} {x : Matrix n β ℂ} {y : Matrix n β' ℂ} {c : β} {c' : β'}
    (h : ∀ j, y j c' = x j c) (i : m) : (M * y) i c' = (M * x) i c := by
  rw [Matrix.mul_apply, Matrix.mul_apply]
  exact Finset.sum_congr rfl fun j _ => by rw [h]

theorem mul_col_neg {m n β' : Type} [Fintype n] {M : Matrix m n ℂ} {x : Matrix n β ℂ} {y : Matrix n β' ℂ} {c : β} {c' : β'}
    (h : ∀ j, y j c' = -x j c) (i : m) : (M * y) i c' = -(M * x) i c := by
  rw [Matrix.mul_apply, Matrix.mul_apply, ← Finset.sum_neg_distrib]
  exact Finset.sum_congr rfl fun j _ => by rw [h, mul_neg]

/-- Opposite electric, equal magnetic tangential fields in a column give mirrored components. -/
theorem fieldsOf_mirrored {β' : Type} (l : LayerSolveResult ι) {e h : Matrix (ι ⊕ ι) β ℂ} {e' h' : Matrix (ι ⊕ ι) β' ℂ} {c : β}
    {c' : β'} (he : ∀ i, e' i c' = -e i c) (hh : ∀ i, h' i c' = h i c) :
    (fieldsOf l e' h').map (fun y i => y i c') = mirrored ((fieldsOf l e h).map fun y i => y i c) := by
  unfold Fields.map mirrored fieldsOf
  simp only [Matrix.of_apply, Fields.mk.injEq]
  refine ⟨?_, ?_, ?_, ?_, ?_, ?_⟩ <;> funext i
  · simp [he]
  · simp [he]
  · congr 1
    exact mul_col (fun j => by simp [hh]) i
  · simp [hh]
  · simp [hh]
  · rw [Pi.neg_apply, ← neg_div]
    congr 1
    refine mul_col_neg (fun j => ?_) i
    simp only [Matrix.of_apply, he]
    ring

theorem linspace_rev {d : ℝ} {n : ℕ} (hn : n ≠ 1) (k : Fin n) : linspace d n k.rev = d - linspace d n k := by
  have hk := k.2
  have h2 : (n : ℝ) - 1 ≠ 0 := by
    intro h
    exact hn (by exact_mod_cast (by linarith : (n : ℝ) = 1))
  unfold linspace
  rw [if_neg hn, if_neg hn, Fin.val_rev, Nat.cast_sub (by omega)]
  push_cast
  field_simp
  ring

theorem flatIndex_div {m n : ℕ} (k : Fin m) (j : Fin n) : (flatIndex k j).divNat = k := by
  ext
  simp only [flatIndex, Fin.divNat]
  rw [Nat.add_comm, Nat.add_mul_div_right _ _ (by have := j.2; omega), Nat.div_eq_of_lt j.2, Nat.zero_add]

theorem flatIndex_mod {m n : ℕ} (k : Fin m) (j : Fin n) : (flatIndex k j).modNat = j := by
  ext
  simp only [flatIndex, Fin.modNat]
  rw [Nat.add_comm, Nat.add_mul_mod_self_right, Nat.mod_eq_of_lt j.2]

/-- A layer traversed in the other direction. -/
theorem layerFields3d_reverse {n : ℕ} {Q : LayerSolveResult ι → Prop} {slice : FieldsXYSliceFn ι κ}
    {X : LayerSolveResult ι → κ → ℝ × ℝ} (hs : PlaneWaves Q slice X) {a b : Matrix (ι ⊕ ι) (Fin n) ℂ} {l : LayerSolveResult ι}
    (hQ : Q l) {d : ℝ} {znum : ℕ} (hz : znum ≠ 1) {g xy zo} (h : layerFields3d a b l d znum slice = .ok (g, xy, zo)) :
    xy = X l ∧ ∃ g', layerFields3d b a l d znum slice = .ok (g', X l, zo) ∧
      ∀ k, zSlice g' k = mirrored (zSlice g k.rev) := by
  unfold layerFields3d at h
  obtain ⟨f, h1, h⟩ := bind_eq_ok.1 h
  obtain ⟨⟨g0, xy0⟩, h2, h⟩ := bind_eq_ok.1 h
  cases h
  obtain ⟨hw, hq, rfl⟩ := fieldsFromWaveAmplitudes_eq_ok.1 h1
  have hP := hs l hQ hw.2.1 _ _ _ h2
  rw [hP] at h2
  cases h2
  refine ⟨rfl, _, bind_eq_ok.2 ⟨_, fieldsFromWaveAmplitudes_eq_ok.2 ⟨hw, hq, rfl⟩, bind_eq_ok.2 ⟨_, hP _, rfl⟩⟩, ?_⟩
  intro k
  have key : ∀ j : Fin n, _ := fun j => fieldsOf_mirrored l (c := flatIndex k.rev j) (c' := flatIndex k j)
    (e := electricModes l * ((colocateAmplitudes (Matrix.of fun i (m : Fin (znum * n)) => a i m.modNat)
      (Matrix.of fun i (m : Fin (znum * n)) => b i m.modNat) (fun m => linspace d znum m.divNat) l d).1 -
      (colocateAmplitudes (Matrix.of fun i (m : Fin (znum * n)) => a i m.modNat)
      (Matrix.of fun i (m : Fin (znum * n)) => b i m.modNat) (fun m => linspace d znum m.divNat) l d).2))
    (e' := electricModes l * ((colocateAmplitudes (Matrix.of fun i (m : Fin (znum * n)) => b i m.modNat)
      (Matrix.of fun i (m : Fin (znum * n)) => a i m.modNat) (fun m => linspace d znum m.divNat) l d).1 -
      (colocateAmplitudes (Matrix.of fun i (m : Fin (znum * n)) => b i m.modNat)
      (Matrix.of fun i (m : Fin (znum * n)) => a i m.modNat) (fun m => linspace d znum m.divNat) l d).2))
    (h := l.eigenvectors * ((colocateAmplitudes (Matrix.of fun i (m : Fin (znum * n)) => a i m.modNat)
      (Matrix.of fun i (m : Fin (znum * n)) => b i m.modNat) (fun m => linspace d znum m.divNat) l d).1 +
      (colocateAmplitudes (Matrix.of fun i (m : Fin (znum * n)) => a i m.modNat)
      (Matrix.of fun i (m : Fin (znum * n)) => b i m.modNat) (fun m => linspace d znum m.divNat) l d).2))
    (h' := l.eigenvectors * ((colocateAmplitudes (Matrix.of fun i (m : Fin (znum * n)) => b i m.modNat)
      (Matrix.of fun i (m : Fin (znum * n)) => a i m.modNat) (fun m => linspace d znum m.divNat) l d).1 +
      (colocateAmplitudes (Matrix.of fun i (m : Fin (znum * n)) => b i m.modNat)
      (Matrix.of fun i (m : Fin (znum * n)) => a i m.modNat) (fun m => linspace d znum m.divNat) l d).2))
    (mul_col_neg fun i => by
      simp only [colocateAmplitudes, propagateAmplitude, Matrix.of_apply, Matrix.sub_apply, flatIndex_div, flatIndex_mod,
        linspace_rev hz, sub_sub_cancel]
      ring)
    (mul_col fun i => by
      simp only [colocateAmplitudes, propagateAmplitude, Matrix.of_apply, Matrix.add_apply, flatIndex_div, flatIndex_mod,
        linspace_rev hz, sub_sub_cancel]
      ring)
  have comp : ∀ {y y' : Matrix ι (Fin (znum * n)) ℂ} (p : κ) (j : Fin n),
      (fun i => y' i (flatIndex k j)) = (fun i => y i (flatIndex k.rev j)) →
      planeWaveSum l (fun i => y' i (flatIndex k j)) (X l p) = planeWaveSum l (fun i => y i (flatIndex k.rev j)) (X l p) :=
    fun p j h => by rw [h]
  have compNeg : ∀ {y y' : Matrix ι (Fin (znum * n)) ℂ} (p : κ) (j : Fin n),
      (fun i => y' i (flatIndex k j)) = -(fun i => y i (flatIndex k.rev j)) →
      planeWaveSum l (fun i => y' i (flatIndex k j)) (X l p) = -planeWaveSum l (fun i => y i (flatIndex k.rev j)) (X l p) :=
    fun p j h => by rw [h, ← planeWaveSum_neg]; rfl
  unfold zSlice mirrored Fields.map
  simp only [Fields.mk.injEq]
  refine ⟨?_, ?_, ?_, ?_, ?_, ?_⟩ <;> funext p j
  · exact compNeg p j (congrArg Fields.ex (key j))
  · exact compNeg p j (congrArg Fields.ey (key j))
  · exact comp p j (congrArg Fields.ez (key j))
  · exact comp p j (congrArg Fields.hx (key j))
  · exact comp p j (congrArg Fields.hy (key j))
  · exact compNeg p j (congrArg Fields.hz (key j))

/-! ### Fields of a stack -/

/-- A layer with the roles of the amplitudes exchanged. -/
def LayerRequest.swap {n : ℕ} (r : LayerRequest ι n) : LayerRequest ι n := { r with a := r.b, b := r.a }

theorem stackFieldsLoop_append {n : ℕ} {slice : FieldsXYSliceFn ι κ} (r1 r2 : List (LayerRequest ι n)) :
    ∀ {z0 : ℝ} {xy0} {gs zs xy gs' zs' xy'}, stackFieldsLoop slice z0 xy0 r1 = .ok (gs, zs, xy) →
      stackFieldsLoop slice (z0 + (r1.map LayerRequest.thickness).sum) xy r2 = .ok (gs', zs', xy') →
      stackFieldsLoop slice z0 xy0 (r1 ++ r2) = .ok (gs ++ gs', zs ++ zs', xy') := by
  induction r1 with
  | nil =>
    intro z0 xy0 gs zs xy gs' zs' xy' h h'
    cases h
    simpa using h'
  | cons r r1 ih =>
    intro z0 xy0 gs zs xy gs' zs' xy' h h'
    unfold stackFieldsLoop at h
    obtain ⟨⟨g, xy1, zo⟩, h1, h⟩ := bind_eq_ok.1 h
    obtain ⟨⟨gs1, zs1, xy2⟩, h2, h⟩ := bind_eq_ok.1 h
    cases h
    have := ih h2 (by simpa [add_assoc] using h')
    rw [List.cons_append]
    unfold stackFieldsLoop
    refine bind_eq_ok.2 ⟨_, h1, bind_eq_ok.2 ⟨_, this, ?_⟩⟩
    rw [List.append_assoc, List.append_assoc]

theorem ofFn_rev {α : Type} {n : ℕ} (f : Fin n → α) : List.ofFn (fun k => f k.rev) = (List.ofFn f).reverse := by
  refine List.ext_getElem (by simp) fun i h1 h2 => ?_
  simp only [List.getElem_ofFn, List.getElem_reverse, List.length_ofFn]
  congr 1
  ext
  simp only [Fin.val_rev]
  simp at h1
  omega

/-- The stack traversed in the other direction. -/
theorem stackFieldsLoop_reverse {n : ℕ} {Q : LayerSolveResult ι → Prop} {slice : FieldsXYSliceFn ι κ}
    {X : LayerSolveResult ι → κ → ℝ × ℝ} (hs : PlaneWaves Q slice X) (reqs : List (LayerRequest ι n)) :
    (∀ r ∈ reqs, Q r.layer ∧ r.znum ≠ 1) → ∀ {z0 : ℝ} {xy0} {gs zs xy}, stackFieldsLoop slice z0 xy0 reqs = .ok (gs, zs, xy) →
      xy = ((reqs.getLast?).elim xy0 fun r => some (X r.layer)) ∧ ∀ (z1 : ℝ) (xy1),
        stackFieldsLoop slice z1 xy1 (reqs.map LayerRequest.swap).reverse =
          .ok ((gs.map mirrored).reverse, (zs.map fun z => z1 + ((reqs.map LayerRequest.thickness).sum - (z - z0))).reverse,
            (reqs.head?).elim xy1 fun r => some (X r.layer)) := by
  induction reqs with
  | nil =>
    intro _ z0 xy0 gs zs xy h
    cases h
    exact ⟨rfl, fun z1 xy1 => rfl⟩
  | cons r rest ih =>
    intro hQ z0 xy0 gs zs xy h
    unfold stackFieldsLoop at h
    obtain ⟨⟨g, xyr, zo⟩, h1, h⟩ := bind_eq_ok.1 h
    obtain ⟨⟨gs', zs', xy'⟩, h2, h⟩ := bind_eq_ok.1 h
    cases h
    have hz := layerFields3d_z h1
    subst hz
    obtain ⟨hQr, hn⟩ := hQ r (by simp)
    obtain ⟨rfl, g', e1, e2⟩ := layerFields3d_reverse hs hQr hn h1
    obtain ⟨i1, i2⟩ := ih (fun r' hr' => hQ r' (by simp [hr'])) h2
    refine ⟨?_, fun z1 xy1 => ?_⟩
    · rw [i1]
      cases rest with
      | nil => rfl
      | cons r' rest => rw [List.getLast?_cons_cons]; rfl
    · rw [List.map_cons, List.reverse_cons]
      have hsum : ((rest.map LayerRequest.swap).reverse.map LayerRequest.thickness).sum = (rest.map LayerRequest.thickness).sum := by
        rw [List.map_reverse, List.sum_reverse, List.map_map]
        rfl
      have e3 : stackFieldsLoop slice (z1 + ((rest.map LayerRequest.swap).reverse.map LayerRequest.thickness).sum)
          ((rest.head?).elim xy1 fun r => some (X r.layer)) [r.swap] =
          .ok (List.ofFn (fun k : Fin r.znum => zSlice g' k),
            List.ofFn (fun k : Fin r.znum => linspace r.thickness r.znum k + (z1 + (rest.map LayerRequest.thickness).sum)),
            some (X r.layer)) := by
        unfold stackFieldsLoop
        refine bind_eq_ok.2 ⟨_, e1, bind_eq_ok.2 ⟨_, rfl, ?_⟩⟩
        dsimp only
        rw [List.append_nil, List.append_nil, hsum]
        rfl
      refine (stackFieldsLoop_append _ _ (i2 z1 xy1) e3).trans ?_
      congr 2
      · rw [List.map_append, List.reverse_append]
        congr 1
        rw [← List.ofFn_comp', ← ofFn_rev]
        congr 1
        funext k
        exact e2 k
      · congr 1
        rw [List.map_append, List.reverse_append]
        congr 1
        · congr 1
          refine List.map_congr_left fun z _ => ?_
          simp only [List.map_cons, List.sum_cons]
          ring
        · rw [← List.ofFn_comp', ← ofFn_rev]
          congr 1
          funext k
          simp only [Function.comp, linspace_rev hn, List.map_cons, List.sum_cons]
          ring

theorem zipRequests_reverse {n : ℕ} {abs : List (Matrix (ι ⊕ ι) (Fin n) ℂ × Matrix (ι ⊕ ι) (Fin n) ℂ)}
    {ls : List (LayerSolveResult ι)} {ds : List ℝ} {zs : List ℕ} (h1 : ls.length = abs.length) (h2 : ds.length = abs.length)
    (h3 : zs.length = abs.length) :
    zipRequests (abs.map Prod.swap).reverse ls.reverse ds.reverse zs.reverse =
      ((zipRequests abs ls ds zs).map LayerRequest.swap).reverse := by
  obtain ⟨a1, a2, a3, a4⟩ := zipRequests_spec h1 h2 h3
  obtain ⟨b1, b2, b3, b4⟩ := zipRequests_spec (abs := (abs.map Prod.swap).reverse) (ls := ls.reverse) (ds := ds.reverse)
    (zs := zs.reverse) (by simpa using h1) (by simpa using h2) (by simpa using h3)
  have inj : ∀ x y : List (LayerRequest ι n), x.map LayerRequest.znum = y.map LayerRequest.znum →
      x.map LayerRequest.thickness = y.map LayerRequest.thickness → x.map LayerRequest.layer = y.map LayerRequest.layer →
      x.map (fun r => (r.a, r.b)) = y.map (fun r => (r.a, r.b)) → x = y := by
    intro x
    induction x with
    | nil =>
      intro y e _ _ _
      cases y with
      | nil => rfl
      | cons r y => simp at e
    | cons r x ih =>
      intro y e1 e2 e3 e4
      cases y with
      | nil => simp at e1
      | cons r' y =>
        simp only [List.map_cons, List.cons.injEq, Prod.mk.injEq] at e1 e2 e3 e4
        obtain ⟨c1, c2⟩ := e4.1
        rw [ih y e1.2 e2.2 e3.2 e4.2]
        congr 1
        cases r
        cases r'
        simp_all
  refine inj _ _ ?_ ?_ ?_ ?_
  · rw [b1, List.map_reverse, List.map_map]
    exact congrArg List.reverse a1.symm
  · rw [b2, List.map_reverse, List.map_map]
    exact congrArg List.reverse a2.symm
  · rw [b3, List.map_reverse, List.map_map]
    exact congrArg List.reverse a3.symm
  · rw [b4, List.map_reverse, List.map_map]
    conv_lhs => rw [← a4, List.map_map]
    rfl

/-- Fields of a stack turned upside down. -/
theorem stackFields3d_reverse {n : ℕ} {Q : LayerSolveResult ι → Prop} {slice : FieldsXYSliceFn ι κ}
    {X : LayerSolveResult ι → κ → ℝ × ℝ} (hs : PlaneWaves Q slice X)
    {amps : List (Matrix (ι ⊕ ι) (Fin n) ℂ × Matrix (ι ⊕ ι) (Fin n) ℂ)} {layers : List (LayerSolveResult ι)} {ds : List ℝ}
    {znum : List ℕ} {gs zs xy} (hQ : ∀ l ∈ layers, Q l) (hn : ∀ m ∈ znum, m ≠ 1)
    (h : stackFields3d amps layers ds znum slice = .ok (gs, zs, xy)) :
    (∃ l, layers.getLast? = some l ∧ xy = X l) ∧ ∃ l, layers.head? = some l ∧
      stackFields3d (amps.map Prod.swap).reverse layers.reverse ds.reverse znum.reverse slice =
        .ok ((gs.map mirrored).reverse, (zs.map fun z => ds.sum - z).reverse, X l) := by
  obtain ⟨h1, h2, h3, h4⟩ := stackFields3d_eq_ok.1 h
  obtain ⟨a1, a2, a3, a4⟩ := zipRequests_spec h1 h2 h3
  obtain ⟨i1, i2⟩ := stackFieldsLoop_reverse hs _ (fun r hr => ⟨hQ _ (by rw [← a3]; exact List.mem_map_of_mem hr),
    hn _ (by rw [← a1]; exact List.mem_map_of_mem hr)⟩) h4
  have i3 := i2 0 none
  rw [a2] at i3
  have hlast : layers.getLast? = (zipRequests amps layers ds znum).getLast?.map LayerRequest.layer := by
    rw [← List.getLast?_map, a3]
  have hhead : layers.head? = (zipRequests amps layers ds znum).head?.map LayerRequest.layer := by
    rw [← List.head?_map, a3]
  rw [hlast, hhead]
  cases hr : zipRequests amps layers ds znum with
  | nil =>
    rw [hr] at i1
    cases i1
  | cons r rest =>
    refine ⟨?_, ⟨r.layer, rfl, stackFields3d_eq_ok.2 ⟨by simpa using h1, by simpa using h2, by simpa using h3, ?_⟩⟩⟩
    · rw [hr] at i1
      obtain ⟨x, hx⟩ : ∃ x, (r :: rest).getLast? = some x := ⟨_, List.getLast?_eq_some_getLast (by simp)⟩
      rw [hx] at i1 ⊢
      exact ⟨x.layer, rfl, Option.some.inj i1⟩
    · rw [zipRequests_reverse h1 h2 h3, i3, hr]
      simp

end Fmmax
