import Verif.Proofs.SupercellMedia
import Verif.Proofs.Plane
import Verif.Props.Sources
import Verif.Spec.SupercellEmission

/-! Supercells: interior scattering matrices, sources and fields. -/

set_option linter.unusedSectionVars false

namespace Fmmax

open Matrix Spec

variable {ι κ : Type} [Fintype ι] [DecidableEq ι] [Fintype κ] [DecidableEq κ] {β : Type}

/-! ### Parts of modes -/

theorem LayerPart.unique {e m m2 : Part (ι ⊕ ι) (κ ⊕ κ)} {l' : LayerSolveResult κ} {l : LayerSolveResult ι} (h : LayerPart e m l' l) (h2 : LayerPart e m2 l' l)
    (hφ' : IsUnit l'.eigenvectors.det) (hφ : IsUnit l.eigenvectors.det) : m = m2 := by
  have i1 : m.into = m2.into := by
    have := congrArg (l'.eigenvectors⁻¹ * ·) (h.eigenvectors.1.trans h2.eigenvectors.1.symm)
    simpa only [← Matrix.mul_assoc, nonsing_inv_mul _ hφ', Matrix.one_mul] using this
  have i2 : m.onto = m2.onto := by
    have := congrArg (l.eigenvectors⁻¹ * ·) (h.eigenvectors.2.symm.trans h2.eigenvectors.2)
    simpa only [← Matrix.mul_assoc, nonsing_inv_mul _ hφ, Matrix.one_mul] using this
  obtain ⟨x, y, z⟩ := m
  obtain ⟨x2, y2, z2⟩ := m2
  simp only at i1 i2
  subst i1 i2
  rfl

theorem SPart.reverse {e m₀ m : Part (ι ⊕ ι) (κ ⊕ κ)} {S' : ScatteringMatrix κ} {S : ScatteringMatrix ι} (h : SPart e m₀ m S' S) :
    SPart e m m₀ S'.reverse S.reverse :=
  ⟨h.finish, h.start, h.endThickness, h.startThickness, h.s22, h.s21, h.s12, h.s11⟩

theorem appendLoop_part {e : Part (ι ⊕ ι) (κ ⊕ κ)} {ms' : List (LayerSolveResult κ × ℝ)} {ms : List (LayerSolveResult ι × ℝ)}
    (hm : List.Forall₂ (fun p' p => (∃ m, LayerPart e m p'.1 p.1) ∧ p'.2 = p.2) ms' ms) :
    ∀ (S' : ScatteringMatrix κ) (ss' : List (ScatteringMatrix κ)) (S : ScatteringMatrix ι) (m₀ m : Part (ι ⊕ ι) (κ ⊕ κ)), SPart e m₀ m S' S →
      appendLoop S' ms' = .ok ss' → ∃ ss, appendLoop S ms = .ok ss ∧ List.Forall₂ (fun S' S => ∃ m, SPart e m₀ m S' S) ss' ss := by
  induction hm with
  | nil =>
    intro S' ss' S m₀ m h hS
    simp only [appendLoop, ok_inj] at hS ⊢
    subst hS
    exact ⟨[], rfl, .nil⟩
  | @cons p' p ms' ms hp _ ih =>
    intro S' ss' S m₀ m h hS
    obtain ⟨l', d'⟩ := p'
    obtain ⟨l, d⟩ := p
    obtain ⟨⟨n, hn⟩, hd⟩ := hp
    simp only at hd
    subst hd
    simp only [appendLoop, bind_eq_ok, ok_inj] at hS ⊢
    obtain ⟨S2', hS2', ts', hS, rfl⟩ := hS
    obtain ⟨S2, hS2, h2⟩ := appendLayer_part h hn hS2'
    obtain ⟨ts, hts, h1⟩ := ih S2' ts' S2 m₀ n h2 hS
    exact ⟨S2 :: ts, ⟨S2, hS2, ts, hts, rfl⟩, .cons ⟨n, h2⟩ h1⟩

theorem appendLoop_layers : ∀ (ms : List (LayerSolveResult ι × ℝ)) (S : ScatteringMatrix ι) (ss : List (ScatteringMatrix ι)), appendLoop S ms = .ok ss →
    ss.map ScatteringMatrix.endLayer = ms.map Prod.fst
  | [], S, ss, h => by
    simp only [appendLoop, ok_inj] at h
    subst h
    rfl
  | (l, d) :: ms, S, ss, h => by
    simp only [appendLoop, bind_eq_ok, ok_inj] at h
    obtain ⟨S2, hS2, ts, hts, rfl⟩ := h
    rw [List.map_cons, List.map_cons, appendLoop_layers ms S2 ts hts, (appendLayer_ok_iff.1 hS2).2.2.2.1]

theorem stackSMatrices_layers {layers : List (LayerSolveResult ι)} {ds : List ℝ} {ss : List (ScatteringMatrix ι)} (h : stackSMatrices layers ds = .ok ss) :
    ss.map ScatteringMatrix.endLayer = layers := by
  obtain ⟨hlen, p, rest, hz⟩ := stackSMatrices_length h
  rw [stackSMatrices_eq layers ds hlen p rest hz, bind_eq_ok] at h
  obtain ⟨tail, ht, h⟩ := h
  rw [ok_inj] at h
  subst h
  have := appendLoop_layers _ _ _ ht
  have hl : layers = (layers.zip ds).map Prod.fst := (List.map_fst_zip (by omega)).symm
  rw [hl, hz, List.map_cons, List.map_cons, this]
  rfl

theorem stackSMatrices_part {e : Part (ι ⊕ ι) (κ ⊕ κ)} {ls' : List (LayerSolveResult κ)} {ls : List (LayerSolveResult ι)}
    (hl : List.Forall₂ (fun l' l => ∃ m, LayerPart e m l' l) ls' ls) {ds : List ℝ} {ss' : List (ScatteringMatrix κ)}
    (h : stackSMatrices ls' ds = .ok ss') :
    ∃ ss m₀, stackSMatrices ls ds = .ok ss ∧ (∀ l' ∈ ls'.head?, ∀ l ∈ ls.head?, LayerPart e m₀ l' l) ∧
      List.Forall₂ (fun S' S => ∃ m, SPart e m₀ m S' S) ss' ss := by
  obtain ⟨hlen, p', rest', hz'⟩ := stackSMatrices_length h
  rw [stackSMatrices_eq ls' ds hlen p' rest' hz', bind_eq_ok] at h
  obtain ⟨tail', ht', h⟩ := h
  rw [ok_inj] at h
  subst h
  cases hl with
  | nil => simp at hz'
  | @cons l' l ls' ls h1 h2 =>
    cases ds with
    | nil => simp at hz'
    | cons d ds =>
      simp only [List.zip_cons_cons, List.cons.injEq] at hz'
      obtain ⟨rfl, rfl⟩ := hz'
      obtain ⟨m₀, h1⟩ := h1
      have hst : ∀ (ls' : List (LayerSolveResult κ)) (ls : List (LayerSolveResult ι)) (ds : List ℝ), List.Forall₂ (fun l' l => ∃ m, LayerPart e m l' l) ls' ls →
          List.Forall₂ (fun p' p => (∃ m, LayerPart e m p'.1 p.1) ∧ p'.2 = p.2) (ls'.zip ds) (ls.zip ds) := by
        intro ls' ls ds h
        induction h generalizing ds with
        | nil => simp
        | cons k1 k2 ih =>
          cases ds with
          | nil => simp
          | cons d ds => exact .cons ⟨k1, rfl⟩ (ih ds)
      obtain ⟨tail, ht, hp⟩ := appendLoop_part (hst ls' ls ds h2) _ _ _ _ _ (identity_part h1 d) ht'
      have hlen2 : (l :: ls).length = (d :: ds).length := by
        simp only [List.length_cons] at hlen ⊢
        rw [← h2.length_eq]
        exact hlen
      refine ⟨identitySMatrix l d :: tail, m₀, ?_, ?_, .cons ⟨m₀, identity_part h1 d⟩ hp⟩
      · rw [stackSMatrices_eq (l :: ls) (d :: ds) hlen2 (l, d) (ls.zip ds) rfl, bind_eq_ok]
        exact ⟨tail, ht, rfl⟩
      · simp only [List.head?_cons, Option.mem_def, Option.some.injEq]
        rintro _ rfl _ rfl
        exact h1

/-- Corresponding elements of four lists. -/
inductive Forall₄ {A B C D : Type} (R : A → B → C → D → Prop) : List A → List B → List C → List D → Prop
  | nil : Forall₄ R [] [] [] []
  | cons {a b c d as bs cs ds} : R a b c d → Forall₄ R as bs cs ds → Forall₄ R (a :: as) (b :: bs) (c :: cs) (d :: ds)

theorem Forall₄.append {A B C D : Type} {R : A → B → C → D → Prop} {as as2 : List A} {bs bs2 : List B} {cs cs2 : List C} {ds ds2 : List D}
    (h : Forall₄ R as bs cs ds) (h2 : Forall₄ R as2 bs2 cs2 ds2) : Forall₄ R (as ++ as2) (bs ++ bs2) (cs ++ cs2) (ds ++ ds2) := by
  induction h with
  | nil => exact h2
  | cons h1 _ ih => exact .cons h1 ih

/-- The scattering matrices before and after a layer. -/
def InteriorPart (e m₀ m₁ : Part (ι ⊕ ι) (κ ⊕ κ)) (p' : ScatteringMatrix κ × ScatteringMatrix κ) (p : ScatteringMatrix ι × ScatteringMatrix ι)
    (l' : LayerSolveResult κ) (l : LayerSolveResult ι) : Prop :=
  ∃ m, LayerPart e m l' l ∧ SPart e m₀ m p'.1 p.1 ∧ SPart e m m₁ p'.2 p.2

theorem interior_pairs {e m₀ m₁ : Part (ι ⊕ ι) (κ ⊕ κ)} {B' A' : List (ScatteringMatrix κ)} {B A : List (ScatteringMatrix ι)}
    (hB : List.Forall₂ (fun S' S => ∃ m, SPart e m₀ m S' S) B' B) (hA : List.Forall₂ (fun S' S => ∃ m, SPart e m m₁ S' S) A' A)
    (h1 : B'.map ScatteringMatrix.endLayer = A'.map ScatteringMatrix.startLayer) (h2 : B.map ScatteringMatrix.endLayer = A.map ScatteringMatrix.startLayer)
    (hu' : ∀ s ∈ B', IsUnit s.endLayer.eigenvectors.det) (hu : ∀ s ∈ B, IsUnit s.endLayer.eigenvectors.det) :
    Forall₄ (InteriorPart e m₀ m₁) (B'.zip A') (B.zip A) (B'.map ScatteringMatrix.endLayer) (B.map ScatteringMatrix.endLayer) := by
  induction hB generalizing A' A with
  | nil =>
    cases hA with
    | nil => exact .nil
    | cons _ _ => simp at h1
  | @cons b' b B' B hb _ ih =>
    cases hA with
    | nil => simp at h1
    | @cons a' a A' A ha hA =>
      simp only [List.map_cons, List.cons.injEq] at h1 h2
      obtain ⟨m, hb⟩ := hb
      obtain ⟨m2, ha⟩ := ha
      have ha2 := ha.start
      rw [← h1.1, ← h2.1] at ha2
      have : m = m2 := hb.finish.unique ha2 (hu' b' (by simp)) (hu b (by simp))
      subst this
      exact .cons ⟨m, hb.finish, hb, ha⟩ (ih hA h1.2 h2.2 (fun s hs => hu' s (by simp [hs])) (fun s hs => hu s (by simp [hs])))

theorem interior_part {e : Part (ι ⊕ ι) (κ ⊕ κ)} {ls' : List (LayerSolveResult κ)} {ls : List (LayerSolveResult ι)}
    (hl : List.Forall₂ (fun l' l => ∃ m, LayerPart e m l' l) ls' ls) (hu' : ∀ l ∈ ls', IsUnit l.eigenvectors.det) (hu : ∀ l ∈ ls, IsUnit l.eigenvectors.det)
    {ds : List ℝ} {ps' : List (ScatteringMatrix κ × ScatteringMatrix κ)} (h : stackSMatricesInterior ls' ds = .ok ps') :
    ∃ ps m₀ m₁, stackSMatricesInterior ls ds = .ok ps ∧ (∀ l' ∈ ls'.head?, ∀ l ∈ ls.head?, LayerPart e m₀ l' l) ∧
      (∀ l' ∈ ls'.getLast?, ∀ l ∈ ls.getLast?, LayerPart e m₁ l' l) ∧ Forall₄ (InteriorPart e m₀ m₁) ps' ps ls' ls := by
  unfold stackSMatricesInterior at h ⊢
  simp only [bind_eq_ok, ok_inj] at h ⊢
  obtain ⟨B', hB', R', hR', rfl⟩ := h
  obtain ⟨B, m₀, hB, h0, hBB⟩ := stackSMatrices_part hl hB'
  have hlr : List.Forall₂ (fun l' l => ∃ m, LayerPart e m l' l) ls'.reverse ls.reverse := List.rel_reverse hl
  obtain ⟨R, m₁, hR, h1, hRR⟩ := stackSMatrices_part hlr hR'
  refine ⟨_, m₀, m₁, ⟨B, hB, R, hR, rfl⟩, h0, ?_, ?_⟩
  · simpa only [List.head?_reverse] using h1
  · have e1 := stackSMatrices_layers hB'
    have e2 := stackSMatrices_layers hB
    have e3 := stackSMatrices_layers hR'
    have e4 := stackSMatrices_layers hR
    have hA : List.Forall₂ (fun S' S => ∃ m, SPart e m m₁ S' S) (R'.reverse.map ScatteringMatrix.reverse) (R.reverse.map ScatteringMatrix.reverse) := by
      rw [List.forall₂_map_left_iff, List.forall₂_map_right_iff]
      refine (List.rel_reverse hRR).imp ?_
      rintro S' S ⟨m, h⟩
      exact ⟨m, h.reverse⟩
    have key := interior_pairs hBB hA
      (by rw [e1, List.map_map, List.map_reverse]; change ls' = (R'.map ScatteringMatrix.endLayer).reverse; rw [e3, List.reverse_reverse])
      (by rw [e2, List.map_map, List.map_reverse]; change ls = (R.map ScatteringMatrix.endLayer).reverse; rw [e4, List.reverse_reverse])
      (fun s hs => hu' _ (by rw [← e1]; exact List.mem_map_of_mem hs)) (fun s hs => hu _ (by rw [← e2]; exact List.mem_map_of_mem hs))
    rwa [e1, e2] at key

/-! ### Amplitudes -/

theorem amplitudesInterior_part {e m₀ m m₁ : Part (ι ⊕ ι) (κ ⊕ κ)} {b' a' : ScatteringMatrix κ} {b a : ScatteringMatrix ι} (hb : SPart e m₀ m b' b)
    (ha : SPart e m m₁ a' a) {x' y' p' q' : Matrix (κ ⊕ κ) β ℂ} (h : amplitudesInterior b'.toBlocks a'.toBlocks x' y' = .ok (p', q')) :
    amplitudesInterior b.toBlocks a.toBlocks (m₀.onto * x') (m₁.onto * y') = .ok (m.onto * p', m.onto * q') := by
  unfold amplitudesInterior at h ⊢
  simp only [bind_eq_ok, solve_eq_ok, ok_inj, Prod.mk.injEq] at h ⊢
  obtain ⟨_, ⟨hu, h1⟩, rfl, rfl⟩ := h
  rename_i p'
  have K := (m.carries_one).sub (hb.s12.mul ha.s21)
  have e1 : (1 - b.s12 * a.s21) * (m.onto * p') = b.s11 * (m₀.onto * x') + b.s12 * a.s22 * (m₁.onto * y') := by
    calc (1 - b.s12 * a.s21) * (m.onto * p') = ((1 - b.s12 * a.s21) * m.onto) * p' := by rw [Matrix.mul_assoc]
      _ = m.onto * ((1 - b'.s12 * a'.s21) * p') := by rw [← K.2, Matrix.mul_assoc]
      _ = (m.onto * b'.s11) * x' + (m.onto * (b'.s12 * a'.s22)) * y' := by rw [h1]; mat_module
      _ = _ := by rw [hb.s11.2, (hb.s12.mul ha.s22).2]; mat_module
  refine ⟨_, ⟨K.isUnit hu, e1⟩, rfl, ?_⟩
  calc a.s21 * (m.onto * p') + a.s22 * (m₁.onto * y') = (a.s21 * m.onto) * p' + (a.s22 * m₁.onto) * y' := by mat_module
    _ = (m.onto * a'.s21) * p' + (m.onto * a'.s22) * y' := by rw [← ha.s21.2, ← ha.s22.2]
    _ = _ := by mat_module

/-- Amplitudes in a layer and the part of them belonging to the class. -/
def AmplitudePart (e : Part (ι ⊕ ι) (κ ⊕ κ)) (x' : Matrix (κ ⊕ κ) β ℂ × Matrix (κ ⊕ κ) β ℂ) (x : Matrix (ι ⊕ ι) β ℂ × Matrix (ι ⊕ ι) β ℂ)
    (l' : LayerSolveResult κ) (l : LayerSolveResult ι) : Prop :=
  ∃ m, LayerPart e m l' l ∧ x.1 = m.onto * x'.1 ∧ x.2 = m.onto * x'.2

theorem stackAmplitudes_part {e m₀ m₁ : Part (ι ⊕ ι) (κ ⊕ κ)} {ps' : List (ScatteringMatrix κ × ScatteringMatrix κ)}
    {ps : List (ScatteringMatrix ι × ScatteringMatrix ι)} {ls' : List (LayerSolveResult κ)} {ls : List (LayerSolveResult ι)}
    (h : Forall₄ (InteriorPart e m₀ m₁) ps' ps ls' ls) {x' y' : Matrix (κ ⊕ κ) β ℂ} {xs' : List (Matrix (κ ⊕ κ) β ℂ × Matrix (κ ⊕ κ) β ℂ)}
    (hx : stackAmplitudesInterior x' y' ps' = .ok xs') :
    ∃ xs, stackAmplitudesInterior (m₀.onto * x') (m₁.onto * y') ps = .ok xs ∧ Forall₄ (AmplitudePart e) xs' xs ls' ls := by
  induction h generalizing xs' with
  | nil =>
    simp only [stackAmplitudesInterior, ok_inj] at hx ⊢
    subst hx
    exact ⟨_, rfl, .nil⟩
  | @cons p' p l' l ps' ps ls' ls h1 _ ih =>
    obtain ⟨b', a'⟩ := p'
    obtain ⟨b, a⟩ := p
    obtain ⟨m, k1, k2, k3⟩ := h1
    simp only [stackAmplitudesInterior, bind_eq_ok, ok_inj] at hx ⊢
    obtain ⟨⟨u', v'⟩, hu, t', ht, rfl⟩ := hx
    obtain ⟨t, ht2, hp⟩ := ih ht
    exact ⟨_, ⟨_, amplitudesInterior_part k2 k3 hu, t, ht2, rfl⟩, .cons ⟨m, k1, rfl, rfl⟩ hp⟩

/-! ### Sources -/

/-- Two parts side by side. -/
def Part.sum {a b a' b' : Type} [Fintype a] [Fintype b] [Fintype a'] [Fintype b'] [DecidableEq a] [DecidableEq b] (e : Part a a') (f : Part b b') :
    Part (a ⊕ b) (a' ⊕ b') :=
  { into := fromBlocks e.into 0 0 f.into, onto := fromBlocks e.onto 0 0 f.onto, onto_into := by simp [fromBlocks_multiply, e.onto_into, f.onto_into] }

theorem Part.Carries.blocks {m n e f : Part (ι ⊕ ι) (κ ⊕ κ)} {A' B' C' D' : ModeMatrix κ} {A B C D : ModeMatrix ι} (hA : m.Carries e A' A)
    (hB : n.Carries e B' B) (hC : m.Carries f C' C) (hD : n.Carries f D' D) :
    (m.sum n).Carries (e.sum f) (fromBlocks A' B' C' D') (fromBlocks A B C D) := by
  refine ⟨?_, ?_⟩
  · simp [Part.sum, fromBlocks_multiply, hA.1, hB.1, hC.1, hD.1]
  · simp [Part.sum, fromBlocks_multiply, hA.2, hB.2, hC.2, hD.2]

theorem LayerPart.electricModes_carries {e m : Part (ι ⊕ ι) (κ ⊕ κ)} {l' : LayerSolveResult κ} {l : LayerSolveResult ι} (h : LayerPart e m l' l)
    (hw : l'.wavelength = l.wavelength) : m.Carries e (electricModes l') (electricModes l) := by
  have hw' : omega l' = omega l := by unfold omega; rw [hw]
  unfold electricModes
  rw [hw']
  exact (h.electric.mul h.eigenvectors).mul (h.diag fun q => ((omega l : ℂ) * q)⁻¹)

variable {place : ι → κ} {hp : Function.Injective place}

theorem placePart_onto (X' : Matrix κ β ℂ) : (placePart place hp).onto * X' = X'.submatrix place id := by
  ext i b
  simp [placePart, Matrix.mul_apply]

theorem double_onto (X' : Matrix (κ ⊕ κ) β ℂ) : (placePart place hp).double.onto * X' = X'.submatrix (Sum.map place place) id := by
  ext (i | i) b <;> simp [Part.double, placePart, Matrix.mul_apply, fromBlocks]

theorem polarization_part {l' : LayerSolveResult κ} {l : LayerSolveResult ι} (hf : FieldPart (placePart place hp) place l' l) (hw : WellPosed l)
    {jx' jy' jz' : Matrix κ β ℂ} {X'} (h : polarizationTerms jx' jy' jz' l' = .ok X') :
    polarizationTerms (jx'.submatrix place id) (jy'.submatrix place id) (jz'.submatrix place id) l =
      .ok (((placePart place hp).double.sum (placePart place hp).double).onto * X') := by
  obtain ⟨-, rfl⟩ := polarizationTerms_eq_ok.1 h
  refine polarizationTerms_eq_ok.2 ⟨hw.2.1, ?_⟩
  have hz : (l'.inverseZPermittivityMatrix * jz').submatrix place id = l.inverseZPermittivityMatrix * jz'.submatrix place id := by
    rw [← placePart_onto (hp := hp), ← placePart_onto (hp := hp), ← Matrix.mul_assoc, hf.inverseZPermittivity.2, Matrix.mul_assoc]
  have hz' : ∀ i b, (l'.inverseZPermittivityMatrix * jz') (place i) b = (l.inverseZPermittivityMatrix * jz'.submatrix place id) i b :=
    fun i b => by rw [← hz]; rfl
  simp only [Part.sum, fromBlocks_mul_fromRows, Matrix.zero_mul, add_zero, zero_add, double_onto]
  congr 1
  · ext (i | i) b
    · simp [hz', hf.wavevectors]
    · simp [hz', hf.wavevectors]
  · ext (i | i) b <;> simp

theorem emissionMatrix_part {e m₀ m n n₁ : Part (ι ⊕ ι) (κ ⊕ κ)} {b' a' : ScatteringMatrix κ} {b a : ScatteringMatrix ι} (hb : SPart e m₀ m b' b)
    (ha : SPart e n n₁ a' a) (wb : b'.endLayer.wavelength = b.endLayer.wavelength) (wa : a'.startLayer.wavelength = a.startLayer.wavelength) {M'}
    (h : emissionMatrix b' a' = .ok M') : ∃ M, emissionMatrix b a = .ok M ∧ (n.sum m).Carries (e.sum e) M' M := by
  obtain ⟨⟨h1, h2⟩, ⟨h3, h4⟩, rfl⟩ := emissionMatrix_eq_ok.1 h
  refine ⟨_, emissionMatrix_eq_ok.2 ⟨⟨hb.finish.wellPosed h1, hb.finish.eigenvalues_ne h2⟩, ⟨ha.start.wellPosed h3, ha.start.eigenvalues_ne h4⟩, rfl⟩, ?_⟩
  have o1 : omega a'.startLayer = omega a.startLayer := by unfold omega; rw [wa]
  have o2 : omega b'.endLayer = omega b.endLayer := by unfold omega; rw [wb]
  rw [o1, o2, ha.startThickness, hb.endThickness]
  have p1 := (ha.start.propagator a.startThickness).mul ha.s21
  have p2 := (hb.finish.propagator b.endThickness).mul hb.s12
  have b1 := ((ha.start.electricModes_carries wa).smul (omega a.startLayer : ℂ)).mul (n.carries_one.sub p1)
  have b2 := ((hb.finish.electricModes_carries wb).smul (omega b.endLayer : ℂ)).mul (m.carries_one.sub p2)
  have b3 := ha.start.eigenvectors.mul (n.carries_one.add p1)
  have b4 := hb.finish.eigenvectors.neg.mul (m.carries_one.add p2)
  exact Part.Carries.blocks b1 b2 b3 b4

theorem source_part {m₀ m n n₁ : Part (ι ⊕ ι) (κ ⊕ κ)} {b' a' : ScatteringMatrix κ} {b a : ScatteringMatrix ι}
    (hb : SPart (placePart place hp).double m₀ m b' b) (ha : SPart (placePart place hp).double n n₁ a' a)
    (fb : FieldPart (placePart place hp) place b'.endLayer b.endLayer) (fa : FieldPart (placePart place hp) place a'.startLayer a.startLayer)
    {jx' jy' jz' : Matrix κ β ℂ} {R'} (h : amplitudesForSource jx' jy' jz' b' a' = .ok R') :
    ∃ R, amplitudesForSource (jx'.submatrix place id) (jy'.submatrix place id) (jz'.submatrix place id) b a = .ok R ∧
      R.backwardBeforeEnd = m.onto * R'.backwardBeforeEnd ∧ R.forwardAfterStart = n.onto * R'.forwardAfterStart := by
  obtain ⟨X', M', hX', hM', hu, hab, -⟩ := amplitudesForSource_eq_ok.1 h
  have hX := polarization_part fb (hb.finish.wellPosed fb.wellPosed) hX'
  obtain ⟨M, hM, hMM⟩ := emissionMatrix_part hb ha fb.wavelength fa.wavelength hM'
  refine ⟨⟨b.s22 * (m.onto * R'.backwardBeforeEnd), b.s12 * (m.onto * R'.backwardBeforeEnd), m.onto * R'.backwardBeforeEnd, n.onto * R'.forwardAfterStart,
      a.s21 * (n.onto * R'.forwardAfterStart), a.s11 * (n.onto * R'.forwardAfterStart)⟩,
    amplitudesForSource_eq_ok.2 ⟨_, M, hX, hM, hMM.isUnit hu, ?_, rfl, rfl, rfl, rfl⟩, rfl, rfl⟩
  simp only
  have : fromRows (n.onto * R'.forwardAfterStart) (m.onto * R'.backwardBeforeEnd) =
      (n.sum m).onto * fromRows R'.forwardAfterStart R'.backwardBeforeEnd := by
    simp [Part.sum, fromBlocks_mul_fromRows]
  rw [this, ← Matrix.mul_assoc, ← hMM.2, Matrix.mul_assoc, hab]

/-! ### Fields -/

theorem propagate_part {e m : Part (ι ⊕ ι) (κ ⊕ κ)} {l' : LayerSolveResult κ} {l : LayerSolveResult ι} (h : LayerPart e m l' l) (X' : Matrix (κ ⊕ κ) β ℂ)
    (d : β → ℝ) : m.onto * propagateAmplitude X' d l' = propagateAmplitude (m.onto * X') d l := by
  ext i b
  simp only [propagateAmplitude, Matrix.mul_apply, of_apply, Finset.sum_mul]
  refine Finset.sum_congr rfl fun j _ => ?_
  by_cases h0 : m.onto i j = 0
  · simp [h0]
  · rw [h.eigenvalues_onto j i h0]
    ring

theorem fields_part {m : Part (ι ⊕ ι) (κ ⊕ κ)} {l' : LayerSolveResult κ} {l : LayerSolveResult ι} (h : LayerPart (placePart place hp).double m l' l)
    (hf : FieldPart (placePart place hp) place l' l) {a' b' : Matrix (κ ⊕ κ) β ℂ} {F' : Fields (Matrix κ β ℂ)}
    (hF : fieldsFromWaveAmplitudes a' b' l' = .ok F') :
    fieldsFromWaveAmplitudes (m.onto * a') (m.onto * b') l = .ok (F'.map fun X => X.submatrix place id) := by
  obtain ⟨h1, h2, rfl⟩ := fieldsFromWaveAmplitudes_eq_ok.1 hF
  refine fieldsFromWaveAmplitudes_eq_ok.2 ⟨h.wellPosed h1, h.eigenvalues_ne h2, ?_⟩
  have hw : omega l' = omega l := by unfold omega; rw [hf.wavelength]
  have e1 : electricModes l * (m.onto * a' - m.onto * b') = (electricModes l' * (a' - b')).submatrix (Sum.map place place) id := by
    rw [← double_onto (hp := hp), ← Matrix.mul_assoc, (h.electricModes_carries hf.wavelength).2]
    mat_module
  have e2 : l.eigenvectors * (m.onto * a' + m.onto * b') = (l'.eigenvectors * (a' + b')).submatrix (Sum.map place place) id := by
    rw [← double_onto (hp := hp), ← Matrix.mul_assoc, h.eigenvectors.2]
    mat_module
  have hz : ∀ {A' : Matrix κ κ ℂ} {A : Matrix ι ι ℂ}, (placePart place hp).Carries (placePart place hp) A' A → ∀ (X' : Matrix κ β ℂ) i c,
      (A' * X') (place i) c = (A * X'.submatrix place id) i c := by
    intro A' A hA X' i c
    rw [← placePart_onto (hp := hp) X', ← Matrix.mul_assoc, ← hA.2, Matrix.mul_assoc, placePart_onto]
    rfl
  rw [e1, e2]
  generalize electricModes l' * (a' - b') = E
  generalize l'.eigenvectors * (a' + b') = H
  unfold fieldsOf Fields.map
  simp only [Fields.mk.injEq]
  refine ⟨?_, ?_, ?_, ?_, ?_, ?_⟩
  · rfl
  · rfl
  · ext i c
    simp only [submatrix_apply, of_apply, id]
    rw [hz hf.inverseZPermittivity.neg, hw]
    refine congrArg (fun Z : Matrix ι β ℂ => (-l.inverseZPermittivityMatrix * Z) i c / (Complex.I * omega l)) ?_
    ext i c
    simp [hf.wavevectors]
  · rfl
  · rfl
  · ext i c
    simp only [submatrix_apply, of_apply, id]
    rw [hz hf.inverseZPermeability, hw]
    refine congrArg (fun Z : Matrix ι β ℂ => (l.inverseZPermeabilityMatrix * Z) i c / (Complex.I * omega l)) ?_
    ext i c
    simp [hf.wavevectors]

/-- The fields of a layer at points in space. -/
theorem layerFields3d_coordinates {γ : Type} {n : ℕ} {a b : Matrix (ι ⊕ ι) (Fin n) ℂ} {l : LayerSolveResult ι} {d : ℝ} {znum : ℕ} {xy : γ → ℝ × ℝ} {R} :
    layerFields3d a b l d znum (coordinateSlice xy) = .ok R ↔ ∃ F, fieldsFromWaveAmplitudes
        (propagateAmplitude (Matrix.of fun i (q : Fin (znum * n)) => a i q.modNat) (fun q => linspace d znum q.divNat) l)
        (propagateAmplitude (Matrix.of fun i (q : Fin (znum * n)) => b i q.modNat) (fun q => d - linspace d znum q.divNat) l) l = .ok F ∧ cellArea l ≠ 0 ∧
      R = (F.map fun c p k j => planeWaveSum l (fun i => c i (flatIndex k j)) (xy p), xy, linspace d znum) := by
  unfold layerFields3d coordinateSlice colocateAmplitudes
  simp only [bind_eq_ok, fieldsOnCoordinates_eq_ok, ok_inj]
  constructor
  · rintro ⟨F, hF, _, ⟨h0, rfl⟩, rfl⟩
    exact ⟨F, hF, h0, rfl⟩
  · rintro ⟨F, hF, h0, rfl⟩
    exact ⟨F, hF, _, ⟨h0, rfl⟩, rfl⟩

theorem layerFields_part {γ : Type} {n : ℕ} {m : Part (ι ⊕ ι) (κ ⊕ κ)} {l' : LayerSolveResult κ} {l : LayerSolveResult ι}
    (h : LayerPart (placePart place hp).double m l' l) (hf : FieldPart (placePart place hp) place l' l) {a' b' : Matrix (κ ⊕ κ) (Fin n) ℂ} {d : ℝ} {znum : ℕ}
    {xy : γ → ℝ × ℝ} {F' : Fields (Matrix κ (Fin (znum * n)) ℂ)}
    (hF : fieldsFromWaveAmplitudes
        (propagateAmplitude (Matrix.of fun i (q : Fin (znum * n)) => a' i q.modNat) (fun q => linspace d znum q.divNat) l')
        (propagateAmplitude (Matrix.of fun i (q : Fin (znum * n)) => b' i q.modNat) (fun q => d - linspace d znum q.divNat) l') l' = .ok F') :
    layerFields3d (m.onto * a') (m.onto * b') l d znum (coordinateSlice xy) =
      .ok (F'.map fun c p k j => planeWaveSum l (fun i => c (place i) (flatIndex k j)) (xy p), xy, linspace d znum) := by
  refine layerFields3d_coordinates.2 ⟨F'.map fun X => X.submatrix place id, ?_, (h.wellPosed hf.wellPosed).2.1, rfl⟩
  have := fields_part h hf hF
  rw [propagate_part h, propagate_part h] at this
  exact this

variable {σ : Type} [Fintype σ] {places : σ → ι → κ}

theorem planeWaveSum_classes (hbij : Function.Bijective fun q : σ × ι => places q.1 q.2) {l' : LayerSolveResult κ} {l : σ → LayerSolveResult ι}
    (hk : ∀ t i, orderWavevector l' (places t i) = orderWavevector (l t) i) (f : κ → ℂ) (r : ℝ × ℝ) :
    planeWaveSum l' f r = ∑ t, planeWaveSum (l t) (fun i => f (places t i)) r := by
  unfold planeWaveSum
  rw [← Equiv.sum_comp (Equiv.ofBijective _ hbij), Fintype.sum_prod_type]
  refine Finset.sum_congr rfl fun t _ => Finset.sum_congr rfl fun i _ => ?_
  simp only [Equiv.ofBijective_apply]
  rw [hk]

theorem isSum_append {γ : Type} {n : ℕ} {A' B' : List (Fields (γ → Fin n → ℂ))} {A B : σ → List (Fields (γ → Fin n → ℂ))} (hA : IsSumOfFields A' A)
    (hB : IsSumOfFields B' B) : IsSumOfFields (A' ++ B') fun t => A t ++ B t := by
  refine ⟨fun t => by simp [hA.1, hB.1], fun i F' hF => ?_⟩
  by_cases hi : i < A'.length
  · rw [List.getElem?_append_left hi] at hF
    obtain ⟨F, h1, h2⟩ := hA.2 i F' hF
    exact ⟨F, fun t => by rw [List.getElem?_append_left (by rw [hA.1]; exact hi)]; exact h1 t, h2⟩
  · rw [List.getElem?_append_right (by omega)] at hF
    obtain ⟨F, h1, h2⟩ := hB.2 _ F' hF
    exact ⟨F, fun t => by rw [List.getElem?_append_right (by rw [hA.1]; omega), hA.1]; exact h1 t, h2⟩

theorem isSum_ofFn {γ : Type} {n k : ℕ} {f' : Fin k → Fields (γ → Fin n → ℂ)} {f : σ → Fin k → Fields (γ → Fin n → ℂ)} (h : ∀ i, f' i = sumFields fun t => f t i) :
    IsSumOfFields (List.ofFn f') fun t => List.ofFn (f t) := by
  refine ⟨fun t => by simp, fun i F' hF => ?_⟩
  rw [List.getElem?_ofFn] at hF
  split_ifs at hF with hi
  rw [Option.some_inj] at hF
  exact ⟨fun t => f t ⟨i, hi⟩, fun t => by rw [List.getElem?_ofFn, dif_pos hi], by rw [← hF, h]⟩

/-- The part of a layer with its amplitudes. -/
def RequestPart {n : ℕ} (place : ι → κ) (hp : Function.Injective place) (r' : LayerRequest κ n) (r : LayerRequest ι n) : Prop :=
  ∃ m, LayerPart (placePart place hp).double m r'.layer r.layer ∧ FieldPart (placePart place hp) place r'.layer r.layer ∧ r.a = m.onto * r'.a ∧
    r.b = m.onto * r'.b ∧ r.thickness = r'.thickness ∧ r.znum = r'.znum

theorem stackFieldsLoop_classes {γ : Type} {n : ℕ} (hp : ∀ t, Function.Injective (places t)) (hbij : Function.Bijective fun q : σ × ι => places q.1 q.2)
    {xy : γ → ℝ × ℝ} : ∀ (reqs' : List (LayerRequest κ n)) (reqs : σ → List (LayerRequest ι n)) (z0 : ℝ) (xy0) (gs' zs xy1),
      (∀ t, List.Forall₂ (RequestPart (places t) (hp t)) reqs' (reqs t)) → stackFieldsLoop (coordinateSlice xy) z0 xy0 reqs' = .ok (gs', zs, xy1) →
      ∃ gs, (∀ t, stackFieldsLoop (coordinateSlice xy) z0 xy0 (reqs t) = .ok (gs t, zs, xy1)) ∧ IsSumOfFields gs' gs := by
  intro reqs'
  induction reqs' with
  | nil =>
    intro reqs z0 xy0 gs' zs xy1 hr h
    simp only [stackFieldsLoop, ok_inj, Prod.mk.injEq] at h
    obtain ⟨rfl, rfl, rfl⟩ := h
    refine ⟨fun _ => [], fun t => ?_, fun t => rfl, fun i F' hF => by simp at hF⟩
    have := hr t
    rw [List.forall₂_nil_left_iff] at this
    rw [this]
    rfl
  | cons r' reqs' ih =>
    intro reqs z0 xy0 gs' zs xy1 hr h
    simp only [List.forall₂_cons_left_iff] at hr
    choose r rest h1 h2 h3 using hr
    simp only [stackFieldsLoop, bind_eq_ok, ok_inj, Prod.mk.injEq] at h
    obtain ⟨⟨g', xy2, zo⟩, hg, ⟨gs2', zs2, xy3⟩, hgs, rfl, rfl, rfl⟩ := h
    obtain ⟨F', hF', h0, hR⟩ := layerFields3d_coordinates.1 hg
    simp only [Prod.mk.injEq] at hR
    obtain ⟨rfl, hxy, rfl⟩ := hR
    have hxy := hxy.symm
    subst hxy
    obtain ⟨gs2, k1, k2⟩ := ih rest _ _ _ _ _ h2 hgs
    obtain ⟨a', b', l', d, z⟩ := r'
    refine ⟨fun t => List.ofFn (fun k : Fin z => F'.map fun c p j => planeWaveSum (r t).layer (fun i => c (places t i) (flatIndex k j)) (xy p)) ++ gs2 t, fun t => ?_,
      isSum_append (isSum_ofFn fun k => ?_) k2⟩
    · obtain ⟨m, q1, q2, q3, q4, q5, q6⟩ := h1 t
      have hk1 := k1 t
      rw [h3 t]
      beta_reduce
      generalize r t = r at *
      obtain ⟨a, b, l, d2, z2⟩ := r
      simp only at q1 q2 q3 q4 q5 q6 hF' hk1
      subst q3 q4 q5 q6
      simp only [stackFieldsLoop, bind_eq_ok, ok_inj, Prod.mk.injEq]
      exact ⟨_, layerFields_part q1 q2 hF', _, hk1, rfl, rfl, rfl⟩
    · have key : ∀ c : Matrix κ (Fin (z * n)) ℂ, (fun (p : γ) (j : Fin n) => planeWaveSum l' (fun i => c i (flatIndex k j)) (xy p)) =
          ∑ t, fun p j => planeWaveSum (r t).layer (fun i => c (places t i) (flatIndex k j)) (xy p) := by
        intro c
        funext p j
        rw [Finset.sum_apply, Finset.sum_apply]
        exact planeWaveSum_classes hbij (fun t i => (h1 t).choose_spec.2.1.wavevectors i) _ _
      simp only [sumFields, Fields.map, key]

/-! ### Solved layers and stacks -/

theorem stackSMatrix_part {e : Part (ι ⊕ ι) (κ ⊕ κ)} {ls' : List (LayerSolveResult κ)} {ls : List (LayerSolveResult ι)}
    (hl : List.Forall₂ (fun l' l => ∃ m, LayerPart e m l' l) ls' ls) {ds : List ℝ} {S' : ScatteringMatrix κ} (h : stackSMatrix ls' ds = .ok S') :
    ∃ S m₀ m₁, stackSMatrix ls ds = .ok S ∧ SPart e m₀ m₁ S' S := by
  obtain ⟨ss', h1, h2⟩ := stackSMatrix_eq_ok h
  obtain ⟨ss, m₀, k1, -, k2⟩ := stackSMatrices_part hl h1
  have : ∀ (ss' : List (ScatteringMatrix κ)) (ss : List (ScatteringMatrix ι)), List.Forall₂ (fun S' S => ∃ m, SPart e m₀ m S' S) ss' ss → ss'.getLast? = some S' →
      ∃ S, ss.getLast? = some S ∧ ∃ m, SPart e m₀ m S' S := by
    intro ss' ss hs
    induction hs with
    | nil => simp
    | @cons x y xs ys hxy hs ih =>
      intro hx
      cases hs with
      | nil =>
        simp only [List.getLast?_singleton, Option.some_inj] at hx
        subst hx
        exact ⟨y, rfl, hxy⟩
      | cons _ _ =>
        rw [List.getLast?_cons_cons] at hx ⊢
        exact ih hx
  obtain ⟨S, k3, m₁, k4⟩ := this ss' ss k2 h2
  refine ⟨S, m₀, m₁, ?_, k4⟩
  unfold stackSMatrix
  rw [bind_eq_ok]
  exact ⟨ss, k1, by rw [k3]⟩

theorem stackSMatrix_end {layers : List (LayerSolveResult ι)} {ds : List ℝ} {S : ScatteringMatrix ι} (h : stackSMatrix layers ds = .ok S) :
    layers.head? = some S.startLayer ∧ layers.getLast? = some S.endLayer := by
  obtain ⟨ss, h1, h2⟩ := stackSMatrix_eq_ok h
  obtain ⟨hlen, p, rest, hz⟩ := stackSMatrices_length h1
  refine ⟨?_, ?_⟩
  · cases layers with
    | nil => simp at hz
    | cons l ls =>
      cases ds with
      | nil => simp at hz
      | cons d ds =>
        rw [stackSMatrix_cons _ _ _ _ (by simpa using hlen)] at h
        rw [(scanLoop_ends _ _ _ h).1]
        rfl
  · rw [← stackSMatrices_layers h1, List.getLast?_map, h2]
    rfl

variable {m n : ℕ} {p : ℤ × ℤ} {c : Setup ι} {c' : Setup κ}
variable {eig : Matrix (ι ⊕ ι) (ι ⊕ ι) ℂ → (ι ⊕ ι → ℂ) × Matrix (ι ⊕ ι) (ι ⊕ ι) ℂ}
variable {eig' : Matrix (κ ⊕ κ) (κ ⊕ κ) ℂ → (κ ⊕ κ → ℂ) × Matrix (κ ⊕ κ) (κ ⊕ κ) ℂ}

theorem Spec.SupercellClass.solved (he : IsEig eig) (he' : IsEig eig') (h : SupercellClass m n p place c c') {qs : List (StackLayer ι)}
    {qs' : List (StackLayer κ)} (hl : List.Forall₂ (SupercellLayer m n c c') qs qs') :
    ∀ {rs' : List (LayerSolveResult κ)}, List.Forall₂ (fun p r => p.solve eig' c' = .ok r) qs' rs' → (∀ x ∈ rs', IsUnit x.eigenvectors.det) →
      ∃ rs, List.Forall₂ (fun p r => p.solve eig c = .ok r) qs rs ∧
        List.Forall₂ (fun l' l => ∃ m, LayerPart h.part.double m l' l) rs' rs ∧ List.Forall₂ (FieldPart h.part place) rs' rs ∧
        (∀ x ∈ rs, IsUnit x.eigenvectors.det) ∧ qs'.map StackLayer.thickness = qs.map StackLayer.thickness := by
  induction hl with
  | nil =>
    intro rs' hs _
    cases hs
    exact ⟨[], .nil, .nil, .nil, by simp, rfl⟩
  | @cons a b as bs hab _ ih =>
    intro rs' hs hu
    obtain _ | ⟨h1, h2⟩ := hs
    rename_i y ys
    obtain ⟨ys', k1, k2, k3, k4, k5⟩ := ih h2 fun x hx => hu x (by simp [hx])
    obtain ⟨y', q1, q2, q3, q4⟩ := h.layer he he' hab h1 (hu y (by simp))
    exact ⟨y' :: ys', .cons q1 k1, .cons ⟨_, q3⟩ k2, .cons q4 k3, List.forall_mem_cons.2 ⟨q2, k4⟩, by simp [k5, SupercellClass.thickness hab]⟩

theorem requests_part {n : ℕ} {amps' : List (Matrix (κ ⊕ κ) (Fin n) ℂ × Matrix (κ ⊕ κ) (Fin n) ℂ)} {amps : List (Matrix (ι ⊕ ι) (Fin n) ℂ × Matrix (ι ⊕ ι) (Fin n) ℂ)}
    {ls' : List (LayerSolveResult κ)} {ls : List (LayerSolveResult ι)} (h : Forall₄ (AmplitudePart (placePart place hp).double) amps' amps ls' ls)
    (hf : List.Forall₂ (FieldPart (placePart place hp) place) ls' ls) (ds : List ℝ) (znum : List ℕ) :
    List.Forall₂ (RequestPart place hp) (zipRequests amps' ls' ds znum) (zipRequests amps ls ds znum) := by
  induction h generalizing ds znum with
  | nil => simp [zipRequests]
  | @cons x' x l' l _ _ _ _ h1 _ ih =>
    obtain _ | ⟨f1, f2⟩ := hf
    cases ds with
    | nil => simp [zipRequests]
    | cons d ds =>
      cases znum with
      | nil => simp [zipRequests]
      | cons z znum =>
        obtain ⟨m, q1, q2, q3⟩ := h1
        exact .cons ⟨m, q1, f1, q2, q3, rfl, rfl⟩ (ih f2 ds znum)

theorem Forall₄.length {A B C D : Type} {R : A → B → C → D → Prop} {as : List A} {bs : List B} {cs : List C} {ds : List D} (h : Forall₄ R as bs cs ds) :
    bs.length = as.length ∧ cs.length = as.length ∧ ds.length = as.length := by
  induction h with
  | nil => simp
  | cons _ _ ih => simp [ih.1, ih.2.1, ih.2.2]

theorem forall₂_ends {A B : Type} {R : A → B → Prop} {as : List A} {bs : List B} (h : List.Forall₂ R as bs) :
    (∀ a ∈ as.head?, ∀ b ∈ bs.head?, R a b) ∧ ∀ a ∈ as.getLast?, ∀ b ∈ bs.getLast?, R a b := by
  induction h with
  | nil => simp
  | @cons a b as bs hab hs ih =>
    refine ⟨by simpa using hab, ?_⟩
    cases hs with
    | nil => simpa using hab
    | cons _ _ => simpa only [List.getLast?_cons_cons] using ih.2

/-- The amplitudes of one class. -/
theorem Spec.SupercellClass.amplitudes (he : IsEig eig) (he' : IsEig eig') (h : SupercellClass m n p place c c') {before after : List (StackLayer ι)}
    {before' after' : List (StackLayer κ)} (hb : List.Forall₂ (SupercellLayer m n c c') before before') (ha : List.Forall₂ (SupercellLayer m n c c') after after')
    {lb' la' : List (LayerSolveResult κ)} (hlb : List.Forall₂ (fun p r => p.solve eig' c' = .ok r) before' lb')
    (hla : List.Forall₂ (fun p r => p.solve eig' c' = .ok r) after' la') (ub : ∀ x ∈ lb', IsUnit x.eigenvectors.det) (ua : ∀ x ∈ la', IsUnit x.eigenvectors.det)
    {sb' sa' : ScatteringMatrix κ} {ib' ia' : List (ScatteringMatrix κ × ScatteringMatrix κ)} {jx' jy' jz' : Matrix κ β ℂ} {source' : SourceAmplitudes κ β}
    {amplitudes' : List (Matrix (κ ⊕ κ) β ℂ × Matrix (κ ⊕ κ) β ℂ)}
    (hsb : stackSMatrix lb' (before'.map StackLayer.thickness) = .ok sb') (hsa : stackSMatrix la' (after'.map StackLayer.thickness) = .ok sa')
    (hib : stackSMatricesInterior lb' (before'.map StackLayer.thickness) = .ok ib') (hia : stackSMatricesInterior la' (after'.map StackLayer.thickness) = .ok ia')
    (hs : amplitudesForSource jx' jy' jz' sb' sa' = .ok source')
    (hamp : stackAmplitudesInteriorWithSource ib' ia' source'.backwardBeforeEnd source'.forwardAfterStart = .ok amplitudes') :
    ∃ lb la sb sa ib ia source amplitudes,
      List.Forall₂ (fun p r => p.solve eig c = .ok r) before lb ∧ List.Forall₂ (fun p r => p.solve eig c = .ok r) after la ∧
      stackSMatrix lb (before.map StackLayer.thickness) = .ok sb ∧ stackSMatrix la (after.map StackLayer.thickness) = .ok sa ∧
      stackSMatricesInterior lb (before.map StackLayer.thickness) = .ok ib ∧ stackSMatricesInterior la (after.map StackLayer.thickness) = .ok ia ∧
      amplitudesForSource (jx'.submatrix place id) (jy'.submatrix place id) (jz'.submatrix place id) sb sa = .ok source ∧
      stackAmplitudesInteriorWithSource ib ia source.backwardBeforeEnd source.forwardAfterStart = .ok amplitudes ∧
      Forall₄ (AmplitudePart h.part.double) amplitudes' amplitudes (lb' ++ la') (lb ++ la) ∧ List.Forall₂ (FieldPart h.part place) (lb' ++ la') (lb ++ la) ∧
      before'.map StackLayer.thickness = before.map StackLayer.thickness ∧ after'.map StackLayer.thickness = after.map StackLayer.thickness := by
  obtain ⟨lb, b1, b2, b3, b4, b5⟩ := h.solved he he' hb hlb ub
  obtain ⟨la, a1, a2, a3, a4, a5⟩ := h.solved he he' ha hla ua
  obtain ⟨sb, m₀, m₁, b6, b7⟩ := stackSMatrix_part b2 hsb
  obtain ⟨sa, n₀, n₁, a6, a7⟩ := stackSMatrix_part a2 hsa
  obtain ⟨ib, m₂, m₃, b8, b9, b10, b11⟩ := interior_part b2 ub b4 hib
  obtain ⟨ia, n₂, n₃, a8, a9, a10, a11⟩ := interior_part a2 ua a4 hia
  obtain ⟨e1, e2⟩ := stackSMatrix_end hsb
  obtain ⟨e3, e4⟩ := stackSMatrix_end b6
  obtain ⟨g1, g2⟩ := stackSMatrix_end hsa
  obtain ⟨g3, g4⟩ := stackSMatrix_end a6
  have em : m₁ = m₃ := b7.finish.unique (b10 _ e2 _ e4) (ub _ (List.mem_of_getLast? e2)) (b4 _ (List.mem_of_getLast? e4))
  have en : n₀ = n₂ := a7.start.unique (a9 _ g1 _ g3) (ua _ (List.mem_of_head? g1)) (a4 _ (List.mem_of_head? g3))
  subst em en
  obtain ⟨source, s1, s2, s3⟩ := source_part b7 a7 ((forall₂_ends b3).2 _ e2 _ e4) ((forall₂_ends a3).1 _ g1 _ g3) hs
  simp only [stackAmplitudesInteriorWithSource, bind_eq_ok, ok_inj] at hamp
  obtain ⟨x', hx, y', hy, rfl⟩ := hamp
  obtain ⟨x, x1, x2⟩ := stackAmplitudes_part b11 hx
  obtain ⟨y, y1, y2⟩ := stackAmplitudes_part a11 hy
  rw [Matrix.mul_zero, ← s2] at x1
  rw [Matrix.mul_zero, ← s3] at y1
  rw [b5] at hsb hib
  refine ⟨lb, la, sb, sa, ib, ia, source, x ++ y, b1, a1, by rw [← b5]; exact b6, by rw [← a5]; exact a6, by rw [← b5]; exact b8, by rw [← a5]; exact a8, s1, ?_,
    x2.append y2, List.rel_append b3 a3, b5, a5⟩
  simp only [stackAmplitudesInteriorWithSource, bind_eq_ok, ok_inj]
  exact ⟨x, x1, y, y1, rfl⟩

end Fmmax
