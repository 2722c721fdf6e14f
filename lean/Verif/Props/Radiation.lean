import Verif.Props.Energy
import Verif.Props.Scattering
import Verif.Proofs.Radiation

/-! Property theorems C81: scattering matrices exist exactly in the absence of resonances, in particular for absorbing stacks.

`AbsorbingLayer`, `OutwardLayer` and `NoResonance` are from `Verif/Spec/Radiation.lean`. -/

set_option linter.unusedSectionVars false

namespace Fmmax

open Spec Matrix

variable {nx ny : ℕ} {ι : Type} [Fintype ι] [DecidableEq ι] {β : Type}
variable {eig : Matrix (ι ⊕ ι) (ι ⊕ ι) ℂ → (ι ⊕ ι → ℂ) × Matrix (ι ⊕ ι) (ι ⊕ ι) ℂ}

/-! ### Success and resonances -/

/-- **C81** For layers at one wavelength with finite, independent modes, `stack_s_matrix` succeeds if and only if no leading
part of the stack has a resonance, that is, amplitudes with continuous tangential fields but without incoming waves. -/
theorem C81_succeeds_iff {lam : ℝ} {layers : List (LayerSolveResult ι)} {ds : List ℝ} (hne : layers ≠ [])
    (hlen : layers.length = ds.length)
    (hr : ∀ l ∈ layers, l.wavelength = lam ∧ ∀ i, l.eigenvalues i ≠ 0)
    (hw : ∀ l ∈ layers, WellPosed l ∧ IsUnit (magneticToElectric l * l.eigenvectors).det) :
    (∃ S, stackSMatrix layers ds = .ok S) ↔ ∀ n, n < layers.length → NoResonance ((layers.zip ds).take (n + 1)) := by
  obtain ⟨l, ls, rfl⟩ := List.exists_cons_of_ne_nil hne
  rcases ds with _ | ⟨d, ds⟩
  · simp at hlen
  have hlen' : ls.length = ds.length := by simpa using hlen
  rw [stackSMatrix_cons _ _ _ _ hlen']
  have hmem : ∀ p ∈ [(l, d)] ++ ls.zip ds, p.1 ∈ l :: ls := by
    intro p hp
    rw [List.mem_append, List.mem_singleton] at hp
    rcases hp with rfl | hp
    · simp
    · exact List.mem_cons_of_mem _ (List.of_mem_zip hp).1
  rw [scanLoop_succeeds_iff (lam := lam) (ls.zip ds) [(l, d)] (identitySMatrix l d) (isSMatrix_identity l d)
    (fun p hp => hr _ (hmem p hp)) (fun p hp => hw _ (hmem p hp))]
  rw [List.length_zip, ← hlen', min_self]
  constructor
  · intro h n hn
    cases n with
    | zero => simpa using noResonance_single (l, d)
    | succ n => simpa using h n (by simpa using hn)
  · intro h n hn
    simpa using h (n + 1) (by simpa using hn)

/-- **C81** Every stack of layers at one wavelength without gain has a finite S-matrix, if the first layer is absorbing and forward
waves carry energy forward in the other layers. -/
theorem C81_absorbing_first {lam : ℝ} {l0 : LayerSolveResult ι} {ls : List (LayerSolveResult ι)} {d0 : ℝ} {ds : List ℝ}
    (hlen : ls.length = ds.length) (hlam : ∀ l ∈ l0 :: ls, l.wavelength = lam) (h0 : AbsorbingLayer l0)
    (hL : ∀ l ∈ ls, OutwardLayer l) (hd : ∀ d ∈ d0 :: ds, 0 ≤ d) :
    ∃ S, stackSMatrix (l0 :: ls) (d0 :: ds) = .ok S ∧ stackSMatrixScan (l0 :: ls) (d0 :: ds) = .ok S := by
  have hO : ∀ l ∈ l0 :: ls, OutwardLayer l := by
    intro l hl
    rw [List.mem_cons] at hl
    rcases hl with rfl | hl
    · exact h0.outwardLayer
    · exact hL l hl
  have key : ∃ S, stackSMatrix (l0 :: ls) (d0 :: ds) = .ok S := by
    rw [C81_succeeds_iff (lam := lam) (by simp) (by simpa using hlen)]
    · intro n hn st first last hg hc hf hl ha hb
      have hmem : ∀ s ∈ st, s.layer ∈ l0 :: ls ∧ s.thickness ∈ d0 :: ds := by
        intro s hs
        have h1 : (s.layer, s.thickness) ∈ geometry st := List.mem_map_of_mem hs
        rw [hg] at h1
        exact List.of_mem_zip (List.mem_of_mem_take h1)
      have hfl : first.layer = l0 := by
        rcases st with _ | ⟨s, st⟩
        · simp at hf
        · simp only [List.head?_cons, Option.some.injEq] at hf
          subst hf
          simp only [geometry, List.map_cons, List.zip_cons_cons, List.take_succ_cons, List.cons.injEq, Prod.mk.injEq] at hg
          exact hg.1.1
      have := no_resonance hc hf hl (by rw [hfl]; exact h0)
        (fun s hs => ⟨(hO _ (hmem s hs).1).passive, (hO _ (hmem s hs).1).modes, hd _ (hmem s hs).2⟩)
        (hO _ (hmem last (List.mem_of_getLast? hl)).1) () (fun i => by rw [ha]; rfl) (fun i => by rw [hb]; rfl)
      intro s hs
      constructor
      · ext i c
        exact (this s hs i).1
      · ext i c
        exact (this s hs i).2
    · intro l hl
      exact ⟨hlam l hl, (hO l hl).modes.2⟩
    · intro l hl
      obtain ⟨-, E, hs, -⟩ := (hO l hl).passive
      refine ⟨hs.wellPosed, ?_⟩
      rw [Matrix.det_mul]
      exact (electricModes_isUnit hs (hO l hl).modes).1.mul (hO l hl).modes.1
  obtain ⟨S, hS⟩ := key
  exact ⟨S, hS, by rw [← hS]; exact (stackSMatrix_eq_scan _ _).symm⟩

/-- **C81** Stacks of absorbing layers: the S-matrix, the S-matrix of the reversed stack and all S-matrices of leading and
trailing parts are finite, and all incoming amplitudes determine exactly one set of interior amplitudes. -/
theorem C81_absorbing_stack {lam : ℝ} {layers : List (LayerSolveResult ι)} {ds : List ℝ} (hne : layers ≠ [])
    (hlen : layers.length = ds.length) (hlam : ∀ l ∈ layers, l.wavelength = lam) (hL : ∀ l ∈ layers, AbsorbingLayer l)
    (hd : ∀ d ∈ ds, 0 ≤ d) :
    ∃ S ps, stackSMatrix layers ds = .ok S ∧ stackSMatricesInterior layers ds = .ok ps ∧ ps.length = layers.length ∧
      ∀ {β : Type} (a0 bN : Matrix (ι ⊕ ι) β ℂ),
        ∃! st : List (LayerState ι β), st.map (fun s => (s.layer, s.thickness)) = layers.zip ds ∧ Consistent st ∧
          ∃ first last, st.head? = some first ∧ st.getLast? = some last ∧ first.a = a0 ∧ last.b = bN ∧
            last.a = S.s11 * a0 + S.s12 * bN ∧ first.b = S.s21 * a0 + S.s22 * bN := by
  have gen : ∀ (layers : List (LayerSolveResult ι)) (ds : List ℝ), layers ≠ [] → layers.length = ds.length →
      (∀ l ∈ layers, l.wavelength = lam) → (∀ l ∈ layers, AbsorbingLayer l) → (∀ d ∈ ds, 0 ≤ d) →
      ∃ S, stackSMatrix layers ds = .ok S := by
    intro layers ds hne hlen hlam hL hd
    obtain ⟨l, ls, rfl⟩ := List.exists_cons_of_ne_nil hne
    rcases ds with _ | ⟨d, ds⟩
    · simp at hlen
    obtain ⟨S, hS, -⟩ := C81_absorbing_first (by simpa using hlen) hlam (hL l (by simp))
      (fun x hx => (hL x (by simp [hx])).outwardLayer) hd
    exact ⟨S, hS⟩
  obtain ⟨S, hS⟩ := gen layers ds hne hlen hlam hL hd
  obtain ⟨R, hR⟩ := gen layers.reverse ds.reverse (by simpa using hne) (by simpa using hlen) (by simpa using hlam)
    (by simpa using hL) (by simpa using hd)
  obtain ⟨ss, hss, -⟩ := stackSMatrix_eq_ok hS
  obtain ⟨rs, hrs, -⟩ := stackSMatrix_eq_ok hR
  have hreg : ∀ l ∈ layers, l.wavelength = lam ∧ ∀ i, l.eigenvalues i ≠ 0 := fun l hl => ⟨hlam l hl, (hL l hl).modes.2⟩
  have e1 := (stackSMatrices_spec (lam := lam) (fun p hp => hreg _ (List.of_mem_zip hp).1) hss).1
  have e2 := (stackSMatrices_spec (lam := lam) (layers := layers.reverse) (ds := ds.reverse)
    (fun p hp => hreg _ (by simpa using (List.of_mem_zip hp).1)) hrs).1
  refine ⟨S, ss.zip (rs.reverse.map ScatteringMatrix.reverse), hS, ?_, ?_, fun a0 bN => C30_smatrix_complete_unique hreg hS a0 bN⟩
  · unfold stackSMatricesInterior
    rw [hss, hrs]
    rfl
  · simp [e1, e2, hlen]

/-- **C81** Given an S-matrix obtained in any way from the public API, appending a layer succeeds exactly if the longer stack has
no resonance. -/
theorem C81_append_iff {lam : ℝ} {S : ScatteringMatrix ι} {layers : List (LayerSolveResult ι × ℝ)} {l : LayerSolveResult ι} {d : ℝ}
    (hS : Built S layers) (h : ∀ p ∈ layers ++ [(l, d)], p.1.wavelength = lam ∧ (∀ i, p.1.eigenvalues i ≠ 0) ∧ WellPosed p.1 ∧
      IsUnit (magneticToElectric p.1 * p.1.eigenvectors).det) :
    (∃ S', appendLayer S l d = .ok S') ↔ NoResonance (layers ++ [(l, d)]) :=
  append_succeeds_iff (lam := lam) (hS.isSMatrix fun p hp => ⟨(h p (List.mem_append_left _ hp)).1, (h p (List.mem_append_left _ hp)).2.1⟩)
    (fun p hp => ⟨(h p hp).1, (h p hp).2.1⟩) fun p hp => (h p hp).2.2

/-- **C81** Prepending a layer succeeds exactly if the longer stack has no resonance. -/
theorem C81_prepend_iff {lam : ℝ} {S : ScatteringMatrix ι} {layers : List (LayerSolveResult ι × ℝ)} {l : LayerSolveResult ι} {d : ℝ}
    (hS : Built S layers) (h : ∀ p ∈ (l, d) :: layers, p.1.wavelength = lam ∧ (∀ i, p.1.eigenvalues i ≠ 0) ∧ WellPosed p.1 ∧
      IsUnit (magneticToElectric p.1 * p.1.eigenvectors).det) :
    (∃ S', prependLayer S l d = .ok S') ↔ NoResonance ((l, d) :: layers) :=
  prepend_succeeds_iff (lam := lam) (hS.isSMatrix fun p hp => ⟨(h p (List.mem_cons_of_mem _ hp)).1, (h p (List.mem_cons_of_mem _ hp)).2.1⟩)
    (fun p hp => ⟨(h p hp).1, (h p hp).2.1⟩) fun p hp => (h p hp).2.2

/-- **C81** The star product of two stacks succeeds exactly if neither the first stack ending in the first layer of the second nor
the joined stack has a resonance. -/
theorem C81_star_iff {lam : ℝ} {A B : ScatteringMatrix ι} {la lb : List (LayerSolveResult ι × ℝ)} {l : LayerSolveResult ι} {d : ℝ}
    (hA : Built A la) (hB : Built B ((l, d) :: lb))
    (h : ∀ p ∈ la ++ (l, d) :: lb, p.1.wavelength = lam ∧ (∀ i, p.1.eigenvalues i ≠ 0) ∧ WellPosed p.1 ∧
      IsUnit (magneticToElectric p.1 * p.1.eigenvectors).det) :
    (∃ S, redhefferStarProduct A B = .ok S) ↔ NoResonance (la ++ [(l, d)]) ∧ NoResonance (la ++ (l, d) :: lb) := by
  have sA := hA.isSMatrix (lam := lam) fun p hp => ⟨(h p (List.mem_append_left _ hp)).1, (h p (List.mem_append_left _ hp)).2.1⟩
  have sB := hB.isSMatrix (lam := lam) fun p hp => ⟨(h p (List.mem_append_right _ hp)).1, (h p (List.mem_append_right _ hp)).2.1⟩
  have := star_succeeds_iff sA sB (fun p hp => ⟨(h p hp).1, (h p hp).2.1⟩) fun p hp => (h p hp).2.2
  have e := sB.start
  simp only [List.head?_cons, Option.some.injEq, Prod.mk.injEq] at e
  rwa [← e.1, ← e.2] at this

/-- **C81** All ways to build S-matrices from absorbing layers succeed: given S-matrices obtained in any way from the public API,
a further layer can be appended or prepended, and two stacks can be joined by the star product. -/
theorem C81_operations {lam : ℝ} {A B : ScatteringMatrix ι} {la lb : List (LayerSolveResult ι × ℝ)} (hA : Built A la) (hB : Built B lb)
    (h : ∀ p ∈ la ++ lb, p.1.wavelength = lam ∧ AbsorbingLayer p.1 ∧ 0 ≤ p.2) {l : LayerSolveResult ι} {d : ℝ}
    (hl : l.wavelength = lam) (hla : AbsorbingLayer l) (hd : 0 ≤ d) :
    (∃ S, appendLayer A l d = .ok S) ∧ (∃ S, prependLayer A l d = .ok S) ∧ ∃ S, redhefferStarProduct A B = .ok S := by
  have reg : ∀ {x : List (LayerSolveResult ι × ℝ)}, (∀ p ∈ x, p.1.wavelength = lam ∧ AbsorbingLayer p.1 ∧ 0 ≤ p.2) →
      Regular lam x ∧ (∀ p ∈ x, WellPosed p.1 ∧ IsUnit (magneticToElectric p.1 * p.1.eigenvectors).det) ∧ NoResonance x :=
    fun hx => ⟨fun p hp => ⟨(hx p hp).1, (hx p hp).2.1.modes.2⟩, fun p hp => (hx p hp).2.1.wellPosed,
      absorbing_noResonance fun p hp => (hx p hp).2⟩
  have ha : ∀ p ∈ la, p.1.wavelength = lam ∧ AbsorbingLayer p.1 ∧ 0 ≤ p.2 := fun p hp => h p (List.mem_append_left _ hp)
  have hb : ∀ p ∈ lb, p.1.wavelength = lam ∧ AbsorbingLayer p.1 ∧ 0 ≤ p.2 := fun p hp => h p (List.mem_append_right _ hp)
  have sA := hA.isSMatrix (reg ha).1
  have sB := hB.isSMatrix (reg hb).1
  have x1 := reg (x := la ++ [(l, d)]) (by
    intro p hp
    rw [List.mem_append, List.mem_singleton] at hp
    rcases hp with hp | rfl
    · exact ha p hp
    · exact ⟨hl, hla, hd⟩)
  have x2 := reg (x := (l, d) :: la) (by
    intro p hp
    rw [List.mem_cons] at hp
    rcases hp with rfl | hp
    · exact ⟨hl, hla, hd⟩
    · exact ha p hp)
  have x3 := reg h
  have x4 := reg (x := la ++ [(B.startLayer, B.startThickness)]) (by
    intro p hp
    rw [List.mem_append, List.mem_singleton] at hp
    rcases hp with hp | rfl
    · exact ha p hp
    · exact hb _ (List.mem_of_head? sB.start))
  exact ⟨(append_succeeds_iff sA x1.1 x1.2.1).2 x1.2.2, (prepend_succeeds_iff sA x2.1 x2.2.1).2 x2.2.2,
    (star_succeeds_iff sA sB x3.1 x3.2.1).2 ⟨x4.2.2, x3.2.2⟩⟩

/-! ### Which layers are absorbing -/

theorem absorbing_smul_one {n : Type} [Fintype n] [DecidableEq n] {c : ℂ} (hc : 0 < c.im) : Absorbing (c • (1 : Matrix n n ℂ)) := by
  intro x hx
  unfold lossForm
  rw [Matrix.smul_mulVec, Matrix.one_mulVec, dotProduct_smul, smul_eq_mul, dotProduct, Finset.mul_sum, Complex.im_sum]
  have e : ∀ i, (c * (star x i * x i)).im = c.im * Complex.normSq (x i) := by
    intro i
    rw [Pi.star_apply, Complex.star_def, ← Complex.normSq_eq_conj_mul_self, Complex.im_mul_ofReal]
  simp only [e]
  obtain ⟨i, hi⟩ := Function.ne_iff.1 hx
  refine Finset.sum_pos' (fun i _ => mul_nonneg hc.le (Complex.normSq_nonneg _)) ⟨i, Finset.mem_univ i, ?_⟩
  exact mul_pos hc (Complex.normSq_pos.2 hi)

/-- **C81** Uniform layers with `Im ε > 0` are absorbing. -/
theorem C81_uniform_absorbing {wavelength : ℝ} (hl : 0 < wavelength) {inPlane : ℝ × ℝ} {l : LatticeVectors} {ε : ℂ}
    {G : ι → ℤ × ℤ} {r : LayerSolveResult ι} (h : eigensolveUniformIsotropic wavelength inPlane l ε G = .ok r)
    (hε : 0 < ε.im) : AbsorbingLayer r := by
  obtain ⟨k, w, -, -, -, hr⟩ := eigensolveUniformIsotropic_ok_iff.1 h
  refine ⟨by rw [hr]; exact hl, ⟨_, uniform_solvedFor h, absorbing_smul_one hε⟩, ?_, ⟨?_, ?_⟩, ?_, ?_, ?_⟩
  · rw [hr]; exact absorbing_smul_one hε
  · rw [hr]; exact passive_of_hermitian Matrix.isHermitian_one
  · rw [hr]; simp
  · rw [hr]; exact passive_of_hermitian Matrix.isHermitian_one
  · rw [hr]; simp
  · intro i
    rw [hr]
    exact (selectEigenvaluesSign_forward _).2.1

/-- **C81** Patterned layers with `Im ε > 0` everywhere, solved in the FFT formulation on a grid that resolves the expansion, are
absorbing if their modes are independent. -/
theorem C81_isotropic_absorbing (he : IsEig eig) {wavelength : ℝ} (hl : 0 < wavelength) {inPlane : ℝ × ℝ} {l : LatticeVectors}
    {ε : Grid nx ny} {G : ι → ℤ × ℤ} (hG : Function.Injective G) (hR : Resolves nx ny G) {r : LayerSolveResult ι}
    (h : eigensolveIsotropicMedia eig wavelength inPlane l ε G .fft = .ok r) (hε : ∀ i j, 0 < (ε i j).im)
    (hv : IsUnit r.eigenvectors.det) : AbsorbingLayer r := by
  unfold eigensolveIsotropicMedia at h
  split_ifs at h with hn
  · exact C81_uniform_absorbing hl h (hε _ _)
  · unfold eigensolvePatternedIsotropic at h
    obtain ⟨m, hm, h⟩ := bind_eq_ok.1 h
    obtain ⟨e1, e2, e3, e4, -⟩ := fft_matrices_eq hm
    obtain ⟨hs, f1, f2, f3, f4, -, -⟩ := numerical_solvedFor he h
    have hT := convolution_absorbing hR hG hε
    refine ⟨by rwa [f1], ⟨_, hs, ?_⟩, ?_, ⟨?_, ?_⟩, ?_, hv, ?_⟩
    · rw [e2]; exact absorbing_fromBlocks hT hT
    · rw [f3, e1]; exact hT
    · rw [f2, e3]; exact passive_of_hermitian Matrix.isHermitian_one
    · rw [f2, e3]; simp
    · rw [f4, e4]; exact passive_of_hermitian Matrix.isHermitian_one
    · intro i
      obtain ⟨k, A, -, -, hr⟩ := numericalEigensolve_ok_iff.1 h
      rw [hr]
      exact (selectEigenvaluesSign_forward _).2.1

/-- The electric field of forward waves in a uniform layer. -/
theorem uniform_electric {wavelength : ℝ} {inPlane : ℝ × ℝ} {l : LatticeVectors} {ε : ℂ} {G : ι → ℤ × ℤ} {r : LayerSolveResult ι}
    (h : eigensolveUniformIsotropic wavelength inPlane l ε G = .ok r) (a : Matrix (ι ⊕ ι) β ℂ) (i : ι) (c : β) :
    (electricModes r * a) (.inl i) c = (((omega r : ℂ) ^ 2 - ((orderWavevector r i).2 : ℂ) ^ 2 / ε) * a (.inl i) c +
      ((orderWavevector r i).1 : ℂ) * ((orderWavevector r i).2 : ℂ) / ε * a (.inr i) c) / ((omega r : ℂ) * r.eigenvalues (.inl i)) ∧
    (electricModes r * a) (.inr i) c = (((orderWavevector r i).1 : ℂ) * ((orderWavevector r i).2 : ℂ) / ε * a (.inl i) c +
      ((omega r : ℂ) ^ 2 - ((orderWavevector r i).1 : ℂ) ^ 2 / ε) * a (.inr i) c) / ((omega r : ℂ) * r.eigenvalues (.inl i)) ∧
    r.eigenvalues (.inr i) = r.eigenvalues (.inl i) := by
  obtain ⟨k, w, -, hw, hε0, hr⟩ := eigensolveUniformIsotropic_ok_iff.1 h
  have hη : r.zPermittivityMatrix⁻¹ = (ε⁻¹) • (1 : Matrix ι ι ℂ) := by
    rw [hr]
    exact Matrix.inv_eq_right_inv (by simp [smul_smul, hε0])
  have hM : r.transversePermeabilityMatrix = 1 := by rw [hr]
  have hφ : r.eigenvectors = 1 := by rw [hr]
  have hqs : ∀ i : ι, r.eigenvalues (.inr i) = r.eigenvalues (.inl i) := by intro i; rw [hr]; rfl
  have hX : magneticToElectric r = Matrix.fromBlocks
      (diagonal fun i => (omega r : ℂ) ^ 2 - ((orderWavevector r i).2 : ℂ) * ε⁻¹ * ((orderWavevector r i).2 : ℂ))
      (diagonal fun i => ((orderWavevector r i).2 : ℂ) * ε⁻¹ * ((orderWavevector r i).1 : ℂ))
      (diagonal fun i => ((orderWavevector r i).1 : ℂ) * ε⁻¹ * ((orderWavevector r i).2 : ℂ))
      (diagonal fun i => (omega r : ℂ) ^ 2 - ((orderWavevector r i).1 : ℂ) * ε⁻¹ * ((orderWavevector r i).1 : ℂ)) := by
    unfold magneticToElectric
    simp only [hη, hM]
    ext i j
    rcases i with i | i <;> rcases j with j | j <;> by_cases hij : i = j <;>
      simp [hij, Matrix.mul_smul, Matrix.smul_mul]
    all_goals ring
  unfold electricModes
  rw [hφ, Matrix.mul_one, hX, Matrix.mul_assoc]
  refine ⟨?_, ?_, hqs i⟩
  · rw [Matrix.mul_apply, Fintype.sum_sum_type]
    simp [Matrix.diagonal_apply, Matrix.diagonal_mul, hqs]
    ring
  · rw [Matrix.mul_apply, Fintype.sum_sum_type]
    simp [Matrix.diagonal_apply, Matrix.diagonal_mul, hqs]
    ring

/-- **C81** In uniform layers with `Im ε ≥ 0` and without orders at grazing, forward waves carry energy forward. -/
theorem C81_uniform_outward {wavelength : ℝ} (hl : 0 < wavelength) {inPlane : ℝ × ℝ} {l : LatticeVectors} {ε : ℂ}
    {G : ι → ℤ × ℤ} {r : LayerSolveResult ι} (h : eigensolveUniformIsotropic wavelength inPlane l ε G = .ok r)
    (hε : 0 ≤ ε.im) (hq : ∀ i, r.eigenvalues i ≠ 0) : OutwardLayer r := by
  rcases hε.lt_or_eq with hpos | hzero
  · exact (C81_uniform_absorbing hl h hpos).outwardLayer
  obtain ⟨k, w, hk, hw, hε0, hr⟩ := eigensolveUniformIsotropic_ok_iff.1 h
  have hφ : r.eigenvectors = 1 := by rw [hr]
  refine ⟨C43_uniform_passive hl h hε, ⟨by rw [hφ]; simp, hq⟩, ?_⟩
  intro β a e m c hf
  obtain ⟨-, -, rfl, rfl⟩ := fieldsAt_eq.1 hf
  have hω : 0 < omega r := by
    unfold omega
    have := Real.pi_pos
    rw [hr]
    positivity
  unfold electricAt magneticAt netFlux
  simp only [Matrix.mul_zero, sub_zero, add_zero, propagator_zero, Matrix.one_mul, hφ]
  rw [Fintype.sum_sum_type, ← Finset.sum_add_distrib]
  refine Finset.sum_nonneg fun i _ => ?_
  obtain ⟨e1, e2, e3⟩ := uniform_electric h a i c
  rw [e1, e2]
  -- the eigenvalue
  have hroot : IsForwardRoot (ε * (omega r : ℂ) ^ 2 - ((orderWavevector r i).1 : ℂ) ^ 2 - ((orderWavevector r i).2 : ℂ) ^ 2)
      (r.eigenvalues (.inl i)) := by
    have hω' : w = omega r := by
      rw [(angularFrequency_eq_ok.1 hw).2, hr]
      rfl
    have hk' : k = orderWavevector r := by
      have := transverseWavevectors_layer (l := r) (k := k)
      rw [hr] at this
      rw [(this.1 hk).2, hr]
    have : r.eigenvalues (.inl i) = selectEigenvaluesSign (csqrt (ε * (w : ℂ) ^ 2 - ((k i).1 : ℂ) ^ 2 - ((k i).2 : ℂ) ^ 2)) := by
      rw [hr]; rfl
    rw [this, ← hω', ← hk']
    exact selectEigenvaluesSign_forward _
  have hqi := hq (.inl i)
  generalize r.eigenvalues (.inl i) = q at *
  obtain ⟨x, rfl⟩ : ∃ x : ℝ, ε = x := ⟨ε.re, Complex.ext rfl (by simp [← hzero])⟩
  have hx0 : x ≠ 0 := by exact_mod_cast hε0
  generalize omega r = W at *
  generalize (orderWavevector r i).1 = kx at *
  generalize (orderWavevector r i).2 = ky at *
  generalize a (.inl i) c = a1 at *
  generalize a (.inr i) c = a2 at *
  clear e1 e2 e3 hf
  set R : ℝ := W ^ 2 * (Complex.normSq a1 + Complex.normSq a2) - Complex.normSq (ky * a1 - kx * a2) / x with hR
  have e : (star (((((W : ℂ)) ^ 2 - (ky : ℂ) ^ 2 / x) * a1 + (kx : ℂ) * ky / x * a2) / ((W : ℂ) * q)) * a1).re +
      (star (((kx : ℂ) * ky / x * a1 + ((W : ℂ) ^ 2 - (kx : ℂ) ^ 2 / x) * a2) / ((W : ℂ) * q)) * a2).re = R / W * (q⁻¹).re := by
    have c1 : star (((((W : ℂ)) ^ 2 - (ky : ℂ) ^ 2 / x) * a1 + (kx : ℂ) * ky / x * a2) / ((W : ℂ) * q)) * a1 +
        star (((kx : ℂ) * ky / x * a1 + ((W : ℂ) ^ 2 - (kx : ℂ) ^ 2 / x) * a2) / ((W : ℂ) * q)) * a2 =
        ((R / W : ℝ) : ℂ) * star (q⁻¹) := by
      have n : ∀ z : ℂ, ((Complex.normSq z : ℝ) : ℂ) = star z * z := fun z => Complex.normSq_eq_conj_mul_self
      have hc : ∀ x : ℝ, star (x : ℂ) = x := fun x => Complex.conj_ofReal x
      have hW : (W : ℂ) ≠ 0 := by exact_mod_cast hω.ne'
      have hxc : (x : ℂ) ≠ 0 := by exact_mod_cast hx0
      have hsq : star q ≠ 0 := by simpa using hqi
      rw [hR]
      push_cast
      simp only [n, star_div₀, star_add, star_sub, star_mul', star_pow, star_inv₀, hc]
      field_simp
      ring
    have := congrArg Complex.re c1
    rw [Complex.add_re, Complex.re_ofReal_mul, Complex.star_def, Complex.conj_re] at this
    exact this
  rw [e]
  obtain ⟨hq2, him, hre⟩ := hroot
  have i2 := congrArg Complex.im hq2
  have r2 := congrArg Complex.re hq2
  have hcast : (x : ℂ) * (W : ℂ) ^ 2 - (kx : ℂ) ^ 2 - (ky : ℂ) ^ 2 = ((x * W ^ 2 - kx ^ 2 - ky ^ 2 : ℝ) : ℂ) := by push_cast; ring
  rw [hcast] at i2 r2
  rw [Complex.ofReal_im, sq, Complex.mul_im] at i2
  rw [Complex.ofReal_re, sq, Complex.mul_re] at r2
  by_cases h0 : q.im = 0
  · have hre0 := hre h0
    have hpos : 0 < q.re := lt_of_le_of_ne hre0 fun h' => hqi (Complex.ext h'.symm h0)
    have hx : 0 < x := by
      rw [h0] at r2
      have h1 : 0 < x * W ^ 2 := by nlinarith [mul_pos hpos hpos, sq_nonneg kx, sq_nonneg ky]
      exact (pos_iff_pos_of_mul_pos h1).2 (by positivity)
    have hR0 : 0 ≤ R := by
      rw [hR, sub_nonneg, div_le_iff₀ hx]
      have cs : Complex.normSq (ky * a1 - kx * a2) ≤ (kx ^ 2 + ky ^ 2) * (Complex.normSq a1 + Complex.normSq a2) := by
        simp only [Complex.normSq_apply, Complex.sub_re, Complex.sub_im, Complex.re_ofReal_mul, Complex.im_ofReal_mul]
        nlinarith [sq_nonneg (kx * a1.re + ky * a2.re), sq_nonneg (kx * a1.im + ky * a2.im)]
      have hk2 : kx ^ 2 + ky ^ 2 ≤ x * W ^ 2 := by rw [h0] at r2; nlinarith [mul_pos hpos hpos]
      have hn : 0 ≤ Complex.normSq a1 + Complex.normSq a2 := add_nonneg (Complex.normSq_nonneg _) (Complex.normSq_nonneg _)
      calc Complex.normSq (ky * a1 - kx * a2) ≤ (kx ^ 2 + ky ^ 2) * (Complex.normSq a1 + Complex.normSq a2) := cs
        _ ≤ x * W ^ 2 * (Complex.normSq a1 + Complex.normSq a2) := mul_le_mul_of_nonneg_right hk2 hn
        _ = W ^ 2 * (Complex.normSq a1 + Complex.normSq a2) * x := by ring
    refine mul_nonneg (div_nonneg hR0 hω.le) ?_
    rw [Complex.inv_re]
    exact div_nonneg hre0 (Complex.normSq_nonneg _)
  · have hre0 : q.re = 0 := by
      have : q.im * q.re = 0 := by linarith
      exact (mul_eq_zero.1 this).resolve_left h0
    rw [Complex.inv_re, hre0]
    simp

/-- An absorbing pattern with one order at normal incidence, followed by vacuum. -/
theorem example_absorbing_pattern : ∃ (eig : Matrix (Fin 1 ⊕ Fin 1) (Fin 1 ⊕ Fin 1) ℂ → (Fin 1 ⊕ Fin 1 → ℂ) ×
    Matrix (Fin 1 ⊕ Fin 1) (Fin 1 ⊕ Fin 1) ℂ) (r : LayerSolveResult (Fin 1)), IsEig eig ∧
    eigensolveIsotropicMedia eig (2 * Real.pi) (0, 0) unitLattice examplePattern (fun _ : Fin 1 => (0, 0)) .fft = .ok r ∧
    IsUnit r.eigenvectors.det := by
  obtain ⟨eig, he⟩ := exists_isEig (Fin 1 ⊕ Fin 1)
  obtain ⟨r, hr⟩ := patterned_eigensolve_succeeds eig (wavelength := 2 * Real.pi) (0, 0) (l := unitLattice) (ε := examplePattern)
    (G := fun _ : Fin 1 => ((0, 0) : ℤ × ℤ)) (fun _ _ _ => Subsingleton.elim _ _) ⟨⟨0⟩, by simp⟩
    (by have := Real.pi_ne_zero; positivity) (by norm_num [unitLattice])
    (by intro r s; simp [examplePattern]; positivity)
  refine ⟨eig, r, he, ?_, ?_⟩
  · unfold eigensolveIsotropicMedia
    rw [dif_neg (by norm_num)]
    exact hr
  · have h := hr
    unfold eigensolvePatternedIsotropic at h
    obtain ⟨m, hm, h⟩ := bind_eq_ok.1 h
    obtain ⟨e1, e2, e3, e4, e5⟩ := fft_matrices_eq hm
    obtain ⟨hs, f1, f2, f3, f4, f5, -⟩ := numerical_solvedFor he h
    have hk : ∀ i, orderWavevector r i = (0, 0) := by
      intro i
      obtain ⟨k, A, -, -, rfl⟩ := numericalEigensolve_ok_iff.1 h
      simp [orderWavevector, solvedLayer]
    have hω : omega r = 1 := by
      rw [omega, f1]
      exact div_self (by have := Real.pi_ne_zero; positivity)
    refine numerical_eigenvectors_invertible he h (V := 1) (w := fun _ => fourierCoefficient examplePattern (0, 0)) (by simp) ?_
    rw [Matrix.mul_one, Matrix.one_mul]
    unfold magneticToElectric divergenceMatrix
    simp only [hk, hω, f2, f4, e2, e3, e4]
    ext i j
    rcases i with i | i <;> rcases j with j | j <;> fin_cases i <;> fin_cases j <;>
      simp [Matrix.mul_apply, Fintype.sum_sum_type] <;> rfl

/-- Star product of two copies of a stack of two absorbing layers. -/
example : ∃ (r : LayerSolveResult (Fin 1)) (S T : ScatteringMatrix (Fin 1)), AbsorbingLayer r ∧ stackSMatrix [r, r] [1, 2] = .ok S ∧
    redhefferStarProduct S S = .ok T := by
  obtain ⟨eig, r, he, hr, hv⟩ := example_absorbing_pattern
  have hl : (0 : ℝ) < 2 * Real.pi := by have := Real.pi_pos; positivity
  have ha := C81_isotropic_absorbing he hl (fun _ _ _ => Subsingleton.elim _ _) ⟨⟨0⟩, by simp⟩ hr (by intro r s; simp [examplePattern]) hv
  have hall : ∀ p ∈ [r, r].zip [(1 : ℝ), 2], p.1.wavelength = r.wavelength ∧ AbsorbingLayer p.1 ∧ 0 ≤ p.2 := by
    intro p hp
    simp only [List.zip_cons_cons, List.zip_nil_right, List.mem_cons, List.not_mem_nil, or_false] at hp
    rcases hp with rfl | rfl <;> exact ⟨rfl, ha, by norm_num⟩
  obtain ⟨S, -, hS, -⟩ := C81_absorbing_stack (layers := [r, r]) (ds := [1, 2]) (by simp) (by simp) (lam := r.wavelength) (by simp)
    (by simpa using ha) (by simp)
  obtain ⟨-, -, T, hT⟩ := C81_operations (Built.stack hS) (Built.stack hS) (fun p hp => hall p (or_self_iff.1 (List.mem_append.1 hp))) rfl ha zero_le_one
  exact ⟨r, S, T, ha, hS, hT⟩

example : ∃ (r v : LayerSolveResult (Fin 1)), AbsorbingLayer r ∧ OutwardLayer v ∧ v.zPermittivityMatrix = 1 ∧
    ∃ S, stackSMatrix [r, v, r] [1, 2, 3] = .ok S := by
  obtain ⟨eig, r, he, hr, hv⟩ := example_absorbing_pattern
  have hl : (0 : ℝ) < 2 * Real.pi := by have := Real.pi_pos; positivity
  have ha := C81_isotropic_absorbing he hl (fun _ _ _ => Subsingleton.elim _ _) ⟨⟨0⟩, by simp⟩ hr (by intro r s; simp [examplePattern]) hv
  obtain ⟨v, hv⟩ := (C22_uniform_succeeds_iff (2 * Real.pi) (0, 0) unitLattice 1 (fun _ : Fin 1 => (0, 0))).2
    ⟨hl.ne', one_ne_zero, by norm_num [unitLattice]⟩
  have hq : ∀ i, v.eigenvalues i ≠ 0 := by
    obtain ⟨k, w, hk, hw, -, rfl⟩ := eigensolveUniformIsotropic_ok_iff.1 hv
    intro i h0
    have h1 := (selectEigenvaluesSign_forward (1 * (w : ℂ) ^ 2 - ((k (i.elim id id)).1 : ℂ) ^ 2 - ((k (i.elim id id)).2 : ℂ) ^ 2)).1
    have hk0 : ∀ i, k i = (0, 0) := by
      obtain ⟨R, -, h⟩ := bind_eq_ok.1 hk
      rw [ok_inj] at h
      intro i
      rw [← h]
      simp
    simp only at h0
    rw [h0, hk0] at h1
    have := angularFrequency_ne_zero hw
    refine this ?_
    have h2 : (w : ℂ) ^ 2 = 0 := by simpa using h1.symm
    exact_mod_cast pow_eq_zero_iff (two_ne_zero) |>.1 h2
  have ho := C81_uniform_outward hl hv (by simp) hq
  refine ⟨r, v, ha, ho, ?_, ?_⟩
  · obtain ⟨k, w, -, -, -, rfl⟩ := eigensolveUniformIsotropic_ok_iff.1 hv
    simp
  · have w1 : r.wavelength = 2 * Real.pi := by
      have h := hr
      unfold eigensolveIsotropicMedia at h
      rw [dif_neg (by norm_num)] at h
      unfold eigensolvePatternedIsotropic at h
      obtain ⟨m, hm, h⟩ := bind_eq_ok.1 h
      exact (numerical_solvedFor he h).2.1
    have w2 : v.wavelength = 2 * Real.pi := by
      obtain ⟨k, w, -, -, -, rfl⟩ := eigensolveUniformIsotropic_ok_iff.1 hv
      rfl
    obtain ⟨S, hS, -⟩ := C81_absorbing_first (lam := 2 * Real.pi) (l0 := r) (ls := [v, r]) (d0 := 1) (ds := [2, 3]) rfl
      (by simp [w1, w2]) ha (by simpa using ⟨ho, ha.outwardLayer⟩) (by norm_num)
    exact ⟨S, hS⟩

/-! ### Resonances of leading parts -/

/-- The eigenvalue of a uniform layer with one order. -/
theorem uniform_single {ε : ℂ} {r : LayerSolveResult (Fin 1)}
    (h : eigensolveUniformIsotropic (2 * Real.pi) (Real.sqrt 2, 0) unitLattice ε (fun _ : Fin 1 => (0, 0)) = .ok r) :
    omega r = 1 ∧ r.wavelength = 2 * Real.pi ∧ r.eigenvectors = 1 ∧ (∀ i, orderWavevector r i = (Real.sqrt 2, 0)) ∧
      ∀ i, IsForwardRoot (ε - 2) (r.eigenvalues i) := by
  obtain ⟨k, w, hk, hw, -, hr⟩ := eigensolveUniformIsotropic_ok_iff.1 h
  have hpi := Real.pi_ne_zero
  have hk0 : ∀ i, k i = (Real.sqrt 2, 0) := by
    obtain ⟨R, -, h⟩ := bind_eq_ok.1 hk
    rw [ok_inj] at h
    intro i
    rw [← h]
    simp
  have hw1 : w = 1 := by
    rw [(angularFrequency_eq_ok.1 hw).2]
    field_simp
  refine ⟨?_, by rw [hr], by rw [hr], ?_, ?_⟩
  · rw [hr, omega]
    field_simp
  · intro i
    rw [hr]
    simp [orderWavevector]
  · intro i
    have := selectEigenvaluesSign_forward (ε * (w : ℂ) ^ 2 - ((k (i.elim id id)).1 : ℂ) ^ 2 - ((k (i.elim id id)).2 : ℂ) ^ 2)
    rw [hr]
    simp only
    have e : ε * (w : ℂ) ^ 2 - ((k (i.elim id id)).1 : ℂ) ^ 2 - ((k (i.elim id id)).2 : ℂ) ^ 2 = ε - 2 := by
      rw [hk0, hw1]
      have : ((Real.sqrt 2 : ℝ) : ℂ) ^ 2 = 2 := by
        rw [← Complex.ofReal_pow, Real.sq_sqrt (by norm_num)]
        norm_num
      simp [this]
    rw [e] at this ⊢
    exact this

theorem forwardRoot_neg_sq {x : ℝ} (hx : 0 < x) {q : ℂ} (h : IsForwardRoot (-(x : ℂ) ^ 2) q) : q = Complex.I * x := by
  obtain ⟨h1, h2, -⟩ := h
  have h3 : (q - Complex.I * x) * (q + Complex.I * x) = 0 := by
    linear_combination h1 - (x : ℂ) ^ 2 * Complex.I_sq
  rcases mul_eq_zero.1 h3 with h | h
  · exact sub_eq_zero.1 h
  · have := congrArg Complex.im (eq_neg_of_add_eq_zero_left h)
    simp at this
    linarith

/-- **C81 (finding)** Vacuum, a lossless metal film with permittivity -2 of any thickness, vacuum, one order with `kx = √2 ω`: the
scattering problem of the film has exactly one solution for all incoming amplitudes, but `stack_s_matrix` fails, since its first
step is the single interface between vacuum and metal, which supports a surface wave. -/
theorem C81_finding_surface_wave (d1 d d3 : ℝ) (hd : 0 ≤ d) : ∃ v m : LayerSolveResult (Fin 1),
    eigensolveUniformIsotropic (2 * Real.pi) (Real.sqrt 2, 0) unitLattice 1 (fun _ : Fin 1 => (0, 0)) = .ok v ∧
    eigensolveUniformIsotropic (2 * Real.pi) (Real.sqrt 2, 0) unitLattice (-2) (fun _ : Fin 1 => (0, 0)) = .ok m ∧
    NoResonance [(v, d1), (m, d), (v, d3)] ∧ ∀ S, stackSMatrix [v, m, v] [d1, d, d3] ≠ .ok S := by
  have hl : (2 * Real.pi : ℝ) ≠ 0 := by have := Real.pi_pos; positivity
  obtain ⟨v, hv⟩ := (C22_uniform_succeeds_iff (2 * Real.pi) (Real.sqrt 2, 0) unitLattice 1 (fun _ : Fin 1 => (0, 0))).2
    ⟨hl, one_ne_zero, by norm_num [unitLattice]⟩
  obtain ⟨m, hm⟩ := (C22_uniform_succeeds_iff (2 * Real.pi) (Real.sqrt 2, 0) unitLattice (-2) (fun _ : Fin 1 => (0, 0))).2
    ⟨hl, by norm_num, by norm_num [unitLattice]⟩
  refine ⟨v, m, hv, hm, ?_⟩
  obtain ⟨v1, v2, v3, v4, v5⟩ := uniform_single hv
  obtain ⟨m1, m2, m3, m4, m5⟩ := uniform_single hm
  have qv : ∀ i, v.eigenvalues i = Complex.I := by
    intro i
    have := forwardRoot_neg_sq one_pos (q := v.eigenvalues i) (by
      have := v5 i
      norm_num at this ⊢
      exact this)
    simpa using this
  have qm : ∀ i, m.eigenvalues i = Complex.I * 2 := by
    intro i
    have := forwardRoot_neg_sq two_pos (q := m.eigenvalues i) (by
      have := m5 i
      norm_num at this ⊢
      exact this)
    simpa using this
  have hs2 : ((Real.sqrt 2 : ℝ) : ℂ) ^ 2 = 2 := by
    rw [← Complex.ofReal_pow, Real.sq_sqrt (by norm_num)]
    norm_num
  have ev : ∀ a : Matrix (Fin 1 ⊕ Fin 1) Unit ℂ, (electricModes v * a) (.inl 0) () = -Complex.I * a (.inl 0) () ∧
      (electricModes v * a) (.inr 0) () = Complex.I * a (.inr 0) () := by
    intro a
    obtain ⟨h1, h2, -⟩ := uniform_electric hv a 0 ()
    rw [h1, h2, v4, v1, qv]
    simp only [hs2]
    constructor
    · field_simp; push_cast; linear_combination a (.inl 0) () * Complex.I_sq
    · field_simp; push_cast; linear_combination -a (.inr 0) () * Complex.I_sq
  have em : ∀ a : Matrix (Fin 1 ⊕ Fin 1) Unit ℂ, (electricModes m * a) (.inl 0) () = -Complex.I / 2 * a (.inl 0) () ∧
      (electricModes m * a) (.inr 0) () = -Complex.I * a (.inr 0) () := by
    intro a
    obtain ⟨h1, h2, -⟩ := uniform_electric hm a 0 ()
    rw [h1, h2, m4, m1, qm]
    simp only [hs2]
    constructor
    · field_simp; push_cast; linear_combination 2 * a (.inl 0) () * Complex.I_sq
    · field_simp; push_cast; linear_combination 4 * a (.inr 0) () * Complex.I_sq
  have hqv : ∀ i, v.eigenvalues i ≠ 0 := fun i => by rw [qv]; exact Complex.I_ne_zero
  have hqm : ∀ i, m.eigenvalues i ≠ 0 := fun i => by rw [qm]; exact mul_ne_zero Complex.I_ne_zero two_ne_zero
  have cv : CompleteModes v := ⟨by rw [v3]; simp, hqv⟩
  have cm : CompleteModes m := ⟨by rw [m3]; simp, hqm⟩
  have wv := (uniform_solvedFor hv).wellPosed
  have wm := (uniform_solvedFor hm).wellPosed
  refine ⟨?_, ?_⟩
  · intro st first last hg hc hf hl ha hb
    rcases st with _ | ⟨s1, _ | ⟨s2, _ | ⟨s3, _ | ⟨s4, st⟩⟩⟩⟩ <;> simp [geometry] at hg
    obtain ⟨⟨l1, t1⟩, ⟨l2, t2⟩, l3, t3⟩ := hg
    simp only [List.head?_cons, Option.some.injEq] at hf
    simp only [List.getLast?_cons_cons, List.getLast?_singleton, Option.some.injEq] at hl
    subst hf
    subst hl
    rw [Consistent, List.isChain_cons_cons, List.isChain_cons_cons] at hc
    obtain ⟨⟨E1, H1, p1, p2⟩, ⟨E2, H2, p3, p4⟩, -⟩ := hc
    obtain ⟨-, -, a1, b1⟩ := fieldsAt_eq.1 p1
    obtain ⟨-, -, a2, b2⟩ := fieldsAt_eq.1 p2
    obtain ⟨-, -, a3, b3⟩ := fieldsAt_eq.1 p3
    obtain ⟨-, -, a4, b4⟩ := fieldsAt_eq.1 p4
    have eA := a1.symm.trans a2
    have hA := b1.symm.trans b2
    have eB := a3.symm.trans a4
    have hB := b3.symm.trans b4
    clear a1 b1 a2 b2 a3 b3 a4 b4 p1 p2 p3 p4
    unfold electricAt at eA eB
    unfold magneticAt at hA hB
    rw [l1, l2, t1, t2, ha] at eA hA
    rw [l2, l3, t2, t3, hb] at eB hB
    simp only [Matrix.mul_zero, sub_self, sub_zero, propagator_zero, Matrix.one_mul, zero_sub, zero_add, add_zero, v3, m3]
      at eA hA eB hB
    have P : ∀ (x : Matrix (Fin 1 ⊕ Fin 1) Unit ℂ) i, (propagator m d * x) i () = ((Real.exp (-2 * d) : ℝ) : ℂ) * x i () := by
      intro x i
      rw [propagator_apply, qm]
      congr 1
      rw [Complex.ofReal_exp]
      congr 1
      push_cast
      linear_combination (2 * d : ℂ) * Complex.I_sq
    have hP1 : Real.exp (-2 * d) ≤ 1 := Real.exp_le_one_iff.2 (by linarith)
    have hP0 : 0 < Real.exp (-2 * d) := Real.exp_pos _
    generalize Real.exp (-2 * d) = x at *
    have hx0 : (x : ℂ) ≠ 0 := by exact_mod_cast hP0.ne'
    have hx9 : (9 - x ^ 2 : ℂ) ≠ 0 := by
      have : (9 - x ^ 2 : ℝ) ≠ 0 := by nlinarith
      exact_mod_cast this
    -- magnetic fields
    have k1 := fun i => congrFun (congrFun hA i) ()
    have k2 := fun i => congrFun (congrFun hB i) ()
    simp only [Matrix.add_apply, P] at k1 k2
    -- electric fields
    have g1 := congrFun (congrFun eA (.inl 0)) ()
    have g2 := congrFun (congrFun eA (.inr 0)) ()
    have g3 := congrFun (congrFun eB (.inl 0)) ()
    have g4 := congrFun (congrFun eB (.inr 0)) ()
    rw [(ev _).1, (em _).1] at g1
    rw [(ev _).2, (em _).2] at g2
    rw [(ev _).1, (em _).1] at g3
    rw [(ev _).2, (em _).2] at g4
    simp only [Matrix.sub_apply, Matrix.neg_apply, P] at g1 g2 g3 g4
    have hI := Complex.I_ne_zero
    have cancel : ∀ {u w : ℂ}, Complex.I * u = Complex.I * w → u = w := fun h => mul_left_cancel₀ hI h
    have f1 : s1.b (.inl 0) () = -(s2.a (.inl 0) () - x * s2.b (.inl 0) ()) / 2 := cancel (by linear_combination g1)
    have f2 : s1.b (.inr 0) () = s2.a (.inr 0) () - x * s2.b (.inr 0) () := cancel (by linear_combination -g2)
    have f3 : s3.a (.inl 0) () = (x * s2.a (.inl 0) () - s2.b (.inl 0) ()) / 2 := cancel (by linear_combination g3)
    have f4 : s3.a (.inr 0) () = -(x * s2.a (.inr 0) () - s2.b (.inr 0) ()) := cancel (by linear_combination -g4)
    have j1 := k1 (.inl 0)
    have j2 := k1 (.inr 0)
    have j3 := k2 (.inl 0)
    have j4 := k2 (.inr 0)
    have b2r : s2.b (.inr 0) () = 0 := by
      have : (x : ℂ) * s2.b (.inr 0) () = 0 := by linear_combination (1 / 2) * f2 - (1 / 2) * j2
      exact (mul_eq_zero.1 this).resolve_left hx0
    have a2r : s2.a (.inr 0) () = 0 := by
      have : (x : ℂ) * s2.a (.inr 0) () = 0 := by linear_combination (1 / 2) * j4 + (1 / 2) * f4
      exact (mul_eq_zero.1 this).resolve_left hx0
    have r1 : 3 * s2.a (.inl 0) () + x * s2.b (.inl 0) () = 0 := by linear_combination 2 * f1 - 2 * j1
    have r2 : x * s2.a (.inl 0) () + 3 * s2.b (.inl 0) () = 0 := by linear_combination 2 * j3 + 2 * f3
    have a2l : s2.a (.inl 0) () = 0 := by
      have : (9 - x ^ 2 : ℂ) * s2.a (.inl 0) () = 0 := by linear_combination 3 * r1 - (x : ℂ) * r2
      exact (mul_eq_zero.1 this).resolve_left hx9
    have b2l : s2.b (.inl 0) () = 0 := by
      rw [a2l] at r2
      simpa using r2
    rw [a2l, b2l] at f1 f3
    rw [a2r, b2r] at f2 f4
    have all : ∀ y : Matrix (Fin 1 ⊕ Fin 1) Unit ℂ, y (.inl 0) () = 0 → y (.inr 0) () = 0 → y = 0 := by
      intro y h1 h2
      ext i c
      rcases i with i | i <;> fin_cases i
      · exact h1
      · exact h2
    intro s hs
    simp only [List.mem_cons, List.not_mem_nil, or_false] at hs
    rcases hs with rfl | rfl | rfl
    · exact ⟨ha, all _ (by simpa using f1) (by simpa using f2)⟩
    · exact ⟨all _ a2l a2r, all _ b2l b2r⟩
    · exact ⟨all _ (by simpa using f3) (by simpa using f4), hb⟩
  · intro S hS
    have hsucc := (C81_succeeds_iff (lam := 2 * Real.pi) (layers := [v, m, v]) (ds := [d1, d, d3]) (by simp) rfl
      (by
        intro l hl
        simp only [List.mem_cons, List.not_mem_nil, or_false] at hl
        rcases hl with rfl | rfl | rfl
        · exact ⟨v2, hqv⟩
        · exact ⟨m2, hqm⟩
        · exact ⟨v2, hqv⟩)
      (by
        have h1 : WellPosed v ∧ IsUnit (magneticToElectric v * v.eigenvectors).det :=
          ⟨wv, by rw [Matrix.det_mul]; exact (electricModes_isUnit (uniform_solvedFor hv) cv).1.mul cv.1⟩
        have h2 : WellPosed m ∧ IsUnit (magneticToElectric m * m.eigenvectors).det :=
          ⟨wm, by rw [Matrix.det_mul]; exact (electricModes_isUnit (uniform_solvedFor hm) cm).1.mul cm.1⟩
        intro l hl
        simp only [List.mem_cons, List.not_mem_nil, or_false] at hl
        rcases hl with rfl | rfl | rfl
        · exact h1
        · exact h2
        · exact h1)).1 ⟨S, hS⟩ 1 (by simp)
    let x : Matrix (Fin 1 ⊕ Fin 1) Unit ℂ := Matrix.of fun i _ => Sum.elim (fun _ => 0) (fun _ => 1) i
    have := hsucc [⟨v, d1, 0, x⟩, ⟨m, d, x, 0⟩] _ _ rfl (by
      rw [Consistent, List.isChain_cons_cons]
      refine ⟨⟨_, _, fieldsAt_eq.2 ⟨wv, hqv, rfl, rfl⟩, fieldsAt_eq.2 ⟨wm, hqm, ?_, ?_⟩⟩, List.isChain_singleton _⟩
      · unfold electricAt
        simp only [Matrix.mul_zero, sub_self, sub_zero, propagator_zero, Matrix.one_mul, zero_sub]
        ext i c
        rcases i with i | i <;> fin_cases i
        · refine (ev _).1.trans (Eq.trans ?_ (em _).1.symm)
          simp [x]
        · refine (ev _).2.trans (Eq.trans ?_ (em _).2.symm)
          simp [x]
      · unfold magneticAt
        simp [v3, m3]) rfl rfl rfl rfl ⟨m, d, x, 0⟩ (by simp)
    have h0 := congrFun (congrFun this.1 (.inr 0)) ()
    simp [x] at h0

end Fmmax
