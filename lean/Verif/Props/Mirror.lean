import Verif.Proofs.Mirror
import Verif.Props.Coordinates3d
import Verif.Props.Radiation

/-! Property theorems C112: stacks turned upside down.

`mirrored` is from `Verif/Spec/Mirror.lean`; `NoResonance` from `Verif/Spec/Radiation.lean`; `Regular` (layers at one wavelength
without vanishing eigenvalues) from `Verif/Spec/SMatrix.lean`. -/

set_option linter.unusedSectionVars false

namespace Fmmax

open Spec Matrix

variable {ι : Type} [Fintype ι] [DecidableEq ι] {β κ : Type}

/-! ### Scattering matrices -/

/-- **C112** The scattering matrices of a stack and of the reversed stack, when both are finite: transmission and reflection from
the two sides are exchanged. -/
theorem C112_reversed_stack {lam : ℝ} {layers : List (LayerSolveResult ι)} {ds : List ℝ} {S R : ScatteringMatrix ι}
    (hr : ∀ l ∈ layers, l.wavelength = lam ∧ ∀ i, l.eigenvalues i ≠ 0) (hS : stackSMatrix layers ds = .ok S)
    (hR : stackSMatrix layers.reverse ds.reverse = .ok R) :
    R.s11 = S.s22 ∧ R.s12 = S.s21 ∧ R.s21 = S.s12 ∧ R.s22 = S.s11 := by
  have hreg : Regular lam (layers.zip ds) := fun p hp => hr _ (List.of_mem_zip hp).1
  obtain ⟨ss, hss, -⟩ := stackSMatrix_eq_ok hS
  obtain ⟨hlen, -⟩ := stackSMatrices_length hss
  have h1 := isSMatrix_reverse (stackSMatrix_spec hreg hS)
  have h2 := stackSMatrix_spec (by rw [zip_reverse hlen]; exact regular_reverse hreg) hR
  rw [zip_reverse hlen] at h2
  have := h2.eq h1
  rw [this]
  exact ⟨rfl, rfl, rfl, rfl⟩

example : ∃ S R, stackSMatrix [Examples.exLayer 1, Examples.exLayer 2] [Real.pi, Real.pi] = .ok S ∧
    stackSMatrix [Examples.exLayer 2, Examples.exLayer 1] [Real.pi, Real.pi] = .ok R ∧ R.s11 = S.s22 ∧ R.s21 = S.s12 := by
  have h2 := Examples.exLayer_append (S := identitySMatrix (Examples.exLayer 2) Real.pi) (p := 2) (q := 1) (s11 := 1)
    (s12 := 0) (s21 := 0) (s22 := 1) (t11 := 2 / 3) (t12 := -1 / 3) (t21 := -1 / 3) (t22 := -4 / 3) (x := 1) (y := -1)
    two_ne_zero one_ne_zero rfl rfl
    (by simp [identitySMatrix]) (by simp [identitySMatrix]) (by simp [identitySMatrix]) (by simp [identitySMatrix])
    Examples.exp_pi_two Examples.exp_pi_one (by norm_num) (by norm_num) (by norm_num) (by norm_num) (by norm_num)
  obtain ⟨R, hR⟩ : ∃ R, stackSMatrix [Examples.exLayer 2, Examples.exLayer 1] [Real.pi, Real.pi] = .ok R := by
    rw [stackSMatrix_cons _ _ _ _ rfl]
    simp only [List.zip_cons_cons, List.zip_nil_left, scanLoop_singleton]
    exact ⟨_, h2⟩
  have := C112_reversed_stack (lam := 2 * Real.pi) (layers := [Examples.exLayer 1, Examples.exLayer 2]) (ds := [Real.pi, Real.pi])
    (by
      simp only [List.forall_mem_cons, List.not_mem_nil, false_implies, implies_true, and_true]
      exact ⟨⟨rfl, fun _ => one_ne_zero⟩, rfl, fun _ => two_ne_zero⟩) Examples.exStack2 hR
  exact ⟨_, R, Examples.exStack2, hR, this.1, this.2.2.1⟩

/-- **C112** A stack which reads the same from both sides reflects and transmits equally from both sides. -/
theorem C112_palindrome {lam : ℝ} {layers : List (LayerSolveResult ι)} {ds : List ℝ} {S : ScatteringMatrix ι}
    (hr : ∀ l ∈ layers, l.wavelength = lam ∧ ∀ i, l.eigenvalues i ≠ 0) (hl : layers.reverse = layers) (hd : ds.reverse = ds)
    (hS : stackSMatrix layers ds = .ok S) : S.s11 = S.s22 ∧ S.s12 = S.s21 := by
  obtain ⟨h1, h2, -⟩ := C112_reversed_stack hr hS (by rw [hl, hd]; exact hS)
  exact ⟨h1, h2⟩

example : ∃ S, stackSMatrix [Examples.exLayer 1, Examples.exLayer 2, Examples.exLayer 1] [Real.pi, Real.pi, Real.pi] = .ok S ∧
    S.s11 = S.s22 ∧ S.s12 = S.s21 := by
  refine ⟨_, Examples.exStack3, C112_palindrome (lam := 2 * Real.pi) ?_ rfl rfl Examples.exStack3⟩
  intro l hl
  have : l = Examples.exLayer 1 ∨ l = Examples.exLayer 2 := by
    simp only [List.mem_cons, List.not_mem_nil, or_false] at hl
    tauto
  rcases this with rfl | rfl
  · exact ⟨rfl, fun _ => one_ne_zero⟩
  · exact ⟨rfl, fun _ => two_ne_zero⟩

/-- **C112** `stack_s_matrices_interior` of the reversed stack succeeds if and only if it succeeds for the stack, and returns the
pairs in reversed order, exchanged and each seen from the other side. -/
theorem C112_interior {layers : List (LayerSolveResult ι)} {ds : List ℝ} {ps : List (ScatteringMatrix ι × ScatteringMatrix ι)} :
    stackSMatricesInterior layers ds = .ok ps ↔
      stackSMatricesInterior layers.reverse ds.reverse = .ok (ps.map fun p => (p.2.reverse, p.1.reverse)).reverse := by
  refine ⟨stackSMatricesInterior_reverse, fun h => ?_⟩
  have := stackSMatricesInterior_reverse h
  rw [List.reverse_reverse, List.reverse_reverse, List.map_reverse, List.reverse_reverse, List.map_map] at this
  rw [this]
  congr 1
  conv_rhs => rw [← List.map_id ps]
  rfl

/-- **C112 (finding)** Whether `stack_s_matrix` is finite depends on the direction in which a stack is traversed: absorbing glass,
vacuum, metal with permittivity -2, one order with `kx = √2 ω`, all thicknesses; the reversed stack starts with the interface between
metal and vacuum, which supports a surface wave. -/
theorem C112_finding_direction (d0 d1 d2 : ℝ) (h0 : 0 ≤ d0) (h1 : 0 ≤ d1) (h2 : 0 ≤ d2) :
    ∃ g v m : LayerSolveResult (Fin 1),
      eigensolveUniformIsotropic (2 * Real.pi) (Real.sqrt 2, 0) unitLattice (2 + Complex.I) (fun _ : Fin 1 => (0, 0)) = .ok g ∧
      eigensolveUniformIsotropic (2 * Real.pi) (Real.sqrt 2, 0) unitLattice 1 (fun _ : Fin 1 => (0, 0)) = .ok v ∧
      eigensolveUniformIsotropic (2 * Real.pi) (Real.sqrt 2, 0) unitLattice (-2) (fun _ : Fin 1 => (0, 0)) = .ok m ∧
      (∃ S, stackSMatrix [g, v, m] [d0, d1, d2] = .ok S) ∧ ∀ S, stackSMatrix [m, v, g] [d2, d1, d0] ≠ .ok S := by
  have hl : (0 : ℝ) < 2 * Real.pi := by have := Real.pi_pos; positivity
  obtain ⟨g, hg⟩ := (C22_uniform_succeeds_iff (2 * Real.pi) (Real.sqrt 2, 0) unitLattice (2 + Complex.I) (fun _ : Fin 1 => (0, 0))).2
    ⟨hl.ne', fun h => by simpa using congrArg Complex.im h, by norm_num [unitLattice]⟩
  obtain ⟨v, m, hv, hm, hn, hf⟩ := C81_finding_surface_wave d1 d2 d1 h2
  have ha : AbsorbingLayer g := C81_uniform_absorbing hl hg (by simp)
  have hqv : ∀ i, v.eigenvalues i ≠ 0 := fun i h => by
    have := (uniform_single hv).2.2.2.2 i
    rw [h] at this
    have := this.1
    norm_num at this
  have hqm : ∀ i, m.eigenvalues i ≠ 0 := fun i h => by
    have := (uniform_single hm).2.2.2.2 i
    rw [h] at this
    have := this.1
    norm_num at this
  have ov : OutwardLayer v := C81_uniform_outward hl hv (by simp) hqv
  have om : OutwardLayer m := C81_uniform_outward hl hm (by simp) hqm
  have wl : ∀ {x : LayerSolveResult (Fin 1)} {ε : ℂ},
      eigensolveUniformIsotropic (2 * Real.pi) (Real.sqrt 2, 0) unitLattice ε (fun _ : Fin 1 => (0, 0)) = .ok x →
      x.wavelength = 2 * Real.pi := by
    intro x ε h
    obtain ⟨k, w, -, -, -, hr⟩ := eigensolveUniformIsotropic_ok_iff.1 h
    rw [hr]
  have og : OutwardLayer g := ha.outwardLayer
  have reg : ∀ {x : LayerSolveResult (Fin 1)}, OutwardLayer x → WellPosed x ∧ IsUnit (magneticToElectric x * x.eigenvectors).det := by
    intro x hx
    obtain ⟨-, E, hs, -⟩ := hx.passive
    refine ⟨hs.wellPosed, ?_⟩
    rw [Matrix.det_mul]
    exact (electricModes_isUnit hs hx.modes).1.mul hx.modes.1
  refine ⟨g, v, m, hg, hv, hm, ?_, ?_⟩
  · obtain ⟨S, hS, -⟩ := C81_absorbing_first (lam := 2 * Real.pi) (l0 := g) (ls := [v, m]) (d0 := d0) (ds := [d1, d2]) rfl
      (by simp [wl hg, wl hv, wl hm]) ha (by simpa using ⟨ov, om⟩) (by simpa using ⟨h0, h1, h2⟩)
    exact ⟨S, hS⟩
  · intro S hS
    have hR := (C81_succeeds_iff (lam := 2 * Real.pi) (layers := [m, v, g]) (ds := [d2, d1, d0]) (by simp) rfl
      (by
        simp only [List.forall_mem_cons, List.not_mem_nil, false_implies, implies_true, and_true]
        exact ⟨⟨wl hm, hqm⟩, ⟨wl hv, hqv⟩, wl hg, og.modes.2⟩)
      (by
        simp only [List.forall_mem_cons, List.not_mem_nil, false_implies, implies_true, and_true]
        exact ⟨reg om, reg ov, reg og⟩)).1 ⟨S, hS⟩ 1 (by simp)
    have hR' : NoResonance [(v, d1), (m, d2)] := noResonance_reverse hR
    obtain ⟨S', hS'⟩ := (C81_succeeds_iff (lam := 2 * Real.pi) (layers := [v, m, v]) (ds := [d1, d2, d1]) (by simp) rfl
      (by
        simp only [List.forall_mem_cons, List.not_mem_nil, false_implies, implies_true, and_true]
        exact ⟨⟨wl hv, hqv⟩, ⟨wl hm, hqm⟩, wl hv, hqv⟩)
      (by
        simp only [List.forall_mem_cons, List.not_mem_nil, false_implies, implies_true, and_true]
        exact ⟨reg ov, reg om, reg ov⟩)).2 (by
        intro n hn3
        have : n = 0 ∨ n = 1 ∨ n = 2 := by
          simp at hn3
          omega
        rcases this with rfl | rfl | rfl
        · exact noResonance_single (v, d1)
        · exact hR'
        · exact hn)
    exact hf S' hS'

/-! ### Amplitudes -/

/-- **C112** The amplitudes inside the reversed stack, for the exchanged incoming amplitudes: the layers in reversed order, with
forward and backward amplitudes exchanged. -/
theorem C112_amplitudes {lam : ℝ} {layers : List (LayerSolveResult ι)} {ds : List ℝ}
    {ps : List (ScatteringMatrix ι × ScatteringMatrix ι)} (hr : ∀ l ∈ layers, l.wavelength = lam ∧ ∀ i, l.eigenvalues i ≠ 0)
    (h : stackSMatricesInterior layers ds = .ok ps) (a0 bN : Matrix (ι ⊕ ι) β ℂ) :
    ∃ ps' xs, stackSMatricesInterior layers.reverse ds.reverse = .ok ps' ∧ stackAmplitudesInterior a0 bN ps = .ok xs ∧
      stackAmplitudesInterior bN a0 ps' = .ok (xs.map Prod.swap).reverse := by
  have hreg : Regular lam (layers.zip ds) := fun p hp => hr _ (List.of_mem_zip hp).1
  obtain ⟨st, -, -, -, -, -, -, -, -, hx⟩ := C40_interior_amplitudes hreg h a0 bN
  refine ⟨_, _, stackSMatricesInterior_reverse h, hx, ?_⟩
  have hlen : layers.length = ds.length := by
    unfold stackSMatricesInterior at h
    obtain ⟨before, hb, -⟩ := bind_eq_ok.1 h
    exact (stackSMatrices_length hb).1
  exact amplitudes_reverse hlen hreg h (stackSMatricesInterior_reverse h) hx

/-! ### Fields -/

/-- **C112** Exchanging forward and backward amplitudes mirrors the fields. -/
theorem C112_fields_mirrored {a b : Matrix (ι ⊕ ι) β ℂ} {l : LayerSolveResult ι} {F : Fields (Matrix ι β ℂ)}
    (h : fieldsFromWaveAmplitudes a b l = .ok F) : fieldsFromWaveAmplitudes b a l = .ok (mirrored F) := by
  obtain ⟨hw, hq, rfl⟩ := fieldsFromWaveAmplitudes_eq_ok.1 h
  refine fieldsFromWaveAmplitudes_eq_ok.2 ⟨hw, hq, ?_⟩
  have key := fun c => fieldsOf_mirrored l (c := c) (c' := c) (e := electricModes l * (a - b)) (h := l.eigenvectors * (a + b))
    (e' := electricModes l * (b - a)) (h' := l.eigenvectors * (b + a))
    (mul_col_neg fun j => by simp) (mul_col fun j => by simp [add_comm])
  have k2 : ∀ (f : Fields (ι → ℂ) → ι → ℂ) (i : ι) (c : β), _ := fun f i c => congrFun (congrArg f (key c)) i
  symm
  unfold mirrored at k2 ⊢
  cases hF : fieldsOf l (electricModes l * (b - a)) (l.eigenvectors * (b + a)) with
  | mk ex ey ez hx hy hz =>
    rw [hF] at k2
    rw [Fields.mk.injEq]
    refine ⟨?_, ?_, ?_, ?_, ?_, ?_⟩ <;> ext i c
    · exact k2 Fields.ex i c
    · exact k2 Fields.ey i c
    · exact k2 Fields.ez i c
    · exact k2 Fields.hx i c
    · exact k2 Fields.hy i c
    · exact k2 Fields.hz i c

/-- **C112** Exchanging forward and backward amplitudes exchanges forward and backward power, with the sign reversed, for both
definitions of directional power. -/
theorem C112_fluxes {a b : Matrix (ι ⊕ ι) β ℂ} {l : LayerSolveResult ι} {sf sb : Matrix (ι ⊕ ι) β ℝ} :
    (amplitudePoyntingFlux a b l = .ok (sf, sb) → amplitudePoyntingFlux b a l = .ok (-sb, -sf)) ∧
      (directionalPoyntingFlux a b l = .ok (sf, sb) → directionalPoyntingFlux b a l = .ok (-sb, -sf)) := by
  refine ⟨fun h => (C41_amplitude_split h).2.2, fun h => ?_⟩
  unfold directionalPoyntingFlux at h ⊢
  obtain ⟨flux, h1, h⟩ := bind_eq_ok.1 h
  obtain ⟨A, h2, h⟩ := bind_eq_ok.1 h
  cases h
  refine bind_eq_ok.2 ⟨flux, h1, bind_eq_ok.2 ⟨A, h2, ?_⟩⟩
  have key : ∀ x y : Matrix (ι ⊕ ι) β ℂ, poyntingFluxSubset A l.eigenvectors b a x y = -poyntingFluxSubset A l.eigenvectors a b y x := by
    intro x y
    unfold poyntingFluxSubset
    ext i c
    have e1 : b - a = -(a - b) := by abel
    have e2 : x - y = -(y - x) := by abel
    rw [e1, e2, add_comm b a, add_comm x y, Matrix.mul_neg, Matrix.mul_neg]
    simp only [Matrix.of_apply, Matrix.neg_apply, star_neg]
    ring
  rw [key, key]
  rfl

/-- **C112** `stack_fields_3d_on_coordinates` of the reversed stack: mirrored fields, at the mirrored z coordinates. -/
theorem C112_fields_3d_coordinates {n : ℕ} {amps : List (Matrix (ι ⊕ ι) (Fin n) ℂ × Matrix (ι ⊕ ι) (Fin n) ℂ)}
    {layers : List (LayerSolveResult ι)} {ds : List ℝ} {znum : List ℕ} {xy : κ → ℝ × ℝ} {gs zs xy'}
    (h : stackFields3dOnCoordinates amps layers ds znum xy = .ok (gs, zs, xy')) (hn : ∀ m ∈ znum, m ≠ 1) :
    stackFields3dOnCoordinates (amps.map Prod.swap).reverse layers.reverse ds.reverse znum.reverse xy =
      .ok ((gs.map mirrored).reverse, (zs.map fun z => ds.sum - z).reverse, xy') := by
  obtain ⟨⟨l, -, rfl⟩, l', -, h'⟩ := stackFields3d_reverse (coordinateSlice_planeWaves xy) (fun _ _ => trivial) hn h
  exact h'

/-- **C112** `stack_fields_3d_on_grid` of the reversed stack: mirrored fields, at the mirrored z coordinates and the same points of
the plane, for layers with one lattice. -/
theorem C112_fields_3d_grid {n : ℕ} {amps : List (Matrix (ι ⊕ ι) (Fin n) ℂ × Matrix (ι ⊕ ι) (Fin n) ℂ)}
    {layers : List (LayerSolveResult ι)} {ds : List ℝ} {znum : List ℕ} {shape cells : ℕ × ℕ} {lv : LatticeVectors}
    (hG : ∀ l ∈ layers, Function.Injective l.expansion) (hl : ∀ l ∈ layers, l.primitiveLatticeVectors = lv) {gs zs xy}
    (h : stackFields3dOnGrid amps layers ds znum shape cells = .ok (gs, zs, xy)) (hn : ∀ m ∈ znum, m ≠ 1) :
    stackFields3dOnGrid (amps.map Prod.swap).reverse layers.reverse ds.reverse znum.reverse shape cells =
      .ok ((gs.map mirrored).reverse, (zs.map fun z => ds.sum - z).reverse, xy) := by
  obtain ⟨⟨l, e1, rfl⟩, l', e2, h'⟩ := stackFields3d_reverse (gridSlice_planeWaves shape cells) hG hn h
  have : gridPoints shape cells l' = gridPoints shape cells l := by
    funext p
    unfold gridPoints
    rw [hl l' (List.mem_of_head? e2), hl l (List.mem_of_getLast? e1)]
  rw [← this]
  exact h'

/-- **C112 (finding)** The restriction on the number of gridpoints is needed: a layer sampled at a single point is sampled at its
start in both directions, so that the two calculations sample different planes of a layer with thickness. -/
theorem C112_finding_single_gridpoint {n : ℕ} {a b : Matrix (ι ⊕ ι) (Fin n) ℂ} {l : LayerSolveResult ι} {d : ℝ} (hd : d ≠ 0)
    {xy : κ → ℝ × ℝ} {gs zs xy' gs' zs' xy''} (h : stackFields3dOnCoordinates [(a, b)] [l] [d] [1] xy = .ok (gs, zs, xy'))
    (h' : stackFields3dOnCoordinates [(b, a)] [l] [d] [1] xy = .ok (gs', zs', xy'')) :
    zs = [0] ∧ zs' = [0] ∧ zs' ≠ (zs.map fun z => d - z).reverse := by
  have key : ∀ {a b : Matrix (ι ⊕ ι) (Fin n) ℂ} {gs zs xy'},
      stackFields3dOnCoordinates [(a, b)] [l] [d] [1] xy = .ok (gs, zs, xy') → zs = [0] := by
    intro a b gs zs xy' h
    obtain ⟨e1, -, -, e2, -⟩ := C45_z_coordinates h
    have := e2 0 (by simp) (by simp)
    obtain ⟨z, rfl⟩ := List.length_eq_one_iff.1 e1
    simpa using this
  rw [key h, key h']
  exact ⟨rfl, rfl, by simpa using hd.symm⟩

/-- **C112** The whole calculation for the reversed stack: interior scattering matrices, amplitudes for the exchanged incoming
amplitudes and fields. -/
theorem C112_calculation {n : ℕ} {lam : ℝ} {layers : List (LayerSolveResult ι)} {ds : List ℝ} {znum : List ℕ}
    {ps : List (ScatteringMatrix ι × ScatteringMatrix ι)} (hr : ∀ l ∈ layers, l.wavelength = lam ∧ ∀ i, l.eigenvalues i ≠ 0)
    {a0 bN : Matrix (ι ⊕ ι) (Fin n) ℂ} {xs} {xy : κ → ℝ × ℝ} {gs zs xy'} (h : stackSMatricesInterior layers ds = .ok ps)
    (hx : stackAmplitudesInterior a0 bN ps = .ok xs) (hf : stackFields3dOnCoordinates xs layers ds znum xy = .ok (gs, zs, xy'))
    (hn : ∀ m ∈ znum, m ≠ 1) :
    ∃ ps' xs', stackSMatricesInterior layers.reverse ds.reverse = .ok ps' ∧ stackAmplitudesInterior bN a0 ps' = .ok xs' ∧
      stackFields3dOnCoordinates xs' layers.reverse ds.reverse znum.reverse xy =
        .ok ((gs.map mirrored).reverse, (zs.map fun z => ds.sum - z).reverse, xy') := by
  obtain ⟨ps', xs0, h1, h2, h3⟩ := C112_amplitudes hr h a0 bN
  rw [hx] at h2
  cases h2
  exact ⟨ps', _, h1, h3, C112_fields_3d_coordinates hf hn⟩

/-- A slab in air illuminated from both sides, sampled with 2, 3 and 2 planes. -/
example (a0 bN : Matrix (Fin 1 ⊕ Fin 1) (Fin 2) ℂ) (xy : Fin 4 → ℝ × ℝ) : ∃ ps xs gs zs,
    stackSMatricesInterior [Examples.exLayer 1, Examples.exLayer 2, Examples.exLayer 1] [Real.pi, Real.pi, Real.pi] = .ok ps ∧
    stackAmplitudesInterior a0 bN ps = .ok xs ∧
    stackFields3dOnCoordinates xs [Examples.exLayer 1, Examples.exLayer 2, Examples.exLayer 1] [Real.pi, Real.pi, Real.pi] [2, 3, 2]
      xy = .ok (gs, zs, xy) ∧
    ∃ ps' xs', stackSMatricesInterior [Examples.exLayer 1, Examples.exLayer 2, Examples.exLayer 1] [Real.pi, Real.pi, Real.pi] = .ok ps' ∧
      stackAmplitudesInterior bN a0 ps' = .ok xs' ∧
      stackFields3dOnCoordinates xs' [Examples.exLayer 1, Examples.exLayer 2, Examples.exLayer 1] [Real.pi, Real.pi, Real.pi] [2, 3, 2]
        xy = .ok ((gs.map mirrored).reverse, (zs.map fun z => ([Real.pi, Real.pi, Real.pi] : List ℝ).sum - z).reverse, xy) := by
  obtain ⟨ps, h⟩ := exInterior
  obtain ⟨st, -, -, hg, -, -, -, -, -, hx⟩ := C40_interior_amplitudes exInterior_regular h a0 bN
  have hlen : st.length = 3 := by
    have := congrArg List.length hg
    simpa [geometry] using this
  have hf : ∃ R, stackFields3dOnCoordinates (st.map fun s => (s.a, s.b)) [Examples.exLayer 1, Examples.exLayer 2, Examples.exLayer 1]
      [Real.pi, Real.pi, Real.pi] [2, 3, 2] xy = .ok R := by
    refine (C45_succeeds_iff _ _ _ _ _).2 ⟨by simp [hlen], by simp [hlen], by simp [hlen], by simp [hlen], fun r hr => ?_⟩
    refine (C46_layer_coordinates_succeeds_iff _ _ _ _ _ _).2 ?_
    have z3 := (zipRequests_spec (abs := st.map fun s => (s.a, s.b)) (ls := [Examples.exLayer 1, Examples.exLayer 2, Examples.exLayer 1])
      (ds := [Real.pi, Real.pi, Real.pi]) (zs := [2, 3, 2]) (by simp [hlen]) (by simp [hlen]) (by simp [hlen])).2.2.1
    have hm : r.layer ∈ [Examples.exLayer 1, Examples.exLayer 2, Examples.exLayer 1] := by
      rw [← z3]
      exact List.mem_map_of_mem hr
    have : r.layer = Examples.exLayer 1 ∨ r.layer = Examples.exLayer 2 := by
      simp only [List.mem_cons, List.not_mem_nil, or_false] at hm
      tauto
    rcases this with e | e <;> rw [e]
    · exact ⟨Examples.exLayer_wellPosed one_ne_zero, fun _ => one_ne_zero⟩
    · exact ⟨Examples.exLayer_wellPosed two_ne_zero, fun _ => two_ne_zero⟩
  obtain ⟨⟨gs, zs, xy'⟩, hf⟩ := hf
  obtain ⟨⟨l, -, rfl⟩, -⟩ := stackFields3d_reverse (coordinateSlice_planeWaves xy) (fun _ _ => trivial) (by simp) hf
  refine ⟨ps, _, gs, zs, h, hx, hf, C112_calculation (lam := 2 * Real.pi) ?_ h hx hf (by simp)⟩
  intro l hl
  have : l = Examples.exLayer 1 ∨ l = Examples.exLayer 2 := by
    simp only [List.mem_cons, List.not_mem_nil, or_false] at hl
    tauto
  rcases this with rfl | rfl
  · exact ⟨rfl, fun _ => one_ne_zero⟩
  · exact ⟨rfl, fun _ => two_ne_zero⟩

end Fmmax
