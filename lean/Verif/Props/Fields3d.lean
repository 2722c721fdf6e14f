import Verif.Proofs.Plane
import Verif.Props.Fields

/-! Property theorems C44 – C46: fields on xy grids, at coordinates, and in three dimensions.

`planeWaveSum`, `latticePoint` are from `Verif/Spec/Plane.lean`; `Resolves` from `Verif/Spec/Fourier.lean`;
`orderWavevector`, `cellArea`, `Consistent` from `Verif/Spec/Stack.lean`. -/

set_option linter.unusedSectionVars false

namespace Fmmax

open Spec Matrix

variable {ι : Type} [Fintype ι] [DecidableEq ι] {β κ : Type}

/-! ### C44 -/

/-- **C44** `fields_on_coordinates` returns the sum of plane waves of all orders, for every component. -/
theorem C44_on_coordinates (F : Fields (Matrix ι β ℂ)) {l : LayerSolveResult ι} (h : cellArea l ≠ 0) (xy : κ → ℝ × ℝ) :
    fieldsOnCoordinates F l xy = .ok (F.map fun c p b => planeWaveSum l (fun i => c i b) (xy p), xy) :=
  fieldsOnCoordinates_eq_ok.2 ⟨h, rfl⟩

/-- **C44** `fields_on_grid` accepts a grid exactly if it resolves the expansion. -/
theorem C44_grid_succeeds_iff (F : Fields (Matrix ι β ℂ)) (l : LayerSolveResult ι) (hG : Function.Injective l.expansion)
    (hc : cellArea l ≠ 0) (shape cells : ℕ × ℕ) :
    (∃ R, fieldsOnGrid F l shape cells = .ok R) ↔ Resolves shape.1 shape.2 l.expansion :=
  ⟨fun ⟨_, h⟩ => fieldsOnGrid_resolves h, fun h => ⟨_, fieldsOnGrid_eq h hG hc⟩⟩

/-- **C44** `fields_on_grid` returns at every point of the grid, in every unit cell, the value that
`fields_on_coordinates` returns at the coordinates of that point; the coordinates are the fractions `i / nx` and `j / ny`
of the lattice vectors. -/
theorem C44_grid_eq_coordinates (F : Fields (Matrix ι β ℂ)) {l : LayerSolveResult ι} {shape cells : ℕ × ℕ}
    (hG : Function.Injective l.expansion) (h : Resolves shape.1 shape.2 l.expansion) (hc : cellArea l ≠ 0) :
    ∃ g xy, fieldsOnGrid F l shape cells = .ok (g, xy) ∧ fieldsOnCoordinates F l xy = .ok (g, xy) ∧
      ∀ p, xy p = latticePoint l.primitiveLatticeVectors ((p.1 : ℕ) / (shape.1 : ℝ)) ((p.2 : ℕ) / (shape.2 : ℝ)) :=
  ⟨_, _, fieldsOnGrid_eq h hG hc, fieldsOnCoordinates_eq_ok.2 ⟨hc, rfl⟩, fun _ => rfl⟩

/-- **C44** Bloch periodicity: shifting all coordinates by `a u + b v` multiplies every component by
`exp(i k₀·(a u + b v))`. -/
theorem C44_bloch_coordinates (F : Fields (Matrix ι β ℂ)) {l : LayerSolveResult ι} (hc : cellArea l ≠ 0)
    (xy : κ → ℝ × ℝ) (a b : ℤ) :
    ∃ g g', fieldsOnCoordinates F l xy = .ok (g, xy) ∧
      fieldsOnCoordinates F l (fun p => xy p + latticePoint l.primitiveLatticeVectors a b) =
        .ok (g', fun p => xy p + latticePoint l.primitiveLatticeVectors a b) ∧
      g' = g.map fun x p c =>
        Complex.exp (Complex.I * (dot l.inPlaneWavevector (latticePoint l.primitiveLatticeVectors a b) : ℝ)) * x p c := by
  refine ⟨_, _, C44_on_coordinates F hc xy, C44_on_coordinates F hc _, ?_⟩
  unfold Fields.map
  simp only [planeWaveSum_shift hc]

/-- **C44** Bloch periodicity on the grid: entries `shape` apart, i.e. one unit cell apart, differ by the phase of the
lattice vector. -/
theorem C44_bloch_grid {F : Fields (Matrix ι β ℂ)} {l : LayerSolveResult ι} {shape cells : ℕ × ℕ}
    {g : Fields (Fin (cells.1 * shape.1) × Fin (cells.2 * shape.2) → β → ℂ)} {xy}
    (hG : Function.Injective l.expansion) (hc : cellArea l ≠ 0) (h : fieldsOnGrid F l shape cells = .ok (g, xy))
    (p p' : Fin (cells.1 * shape.1) × Fin (cells.2 * shape.2)) (a b : ℕ)
    (h1 : (p'.1 : ℕ) = p.1 + a * shape.1) (h2 : (p'.2 : ℕ) = p.2 + b * shape.2) :
    g.map (fun x => x p') = g.map fun x c =>
      Complex.exp (Complex.I * (dot l.inPlaneWavevector (latticePoint l.primitiveLatticeVectors a b) : ℝ)) * x p c := by
  have hr := fieldsOnGrid_resolves h
  obtain ⟨hx, hy⟩ := hr.shape_ne
  have hx' : (shape.1 : ℝ) ≠ 0 := by exact_mod_cast hx
  have hy' : (shape.2 : ℝ) ≠ 0 := by exact_mod_cast hy
  rw [fieldsOnGrid_eq hr hG hc] at h
  cases h
  have e : latticePoint l.primitiveLatticeVectors ((p'.1 : ℕ) / (shape.1 : ℝ)) ((p'.2 : ℕ) / (shape.2 : ℝ)) =
      latticePoint l.primitiveLatticeVectors ((p.1 : ℕ) / (shape.1 : ℝ)) ((p.2 : ℕ) / (shape.2 : ℝ)) +
        latticePoint l.primitiveLatticeVectors (a : ℤ) (b : ℤ) := by
    rw [h1, h2]
    unfold latticePoint
    push_cast
    rw [add_div, add_div, mul_div_assoc, mul_div_assoc, div_self hx', div_self hy', mul_one, mul_one]
    module
  unfold Fields.map
  simp only [e, planeWaveSum_shift hc]
  push_cast
  rfl

/-- A layer with four orders on an oblique lattice, for the examples. -/
noncomputable def planeLayer : LayerSolveResult (Fin 4) where
  wavelength := 1
  inPlaneWavevector := (1, 2)
  primitiveLatticeVectors := { u := (1, 0), v := (1, 2) }
  expansion := exampleExpansion
  eigenvalues := fun _ => 1
  eigenvectors := 1
  zPermittivityMatrix := 1
  inverseZPermittivityMatrix := 1
  zPermeabilityMatrix := 1
  inverseZPermeabilityMatrix := 1
  transversePermeabilityMatrix := 1

theorem planeLayer_cellArea : cellArea planeLayer ≠ 0 := by norm_num [cellArea, planeLayer]

example (F : Fields (Matrix (Fin 4) (Fin 2) ℂ)) :
    ∃ g xy, fieldsOnGrid F planeLayer (3, 5) (2, 7) = .ok (g, xy) ∧ fieldsOnCoordinates F planeLayer xy = .ok (g, xy) := by
  obtain ⟨g, xy, h1, h2, -⟩ := C44_grid_eq_coordinates F (cells := (2, 7)) exampleExpansion_injective
    (l := planeLayer) (shape := (3, 5)) exampleExpansion_resolved planeLayer_cellArea
  exact ⟨g, xy, h1, h2⟩

example (F : Fields (Matrix (Fin 4) (Fin 2) ℂ)) : ∃ g xy, fieldsOnGrid F planeLayer (3, 5) (2, 7) = .ok (g, xy) ∧
    g.ex (⟨4, by norm_num⟩, ⟨12, by norm_num⟩) 1 =
      Complex.exp (Complex.I * (dot (1, 2) (latticePoint { u := (1, 0), v := (1, 2) } (1 : ℕ) (2 : ℕ)) : ℝ)) *
        g.ex (⟨1, by norm_num⟩, ⟨2, by norm_num⟩) 1 := by
  obtain ⟨g, xy, h1, -, -⟩ := C44_grid_eq_coordinates F (cells := (2, 7)) exampleExpansion_injective
    (l := planeLayer) (shape := (3, 5)) exampleExpansion_resolved planeLayer_cellArea
  refine ⟨g, xy, h1, ?_⟩
  have := C44_bloch_grid exampleExpansion_injective planeLayer_cellArea h1
    (⟨1, by norm_num⟩, ⟨2, by norm_num⟩) (⟨4, by norm_num⟩, ⟨12, by norm_num⟩) 1 2 rfl rfl
  exact congrFun (congrArg Fields.ex this) 1

/-! ### C45 -/

/-- Slices of `layerFields3d`: fields of one z position. -/
def zSlice {n znum : ℕ} (g : Fields (κ → Fin znum → Fin n → ℂ)) (k : Fin znum) : Fields (κ → Fin n → ℂ) :=
  g.map fun x p j => x p k j

/-- What the loop returns, layer by layer. -/
theorem stackFieldsLoop_spec {n : ℕ} {slice : FieldsXYSliceFn ι κ} (reqs : List (LayerRequest ι n)) :
    ∀ {z0 : ℝ} {xy0} {gs zs xy}, stackFieldsLoop slice z0 xy0 reqs = .ok (gs, zs, xy) →
      zs.length = (reqs.map LayerRequest.znum).sum ∧ gs.length = (reqs.map LayerRequest.znum).sum ∧
      (reqs ≠ [] → xy.isSome) ∧ (reqs = [] → xy = xy0) ∧
      ∀ (j : ℕ) (hj : j < reqs.length), ∃ (g : Fields (κ → Fin reqs[j].znum → Fin n → ℂ)) (xy' : κ → ℝ × ℝ)
          (zo : Fin reqs[j].znum → ℝ),
        layerFields3d reqs[j].a reqs[j].b reqs[j].layer reqs[j].thickness reqs[j].znum slice = .ok (g, xy', zo) ∧
        ∀ k : Fin reqs[j].znum,
          zs[((reqs.map LayerRequest.znum).take j).sum + k]? =
            some (zo k + (z0 + ((reqs.map LayerRequest.thickness).take j).sum)) ∧
          gs[((reqs.map LayerRequest.znum).take j).sum + k]? = some (zSlice g k) := by
  induction reqs with
  | nil =>
    intro z0 xy0 gs zs xy h
    cases h
    simp
  | cons r rest ih =>
    intro z0 xy0 gs zs xy h
    unfold stackFieldsLoop at h
    obtain ⟨⟨g, xy1, zo⟩, h1, h⟩ := bind_eq_ok.1 h
    obtain ⟨⟨gs', zs', xy'⟩, h2, h⟩ := bind_eq_ok.1 h
    cases h
    obtain ⟨i1, i2, i3, i4, i5⟩ := ih h2
    refine ⟨by simp [i1], by simp [i2], ?_, by simp, ?_⟩
    · intro _
      by_cases hr : rest = []
      · rw [i4 hr]; rfl
      · exact i3 hr
    · intro j hj
      rcases j with _ | j
      · refine ⟨g, xy1, zo, h1, fun k => ?_⟩
        have hk := k.2
        simp only [List.getElem_cons_zero] at hk ⊢
        constructor
        · rw [List.getElem?_append_left (by simp)]
          simp
        · rw [List.getElem?_append_left (by simp)]
          simp [zSlice]
      · obtain ⟨g', xy2, zo', e1, e2⟩ := i5 j (by simpa using hj)
        refine ⟨g', xy2, zo', by simpa using e1, fun k => ?_⟩
        obtain ⟨e3, e4⟩ := e2 k
        constructor
        · rw [List.getElem?_append_right (by simp; omega)]
          simp only [List.map_cons, List.take_succ_cons, List.sum_cons, List.length_ofFn]
          rw [show r.znum + (List.take j (List.map LayerRequest.znum rest)).sum + ↑k - r.znum =
            (List.take j (List.map LayerRequest.znum rest)).sum + ↑k by omega, e3]
          congr 2
          ring
        · rw [List.getElem?_append_right (by simp; omega)]
          simp only [List.map_cons, List.take_succ_cons, List.sum_cons, List.length_ofFn]
          rw [show r.znum + (List.take j (List.map LayerRequest.znum rest)).sum + ↑k - r.znum =
            (List.take j (List.map LayerRequest.znum rest)).sum + ↑k by omega, e4]

theorem layerFields3d_z {n : ℕ} {slice : FieldsXYSliceFn ι κ} {a b : Matrix (ι ⊕ ι) (Fin n) ℂ} {l : LayerSolveResult ι}
    {d : ℝ} {znum : ℕ} {g xy zo} (h : layerFields3d a b l d znum slice = .ok (g, xy, zo)) : zo = linspace d znum := by
  unfold layerFields3d at h
  obtain ⟨f, -, h⟩ := bind_eq_ok.1 h
  obtain ⟨⟨g', xy'⟩, -, h⟩ := bind_eq_ok.1 h
  cases h
  rfl

theorem linspace_mem {d : ℝ} (hd : 0 ≤ d) {n : ℕ} (k : Fin n) : 0 ≤ linspace d n k ∧ linspace d n k ≤ d := by
  have hk := k.2
  unfold linspace
  split_ifs with h1
  · exact ⟨le_refl _, hd⟩
  · have hn : (0 : ℝ) < n - 1 := by
      have : (2 : ℝ) ≤ n := by exact_mod_cast (by omega : 2 ≤ n)
      linarith
    have hk' : ((k : ℕ) : ℝ) ≤ n - 1 := by
      have : ((k : ℕ) : ℝ) + 1 ≤ n := by exact_mod_cast hk
      linarith
    exact ⟨by positivity, by rw [div_le_iff₀ hn]; nlinarith⟩

theorem linspace_mono {d : ℝ} (hd : 0 ≤ d) {n : ℕ} {k k' : Fin n} (h : k ≤ k') : linspace d n k ≤ linspace d n k' := by
  unfold linspace
  split_ifs with h1
  · exact le_refl _
  · have hn : (0 : ℝ) ≤ n - 1 := by
      have : (1 : ℝ) ≤ n := by exact_mod_cast (by have := k.2; omega : 1 ≤ n)
      linarith
    have : ((k : ℕ) : ℝ) ≤ (k' : ℕ) := by exact_mod_cast h
    exact div_le_div_of_nonneg_right (mul_le_mul_of_nonneg_left this hd) hn

theorem stackFieldsLoop_sorted {n : ℕ} {slice : FieldsXYSliceFn ι κ} (reqs : List (LayerRequest ι n))
    (hd : ∀ r ∈ reqs, 0 ≤ r.thickness) :
    ∀ {z0 : ℝ} {xy0} {gs zs xy}, stackFieldsLoop slice z0 xy0 reqs = .ok (gs, zs, xy) →
      zs.Pairwise (· ≤ ·) ∧ ∀ z ∈ zs, z0 ≤ z := by
  induction reqs with
  | nil =>
    intro z0 xy0 gs zs xy h
    cases h
    simp
  | cons r rest ih =>
    intro z0 xy0 gs zs xy h
    unfold stackFieldsLoop at h
    obtain ⟨⟨g, xy1, zo⟩, h1, h⟩ := bind_eq_ok.1 h
    obtain ⟨⟨gs', zs', xy'⟩, h2, h⟩ := bind_eq_ok.1 h
    cases h
    have hr := hd r (by simp)
    obtain ⟨i1, i2⟩ := ih (fun r' hr' => hd r' (by simp [hr'])) h2
    have hzo := layerFields3d_z h1
    subst hzo
    refine ⟨List.pairwise_append.2 ⟨?_, i1, ?_⟩, ?_⟩
    · rw [List.pairwise_ofFn]
      intro k k' hk
      have := linspace_mono hr hk.le
      linarith
    · intro x hx y hy
      obtain ⟨k, rfl⟩ := List.mem_ofFn.1 hx
      have := i2 y hy
      have := (linspace_mem hr k).2
      linarith
    · intro z hz
      rcases List.mem_append.1 hz with hz | hz
      · obtain ⟨k, rfl⟩ := List.mem_ofFn.1 hz
        have := (linspace_mem hr k).1
        linarith
      · have := i2 z hz
        linarith

theorem zipRequests_spec {n : ℕ} : ∀ {abs : List (Matrix (ι ⊕ ι) (Fin n) ℂ × Matrix (ι ⊕ ι) (Fin n) ℂ)}
    {ls : List (LayerSolveResult ι)} {ds : List ℝ} {zs : List ℕ}, ls.length = abs.length → ds.length = abs.length →
    zs.length = abs.length → (zipRequests abs ls ds zs).map LayerRequest.znum = zs ∧
      (zipRequests abs ls ds zs).map LayerRequest.thickness = ds ∧
      (zipRequests abs ls ds zs).map LayerRequest.layer = ls ∧
      (zipRequests abs ls ds zs).map (fun r => (r.a, r.b)) = abs
  | [], [], [], [], _, _, _ => by simp [zipRequests]
  | ab :: abs, l :: ls, d :: ds, z :: zs, h1, h2, h3 => by
    obtain ⟨i1, i2, i3, i4⟩ := zipRequests_spec (abs := abs) (ls := ls) (ds := ds) (zs := zs) (by simpa using h1)
      (by simpa using h2) (by simpa using h3)
    simp [zipRequests, i1, i2, i3, i4]

/-- A successful call: the lists have equal lengths, and the loop ran over the zipped lists. -/
theorem stackFields3d_eq_ok {n : ℕ} {amps : List (Matrix (ι ⊕ ι) (Fin n) ℂ × Matrix (ι ⊕ ι) (Fin n) ℂ)}
    {layers : List (LayerSolveResult ι)} {ds : List ℝ} {znum : List ℕ} {slice : FieldsXYSliceFn ι κ} {gs zs xy} :
    stackFields3d amps layers ds znum slice = .ok (gs, zs, xy) ↔
      layers.length = amps.length ∧ ds.length = amps.length ∧ znum.length = amps.length ∧
        stackFieldsLoop slice 0 none (zipRequests amps layers ds znum) = .ok (gs, zs, some xy) := by
  unfold stackFields3d
  split_ifs with h
  · constructor
    · intro h'; cases h'
    · rintro ⟨h1, h2, h3, -⟩
      exact absurd h (by simp [h1, h2, h3])
  · push Not at h
    obtain ⟨h1, h2, h3⟩ := h
    constructor
    · intro h'
      obtain ⟨⟨gs', zs', xy'⟩, e1, e2⟩ := bind_eq_ok.1 h'
      cases xy' with
      | none => cases e2
      | some xy' =>
        cases e2
        exact ⟨h1, h2, h3, e1⟩
    · rintro ⟨-, -, -, e⟩
      exact bind_eq_ok.2 ⟨_, e, rfl⟩

theorem stackFieldsLoop_succeeds {n : ℕ} {slice : FieldsXYSliceFn ι κ} (reqs : List (LayerRequest ι n)) (z0 : ℝ) (xy0) :
    (∃ R, stackFieldsLoop slice z0 xy0 reqs = .ok R) ↔
      ∀ r ∈ reqs, ∃ R, layerFields3d r.a r.b r.layer r.thickness r.znum slice = .ok R := by
  induction reqs generalizing z0 xy0 with
  | nil => simp [stackFieldsLoop]
  | cons r rest ih =>
    rw [List.forall_mem_cons]
    constructor
    · rintro ⟨R, h⟩
      unfold stackFieldsLoop at h
      obtain ⟨⟨g, xy, zo⟩, h1, h⟩ := bind_eq_ok.1 h
      obtain ⟨R', h2, -⟩ := bind_eq_ok.1 h
      exact ⟨⟨_, h1⟩, (ih _ _).1 ⟨_, h2⟩⟩
    · rintro ⟨⟨⟨g, xy, zo⟩, h1⟩, h2⟩
      obtain ⟨⟨gs, zs, xy'⟩, h3⟩ := (ih (z0 + r.thickness) (some xy)).2 h2
      unfold stackFieldsLoop
      exact ⟨_, bind_eq_ok.2 ⟨_, h1, bind_eq_ok.2 ⟨_, h3, rfl⟩⟩⟩

/-- **C45** `stack_fields_3d` succeeds exactly if the four sequences have the same positive length and the fields of every
layer can be computed. -/
theorem C45_succeeds_iff {n : ℕ} (amps : List (Matrix (ι ⊕ ι) (Fin n) ℂ × Matrix (ι ⊕ ι) (Fin n) ℂ))
    (layers : List (LayerSolveResult ι)) (ds : List ℝ) (znum : List ℕ) (slice : FieldsXYSliceFn ι κ) :
    (∃ R, stackFields3d amps layers ds znum slice = .ok R) ↔
      layers.length = amps.length ∧ ds.length = amps.length ∧ znum.length = amps.length ∧ 0 < amps.length ∧
        ∀ r ∈ zipRequests amps layers ds znum, ∃ R, layerFields3d r.a r.b r.layer r.thickness r.znum slice = .ok R := by
  constructor
  · rintro ⟨⟨gs, zs, xy⟩, h⟩
    obtain ⟨h1, h2, h3, h4⟩ := stackFields3d_eq_ok.1 h
    refine ⟨h1, h2, h3, ?_, (stackFieldsLoop_succeeds _ _ _).1 ⟨_, h4⟩⟩
    obtain ⟨-, -, -, s4, -⟩ := stackFieldsLoop_spec _ h4
    by_contra h0
    have : amps = [] := List.length_eq_zero_iff.1 (by omega)
    subst this
    have := s4 (by simp [zipRequests])
    cases this
  · rintro ⟨h1, h2, h3, h4, h5⟩
    obtain ⟨⟨gs, zs, xy⟩, h6⟩ := (stackFieldsLoop_succeeds _ 0 none).2 h5
    have z1 := (zipRequests_spec h1 h2 h3).1
    obtain ⟨-, -, s3, -, -⟩ := stackFieldsLoop_spec _ h6
    have hne : zipRequests amps layers ds znum ≠ [] := by
      intro h0
      rw [h0] at z1
      have := congrArg List.length z1
      simp at this
      omega
    obtain ⟨xy', rfl⟩ := Option.isSome_iff_exists.1 (s3 hne)
    exact ⟨_, stackFields3d_eq_ok.2 ⟨h1, h2, h3, h6⟩⟩

/-- **C45** The z coordinates returned by `stack_fields_3d`: one entry per requested gridpoint; the entries of layer `j` are
equally spaced, start at the summed thickness of the preceding layers and, if there are at least two of them, end at the
summed thickness including the layer; for non-negative thicknesses the list is non-decreasing. -/
theorem C45_z_coordinates {n : ℕ} {amps : List (Matrix (ι ⊕ ι) (Fin n) ℂ × Matrix (ι ⊕ ι) (Fin n) ℂ)}
    {layers : List (LayerSolveResult ι)} {ds : List ℝ} {znum : List ℕ} {slice : FieldsXYSliceFn ι κ} {gs zs xy}
    (h : stackFields3d amps layers ds znum slice = .ok (gs, zs, xy)) :
    zs.length = znum.sum ∧ gs.length = znum.sum ∧ ds.length = znum.length ∧
    (∀ (j : ℕ) (hj : j < znum.length), 0 < znum[j] → zs[(znum.take j).sum]? = some (ds.take j).sum) ∧
    (∀ (j : ℕ) (hj : j < znum.length), 2 ≤ znum[j] → zs[(znum.take j).sum + (znum[j] - 1)]? = some (ds.take (j + 1)).sum) ∧
    (∀ (j : ℕ) (hj : j < znum.length), ∃ step : ℝ, ∀ k < znum[j],
      zs[(znum.take j).sum + k]? = some ((ds.take j).sum + k * step)) ∧
    ((∀ d ∈ ds, 0 ≤ d) → zs.Pairwise (· ≤ ·)) := by
  obtain ⟨h1, h2, h3, h4⟩ := stackFields3d_eq_ok.1 h
  obtain ⟨z1, z2, -, -⟩ := zipRequests_spec h1 h2 h3
  obtain ⟨s1, s2, -, -, s5⟩ := stackFieldsLoop_spec _ h4
  rw [z1] at s1 s2
  have hlen : (zipRequests amps layers ds znum).length = znum.length := by
    rw [← congrArg List.length z1, List.length_map]
  have key : ∀ (j : ℕ) (hj : j < znum.length) (k : ℕ) (hk : k < znum[j]),
      zs[(znum.take j).sum + k]? = some (linspace (ds[j]'(by omega)) znum[j] ⟨k, hk⟩ + (ds.take j).sum) := by
    intro j hj k hk
    have hj' : j < (zipRequests amps layers ds znum).length := by omega
    obtain ⟨g, xy', zo, e1, e2⟩ := s5 j hj'
    have hzo := layerFields3d_z e1
    subst hzo
    have ez : (zipRequests amps layers ds znum)[j].znum = znum[j] := by
      rw [← List.getElem_map LayerRequest.znum (h := by simpa using hj')]
      simp only [z1]
    have ed : (zipRequests amps layers ds znum)[j].thickness = ds[j]'(by omega) := by
      rw [← List.getElem_map LayerRequest.thickness (h := by simpa using hj')]
      simp only [z2]
    have := (e2 ⟨k, by omega⟩).1
    rw [z1, z2] at this
    simp only [zero_add] at this
    rw [this]
    congr 2
    unfold linspace
    simp only [ez, ed]
  refine ⟨s1, s2, by omega, ?_, ?_, ?_, ?_⟩
  · intro j hj h0
    have := key j hj 0 h0
    rw [add_zero] at this
    rw [this]
    simp [linspace]
  · intro j hj h0
    rw [key j hj _ (by omega), List.take_succ, List.sum_append]
    have hn : ((znum[j] : ℕ) : ℝ) - 1 ≠ 0 := by
      have : (2 : ℝ) ≤ znum[j] := by exact_mod_cast h0
      linarith
    have hj' : j < ds.length := by omega
    congr 1
    simp only [linspace, if_neg (by omega : ¬ znum[j] = 1), List.getElem?_eq_getElem hj', Option.toList_some, List.sum_singleton]
    rw [Nat.cast_sub (by omega), Nat.cast_one, mul_div_assoc, div_self hn]
    ring
  · intro j hj
    refine ⟨if znum[j] = 1 then 0 else ds[j]'(by omega) / (znum[j] - 1), fun k hk => ?_⟩
    rw [key j hj k hk]
    congr 1
    unfold linspace
    split_ifs
    · ring
    · simp only; ring
  · intro hd
    refine (stackFieldsLoop_sorted _ ?_ h4).1
    intro r hr
    refine hd _ ?_
    rw [← z2]
    exact List.mem_map_of_mem hr

/-- **C45** (finding) A layer sampled with a single gridpoint is sampled at its start only: the end of the layer is not in
the list, although the layer has thickness. -/
theorem C45_finding_single_gridpoint (d : ℝ) (k : Fin 1) : linspace d 1 k = 0 := by simp [linspace]

/-! ### C46 -/

/-- One column of a batch of amplitudes, as a batch of one. -/
def column {m : Type} (A : Matrix m β ℂ) (b : β) : Matrix m (Fin 1) ℂ := Matrix.of fun i _ => A i b

/-- A function computing fields in an xy plane acts on every column of its argument separately. -/
def Columnwise (slice : FieldsXYSliceFn ι κ) : Prop :=
  ∀ (m : ℕ) (F : Fields (Matrix ι (Fin m) ℂ)) (l : LayerSolveResult ι) (g) (xy), slice m F l = .ok (g, xy) →
    ∀ j, slice 1 (F.map fun A => column A j) l = .ok (g.map fun x p _ => x p j, xy)

theorem coordinateSlice_columnwise (xy : κ → ℝ × ℝ) : Columnwise (coordinateSlice (ι := ι) xy) := by
  intro m F l g xy' h j
  obtain ⟨h1, h2⟩ := fieldsOnCoordinates_eq_ok.1 h
  cases h2
  exact fieldsOnCoordinates_eq_ok.2 ⟨h1, rfl⟩

theorem gridSlice_columnwise (shape cells : ℕ × ℕ) : Columnwise (gridSlice (ι := ι) shape cells) := by
  intro m F l g xy' h j
  unfold gridSlice fieldsOnGrid at *
  obtain ⟨g', hg, h⟩ := bind_eq_ok.1 h
  cases h
  refine bind_eq_ok.2 ⟨g.map fun x p _ => x p j, ?_, rfl⟩
  have key : ∀ {y : Matrix ι (Fin m) ℂ} {x : Fin (cells.1 * shape.1) × Fin (cells.2 * shape.2) → Fin m → ℂ}
      {phase : Fin (cells.1 * shape.1) × Fin (cells.2 * shape.2) → ℂ},
      (do
        let f ← ifftColumns y l.expansion shape.1 shape.2
        (.ok fun (p : Fin (cells.1 * shape.1) × Fin (cells.2 * shape.2)) b =>
          f b (tileIndex p.1) (tileIndex p.2) * phase p : Res _)) = .ok x →
      (do
        let f ← ifftColumns (column y j) l.expansion shape.1 shape.2
        (.ok fun (p : Fin (cells.1 * shape.1) × Fin (cells.2 * shape.2)) b =>
          f b (tileIndex p.1) (tileIndex p.2) * phase p : Res _)) = .ok fun p _ => x p j := by
    intro y x phase h
    obtain ⟨f, h1, h2⟩ := bind_eq_ok.1 h
    cases h2
    refine bind_eq_ok.2 ⟨fun _ => f j, ?_, rfl⟩
    unfold ifftColumns at h1 ⊢
    obtain ⟨u, h3, h4⟩ := bind_eq_ok.1 h1
    exact bind_eq_ok.2 ⟨u, h3, allOk_eq_ok.2 fun _ => allOk_eq_ok.1 h4 j⟩
  rw [Fields.mapM_eq_ok] at hg ⊢
  obtain ⟨h1, h2, h3, h4, h5, h6⟩ := hg
  exact ⟨key h1, key h2, key h3, key h4, key h5, key h6⟩

theorem fieldsOf_column (l : LayerSolveResult ι) (e h : Matrix (ι ⊕ ι) β ℂ) (b : β) :
    (fieldsOf l e h).map (fun A => column A b) = fieldsOf l (column e b) (column h b) := rfl

theorem column_mul {m n : Type} [Fintype n] (A : Matrix m n ℂ) (B : Matrix n β ℂ) (b : β) :
    column (A * B) b = A * column B b := rfl

/-- **C46** `layer_fields_3d` (on a grid or at coordinates): the entry at `(x, y, z_k, n)` is the field which the functions
for single planes return for amplitude column `n` alone, propagated to `z_k`. -/
theorem C46_layer_columns {n : ℕ} {slice : FieldsXYSliceFn ι κ} (hs : Columnwise slice)
    {a b : Matrix (ι ⊕ ι) (Fin n) ℂ} {l : LayerSolveResult ι} {d : ℝ} {znum : ℕ} {g xy z}
    (h : layerFields3d a b l d znum slice = .ok (g, xy, z)) (k : Fin znum) (j : Fin n) :
    ∃ F g', reportedFields l d (column a j) (column b j) (z k) = .ok F ∧ slice 1 F l = .ok (g', xy) ∧
      g.map (fun x p => x p k j) = g'.map fun x p => x p 0 := by
  have hz := layerFields3d_z h
  subst hz
  unfold layerFields3d at h
  obtain ⟨f, h1, h⟩ := bind_eq_ok.1 h
  obtain ⟨⟨g', xy'⟩, h2, h⟩ := bind_eq_ok.1 h
  cases h
  have h3 := hs _ _ _ _ _ h2 (flatIndex k j)
  have hdiv : (flatIndex k j).divNat = k := by
    ext
    simp only [flatIndex, Fin.divNat]
    rw [Nat.add_comm, Nat.add_mul_div_right _ _ (by have := j.2; omega), Nat.div_eq_of_lt j.2, Nat.zero_add]
  have hmod : (flatIndex k j).modNat = j := by
    ext
    simp only [flatIndex, Fin.modNat]
    rw [Nat.add_comm, Nat.add_mul_mod_self_right, Nat.mod_eq_of_lt j.2]
  refine ⟨f.map fun A => column A (flatIndex k j), _, ?_, h3, rfl⟩
  obtain ⟨hw, hq, rfl⟩ := fieldsFromWaveAmplitudes_eq_ok.1 h1
  unfold reportedFields
  refine fieldsFromWaveAmplitudes_eq_ok.2 ⟨hw, hq, ?_⟩
  rw [fieldsOf_column, column_mul, column_mul]
  congr 2
  · congr 1
    ext i c
    simp only [colocateAmplitudes, propagateAmplitude, column, Matrix.of_apply, Matrix.sub_apply, hdiv, hmod]
  · congr 1
    ext i c
    simp only [colocateAmplitudes, propagateAmplitude, column, Matrix.of_apply, Matrix.add_apply, hdiv, hmod]

/-- **C46** `layer_fields_3d` on a grid succeeds exactly if the layer has finite fields and the grid resolves the
expansion. -/
theorem C46_layer_grid_succeeds_iff {n : ℕ} (a b : Matrix (ι ⊕ ι) (Fin n) ℂ) (l : LayerSolveResult ι) (d : ℝ) (znum : ℕ)
    (shape cells : ℕ × ℕ) (hG : Function.Injective l.expansion) :
    (∃ R, layerFields3d a b l d znum (gridSlice shape cells) = .ok R) ↔
      WellPosed l ∧ (∀ i, l.eigenvalues i ≠ 0) ∧ Resolves shape.1 shape.2 l.expansion := by
  unfold layerFields3d
  constructor
  · rintro ⟨R, h⟩
    obtain ⟨f, h1, h⟩ := bind_eq_ok.1 h
    obtain ⟨g, h2, -⟩ := bind_eq_ok.1 h
    obtain ⟨hw, hq, -⟩ := fieldsFromWaveAmplitudes_eq_ok.1 h1
    exact ⟨hw, hq, fieldsOnGrid_resolves h2⟩
  · rintro ⟨hw, hq, hr⟩
    exact ⟨_, bind_eq_ok.2 ⟨_, fieldsFromWaveAmplitudes_eq_ok.2 ⟨hw, hq, rfl⟩,
      bind_eq_ok.2 ⟨_, fieldsOnGrid_eq hr hG hw.2.1, rfl⟩⟩⟩

/-- **C46** `stack_fields_3d`: the field at the `k`-th gridpoint of layer `j` and amplitude column `n` is the field
which the functions for single planes return for that layer and that column alone, at that depth; the entry of the
z-coordinates at the same position is the depth plus the thickness of the preceding layers. -/
theorem C46_stack_columns {n : ℕ} {amps : List (Matrix (ι ⊕ ι) (Fin n) ℂ × Matrix (ι ⊕ ι) (Fin n) ℂ)}
    {layers : List (LayerSolveResult ι)} {ds : List ℝ} {znum : List ℕ} {slice : FieldsXYSliceFn ι κ} (hs : Columnwise slice)
    {gs zs xy} (h : stackFields3d amps layers ds znum slice = .ok (gs, zs, xy)) (j : ℕ) (hj : j < amps.length)
    (h1 : j < layers.length) (h2 : j < ds.length) (h3 : j < znum.length) (k : ℕ) (hk : k < znum[j]) (c : Fin n) :
    ∃ depth F g' xy' G, zs[(znum.take j).sum + k]? = some (depth + (ds.take j).sum) ∧
      gs[(znum.take j).sum + k]? = some G ∧
      reportedFields layers[j] ds[j] (column amps[j].1 c) (column amps[j].2 c) depth = .ok F ∧
      slice 1 F layers[j] = .ok (g', xy') ∧ G.map (fun x p => x p c) = g'.map fun x p => x p 0 := by
  obtain ⟨e1, e2, e3, h4⟩ := stackFields3d_eq_ok.1 h
  obtain ⟨z1, z2, z3, z4⟩ := zipRequests_spec e1 e2 e3
  obtain ⟨-, -, -, -, s5⟩ := stackFieldsLoop_spec _ h4
  have hlen : (zipRequests amps layers ds znum).length = znum.length := by
    rw [← congrArg List.length z1, List.length_map]
  have hj' : j < (zipRequests amps layers ds znum).length := by omega
  obtain ⟨g, xy', zo, f1, f2⟩ := s5 j hj'
  have ez : (zipRequests amps layers ds znum)[j].znum = znum[j] := by
    rw [← List.getElem_map LayerRequest.znum (h := by simpa using hj')]
    simp only [z1]
  have ed : (zipRequests amps layers ds znum)[j].thickness = ds[j] := by
    rw [← List.getElem_map LayerRequest.thickness (h := by simpa using hj')]
    simp only [z2]
  have el : (zipRequests amps layers ds znum)[j].layer = layers[j] := by
    rw [← List.getElem_map LayerRequest.layer (h := by simpa using hj')]
    simp only [z3]
  have eab : ((zipRequests amps layers ds znum)[j].a, (zipRequests amps layers ds znum)[j].b) = amps[j] := by
    rw [← List.getElem_map (fun r : LayerRequest ι n => (r.a, r.b)) (h := by simpa using hj')]
    simp only [z4]
  have ea := congrArg Prod.fst eab
  have eb := congrArg Prod.snd eab
  simp only at ea eb
  obtain ⟨f3, f4⟩ := f2 ⟨k, by omega⟩
  obtain ⟨F, g', i1, i2, i3⟩ := C46_layer_columns hs f1 ⟨k, by omega⟩ c
  rw [z1, z2, zero_add] at f3
  rw [z1] at f4
  rw [ed, el, ea, eb] at i1
  rw [el] at i2
  exact ⟨_, F, g', xy', _, f3, f4, i1, i2, i3⟩

theorem planeWaveSum_congr {l l' : LayerSolveResult ι} (h1 : l.inPlaneWavevector = l'.inPlaneWavevector)
    (h2 : l.primitiveLatticeVectors = l'.primitiveLatticeVectors) (h3 : l.expansion = l'.expansion) (c : ι → ℂ) (r : ℝ × ℝ) :
    planeWaveSum l c r = planeWaveSum l' c r := by
  unfold planeWaveSum orderWavevector cellArea
  rw [h1, h2, h3]

/-- **C46** Across an interface of a consistent stack the tangential field components at the end of one layer and at
the start of the next agree at every point of the plane. -/
theorem C46_tangential_continuity {n : ℕ} {s t : LayerState ι (Fin n)} (h : Interface s t)
    (h1 : s.layer.inPlaneWavevector = t.layer.inPlaneWavevector)
    (h2 : s.layer.primitiveLatticeVectors = t.layer.primitiveLatticeVectors) (h3 : s.layer.expansion = t.layer.expansion)
    (xy : κ → ℝ × ℝ) :
    ∃ F F' g g', reportedFields s.layer s.thickness s.a s.b s.thickness = .ok F ∧
      reportedFields t.layer t.thickness t.a t.b 0 = .ok F' ∧
      fieldsOnCoordinates F s.layer xy = .ok (g, xy) ∧ fieldsOnCoordinates F' t.layer xy = .ok (g', xy) ∧
      g.ex = g'.ex ∧ g.ey = g'.ey ∧ g.hx = g'.hx ∧ g.hy = g'.hy := by
  obtain ⟨e, f, hs, ht⟩ := h
  obtain ⟨sw, sq, se, sf⟩ := hs
  obtain ⟨tw, tq, te, tf⟩ := ht
  have es : fieldsOf s.layer (electricAt s.layer s.thickness s.a s.b s.thickness)
      (magneticAt s.layer s.thickness s.a s.b s.thickness) = fieldsOf s.layer e f := by
    rw [se, sf]; rfl
  have et : fieldsOf t.layer (electricAt t.layer t.thickness t.a t.b 0)
      (magneticAt t.layer t.thickness t.a t.b 0) = fieldsOf t.layer e f := by
    rw [te, tf]; rfl
  refine ⟨_, _, _, _, reportedFields_eq_ok.2 ⟨sw, sq, rfl⟩, reportedFields_eq_ok.2 ⟨tw, tq, rfl⟩,
    fieldsOnCoordinates_eq_ok.2 ⟨sw.2.1, rfl⟩, fieldsOnCoordinates_eq_ok.2 ⟨tw.2.1, rfl⟩, ?_⟩
  rw [es, et]
  simp [Fields.map, fieldsOf, planeWaveSum_congr h1 h2 h3]

example (a b : Matrix (Fin 1 ⊕ Fin 1) (Fin 2) ℂ) :
    ∃ gs zs xy, stackFields3d [(a, b), (b, a)] [Examples.exLayer 1, Examples.exLayer 2] [3, 4] [2, 3] (gridSlice (2, 3) (4, 1)) =
      .ok (gs, zs, xy) ∧ zs.length = 5 ∧ zs[4]? = some 7 := by
  have ok : ∀ (q : ℂ), q ≠ 0 → ∀ (a b : Matrix (Fin 1 ⊕ Fin 1) (Fin 2) ℂ) (d : ℝ) (n : ℕ),
      ∃ R, layerFields3d a b (Examples.exLayer q) d n (gridSlice (2, 3) (4, 1)) = .ok R := by
    intro q hq a b d n
    exact (C46_layer_grid_succeeds_iff a b (Examples.exLayer q) d n (2, 3) (4, 1)
      (fun i j _ => Subsingleton.elim i j)).2
      ⟨Examples.exLayer_wellPosed hq, fun _ => hq, ⟨⟨0⟩, by simp [Examples.exLayer]⟩⟩
  have h : ∃ R, stackFields3d [(a, b), (b, a)] [Examples.exLayer 1, Examples.exLayer 2] [3, 4] [2, 3]
      (gridSlice (2, 3) (4, 1)) = .ok R := by
    refine (C45_succeeds_iff _ _ _ _ _).2 ⟨rfl, rfl, rfl, by simp, ?_⟩
    simp only [zipRequests, List.forall_mem_cons]
    exact ⟨ok 1 one_ne_zero a b 3 2, ok 2 two_ne_zero b a 4 3, by simp⟩
  obtain ⟨⟨gs, zs, xy⟩, h⟩ := h
  obtain ⟨c1, -, -, -, c5, -⟩ := C45_z_coordinates h
  refine ⟨gs, zs, xy, h, c1, ?_⟩
  have := c5 1 (by simp) (by simp)
  simp only [List.take, List.sum_cons, List.sum_nil] at this
  norm_num at this ⊢
  exact this

end Fmmax
