import Verif.Model.Fields3d
import Verif.Props.Fields3d

/-! Property theorems C44 – C46, continued: the functions for fields in three dimensions on a grid and at coordinates. -/

set_option linter.unusedSectionVars false

namespace Fmmax

open Spec Matrix

variable {ι : Type} [Fintype ι] [DecidableEq ι] {κ : Type}

/-- **C44** The fields of a layer on a grid are the fields at the coordinates of the grid. -/
theorem C44_layer_3d_grid_eq_coordinates {n : ℕ} {a b : Matrix (ι ⊕ ι) (Fin n) ℂ} {l : LayerSolveResult ι} {d : ℝ} {znum : ℕ}
    {shape cells : ℕ × ℕ} (hG : Function.Injective l.expansion) {g xy z}
    (h : layerFields3dOnGrid a b l d znum shape cells = .ok (g, xy, z)) :
    layerFields3dOnCoordinates a b l d znum xy = .ok (g, xy, z) ∧
      ∀ p, xy p = latticePoint l.primitiveLatticeVectors ((p.1 : ℕ) / (shape.1 : ℝ)) ((p.2 : ℕ) / (shape.2 : ℝ)) := by
  unfold layerFields3dOnGrid layerFields3d at h
  obtain ⟨f, h1, h⟩ := bind_eq_ok.1 h
  obtain ⟨⟨g', xy'⟩, h2, h⟩ := bind_eq_ok.1 h
  cases h
  obtain ⟨hw, -, -⟩ := fieldsFromWaveAmplitudes_eq_ok.1 h1
  obtain ⟨g2, xy2, e1, e2, e3⟩ := C44_grid_eq_coordinates (cells := cells) f hG (fieldsOnGrid_resolves h2) hw.2.1
  have e4 : g2 = g' ∧ xy2 = xy := by
    have := e1.symm.trans h2
    simpa using Except.ok.inj this
  obtain ⟨rfl, rfl⟩ := e4
  exact ⟨bind_eq_ok.2 ⟨f, h1, bind_eq_ok.2 ⟨_, e2, rfl⟩⟩, e3⟩

/-- **C44** The fields of a stack on a grid are the fields at the coordinates of the grid, if all layers have the same lattice. -/
theorem C44_stack_3d_grid_eq_coordinates {n : ℕ} {amps : List (Matrix (ι ⊕ ι) (Fin n) ℂ × Matrix (ι ⊕ ι) (Fin n) ℂ)}
    {layers : List (LayerSolveResult ι)} {ds : List ℝ} {znum : List ℕ} {shape cells : ℕ × ℕ} {lv : LatticeVectors}
    (hG : ∀ l ∈ layers, Function.Injective l.expansion) (hl : ∀ l ∈ layers, l.primitiveLatticeVectors = lv) {gs zs xy}
    (h : stackFields3dOnGrid amps layers ds znum shape cells = .ok (gs, zs, xy)) :
    stackFields3dOnCoordinates amps layers ds znum xy = .ok (gs, zs, xy) ∧
      ∀ p, xy p = latticePoint lv ((p.1 : ℕ) / (shape.1 : ℝ)) ((p.2 : ℕ) / (shape.2 : ℝ)) := by
  obtain ⟨h1, h2, h3, h4⟩ := stackFields3d_eq_ok.1 h
  obtain ⟨-, -, z3, -⟩ := zipRequests_spec h1 h2 h3
  set XY : Fin (cells.1 * shape.1) × Fin (cells.2 * shape.2) → ℝ × ℝ :=
    fun p => latticePoint lv ((p.1 : ℕ) / (shape.1 : ℝ)) ((p.2 : ℕ) / (shape.2 : ℝ)) with hXY
  have loop : ∀ (reqs : List (LayerRequest ι n)) (z0 : ℝ) (o : Option _) (gs zs) (o' : Option _),
      (∀ r ∈ reqs, r.layer ∈ layers) → (∀ v, o = some v → v = XY) →
      stackFieldsLoop (gridSlice shape cells) z0 o reqs = .ok (gs, zs, o') →
      stackFieldsLoop (coordinateSlice XY) z0 o reqs = .ok (gs, zs, o') ∧ ∀ v, o' = some v → v = XY := by
    intro reqs
    induction reqs with
    | nil =>
      intro z0 o gs zs o' _ ho hr
      cases hr
      exact ⟨rfl, ho⟩
    | cons r rest ih =>
      intro z0 o gs zs o' hm ho hr
      unfold stackFieldsLoop at hr ⊢
      obtain ⟨⟨g, xy1, zo⟩, k1, hr⟩ := bind_eq_ok.1 hr
      obtain ⟨⟨gs1, zs1, xy2⟩, k2, hr⟩ := bind_eq_ok.1 hr
      cases hr
      have hr' := hm r (by simp)
      obtain ⟨c1, c2⟩ := C44_layer_3d_grid_eq_coordinates (hG _ hr') k1
      have e : xy1 = XY := by
        funext p
        rw [c2 p, hl _ hr']
      subst e
      obtain ⟨i1, i2⟩ := ih _ _ _ _ _ (fun r hr => hm r (by simp [hr])) (by simp) k2
      exact ⟨bind_eq_ok.2 ⟨_, c1, bind_eq_ok.2 ⟨_, i1, rfl⟩⟩, i2⟩
  obtain ⟨i1, i2⟩ := loop _ 0 none gs zs (some xy) (fun r hr => by
    rw [← z3]; exact List.mem_map_of_mem hr) (by simp) h4
  have e : xy = XY := i2 xy rfl
  subst e
  exact ⟨stackFields3d_eq_ok.2 ⟨h1, h2, h3, i1⟩, fun p => rfl⟩

/-- **C46** Fields at coordinates in three dimensions succeed exactly if the layer has finite fields; no grid has to be resolved. -/
theorem C46_layer_coordinates_succeeds_iff {n : ℕ} (a b : Matrix (ι ⊕ ι) (Fin n) ℂ) (l : LayerSolveResult ι) (d : ℝ) (znum : ℕ)
    (xy : κ → ℝ × ℝ) :
    (∃ R, layerFields3dOnCoordinates a b l d znum xy = .ok R) ↔ WellPosed l ∧ ∀ i, l.eigenvalues i ≠ 0 := by
  unfold layerFields3dOnCoordinates layerFields3d
  constructor
  · rintro ⟨R, h⟩
    obtain ⟨f, h1, h⟩ := bind_eq_ok.1 h
    obtain ⟨hw, hq, -⟩ := fieldsFromWaveAmplitudes_eq_ok.1 h1
    exact ⟨hw, hq⟩
  · rintro ⟨hw, hq⟩
    exact ⟨_, bind_eq_ok.2 ⟨_, fieldsFromWaveAmplitudes_eq_ok.2 ⟨hw, hq, rfl⟩,
      bind_eq_ok.2 ⟨_, fieldsOnCoordinates_eq_ok.2 ⟨hw.2.1, rfl⟩, rfl⟩⟩⟩

/-- **C45** Sequences of unequal lengths raise ValueError, whatever their contents. -/
theorem C45_lengths_rejected {n : ℕ} (amps : List (Matrix (ι ⊕ ι) (Fin n) ℂ × Matrix (ι ⊕ ι) (Fin n) ℂ))
    (layers : List (LayerSolveResult ι)) (ds : List ℝ) (znum : List ℕ) (slice : FieldsXYSliceFn ι κ)
    (h : ¬(layers.length = amps.length ∧ ds.length = amps.length ∧ znum.length = amps.length)) :
    stackFields3d amps layers ds znum slice = .error .valueError := by
  unfold stackFields3d
  rw [if_pos (by tauto)]

example (a b : Matrix (Fin 1 ⊕ Fin 1) (Fin 2) ℂ) :
    ∃ g xy z, layerFields3dOnGrid a b (Examples.exLayer 2) 3 5 (2, 3) (4, 1) = .ok (g, xy, z) ∧
      layerFields3dOnCoordinates a b (Examples.exLayer 2) 3 5 xy = .ok (g, xy, z) := by
  have hG : Function.Injective (Examples.exLayer 2).expansion := fun i j _ => Subsingleton.elim i j
  obtain ⟨⟨g, xy, z⟩, h⟩ := (C46_layer_grid_succeeds_iff a b (Examples.exLayer 2) 3 5 (2, 3) (4, 1) hG).2
    ⟨Examples.exLayer_wellPosed two_ne_zero, fun _ => two_ne_zero, ⟨⟨0⟩, by simp [Examples.exLayer]⟩⟩
  exact ⟨g, xy, z, h, (C44_layer_3d_grid_eq_coordinates hG h).1⟩

end Fmmax
