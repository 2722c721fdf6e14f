import Verif.Proofs.Expansion
import Verif.Props.Fields3d

/-! Property theorem C79: the automatic grid of `stack_fields_3d_auto_grid`. -/

set_option linter.unusedSectionVars false

namespace Fmmax

open Spec Matrix

variable {ι : Type} [Fintype ι] [DecidableEq ι]

/-- `n` points at distance `spacing` come closest to the extent `x`; of two equally close numbers the even one is meant. -/
def Spec.IsNearestCount (spacing x : ℝ) (n : ℕ) : Prop :=
  |n * spacing - x| ≤ spacing / 2 ∧ (|n * spacing - x| = spacing / 2 → Even n)

theorem isNearestCount_unique {s x : ℝ} (hs : 0 < s) {n m : ℕ} (hn : IsNearestCount s x n) (hm : IsNearestCount s x m) :
    n = m := by
  wlog h : n < m generalizing n m
  · rcases lt_trichotomy n m with h' | h' | h'
    · exact absurd h' h
    · exact h'
    · exact (this hm hn h').symm
  have h1 := abs_le.1 hn.1
  have h2 := abs_le.1 hm.1
  obtain ⟨k, rfl⟩ : ∃ k, m = n + 1 + k := ⟨m - n - 1, by omega⟩
  push_cast at h2
  have hk : (0 : ℝ) ≤ k := Nat.cast_nonneg k
  have hk0 : (k : ℝ) * s ≤ 0 := by nlinarith
  have hk1 : (k : ℝ) = 0 := by
    by_contra h0
    have : 0 < (k : ℝ) := lt_of_le_of_ne hk (Ne.symm h0)
    nlinarith
  have hk2 : k = 0 := by exact_mod_cast hk1
  subst hk2
  simp only [Nat.cast_zero, add_zero] at h2
  have e1 : |(n : ℝ) * s - x| = s / 2 := by
    rw [abs_of_nonpos (by linarith)]; linarith
  have e2 : |((n + 1 + 0 : ℕ) : ℝ) * s - x| = s / 2 := by
    push_cast
    rw [abs_of_nonneg (by linarith)]; linarith
  have := hn.2 e1
  have h4 := hm.2 e2
  rw [add_zero, Nat.even_add_one] at h4
  exact absurd this h4

theorem numGridpoints_eq_ok {s x : ℝ} (hs : 0 < s) (hx : 0 ≤ x) {n : ℕ} :
    numGridpoints x s = .ok n ↔ IsNearestCount s x n := by
  have h0 : 0 ≤ roundHalfEven (x / s) := roundHalfEven_nonneg (by positivity)
  obtain ⟨m, hm⟩ := Int.eq_ofNat_of_zero_le h0
  have hval : numGridpoints x s = .ok m := by
    unfold numGridpoints
    rw [if_neg hs.ne', if_neg (by omega), hm]
    rfl
  have hsc : |(m : ℝ) * s - x| = |(m : ℝ) - x / s| * s := by
    rw [← abs_of_pos hs, ← abs_mul, abs_of_pos hs]
    congr 1
    field_simp
  have hnear : IsNearestCount s x m := by
    have h1 := roundHalfEven_near (x / s)
    have h2 := roundHalfEven_tie (x := x / s)
    rw [hm] at h1 h2
    simp only [Int.cast_natCast] at h1 h2
    refine ⟨by rw [hsc]; nlinarith, fun h => ?_⟩
    rw [hsc] at h
    have := h2 (by field_simp at h ⊢; linarith)
    exact_mod_cast this
  rw [hval]
  exact ⟨fun h => by rw [← ok_inj.1 h]; exact hnear, fun h => by rw [isNearestCount_unique hs hnear h]⟩

theorem layerGridpoints_eq_ok {s : ℝ} (hs : 0 < s) {ds : List ℝ} (hd : ∀ d ∈ ds, 0 ≤ d) {ns : List ℕ} :
    layerGridpoints s ds = .ok ns ↔ List.Forall₂ (fun d n => IsNearestCount s d n) ds ns := by
  induction ds generalizing ns with
  | nil =>
    simp only [layerGridpoints, ok_inj, List.forall₂_nil_left_iff]
    exact eq_comm
  | cons d ds ih =>
    simp only [layerGridpoints, bind_eq_ok, ok_inj]
    have hd' : ∀ d ∈ ds, 0 ≤ d := fun x hx => hd x (List.mem_cons_of_mem _ hx)
    constructor
    · rintro ⟨n, h1, ns', h2, rfl⟩
      exact .cons ((numGridpoints_eq_ok hs (hd d (by simp))).1 h1) ((ih hd').1 h2)
    · intro h
      cases h with
      | cons h1 h2 => exact ⟨_, (numGridpoints_eq_ok hs (hd d (by simp))).2 h1, _, (ih hd').2 h2, rfl⟩

/-- The xy coordinates of the stack are those of its last layer. -/
theorem stackFieldsLoop_xy {κ : Type} {n : ℕ} {slice : FieldsXYSliceFn ι κ} {P : (κ → ℝ × ℝ) → Prop}
    (reqs : List (LayerRequest ι n))
    (hP : ∀ r ∈ reqs, ∀ m F g xy, slice m F r.layer = .ok (g, xy) → P xy) :
    ∀ {z0 : ℝ} {xy0} {gs zs xy}, stackFieldsLoop slice z0 xy0 reqs = .ok (gs, zs, some xy) → (∀ x, xy0 = some x → P x) → P xy := by
  induction reqs with
  | nil =>
    intro z0 xy0 gs zs xy h h0
    have := ok_inj.1 h
    exact h0 _ (congrArg (fun t => t.2.2) this)
  | cons r rest ih =>
    intro z0 xy0 gs zs xy h h0
    unfold stackFieldsLoop at h
    obtain ⟨⟨g, xy1, zo⟩, h1, h2⟩ := bind_eq_ok.1 h
    obtain ⟨⟨gs', zs', xy2⟩, h3, h4⟩ := bind_eq_ok.1 h2
    have := ok_inj.1 h4
    obtain rfl : xy2 = some xy := congrArg (fun t => t.2.2) this
    refine ih (fun r hr => hP r (List.mem_cons_of_mem _ hr)) h3 ?_
    rintro x hx
    cases hx
    unfold layerFields3d at h1
    simp only at h1
    obtain ⟨f, -, h5⟩ := bind_eq_ok.1 h1
    obtain ⟨⟨g', xy'⟩, h6, h7⟩ := bind_eq_ok.1 h5
    have := ok_inj.1 h7
    obtain rfl : xy' = xy1 := congrArg (fun t => t.2.1) this
    exact hP r (by simp) _ _ _ _ h6

/-- C79: for a positive spacing, `stack_fields_3d_auto_grid` is `stack_fields_3d` with the number of gridpoints, along each
lattice vector of the first layer and in each layer, that comes closest to the requested spacing.  It succeeds exactly if
`stack_fields_3d` succeeds with these numbers. -/
theorem C79_auto_grid {n : ℕ} {amps : List (Matrix (ι ⊕ ι) (Fin n) ℂ × Matrix (ι ⊕ ι) (Fin n) ℂ)} {l : LayerSolveResult ι}
    {rest : List (LayerSolveResult ι)} {ds : List ℝ} {spacing : ℝ} (hs : 0 < spacing) (hd : ∀ d ∈ ds, 0 ≤ d) {cells : ℕ × ℕ}
    {R : AutoGridFields ι n cells} :
    stackFields3dAutoGrid amps (l :: rest) ds spacing cells = .ok R ↔
      IsNearestCount spacing (length l.primitiveLatticeVectors.u) R.shape.1 ∧
      IsNearestCount spacing (length l.primitiveLatticeVectors.v) R.shape.2 ∧
      List.Forall₂ (fun d m => IsNearestCount spacing d m) ds R.znum ∧
      stackFields3d amps (l :: rest) ds R.znum (gridSlice R.shape cells) = .ok (R.fields, R.z, R.xy) := by
  have hu : 0 ≤ length l.primitiveLatticeVectors.u := Real.sqrt_nonneg _
  have hv : 0 ≤ length l.primitiveLatticeVectors.v := Real.sqrt_nonneg _
  simp only [stackFields3dAutoGrid, bind_eq_ok]
  constructor
  · rintro ⟨nu, h1, nv, h2, zn, h3, ⟨g, z, xy⟩, h4, h5⟩
    have := ok_inj.1 h5
    subst this
    exact ⟨(numGridpoints_eq_ok hs hu).1 h1, (numGridpoints_eq_ok hs hv).1 h2, (layerGridpoints_eq_ok hs hd).1 h3, h4⟩
  · rintro ⟨h1, h2, h3, h4⟩
    exact ⟨_, (numGridpoints_eq_ok hs hu).2 h1, _, (numGridpoints_eq_ok hs hv).2 h2, _, (layerGridpoints_eq_ok hs hd).2 h3,
      _, h4, rfl⟩

/-- C79: adjacent gridpoints along the lattice vectors are `u / nx` and `v / ny` apart, which is the requested spacing up to the
factor `1 ± 1 / (2 nx)` or `1 ± 1 / (2 ny)`, if the layers have the same lattice. -/
theorem C79_xy_spacing {n : ℕ} {amps : List (Matrix (ι ⊕ ι) (Fin n) ℂ × Matrix (ι ⊕ ι) (Fin n) ℂ)}
    {layers : List (LayerSolveResult ι)} {ds : List ℝ} {spacing : ℝ} (hs : 0 < spacing) (hd : ∀ d ∈ ds, 0 ≤ d) {cells : ℕ × ℕ}
    {R : AutoGridFields ι n cells} (h : stackFields3dAutoGrid amps layers ds spacing cells = .ok R)
    {lat : LatticeVectors} (hl : ∀ l ∈ layers, l.primitiveLatticeVectors = lat) :
    (∀ p, R.xy p = latticePoint lat ((p.1 : ℕ) / (R.shape.1 : ℝ)) ((p.2 : ℕ) / (R.shape.2 : ℝ))) ∧
      (0 < R.shape.1 → (1 - 1 / (2 * R.shape.1)) * spacing ≤ length lat.u / R.shape.1 ∧
        length lat.u / R.shape.1 ≤ (1 + 1 / (2 * R.shape.1)) * spacing) ∧
      (0 < R.shape.2 → (1 - 1 / (2 * R.shape.2)) * spacing ≤ length lat.v / R.shape.2 ∧
        length lat.v / R.shape.2 ≤ (1 + 1 / (2 * R.shape.2)) * spacing) := by
  cases layers with
  | nil => cases h
  | cons l rest =>
    obtain ⟨h1, h2, -, h4⟩ := (C79_auto_grid hs hd).1 h
    rw [hl l (by simp)] at h1 h2
    have bounds : ∀ {x : ℝ} {m : ℕ}, IsNearestCount spacing x m → 0 < m →
        (1 - 1 / (2 * (m : ℝ))) * spacing ≤ x / m ∧ x / m ≤ (1 + 1 / (2 * (m : ℝ))) * spacing := by
      intro x m hm h0
      have h0' : (0 : ℝ) < m := by exact_mod_cast h0
      have := abs_le.1 hm.1
      constructor
      · rw [le_div_iff₀ h0']
        have : (1 - 1 / (2 * (m : ℝ))) * spacing * m = m * spacing - spacing / 2 := by field_simp
        linarith
      · rw [div_le_iff₀ h0']
        have : (1 + 1 / (2 * (m : ℝ))) * spacing * m = m * spacing + spacing / 2 := by field_simp
        linarith
    refine ⟨?_, bounds h1, bounds h2⟩
    obtain ⟨e1, e2, e3, e4⟩ := stackFields3d_eq_ok.1 h4
    obtain ⟨-, -, z3, -⟩ := zipRequests_spec e1 e2 e3
    refine stackFieldsLoop_xy (P := fun xy => ∀ p, xy p =
      latticePoint lat ((p.1 : ℕ) / (R.shape.1 : ℝ)) ((p.2 : ℕ) / (R.shape.2 : ℝ))) _ ?_ e4 (by simp)
    intro r hr m F g xy hg p
    have hlat : r.layer.primitiveLatticeVectors = lat := hl _ (by rw [← z3]; exact List.mem_map_of_mem hr)
    unfold gridSlice fieldsOnGrid at hg
    obtain ⟨g', -, hg'⟩ := bind_eq_ok.1 hg
    have := congrArg Prod.snd (ok_inj.1 hg')
    simp only at this
    rw [← this, hlat]
    rfl

/-- C79: in a layer with `m ≥ 2` gridpoints, adjacent gridpoints are `thickness / (m - 1)` apart, because both ends of the
layer are gridpoints. This is between `(m - 1/2) / (m - 1)` and `(m + 1/2) / (m - 1)` of the requested spacing, so that the
spacing along z is always larger than requested. -/
theorem C79_z_spacing {n : ℕ} {amps : List (Matrix (ι ⊕ ι) (Fin n) ℂ × Matrix (ι ⊕ ι) (Fin n) ℂ)}
    {layers : List (LayerSolveResult ι)} {ds : List ℝ} {spacing : ℝ} (hs : 0 < spacing) (hd : ∀ d ∈ ds, 0 ≤ d) {cells : ℕ × ℕ}
    {R : AutoGridFields ι n cells} (h : stackFields3dAutoGrid amps layers ds spacing cells = .ok R) {j m : ℕ}
    (hj : R.znum[j]? = some m) (hm : 2 ≤ m) :
    ∃ step : ℝ, (∀ k < m, R.z[(R.znum.take j).sum + k]? = some ((ds.take j).sum + k * step)) ∧
      (m - 1 / 2) / (m - 1) * spacing ≤ step ∧ step ≤ (m + 1 / 2) / (m - 1) * spacing ∧ spacing < step := by
  cases layers with
  | nil => cases h
  | cons l rest =>
    obtain ⟨-, -, h3, h4⟩ := (C79_auto_grid hs hd).1 h
    obtain ⟨-, -, c3, -, c5, c6, -⟩ := C45_z_coordinates h4
    obtain ⟨hj', hjm⟩ := List.getElem?_eq_some_iff.1 hj
    obtain ⟨step, hstep⟩ := c6 j hj'
    rw [hjm] at hstep
    refine ⟨step, hstep, ?_⟩
    have hend := c5 j hj' (by omega)
    rw [hjm, hstep (m - 1) (by omega)] at hend
    have hjd : j < ds.length := by omega
    have hnear : IsNearestCount spacing ds[j] m := by
      have := h3.get hjd hj'
      simpa [hjm] using this
    have hsum : (ds.take (j + 1)).sum = (ds.take j).sum + ds[j] := by
      rw [List.take_succ, List.sum_append, List.getElem?_eq_getElem hjd]
      simp
    have e := Option.some.inj hend
    rw [hsum, Nat.cast_sub (by omega), Nat.cast_one] at e
    have hm' : (2 : ℝ) ≤ m := by exact_mod_cast hm
    have hm1 : (0 : ℝ) < (m : ℝ) - 1 := by linarith
    have hst : step = ds[j] / (m - 1) := by
      rw [eq_div_iff hm1.ne']; linarith
    have hb := abs_le.1 hnear.1
    have e1 : (m - 1 / 2) / (m - 1) * spacing ≤ step := by
      rw [hst, div_mul_eq_mul_div, div_le_div_iff_of_pos_right hm1]
      linarith
    refine ⟨e1, ?_, lt_of_lt_of_le ?_ e1⟩
    · rw [hst, div_mul_eq_mul_div, div_le_div_iff_of_pos_right hm1]
      linarith
    · rw [div_mul_eq_mul_div, lt_div_iff₀ hm1]
      linarith

/-- C79, side finding: a layer of at most half the requested spacing has no gridpoints at all: the coordinates of the layers
before and after it are adjacent in the result. -/
theorem C79_finding_thin_layer {n : ℕ} {amps : List (Matrix (ι ⊕ ι) (Fin n) ℂ × Matrix (ι ⊕ ι) (Fin n) ℂ)}
    {layers : List (LayerSolveResult ι)} {ds : List ℝ} {spacing : ℝ} (hs : 0 < spacing) (hd : ∀ d ∈ ds, 0 ≤ d) {cells : ℕ × ℕ}
    {R : AutoGridFields ι n cells} (h : stackFields3dAutoGrid amps layers ds spacing cells = .ok R) {j : ℕ} {d : ℝ}
    (hj : ds[j]? = some d) (hthin : d ≤ spacing / 2) : R.znum[j]? = some 0 := by
  cases layers with
  | nil => cases h
  | cons l rest =>
    obtain ⟨-, -, h3, h4⟩ := (C79_auto_grid hs hd).1 h
    obtain ⟨hjd, rfl⟩ := List.getElem?_eq_some_iff.1 hj
    have hlen := h3.length_eq
    have hj' : j < R.znum.length := by omega
    have hnear : IsNearestCount spacing ds[j] R.znum[j] := by
      have := h3.get hjd hj'
      simpa using this
    have h0 : IsNearestCount spacing ds[j] 0 := by
      have : 0 ≤ ds[j] := hd _ (List.getElem_mem _)
      refine ⟨?_, fun _ => Even.zero⟩
      rw [Nat.cast_zero, zero_mul, zero_sub, abs_neg, abs_of_nonneg this]
      exact hthin
    rw [List.getElem?_eq_getElem hj', isNearestCount_unique hs hnear h0]

/-- A stack of two layers of thickness 1 and 1/10 on a unit cell of size one with spacing 1/4: four points along the
lattice vectors and in the first layer, none in the second. -/
example (a b : Matrix (Fin 1 ⊕ Fin 1) (Fin 2) ℂ) :
    ∃ R, stackFields3dAutoGrid [(a, b), (b, a)] [Examples.exLayer 1, Examples.exLayer 2] [1, 1 / 10] (1 / 4) (2, 1) = .ok R ∧
      R.shape = (4, 4) ∧ R.znum = [4, 0] ∧ R.z.length = 4 := by
  have ok : ∀ (q : ℂ), q ≠ 0 → ∀ (a b : Matrix (Fin 1 ⊕ Fin 1) (Fin 2) ℂ) (d : ℝ) (n : ℕ),
      ∃ R, layerFields3d a b (Examples.exLayer q) d n (gridSlice (4, 4) (2, 1)) = .ok R := by
    intro q hq a b d n
    exact (C46_layer_grid_succeeds_iff a b (Examples.exLayer q) d n (4, 4) (2, 1)
      (fun i j _ => Subsingleton.elim i j)).2
      ⟨Examples.exLayer_wellPosed hq, fun _ => hq, ⟨⟨0⟩, by simp [Examples.exLayer]⟩⟩
  have h : ∃ R, stackFields3d [(a, b), (b, a)] [Examples.exLayer 1, Examples.exLayer 2] [1, 1 / 10] [4, 0]
      (gridSlice (4, 4) (2, 1)) = .ok R := by
    refine (C45_succeeds_iff _ _ _ _ _).2 ⟨rfl, rfl, rfl, by simp, ?_⟩
    simp only [zipRequests, List.forall_mem_cons]
    exact ⟨ok 1 one_ne_zero a b 1 4, ok 2 two_ne_zero b a (1 / 10) 0, by simp⟩
  obtain ⟨⟨gs, zs, xy⟩, h⟩ := h
  obtain ⟨c1, -⟩ := C45_z_coordinates h
  have n4 : IsNearestCount (1 / 4) 1 4 := by norm_num [IsNearestCount]
  refine ⟨⟨(4, 4), [4, 0], gs, zs, xy⟩, (C79_auto_grid (by norm_num) (by norm_num)).2 ⟨?_, ?_, ?_, h⟩, rfl, rfl, c1⟩
  · convert n4 using 1
    norm_num [length, Examples.exLayer]
  · convert n4 using 1
    norm_num [length, Examples.exLayer]
  · refine .cons n4 (.cons ?_ .nil)
    norm_num [IsNearestCount, abs_of_pos]

end Fmmax
