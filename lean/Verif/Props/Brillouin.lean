import Verif.Props.Expansion
import Verif.Props.Lattice
import Verif.Model.Angles

/-! Property theorems C10, C11, C13, C65, C72: Brillouin-zone grids and propagation angles. -/

set_option linter.unusedSectionVars false

namespace Fmmax

open Spec

theorem arangeReal_length {n : ℕ} (hn : 1 ≤ n) :
    ⌈(0.5 - (-0.5 + 1 / (n : ℝ) / 2)) / (1 / (n : ℝ))⌉₊ = n := by
  have hn' : (0 : ℝ) < n := by exact_mod_cast hn
  have e : (0.5 - (-0.5 + 1 / (n : ℝ) / 2)) / (1 / (n : ℝ)) = n - 1 / 2 := by
    field_simp
    ring
  rw [e, Nat.ceil_eq_iff (by omega)]
  constructor
  · rw [Nat.cast_sub hn]; push_cast; linarith
  · linarith

theorem arangeReal_centered {n : ℕ} (hn : 1 ≤ n) :
    arangeReal (-0.5 + 1 / (n : ℝ) / 2) 0.5 (1 / (n : ℝ)) =
      (List.range n).map fun i => ((i : ℕ) + 1 / 2 : ℝ) / n - 1 / 2 := by
  unfold arangeReal
  rw [arangeReal_length hn]
  apply List.map_congr_left
  intro i _
  ring

/-! ### C10 -/

/-- **C10** The grid has the requested shape, and its `(i, j)` entry is the wavevector with
`k·u = 2π((i + 1/2)/nx - 1/2)`, `k·v = 2π((j + 1/2)/ny - 1/2)` (which determines it). -/
theorem C10_brillouin_grid (l : LatticeVectors) (h : Independent l.u l.v) (nx ny : ℕ) (hx : 1 ≤ nx) (hy : 1 ≤ ny) :
    ∃ g, brillouinZoneInPlaneWavevector [(nx : ℤ), (ny : ℤ)] l = .ok g ∧ g.length = nx ∧
      ∀ (i : ℕ) (row : List (ℝ × ℝ)), g[i]? = some row → row.length = ny ∧
        ∀ (j : ℕ) (k : ℝ × ℝ), row[j]? = some k →
          dot k l.u = 2 * Real.pi * (((i : ℝ) + 1 / 2) / nx - 1 / 2) ∧
          dot k l.v = 2 * Real.pi * (((j : ℝ) + 1 / 2) / ny - 1 / 2) := by
  obtain ⟨r, hr, h1, h2, h3, h4, -⟩ := C01_reciprocal_dual l h
  unfold brillouinZoneInPlaneWavevector
  simp only
  rw [if_neg (by unfold tupleLtOnes; omega), if_neg (by omega), hr]
  refine ⟨_, rfl, ?_, ?_⟩
  · simp only [Int.cast_natCast, arangeReal_centered hx]
    simp
  · intro i row hrow
    simp only [Int.cast_natCast, arangeReal_centered hx, arangeReal_centered hy, List.map_map] at hrow
    rw [List.getElem?_map] at hrow
    obtain ⟨i', hi', rfl⟩ := Option.map_eq_some_iff.1 hrow
    obtain ⟨hi1, hi2⟩ := List.getElem?_eq_some_iff.1 hi'
    rw [List.getElem_range] at hi2
    subst hi2
    refine ⟨by simp, ?_⟩
    intro j k hk
    simp only [Function.comp_apply] at hk
    rw [List.getElem?_map] at hk
    obtain ⟨j', hj', rfl⟩ := Option.map_eq_some_iff.1 hk
    obtain ⟨hj1, hj2⟩ := List.getElem?_eq_some_iff.1 hj'
    rw [List.getElem_range] at hj2
    subst hj2
    simp only [dot, Function.comp_apply] at h1 h2 h3 h4 ⊢
    generalize ((i : ℝ) + 1 / 2) / nx - 1 / 2 = s at *
    generalize ((j : ℝ) + 1 / 2) / ny - 1 / 2 = t at *
    constructor
    · linear_combination 2 * Real.pi * s * h1 + 2 * Real.pi * t * h3
    · linear_combination 2 * Real.pi * s * h2 + 2 * Real.pi * t * h4

/-- Entry of the grid. -/
theorem brillouin_entry (l : LatticeVectors) (h : Independent l.u l.v) (nx ny : ℕ) (hx : 1 ≤ nx) (hy : 1 ≤ ny)
    (g : List (List (ℝ × ℝ))) (hg : brillouinZoneInPlaneWavevector [(nx : ℤ), (ny : ℤ)] l = .ok g)
    {i j : ℕ} (hi : i < nx) (hj : j < ny) :
    ∃ row k, g[i]? = some row ∧ row[j]? = some k ∧
      dot k l.u = 2 * Real.pi * (((i : ℝ) + 1 / 2) / nx - 1 / 2) ∧
      dot k l.v = 2 * Real.pi * (((j : ℝ) + 1 / 2) / ny - 1 / 2) := by
  obtain ⟨g', hg', hlen, hrows⟩ := C10_brillouin_grid l h nx ny hx hy
  rw [hg] at hg'
  cases hg'
  have hi' : i < g.length := by omega
  have e : g[i]? = some g[i] := List.getElem?_eq_getElem hi'
  obtain ⟨hl, hk⟩ := hrows i _ e
  have hj' : j < g[i].length := by omega
  have e2 : g[i][j]? = some g[i][j] := List.getElem?_eq_getElem hj'
  exact ⟨_, _, e, e2, hk j _ e2⟩

theorem dot_injective {u v a b : ℝ × ℝ} (h : Independent u v) (h1 : dot a u = dot b u) (h2 : dot a v = dot b v) :
    a = b := by
  simp only [dot] at h1 h2
  have hD : u.1 * v.2 - u.2 * v.1 ≠ 0 := h
  ext
  · apply mul_right_cancel₀ hD
    linear_combination v.2 * h1 - u.2 * h2
  · apply mul_right_cancel₀ hD
    linear_combination u.1 * h2 - v.1 * h1

/-- **C10** Every grid point lies strictly inside the zone, the grid is symmetric under inversion, and two grid points which
differ by a reciprocal lattice vector (they have equal phase under both lattice translations) are the same point. -/
theorem C10_brillouin_grid_zone (l : LatticeVectors) (h : Independent l.u l.v) (nx ny : ℕ) (hx : 1 ≤ nx) (hy : 1 ≤ ny)
    (g : List (List (ℝ × ℝ))) (hg : brillouinZoneInPlaneWavevector [(nx : ℤ), (ny : ℤ)] l = .ok g)
    (i j : ℕ) (row : List (ℝ × ℝ)) (k : ℝ × ℝ) (hrow : g[i]? = some row) (hk : row[j]? = some k) :
    (|dot k l.u| < Real.pi ∧ |dot k l.v| < Real.pi) ∧
    (∃ row', g[nx - 1 - i]? = some row' ∧ row'[ny - 1 - j]? = some (-k)) ∧
    (∀ (i' j' : ℕ) (row' : List (ℝ × ℝ)) (k' : ℝ × ℝ), g[i']? = some row' → row'[j']? = some k' →
      (∃ m n : ℤ, dot k' l.u - dot k l.u = 2 * Real.pi * m ∧ dot k' l.v - dot k l.v = 2 * Real.pi * n) →
      i' = i ∧ j' = j) := by
  obtain ⟨g', hg', hlen, hrows⟩ := C10_brillouin_grid l h nx ny hx hy
  rw [hg] at hg'
  cases hg'
  have hi : i < nx := by rw [← hlen]; exact (List.getElem?_eq_some_iff.1 hrow).1
  obtain ⟨hrl, hks⟩ := hrows i row hrow
  have hj : j < ny := by rw [← hrl]; exact (List.getElem?_eq_some_iff.1 hk).1
  obtain ⟨hku, hkv⟩ := hks j k hk
  have hpi := Real.pi_pos
  have key : ∀ {n a : ℕ}, a < n → |2 * Real.pi * (((a : ℝ) + 1 / 2) / n - 1 / 2)| < Real.pi := by
    intro n a ha
    have hn : (0 : ℝ) < n := by exact_mod_cast (by omega : 0 < n)
    have h1 : ((a : ℝ) + 1 / 2) / n < 1 := by
      rw [div_lt_one hn]
      have : (a : ℝ) + 1 ≤ n := by exact_mod_cast ha
      linarith
    have h2 : 0 < ((a : ℝ) + 1 / 2) / n := by positivity
    rw [abs_lt]
    constructor <;> nlinarith
  refine ⟨⟨by rw [hku]; exact key hi, by rw [hkv]; exact key hj⟩, ?_, ?_⟩
  · obtain ⟨row', k', e1, e2, e3, e4⟩ :=
      brillouin_entry l h nx ny hx hy g hg (i := nx - 1 - i) (j := ny - 1 - j) (by omega) (by omega)
    refine ⟨row', e1, ?_⟩
    rw [e2]
    congr 1
    have flip : ∀ {n a : ℕ}, a < n → (((n - 1 - a : ℕ) : ℝ) + 1 / 2) / n - 1 / 2 = -(((a : ℝ) + 1 / 2) / n - 1 / 2) := by
      intro n a ha
      have hn : (n : ℝ) ≠ 0 := by exact_mod_cast (by omega : n ≠ 0)
      have : ((n - 1 - a : ℕ) : ℝ) = n - 1 - a := by
        rw [Nat.cast_sub (by omega), Nat.cast_sub (by omega)]; simp
      rw [this]
      field_simp
      ring
    rw [flip hi] at e3
    rw [flip hj] at e4
    apply dot_injective h
    · have : dot (-k) l.u = -dot k l.u := by simp [dot]; ring
      rw [this, e3, hku]; ring
    · have : dot (-k) l.v = -dot k l.v := by simp [dot]; ring
      rw [this, e4, hkv]; ring
  · intro i' j' row' k' e1 e2 ⟨m, n, hm, hn⟩
    have hi' : i' < nx := by rw [← hlen]; exact (List.getElem?_eq_some_iff.1 e1).1
    obtain ⟨hrl', hks'⟩ := hrows i' row' e1
    have hj' : j' < ny := by rw [← hrl']; exact (List.getElem?_eq_some_iff.1 e2).1
    obtain ⟨hku', hkv'⟩ := hks' j' k' e2
    rw [hku, hku'] at hm
    rw [hkv, hkv'] at hn
    have key2 : ∀ {N a b : ℕ} {m : ℤ}, a < N → b < N →
        2 * Real.pi * (((b : ℝ) + 1 / 2) / N - 1 / 2) - 2 * Real.pi * (((a : ℝ) + 1 / 2) / N - 1 / 2) = 2 * Real.pi * m →
        b = a := by
      intro N a b m ha hb hmm
      have hN : (N : ℝ) ≠ 0 := by exact_mod_cast (by omega : N ≠ 0)
      have h2pi : (2 * Real.pi : ℝ) ≠ 0 := by positivity
      have e : ((b : ℝ) - a) / N = m := by
        apply mul_left_cancel₀ h2pi
        linear_combination hmm
      rw [div_eq_iff hN] at e
      have e' : (b : ℤ) - a = m * N := by exact_mod_cast e
      have hm0 : m = 0 := by
        by_contra hne
        rcases lt_or_gt_of_ne hne with hlt | hgt
        · have : m * N ≤ -1 * N := by nlinarith
          omega
        · have : 1 * (N : ℤ) ≤ m * N := by nlinarith
          omega
      rw [hm0] at e'
      omega
    exact ⟨key2 hi hi' hm, key2 hj hj' hn⟩

example : ∃ g, brillouinZoneInPlaneWavevector [3, 4] obliqueCell = .ok g ∧ g.length = 3 := by
  obtain ⟨g, h1, h2, -⟩ := C10_brillouin_grid obliqueCell obliqueCell_independent 3 4 (by norm_num) (by norm_num)
  exact ⟨g, h1, h2⟩

/-! ### C11 -/

/-- **C11 (finding)** The tuple comparison is lexicographic: `(2, 0)` raises ZeroDivisionError rather than ValueError and
`(2, -1)` silently returns an empty grid. -/
theorem C11_false_for_lexicographic_check (l : LatticeVectors) (h : Independent l.u l.v) :
    brillouinZoneInPlaneWavevector [2, 0] l = .error .zeroDivision ∧
    brillouinZoneInPlaneWavevector [2, -1] l = .ok [[], []] := by
  obtain ⟨r, hr⟩ := reciprocal_of_independent h
  constructor
  · unfold brillouinZoneInPlaneWavevector tupleLtOnes
    norm_num
  · unfold brillouinZoneInPlaneWavevector tupleLtOnes
    simp only
    rw [if_neg (by norm_num), if_neg (by norm_num), hr]
    have e := arangeReal_centered (n := 2) (by norm_num)
    have e2 : arangeReal (-0.5 + 1 / ((-1 : ℤ) : ℝ) / 2) 0.5 (1 / ((-1 : ℤ) : ℝ)) = [] := by
      unfold arangeReal
      have : ⌈((0.5 : ℝ) - (-0.5 + 1 / ((-1 : ℤ) : ℝ) / 2)) / (1 / ((-1 : ℤ) : ℝ))⌉₊ = 0 := by
        rw [Nat.ceil_eq_zero]
        norm_num
      rw [this]
      rfl
    rw [e2]
    have e3 : ((2 : ℤ) : ℝ) = ((2 : ℕ) : ℝ) := by norm_num
    rw [e3, e]
    rfl

/-- **C11 (partial)** ValueError is raised exactly when the shape does not have two entries, or the first entry is smaller
than one, or the first entry is one and the second smaller than one.  *Missing:* a non-positive second entry with a first
entry of at least two (false). -/
theorem C11_shape_rejection_partial (l : LatticeVectors) (shape : List ℤ) :
    brillouinZoneInPlaneWavevector shape l = .error .valueError ↔
      ¬ ∃ a b, shape = [a, b] ∧ 1 ≤ a ∧ (2 ≤ a ∨ 1 ≤ b) := by
  match shape with
  | [] => simp [brillouinZoneInPlaneWavevector]
  | [a] => simp [brillouinZoneInPlaneWavevector]
  | a :: b :: c :: t => simp [brillouinZoneInPlaneWavevector]
  | [a, b] =>
    unfold brillouinZoneInPlaneWavevector
    simp only
    by_cases ht : tupleLtOnes a b
    · rw [if_pos ht]
      unfold tupleLtOnes at ht
      simp only [true_iff]
      rintro ⟨a', b', h, h1, h2⟩
      simp only [List.cons.injEq, and_true] at h
      omega
    · rw [if_neg ht]
      unfold tupleLtOnes at ht
      have : ∃ a' b', [a, b] = [a', b'] ∧ 1 ≤ a' ∧ (2 ≤ a' ∨ 1 ≤ b') := ⟨a, b, rfl, by omega, by omega⟩
      simp only [this, not_true_eq_false, iff_false]
      split_ifs with hz
      · simp
      · unfold reciprocal
        simp only
        split_ifs <;> simp [bind, Except.bind]

/-- With both entries positive a grid is returned (no false rejections). -/
theorem C11_positive_shapes_accepted (l : LatticeVectors) (h : Independent l.u l.v) (a b : ℤ) (ha : 1 ≤ a) (hb : 1 ≤ b) :
    ∃ g, brillouinZoneInPlaneWavevector [a, b] l = .ok g := by
  obtain ⟨g, hg, -⟩ := C10_brillouin_grid l h a.toNat b.toNat (by omega) (by omega)
  rw [Int.toNat_of_nonneg (by omega), Int.toNat_of_nonneg (by omega)] at hg
  exact ⟨g, hg⟩

example : brillouinZoneInPlaneWavevector [0, 5] obliqueCell = .error .valueError :=
  (C11_shape_rejection_partial _ _).2 (by rintro ⟨a, b, h, h1, -⟩; simp at h; omega)

/-! ### C13 -/

theorem planeWave_eq {wavelength : ℝ} (hw : 0 < wavelength) (polar azimuthal : ℝ) {eps : ℂ} (he : 0 ≤ eps.re) :
    planeWaveInPlaneWavevector wavelength polar azimuthal eps =
      .ok (2 * Real.pi / wavelength * Real.sin polar * Real.cos azimuthal * Real.sqrt eps.re,
        2 * Real.pi / wavelength * Real.sin polar * Real.sin azimuthal * Real.sqrt eps.re) := by
  unfold planeWaveInPlaneWavevector angularFrequency
  rw [if_neg hw.ne']
  simp only [bind, Except.bind]
  rw [if_neg (not_lt.2 he)]

/-- **C13** In any medium the wavevector has magnitude `ω sin θ √(Re ε)` and points along the azimuth. -/
theorem C13_plane_wave_magnitude (wavelength polar azimuthal : ℝ) (eps : ℂ) (hw : 0 < wavelength) (he : 0 ≤ eps.re)
    (hp : 0 ≤ polar ∧ polar ≤ Real.pi) :
    ∃ k, planeWaveInPlaneWavevector wavelength polar azimuthal eps = .ok k ∧
      length k = 2 * Real.pi / wavelength * Real.sin polar * Real.sqrt eps.re ∧
      k = (length k * Real.cos azimuthal, length k * Real.sin azimuthal) := by
  refine ⟨_, planeWave_eq hw polar azimuthal he, ?_⟩
  have hs := Real.sin_nonneg_of_nonneg_of_le_pi hp.1 hp.2
  have hpi := Real.pi_pos
  have e : length (2 * Real.pi / wavelength * Real.sin polar * Real.cos azimuthal * Real.sqrt eps.re,
      2 * Real.pi / wavelength * Real.sin polar * Real.sin azimuthal * Real.sqrt eps.re) =
      2 * Real.pi / wavelength * Real.sin polar * Real.sqrt eps.re := by
    unfold length
    rw [Real.sqrt_eq_iff_eq_sq (by positivity) (by positivity)]
    simp only
    linear_combination (2 * Real.pi / wavelength * Real.sin polar * Real.sqrt eps.re) ^ 2 *
      Real.cos_sq_add_sin_sq azimuthal
  rw [e]
  refine ⟨rfl, ?_⟩
  ext <;> simp only <;> ring

/-- **C13** In vacuum the far-field angles of a plane wave are the angles it was specified with. -/
theorem C13_angles_round_trip (wavelength polar azimuthal : ℝ) (hw : 0 < wavelength)
    (hp : 0 < polar ∧ polar ≤ Real.pi / 2) (ha : -Real.pi < azimuthal ∧ azimuthal ≤ Real.pi) :
    ∃ k, planeWaveInPlaneWavevector wavelength polar azimuthal 1 = .ok k ∧
      anglesFromTransverseWavevector k wavelength = .ok (polar, azimuthal) := by
  have hpi := Real.pi_pos
  obtain ⟨k, hk, hl, hdir⟩ := C13_plane_wave_magnitude wavelength polar azimuthal 1 hw (by simp) ⟨hp.1.le, by linarith⟩
  refine ⟨k, hk, ?_⟩
  have hs : 0 < Real.sin polar := Real.sin_pos_of_pos_of_lt_pi hp.1 (by linarith)
  have hl' : Real.sqrt (k.1 ^ 2 + k.2 ^ 2) * wavelength / (2 * Real.pi) = Real.sin polar := by
    have : Real.sqrt (k.1 ^ 2 + k.2 ^ 2) = length k := rfl
    rw [this, hl]
    simp
    field_simp
  have hpos : 0 < length k := by rw [hl]; simp; positivity
  unfold anglesFromTransverseWavevector
  simp only [hl']
  rw [if_neg (by linarith), if_neg (not_lt.2 (Real.sin_le_one _)), Real.arcsin_sin (by linarith) hp.2]
  congr 2
  have e : ((k.1 : ℂ) + Complex.I * (k.2 : ℂ)) =
      (length k : ℂ) * (Complex.cos azimuthal + Complex.sin azimuthal * Complex.I) := by
    rw [congrArg Prod.fst hdir, congrArg Prod.snd hdir]
    push_cast
    ring
  rw [e, Complex.arg_mul_cos_add_sin_mul_I hpos ha]

/-- **C13** Angles specified inside a medium are refracted into vacuum by Snell's law. -/
theorem C13_snell (wavelength polar azimuthal : ℝ) (eps : ℂ) (hw : 0 < wavelength) (he : 0 ≤ eps.re)
    (hp : 0 ≤ polar ∧ polar ≤ Real.pi) (htir : Real.sqrt eps.re * Real.sin polar ≤ 1) :
    ∃ k out, planeWaveInPlaneWavevector wavelength polar azimuthal eps = .ok k ∧
      anglesFromTransverseWavevector k wavelength = .ok out ∧
      Real.sin out.1 = Real.sqrt eps.re * Real.sin polar := by
  have hpi := Real.pi_pos
  obtain ⟨k, hk, hl, -⟩ := C13_plane_wave_magnitude wavelength polar azimuthal eps hw he hp
  have hs := Real.sin_nonneg_of_nonneg_of_le_pi hp.1 hp.2
  have hl' : Real.sqrt (k.1 ^ 2 + k.2 ^ 2) * wavelength / (2 * Real.pi) = Real.sqrt eps.re * Real.sin polar := by
    have : Real.sqrt (k.1 ^ 2 + k.2 ^ 2) = length k := rfl
    rw [this, hl]
    field_simp
  have h0 : 0 ≤ Real.sqrt eps.re * Real.sin polar := by positivity
  refine ⟨k, (Real.arcsin (Real.sqrt eps.re * Real.sin polar), Complex.arg (k.1 + Complex.I * k.2)), hk, ?_, ?_⟩
  · unfold anglesFromTransverseWavevector
    simp only [hl']
    rw [if_neg (by linarith), if_neg (not_lt.2 htir)]
  · simp only
    rw [Real.sin_arcsin (by linarith) htir]

example : ∃ k, planeWaveInPlaneWavevector 0.5 1 (-2) 1 = .ok k ∧ anglesFromTransverseWavevector k 0.5 = .ok (1, -2) :=
  C13_angles_round_trip 0.5 1 (-2) (by norm_num) ⟨by norm_num, by linarith [Real.pi_gt_three]⟩
    ⟨by linarith [Real.pi_gt_three], by linarith [Real.pi_gt_three]⟩

/-! ### C65 -/

/-- **C65** Polar angles lie in `[0, π/2]` and azimuths in `(-π, π]`; evanescent orders get `π/2`; for propagating orders
`(2π/λ) sin(polar) (cos az, sin az)` is the transverse wavevector. -/
theorem C65_angles (k : ℝ × ℝ) (wavelength : ℝ) (hw : 0 < wavelength) :
    ∃ polar az, anglesFromTransverseWavevector k wavelength = .ok (polar, az) ∧
      (0 ≤ polar ∧ polar ≤ Real.pi / 2) ∧ (-Real.pi < az ∧ az ≤ Real.pi) ∧
      (2 * Real.pi / wavelength < length k → polar = Real.pi / 2) ∧
      (length k ≤ 2 * Real.pi / wavelength →
        k = (2 * Real.pi / wavelength * Real.sin polar * Real.cos az,
             2 * Real.pi / wavelength * Real.sin polar * Real.sin az)) := by
  have hpi := Real.pi_pos
  have hl : (0 : ℝ) ≤ Real.sqrt (k.1 ^ 2 + k.2 ^ 2) := Real.sqrt_nonneg _
  have hnn : 0 ≤ Real.sqrt (k.1 ^ 2 + k.2 ^ 2) * wavelength / (2 * Real.pi) := by positivity
  have hiff : Real.sqrt (k.1 ^ 2 + k.2 ^ 2) * wavelength / (2 * Real.pi) > 1 ↔ 2 * Real.pi / wavelength < length k := by
    rw [gt_iff_lt, lt_div_iff₀ (by positivity), div_lt_iff₀ hw, one_mul]
    rfl
  unfold anglesFromTransverseWavevector
  simp only
  rw [if_neg (by linarith)]
  refine ⟨_, _, rfl, ?_, ⟨Complex.neg_pi_lt_arg _, Complex.arg_le_pi _⟩, ?_, ?_⟩
  · split_ifs with h
    · constructor <;> linarith
    · exact ⟨Real.arcsin_nonneg.2 hnn, Real.arcsin_le_pi_div_two _⟩
  · intro h
    rw [if_pos (hiff.2 h)]
  · intro h
    have hn : ¬ Real.sqrt (k.1 ^ 2 + k.2 ^ 2) * wavelength / (2 * Real.pi) > 1 := by
      rw [hiff]; exact not_lt.2 h
    rw [if_neg hn, Real.sin_arcsin (by linarith) (not_lt.1 hn)]
    have e : 2 * Real.pi / wavelength * (Real.sqrt (k.1 ^ 2 + k.2 ^ 2) * wavelength / (2 * Real.pi)) =
        Real.sqrt (k.1 ^ 2 + k.2 ^ 2) := by field_simp
    rw [e]
    set z : ℂ := (k.1 : ℂ) + Complex.I * k.2 with hz
    have hre : z.re = k.1 := by simp [hz]
    have him : z.im = k.2 := by simp [hz]
    have hnorm : ‖z‖ = Real.sqrt (k.1 ^ 2 + k.2 ^ 2) := by
      rw [Complex.norm_eq_sqrt_sq_add_sq, hre, him]
    rw [← hnorm]
    ext
    · simp only; rw [Complex.norm_mul_cos_arg, hre]
    · simp only; rw [Complex.norm_mul_sin_arg, him]

example : ∃ polar az, anglesFromTransverseWavevector (3, 4) 2 = .ok (polar, az) ∧ polar = Real.pi / 2 := by
  obtain ⟨p, a, h, -, -, h2, -⟩ := C65_angles (3, 4) 2 (by norm_num)
  refine ⟨p, a, h, h2 ?_⟩
  have : length ((3 : ℝ), (4 : ℝ)) = 5 := by
    unfold length
    rw [Real.sqrt_eq_iff_eq_sq (by positivity) (by norm_num)]
    norm_num
  rw [this]
  linarith [Real.pi_lt_d2]

/-! ### C72 -/

/-- Fraction of a grid step covered by cell `i` out of `n`: a full step in the interior, half a step at the two ends. -/
noncomputable def Spec.cellFraction (n i : ℕ) : ℝ :=
  if n = 1 then 0 else if i = 0 ∨ i = n - 1 then 1 / 2 else 1

/-- **C72** On a regular grid `k i j = k₀ + i a + j b` the solid angle of every propagating entry is the area of its cell, in
units of the free-space wavevector, divided by `cos(polar)`.  Interior cells have the full area `|a × b|`; cells on the rim
of the grid are cut in half in each direction in which they touch it. -/
theorem C72_solid_angle (n m : ℕ) (k₀ a b : ℝ × ℝ) (wavelength : ℝ) (hw : 0 < wavelength) (i j : ℕ) (hi : i < n)
    (hj : j < m) (k : ℕ → ℕ → ℝ × ℝ)
    (hk : ∀ i j, i < n → j < m → k i j = (k₀.1 + i * a.1 + j * b.1, k₀.2 + i * a.2 + j * b.2))
    (hprop : length (k i j) < 2 * Real.pi / wavelength) :
    ∃ polar az, anglesFromTransverseWavevector (k i j) wavelength = .ok (polar, az) ∧
      solidAngle n m k wavelength i j = .ok (Spec.cellFraction n i * Spec.cellFraction m j *
        (|a.1 * b.2 - a.2 * b.1| / (2 * Real.pi / wavelength) ^ 2) / Real.cos polar) := by
  have hpi := Real.pi_pos
  obtain ⟨polar, az, hang, hr, -, -, hrec⟩ := C65_angles (k i j) wavelength hw
  refine ⟨polar, az, hang, ?_⟩
  have hq0 : 0 < 2 * Real.pi / wavelength := by positivity
  generalize hq : 2 * Real.pi / wavelength = q at *
  have hs : Real.sqrt (((k i j).1 / q) ^ 2 + ((k i j).2 / q) ^ 2) = Real.sin polar := by
    have hsp := Real.sin_nonneg_of_nonneg_of_le_pi hr.1 (by linarith)
    rw [Real.sqrt_eq_iff_eq_sq (by positivity) hsp]
    have e := hrec hprop.le
    rw [e]
    simp only
    have := Real.cos_sq_add_sin_sq az
    field_simp
    linear_combination Real.sin polar ^ 2 * this
  have hlt : Real.sin polar < 1 := by
    rw [← hs]
    have : Real.sqrt (((k i j).1 / q) ^ 2 + ((k i j).2 / q) ^ 2) = length (k i j) / q := by
      unfold length
      rw [div_pow, div_pow, ← add_div, Real.sqrt_div (by positivity), Real.sqrt_sq hq0.le]
    rw [this, div_lt_one hq0]
    exact hprop
  have hcos : 0 < Real.cos polar := by
    have hsq := Real.cos_sq_add_sin_sq polar
    have hc0 := Real.cos_nonneg_of_neg_pi_div_two_le_of_le (by linarith : -(Real.pi / 2) ≤ polar) hr.2
    have hsp := Real.sin_nonneg_of_nonneg_of_le_pi hr.1 (by linarith)
    rcases hc0.lt_or_eq with h | h
    · exact h
    · rw [← h] at hsq; nlinarith
  unfold solidAngle
  rw [if_neg hw.ne']
  simp only [hq, hs]
  rw [if_neg (not_lt.2 hlt.le), Real.arcsin_sin (by linarith) hr.2, if_neg hcos.ne']
  congr 2
  -- differences of vertices
  have pad : ∀ (f : ℕ → ℕ → ℝ) (c0 c1 c2 : ℝ), (∀ i j, i < n → j < m → f i j = c0 + i * c1 + j * c2) → ∀ p r,
      edgePad n m f p r = c0 + (min (p - 1) (n - 1) : ℕ) * c1 + (min (r - 1) (m - 1) : ℕ) * c2 := by
    intro f c0 c1 c2 hf p r
    unfold edgePad
    exact hf _ _ (by omega) (by omega)
  have step : ∀ {n i : ℕ}, i < n →
      ((min (i + 1 + 1 - 1) (n - 1) : ℕ) : ℝ) - (min (i - 1) (n - 1) : ℕ) = 2 * Spec.cellFraction n i := by
    intro n i hi
    unfold Spec.cellFraction
    by_cases h1 : n = 1
    · subst h1; simp
    · rw [if_neg h1]
      by_cases h2 : i = 0
      · subst h2
        have : min (0 + 1 + 1 - 1) (n - 1) = 1 := by omega
        rw [this]; simp
      · by_cases h3 : i = n - 1
        · have e1 : min (i + 1 + 1 - 1) (n - 1) = i := by omega
          have e2 : min (i - 1) (n - 1) = i - 1 := by omega
          rw [e1, e2, if_pos (Or.inr h3), Nat.cast_sub (by omega)]; norm_num
        · have e1 : min (i + 1 + 1 - 1) (n - 1) = i + 1 := by omega
          have e2 : min (i - 1) (n - 1) = i - 1 := by omega
          rw [e1, e2, if_neg (by omega), Nat.cast_sub (by omega)]; push_cast; ring
  have fx : ∀ i j, i < n → j < m → (k i j).1 / q = k₀.1 / q + i * (a.1 / q) + j * (b.1 / q) := by
    intro i j hi hj; rw [hk i j hi hj]; simp only; ring
  have fy : ∀ i j, i < n → j < m → (k i j).2 / q = k₀.2 / q + i * (a.2 / q) + j * (b.2 / q) := by
    intro i j hi hj; rw [hk i j hi hj]; simp only; ring
  have hd1 : ∀ (f : ℕ → ℕ → ℝ) (c0 c1 c2 : ℝ), (∀ i j, i < n → j < m → f i j = c0 + i * c1 + j * c2) →
      cellVertex n m f i (j + 1) - cellVertex n m f i j = Spec.cellFraction m j * c2 := by
    intro f c0 c1 c2 hf
    unfold cellVertex
    simp only [pad f c0 c1 c2 hf]
    linear_combination c2 / 2 * step hj
  have hd2 : ∀ (f : ℕ → ℕ → ℝ) (c0 c1 c2 : ℝ), (∀ i j, i < n → j < m → f i j = c0 + i * c1 + j * c2) →
      cellVertex n m f (i + 1) j - cellVertex n m f i j = Spec.cellFraction n i * c1 := by
    intro f c0 c1 c2 hf
    unfold cellVertex
    simp only [pad f c0 c1 c2 hf]
    linear_combination c1 / 2 * step hi
  rw [hd1 _ _ _ _ fx, hd1 _ _ _ _ fy, hd2 _ _ _ _ fx, hd2 _ _ _ _ fy]
  have fn : ∀ n i, 0 ≤ Spec.cellFraction n i := by
    intro n i; unfold Spec.cellFraction; split_ifs <;> norm_num
  have e : Spec.cellFraction m j * (b.1 / q) * (Spec.cellFraction n i * (a.2 / q)) -
      Spec.cellFraction n i * (a.1 / q) * (Spec.cellFraction m j * (b.2 / q)) =
      -(Spec.cellFraction n i * Spec.cellFraction m j * ((a.1 * b.2 - a.2 * b.1) / q ^ 2)) := by
    field_simp
    ring
  rw [e, abs_neg, abs_mul, abs_of_nonneg (mul_nonneg (fn n i) (fn m j)), abs_div, abs_of_pos (by positivity : 0 < q ^ 2)]

example : ∃ polar az, anglesFromTransverseWavevector (0.3, 0.3) 1 = .ok (polar, az) ∧
    solidAngle 5 5 (fun i j => (-0.3 + i * 0.3 + j * 0, -0.3 + i * 0 + j * 0.3)) 1 2 2 =
      .ok (1 * 1 * (|0.3 * 0.3 - 0 * 0| / (2 * Real.pi / 1) ^ 2) / Real.cos polar) := by
  have := C72_solid_angle 5 5 (-0.3, -0.3) (0.3, 0) (0, 0.3) 1 (by norm_num) 2 2 (by norm_num) (by norm_num)
    (fun i j => (-0.3 + i * 0.3 + j * 0, -0.3 + i * 0 + j * 0.3)) (fun i j _ _ => rfl) (by
      unfold length
      rw [Real.sqrt_lt' (by have := Real.pi_pos; positivity)]
      norm_num
      nlinarith [Real.pi_gt_three])
  norm_num [Spec.cellFraction] at this ⊢
  exact this

end Fmmax
