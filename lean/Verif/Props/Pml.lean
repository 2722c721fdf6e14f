import Verif.Model.Pml
import Verif.Proofs.Basic

/-! Property theorems C51-C54: perfectly matched layers. -/

set_option linter.unusedSectionVars false

namespace Fmmax

/-! ### C54 -/

theorem cropAndEdgePad_ok {g : Grid2D ℂ} {i j : ℕ} (hi : 2 * i < g.rows) (hj : 2 * j < g.cols) :
    ∃ e, cropAndEdgePad g i j = .ok e ∧ e.rows = g.rows ∧ e.cols = g.cols ∧
      ∀ a < g.rows, ∀ b < g.cols, e.get a b = g.get (max i (min a (g.rows - 1 - i))) (max j (min b (g.cols - 1 - j))) := by
  have hb : ∀ n w : ℕ, 2 * w < n → sliceBound n w = w ∧ sliceBound n (n - w) = n - w := by
    intro n w h
    unfold sliceBound
    constructor
    · rw [if_neg (by omega)]; simp; omega
    · rw [if_neg (by omega)]
      have : ((n : ℤ) - w).toNat = n - w := by omega
      rw [this]; omega
  obtain ⟨r1, r2⟩ := hb _ _ hi
  obtain ⟨c1, c2⟩ := hb _ _ hj
  unfold cropAndEdgePad
  rw [if_neg (by omega)]
  unfold Grid2D.padEdge
  rw [if_neg (by omega), if_neg (by simp only [Grid2D.slice, r1, r2, c1, c2]; omega)]
  refine ⟨_, rfl, ?_, ?_, ?_⟩
  · simp only [Grid2D.slice, r1, r2, Int.toNat_natCast]; omega
  · simp only [Grid2D.slice, c1, c2, Int.toNat_natCast]; omega
  · intro a ha b hb'
    simp only [Grid2D.slice, r1, r2, c1, c2, Int.toNat_natCast]
    congr 1 <;> omega

theorem cropAndEdgePad_error {g : Grid2D ℂ} {i j : ℤ} (hr : 0 < g.rows) (hc : 0 < g.cols)
    (h : ¬(0 ≤ i ∧ 0 ≤ j ∧ 2 * i < g.rows ∧ 2 * j < g.cols)) : cropAndEdgePad g i j = .error .valueError := by
  unfold cropAndEdgePad
  by_cases h1 : i * 2 > g.rows ∨ (i * 2 = g.rows ∧ j * 2 ≥ g.cols)
  · rw [if_pos h1]
  · rw [if_neg h1]
    unfold Grid2D.padEdge
    by_cases h2 : i < 0 ∨ j < 0
    · rw [if_pos h2]
    · rw [if_neg h2, if_pos]
      simp only [Grid2D.slice, sliceBound]
      by_cases h3 : i * 2 = g.rows
      · left
        refine ⟨?_, by omega⟩
        rw [if_neg (by omega), if_neg (by omega)]
        omega
      · right
        refine ⟨?_, by omega⟩
        rw [if_neg (c := j < 0) (by omega)]
        split_ifs <;> omega

theorem pmlStretch_ne_zero {params : PMLParams} (ha : 0 ≤ params.aMax) {d : ℝ} (hd : 0 ≤ d) {s : ℂ}
    (h : pmlStretch params d = .ok s) : s ≠ 0 := by
  unfold pmlStretch at h
  split_ifs at h with hp
  rw [ok_inj] at h
  subst h
  have h1 : 0 ≤ params.aMax * d ^ params.p := mul_nonneg ha (Real.rpow_nonneg hd _)
  refine mul_ne_zero ?_ ?_
  · intro h
    have := congrArg Complex.re h
    simp only [Complex.add_re, Complex.one_re, Complex.re_ofReal_mul, Complex.ofReal_re, Complex.zero_re] at this
    linarith
  · intro h
    have := congrArg Complex.re h
    rw [show Complex.I * (params.sigmaMax : ℂ) * ((Real.sin (Real.pi / 2 * d) ^ 2 : ℝ) : ℂ) =
      ((params.sigmaMax * Real.sin (Real.pi / 2 * d) ^ 2 : ℝ) : ℂ) * Complex.I by push_cast; ring] at this
    rw [Complex.add_re, Complex.re_ofReal_mul, Complex.I_re] at this
    simp at this

theorem normalizedDistance_nonneg {n : ℕ} {w : ℤ} (hw : 0 ≤ w) (i : ℕ) : 0 ≤ normalizedDistance n w i := by
  unfold normalizedDistance
  simp only
  refine mul_nonneg ?_ ?_
  · exact_mod_cast le_max_of_le_left (le_max_right _ _)
  · split_ifs
    · exact zero_le_one
    · exact div_nonneg zero_le_one (by exact_mod_cast hw)

/-- C54: on arrays without empty axes, `apply_uniaxial_pml` succeeds exactly when the widths are not negative and twice the width
is smaller than the array along both axes, and raises ValueError otherwise (non-negative strength and exponent). -/
theorem C54_widths (g : Grid2D ℂ) (params : PMLParams) (hr : 0 < g.rows) (hc : 0 < g.cols) (ha : 0 ≤ params.aMax)
    (hp : 0 ≤ params.p) :
    ((0 ≤ params.numX ∧ 0 ≤ params.numY ∧ 2 * params.numX < g.rows ∧ 2 * params.numY < g.cols) →
      ∃ out, applyUniaxialPml g params = .ok out ∧ out.rows = g.rows ∧ out.cols = g.cols) ∧
    (¬(0 ≤ params.numX ∧ 0 ≤ params.numY ∧ 2 * params.numX < g.rows ∧ 2 * params.numY < g.cols) →
      applyUniaxialPml g params = .error .valueError) := by
  constructor
  · rintro ⟨h1, h2, h3, h4⟩
    obtain ⟨i, hi⟩ := Int.eq_ofNat_of_zero_le h1
    obtain ⟨j, hj⟩ := Int.eq_ofNat_of_zero_le h2
    obtain ⟨e, he, er, ec, -⟩ := cropAndEdgePad_ok (g := g) (i := i) (j := j) (by omega) (by omega)
    have hcell : ∀ dx dy : ℝ, 0 ≤ dx → 0 ≤ dy → ∀ z : ℂ, ∃ t, pmlCell params dx dy z = .ok t := by
      intro dx dy hdx hdy z
      have hs : ∀ d : ℝ, ∃ s, pmlStretch params d = .ok s := by
        intro d
        unfold pmlStretch
        rw [if_neg (by intro h; linarith [h.2])]
        exact ⟨_, rfl⟩
      obtain ⟨sx, hx⟩ := hs dx
      obtain ⟨sy, hy⟩ := hs dy
      unfold pmlCell
      rw [hx, hy]
      show ∃ t, (if sx = 0 ∨ sy = 0 then Except.error Err.nonFinite else _) = Except.ok t
      rw [if_neg]
      · exact ⟨_, rfl⟩
      · rintro (h | h)
        · exact pmlStretch_ne_zero ha hdx hx h
        · exact pmlStretch_ne_zero ha hdy hy h
    refine ⟨⟨e.rows, e.cols, fun a b => (pmlCell params (normalizedDistance e.rows params.numX a)
        (normalizedDistance e.cols params.numY b) (e.get a b)).get⟩, ?_, er, ec⟩
    · unfold applyUniaxialPml
      rw [hi, hj, he]
      classical
      show (if _ then _ else _) = _
      rw [if_pos]
      intro a _ b _
      exact hcell _ _ (normalizedDistance_nonneg (by omega) _) (normalizedDistance_nonneg (by omega) _) _
  · intro h
    unfold applyUniaxialPml
    rw [cropAndEdgePad_error hr hc h]
    rfl

/-- C54, side finding: on an array with an empty axis the widths are not rejected although twice the width is not smaller. -/
theorem C54_finding_empty_axis : ∃ e, cropAndEdgePad ⟨0, 5, fun _ _ => 1⟩ 0 1 = .ok e := by
  unfold cropAndEdgePad
  rw [if_neg (by simp)]
  unfold Grid2D.padEdge
  rw [if_neg (by simp), if_neg (by simp [Grid2D.slice, sliceBound])]
  exact ⟨_, rfl⟩

/-! ### C53 -/

/-- C53: closed form of the distance: outside the PML zero, else the number of cells to the interior over the width. -/
theorem C53_closed_form (n w i : ℕ) (hw : 2 * w < n) (hi : i < n) :
    (w ≤ i → i ≤ n - 1 - w → normalizedDistance n w i = 0) ∧
    (i < w → normalizedDistance n w i = ((w : ℝ) - i) / w) ∧
    (n - 1 - w < i → normalizedDistance n w i = ((i : ℝ) - (n - 1 - w)) / w) := by
  unfold normalizedDistance
  simp only
  refine ⟨fun h1 h2 => ?_, fun h => ?_, fun h => ?_⟩
  · have : max (max ((w : ℤ) - i) 0) ((i : ℤ) - (n - w - 1)) = 0 := by omega
    rw [this]; simp
  · have : max (max ((w : ℤ) - i) 0) ((i : ℤ) - (n - w - 1)) = (w : ℤ) - i := by omega
    rw [this, if_neg (by omega), if_neg (by omega)]
    push_cast
    ring
  · have : max (max ((w : ℤ) - i) 0) ((i : ℤ) - (n - w - 1)) = (i : ℤ) - (n - w - 1) := by omega
    rw [this]
    have hw0 : w ≠ 0 := by omega
    rw [if_neg (by omega), if_neg (by omega)]
    push_cast
    ring

/-- C53: the distance lies in [0, 1], is zero exactly outside the PML, one at the outermost cells, mirror symmetric and strictly
decreasing towards the interior. -/
theorem C53_profile (n w i : ℕ) (hw : 2 * w < n) (hi : i < n) :
    (0 ≤ normalizedDistance n w i ∧ normalizedDistance n w i ≤ 1) ∧
    (normalizedDistance n w i = 0 ↔ w ≤ i ∧ i ≤ n - 1 - w) ∧
    (0 < w → normalizedDistance n w 0 = 1 ∧ normalizedDistance n w (n - 1) = 1) ∧
    normalizedDistance n w (n - 1 - i) = normalizedDistance n w i ∧
    (∀ i', i < i' → i' ≤ w → normalizedDistance n w i' < normalizedDistance n w i) := by
  have key : ∀ j < n, (w ≤ j ∧ j ≤ n - 1 - w ∧ normalizedDistance n w j = 0) ∨
      (j < w ∧ normalizedDistance n w j = ((w : ℝ) - j) / w) ∨
      (n - 1 - w < j ∧ normalizedDistance n w j = ((w : ℝ) - (n - 1 - j : ℕ)) / w) := by
    intro j hj
    obtain ⟨a1, a2, a3⟩ := C53_closed_form n w j hw hj
    have hsub : ((n - 1 - j : ℕ) : ℝ) = (n : ℝ) - 1 - j := by
      rw [Nat.cast_sub (by omega), Nat.cast_sub (by omega)]; simp
    by_cases h1 : j < w
    · exact Or.inr (Or.inl ⟨h1, a2 h1⟩)
    · by_cases h2 : j ≤ n - 1 - w
      · exact Or.inl ⟨by omega, h2, a1 (by omega) h2⟩
      · refine Or.inr (Or.inr ⟨by omega, ?_⟩)
        rw [a3 (by omega), hsub]
        ring
  have frac : ∀ j : ℕ, j < w → 0 < ((w : ℝ) - j) / w ∧ ((w : ℝ) - j) / w ≤ 1 := by
    intro j hj
    have h1 : (j : ℝ) < w := by exact_mod_cast hj
    have h0 : (0 : ℝ) ≤ j := j.cast_nonneg
    exact ⟨div_pos (by linarith) (by linarith), (div_le_one (by linarith)).2 (by linarith)⟩
  refine ⟨?_, ?_, ?_, ?_, ?_⟩
  · rcases key i hi with ⟨-, -, e⟩ | ⟨h, e⟩ | ⟨h, e⟩
    · rw [e]; exact ⟨le_rfl, zero_le_one⟩
    · rw [e]; exact ⟨(frac i h).1.le, (frac i h).2⟩
    · rw [e]; exact ⟨(frac _ (by omega)).1.le, (frac _ (by omega)).2⟩
  · rcases key i hi with ⟨h1, h2, e⟩ | ⟨h, e⟩ | ⟨h, e⟩
    · exact iff_of_true e ⟨h1, h2⟩
    · exact iff_of_false (by rw [e]; exact (frac i h).1.ne') (by omega)
    · exact iff_of_false (by rw [e]; exact (frac _ (by omega)).1.ne') (by omega)
  · intro h
    have hw0 : (w : ℝ) ≠ 0 := by exact_mod_cast h.ne'
    constructor
    · rcases key 0 (by omega) with ⟨h1, h2, e⟩ | ⟨h, e⟩ | ⟨h, e⟩
      · omega
      · rw [e]; simp [hw0]
      · omega
    · rcases key (n - 1) (by omega) with ⟨h1, h2, e⟩ | ⟨h, e⟩ | ⟨h, e⟩
      · omega
      · omega
      · rw [e]; simp [hw0]
  · rcases key i hi with ⟨h1, h2, e⟩ | ⟨h, e⟩ | ⟨h, e⟩ <;>
      rcases key (n - 1 - i) (by omega) with ⟨g1, g2, f⟩ | ⟨g, f⟩ | ⟨g, f⟩ <;>
      first
        | omega
        | (rw [e, f]; done)
        | (rw [e, f, show n - 1 - (n - 1 - i) = i by omega])
  · intro i' h1 h2
    have hwpos : (0 : ℝ) < w := by exact_mod_cast (show 0 < w by omega)
    have hlt : (i : ℝ) < i' := by exact_mod_cast h1
    rcases key i hi with ⟨g1, g2, e⟩ | ⟨h, e⟩ | ⟨h, e⟩
    · omega
    · rcases key i' (by omega) with ⟨g1, g2, f⟩ | ⟨g, f⟩ | ⟨g, f⟩
      · rw [e, f]; exact (frac i h).1
      · rw [e, f]; exact div_lt_div_of_pos_right (by linarith) hwpos
      · omega
    · omega

example : normalizedDistance 10 3 0 = 1 ∧ normalizedDistance 10 3 2 = 1 / 3 ∧ normalizedDistance 10 3 5 = 0 := by
  norm_num [normalizedDistance]

/-! ### C51, C52 -/

theorem applyUniaxialPml_get {g : Grid2D ℂ} {params : PMLParams} {out : Grid2D (PmlTensor × PmlTensor)} {i j : ℕ}
    (hx : params.numX = i) (hy : params.numY = j) (hi : 2 * i < g.rows) (hj : 2 * j < g.cols)
    (h : applyUniaxialPml g params = .ok out) {a b : ℕ} (ha : a < g.rows) (hb : b < g.cols) :
    pmlCell params (normalizedDistance g.rows i a) (normalizedDistance g.cols j b)
      (g.get (max i (min a (g.rows - 1 - i))) (max j (min b (g.cols - 1 - j)))) = .ok (out.get a b) := by
  obtain ⟨e, he, er, ec, eg⟩ := cropAndEdgePad_ok (g := g) (i := i) (j := j) hi hj
  unfold applyUniaxialPml at h
  rw [hx, hy, he] at h
  classical
  replace h : (if _ then _ else _) = _ := h
  split_ifs at h with hall
  rw [ok_inj] at h
  subst h
  obtain ⟨t, ht⟩ := hall a (by omega) b (by omega)
  rw [er, ec] at ht
  replace ht : pmlCell params (normalizedDistance g.rows i a) (normalizedDistance g.cols j b) (e.get a b) = .ok t := ht
  rw [← eg a ha b hb]
  simp only
  rw [er, ec, ht]
  rfl

/-- The location in the interior nearest to `a`, along an axis of length `n` with PML of width `w`. -/
def nearestInterior (n w a : ℕ) : ℕ := if a < w then w else if n - 1 - w < a then n - 1 - w else a

theorem nearestInterior_eq {n w a : ℕ} (h : 2 * w < n) : max w (min a (n - 1 - w)) = nearestInterior n w a := by
  unfold nearestInterior
  split_ifs <;> omega

/-- C52: the permittivity tensor is the permittivity of the nearest interior location times the permeability tensor, the
off-diagonal elements vanish, and the products of the in-plane elements are those of the isotropic medium. -/
theorem C52_matched {g : Grid2D ℂ} {params : PMLParams} {out : Grid2D (PmlTensor × PmlTensor)} {i j : ℕ}
    (hx : params.numX = i) (hy : params.numY = j) (hi : 2 * i < g.rows) (hj : 2 * j < g.cols)
    (h : applyUniaxialPml g params = .ok out) {a b : ℕ} (ha : a < g.rows) (hb : b < g.cols) :
    let e := g.get (nearestInterior g.rows i a) (nearestInterior g.cols j b)
    let perm := (out.get a b).1
    let mu := (out.get a b).2
    (perm.xx = e * mu.xx ∧ perm.yy = e * mu.yy ∧ perm.zz = e * mu.zz) ∧
    (perm.xy = 0 ∧ perm.yx = 0 ∧ mu.xy = 0 ∧ mu.yx = 0) ∧
    (mu.xx * mu.yy = 1 ∧ perm.xx * perm.yy = e ^ 2) ∧
    (mu.xx ≠ 0 ∧ mu.yy ≠ 0 ∧ mu.zz ≠ 0) := by
  have hc := applyUniaxialPml_get hx hy hi hj h ha hb
  rw [nearestInterior_eq hi, nearestInterior_eq hj] at hc
  intro e perm mu
  unfold pmlCell at hc
  obtain ⟨sx, h1, hc⟩ := bind_eq_ok.1 hc
  obtain ⟨sy, h2, hc⟩ := bind_eq_ok.1 hc
  replace hc : (if _ then _ else _) = _ := hc
  split_ifs at hc with hz
  rw [ok_inj] at hc
  rw [not_or] at hz
  obtain ⟨zx, zy⟩ := hz
  simp only [perm, mu, ← hc]
  refine ⟨⟨by ring, by ring, by ring⟩, by simp, ⟨by field_simp, by field_simp; rfl⟩, ?_⟩
  refine ⟨by simp [zx, zy], by simp [zx, zy], by simp [zx, zy]⟩

/-- C52: with non-negative strength and exponent no division by zero occurs. -/
theorem C52_finite (g : Grid2D ℂ) (params : PMLParams) (hr : 0 < g.rows) (hc : 0 < g.cols) (ha : 0 ≤ params.aMax)
    (hp : 0 ≤ params.p) : applyUniaxialPml g params ≠ .error .nonFinite := by
  obtain ⟨h1, h2⟩ := C54_widths g params hr hc ha hp
  by_cases h : 0 ≤ params.numX ∧ 0 ≤ params.numY ∧ 2 * params.numX < g.rows ∧ 2 * params.numY < g.cols
  · obtain ⟨out, e, -⟩ := h1 h
    rw [e]; simp
  · rw [h2 h]; simp

/-- C52: the tensor stretches: along x alone the permeability is diag(1/s, s, s). -/
theorem C52_stretch {g : Grid2D ℂ} {params : PMLParams} {out : Grid2D (PmlTensor × PmlTensor)} {i j : ℕ}
    (hx : params.numX = i) (hy : params.numY = j) (hi : 2 * i < g.rows) (hj : 2 * j < g.cols) (hp : 0 < params.p)
    (h : applyUniaxialPml g params = .ok out) {a b : ℕ} (ha : a < g.rows) (hb : b < g.cols)
    (hbj : j ≤ b ∧ b ≤ g.cols - 1 - j) :
    ∃ s : ℂ, s = (1 + params.aMax * (normalizedDistance g.rows i a ^ params.p : ℝ)) *
        (1 + Complex.I * params.sigmaMax * (Real.sin (Real.pi / 2 * normalizedDistance g.rows i a) ^ 2 : ℝ)) ∧
      (out.get a b).2.xx = 1 / s ∧ (out.get a b).2.yy = s ∧ (out.get a b).2.zz = s := by
  have hc := applyUniaxialPml_get hx hy hi hj h ha hb
  have hd := (C53_closed_form g.cols j b hj hb).1 hbj.1 hbj.2
  rw [hd] at hc
  unfold pmlCell at hc
  obtain ⟨sx, h1, hc⟩ := bind_eq_ok.1 hc
  obtain ⟨sy, h2, hc⟩ := bind_eq_ok.1 hc
  replace hc : (if _ then _ else _) = _ := hc
  split_ifs at hc with hz
  rw [ok_inj] at hc
  unfold pmlStretch at h1 h2
  rw [if_neg (by intro h; linarith [h.2]), ok_inj] at h1 h2
  rw [Real.zero_rpow hp.ne'] at h2
  simp at h2
  refine ⟨sx, h1.symm, ?_, ?_, ?_⟩
  all_goals (rw [← hc, ← h2]; simp)

/-- C51: outside the PML the given permittivity and unit permeability are returned. -/
theorem C51_interior {g : Grid2D ℂ} {params : PMLParams} {i j : ℕ}
    (hx : params.numX = i) (hy : params.numY = j) (hi : 2 * i < g.rows) (hj : 2 * j < g.cols) (hp : 0 < params.p)
    {out : Grid2D (PmlTensor × PmlTensor)} (h : applyUniaxialPml g params = .ok out) {a b : ℕ}
    (ha : i ≤ a ∧ a ≤ g.rows - 1 - i) (hb : j ≤ b ∧ b ≤ g.cols - 1 - j) :
    out.get a b = (⟨g.get a b, 0, 0, g.get a b, g.get a b⟩, ⟨1, 0, 0, 1, 1⟩) := by
  have hc := applyUniaxialPml_get hx hy hi hj h (a := a) (b := b) (by omega) (by omega)
  rw [(C53_closed_form g.cols j b hj (by omega)).1 hb.1 hb.2, (C53_closed_form g.rows i a hi (by omega)).1 ha.1 ha.2,
    nearestInterior_eq hi, nearestInterior_eq hj, nearestInterior, nearestInterior, if_neg (by omega), if_neg (by omega),
    if_neg (by omega), if_neg (by omega)] at hc
  unfold pmlCell at hc
  obtain ⟨sx, h1, hc⟩ := bind_eq_ok.1 hc
  obtain ⟨sy, h2, hc⟩ := bind_eq_ok.1 hc
  replace hc : (if _ then _ else _) = _ := hc
  split_ifs at hc with hz
  rw [ok_inj] at hc
  unfold pmlStretch at h1 h2
  rw [if_neg (by intro h; linarith [h.2]), ok_inj] at h1 h2
  rw [Real.zero_rpow hp.ne'] at h1 h2
  simp at h1 h2
  rw [← hc, ← h1, ← h2]
  simp

/-- C51: with vanishing exponent the interior is changed, hence the hypothesis. -/
theorem C51_finding_zero_exponent : ∃ out,
    applyUniaxialPml ⟨3, 3, fun _ _ => 1⟩ ⟨1, 1, 1, 0, 0⟩ = .ok out ∧ (out.get 1 1).1.zz = 4 := by
  obtain ⟨out, h, -⟩ := (C54_widths ⟨3, 3, fun _ _ => 1⟩ ⟨1, 1, 1, 0, 0⟩ (by simp) (by simp) (by simp) (by simp)).1 (by simp)
  refine ⟨out, h, ?_⟩
  have hc := applyUniaxialPml_get (i := 1) (j := 1) rfl rfl (by simp) (by simp) h (a := 1) (b := 1) (by simp) (by simp)
  unfold pmlCell at hc
  obtain ⟨sx, h1, hc⟩ := bind_eq_ok.1 hc
  obtain ⟨sy, h2, hc⟩ := bind_eq_ok.1 hc
  replace hc : (if _ then _ else _) = _ := hc
  split_ifs at hc with hz
  rw [ok_inj] at hc
  unfold pmlStretch at h1 h2
  rw [if_neg (by simp), ok_inj] at h1 h2
  simp at h1 h2
  rw [← hc, ← h1, ← h2]
  norm_num

example : ∃ out, applyUniaxialPml ⟨9, 7, fun _ _ => 2⟩ ⟨2, 1, 4, 4, 1⟩ = .ok out ∧
    (out.get 4 3).1.xx = 2 ∧ (out.get 4 3).2.xx = 1 ∧ (out.get 0 0).1.xx = 2 * (out.get 0 0).2.xx := by
  obtain ⟨out, h, -⟩ := (C54_widths ⟨9, 7, fun _ _ => 2⟩ ⟨2, 1, 4, 4, 1⟩ (by simp) (by simp) (by simp) (by simp)).1 (by simp)
  have e1 := C51_interior (i := 2) (j := 1) rfl rfl (by simp) (by simp) (by simp) h (a := 4) (b := 3) (by simp) (by simp)
  have e2 := C52_matched (i := 2) (j := 1) rfl rfl (by simp) (by simp) h (a := 0) (b := 0) (by simp) (by simp)
  exact ⟨out, h, by rw [e1], by rw [e1], e2.1.1⟩

end Fmmax
