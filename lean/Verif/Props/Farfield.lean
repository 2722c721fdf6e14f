import Verif.Proofs.Farfield
import Verif.Proofs.IntegratedFlux
import Verif.Props.Brillouin

/-! Properties of unflattened Brillouin-zone results and integrated flux (C62 to C64, C66). -/

namespace Fmmax

open Spec

variable {n : ℕ}

/-! ### C62 -/

/-- C62: `unflatten` writes every value to the cell of its Brillouin point and order, inside the output shape; different
values go to different cells; all other cells are `nan` (`none`). -/
theorem C62_unflatten {α : Type} (flat : NDArray α) (G : Fin n → ℤ × ℤ) (hG : Function.Injective G) (lo hi : ℤ × ℤ)
    (hb : OrderBounds G lo hi) (B : List ℕ) (nx ny : ℕ) (hs : flat.shape = B ++ [nx, ny, n]) :
    ∃ out, unflatten flat G = .ok out ∧
      out.shape = B ++ [((hi.1 - lo.1 + 1) * nx).toNat, ((hi.2 - lo.2 + 1) * ny).toNat] ∧
      (∀ b p q (t : Fin n), b.length = B.length → p < nx → q < ny →
        ∃ r c, r < ((hi.1 - lo.1 + 1) * nx).toNat ∧ c < ((hi.2 - lo.2 + 1) * ny).toNat ∧
          IsMergedCell lo nx ny (G t) p q r c ∧ out.get (b ++ [r, c]) = some (flat.get (b ++ [p, q, t]))) ∧
      (∀ b r c, b.length = B.length → (¬ ∃ p q t, p < nx ∧ q < ny ∧ IsMergedCell lo nx ny (G t) p q r c) →
        out.get (b ++ [r, c]) = none) ∧
      (∀ p q p' q' (t t' : Fin n) r c, p < nx → q < ny → p' < nx → q' < ny → IsMergedCell lo nx ny (G t) p q r c →
        IsMergedCell lo nx ny (G t') p' q' r c → p = p' ∧ q = q' ∧ t = t') := by
  obtain ⟨src, h1, h2⟩ := unflattenSource_eq hG hb nx ny
  obtain ⟨out, h3, h4, h5⟩ := unflatten_eq hs h1
  refine ⟨out, h3, h4, fun b p q t hB hp hq => ?_, fun b r c hB hno => ?_, ?_⟩
  · obtain ⟨a1, a2⟩ := merged_bounds (hb.le1 t) hp
    obtain ⟨b1, b2⟩ := merged_bounds (hb.le2 t) hq
    have hc : IsMergedCell lo nx ny (G t) p q ((G t).1 * nx + p - lo.1 * nx).toNat ((G t).2 * ny + q - lo.2 * ny).toNat :=
      ⟨by rw [Int.toNat_of_nonneg a1]; ring, by rw [Int.toNat_of_nonneg b1]; ring⟩
    refine ⟨_, _, by omega, by omega, hc, ?_⟩
    rw [h5 _ _ _ hB]
    simp only
    rw [(h2 _ _ (⟨p, hp⟩, ⟨q, hq⟩, t)).2 hc]
    rfl
  · rw [h5 _ _ _ hB]
    simp only
    cases h : src r c with
    | none => rfl
    | some x => exact absurd ⟨x.1, x.2.1, x.2.2, x.1.2, x.2.1.2, (h2 r c x).1 h⟩ hno
  · intro p q p' q' t t' r c hp hq hp' hq' hc hc'
    have e1 := (h2 r c (⟨p, hp⟩, ⟨q, hq⟩, t)).2 hc
    have e2 := (h2 r c (⟨p', hp'⟩, ⟨q', hq'⟩, t')).2 hc'
    have e3 := Option.some.inj (e1.symm.trans e2)
    simp only [Prod.mk.injEq, Fin.mk.injEq] at e3
    exact e3

/-- C62: arrays with fewer than three axes or a wrong number of orders are rejected. -/
theorem C62_rejects {α : Type} (flat : NDArray α) (G : Fin n → ℤ × ℤ)
    (h : flat.shape.length < 3 ∨ flat.shape.getLast? ≠ some n) : unflatten flat G = .error .assertionError := by
  unfold unflatten
  by_cases h3 : flat.shape.length < 3
  · simp only
    rw [if_pos (by omega)]
  · simp only
    rw [if_neg (by omega), if_pos]
    have h := h.resolve_left h3
    rw [List.getLast?_eq_getElem?] at h
    intro hn
    apply h
    rw [List.getElem?_eq_getElem (by omega), ← List.getD_eq_getElem _ 0, hn]

/-- Orders of the examples: a plus shape. -/
def plusOrders : Fin 5 → ℤ × ℤ := ![(0, 0), (-1, 0), (1, 0), (0, -1), (0, 1)]

theorem plusOrders_injective : Function.Injective plusOrders := by decide

theorem plusOrders_bounds : OrderBounds plusOrders (-1, -1) (1, 1) :=
  ⟨⟨1, rfl⟩, ⟨3, rfl⟩, ⟨2, rfl⟩, ⟨4, rfl⟩, by decide, by decide⟩

example : ∃ out, unflatten ⟨[7, 2, 3, 5], fun i => i⟩ plusOrders = .ok out ∧ out.shape = [7, 6, 9] := by
  obtain ⟨out, h, hs, -⟩ := C62_unflatten ⟨[7, 2, 3, 5], fun i => i⟩ plusOrders plusOrders_injective _ _ plusOrders_bounds
    [7] 2 3 rfl
  exact ⟨out, h, hs⟩

/-! ### C64 -/

/-- C64: for arrays of any rank, with the Brillouin axes at any two increasing positions among the batch axes (counted from
the front or from the back), `unflatten_flux` moves the Brillouin axes and orders into two trailing grid axes, followed by
polarization and source: the value at polarization `pol`, order `t` and source `s` comes from entry `pol * num_terms + t`.
The cells without an order are `nan`. -/
theorem C64_unflatten_flux {α : Type} (flux : NDArray α) (G : Fin n → ℤ × ℤ) (hG : Function.Injective G) (lo hi : ℤ × ℤ)
    (hb : OrderBounds G lo hi) (X Y Z : List ℕ) (nx ny S : ℕ)
    (hs : flux.shape = X ++ nx :: (Y ++ ny :: (Z ++ [2 * n, S]))) (hpos : ∀ d ∈ flux.shape, 0 < d) (axes : ℤ × ℤ)
    (h1 : axes.1 = X.length ∨ axes.1 = X.length - flux.shape.length)
    (h2 : axes.2 = (X.length + 1 + Y.length : ℕ) ∨ axes.2 = (X.length + 1 + Y.length : ℕ) - flux.shape.length) :
    ∃ out, unflattenFlux flux G axes = .ok out ∧
      out.shape = X ++ (Y ++ (Z ++ [((hi.1 - lo.1 + 1) * nx).toNat, ((hi.2 - lo.2 + 1) * ny).toNat, 2, S])) ∧
      ∀ x y z pol s r c, ValidIndex X x → ValidIndex Y y → ValidIndex Z z → pol < 2 → s < S →
        (∀ p q (t : Fin n), p < nx → q < ny → IsMergedCell lo nx ny (G t) p q r c →
          out.get (x ++ (y ++ (z ++ [r, c, pol, s]))) = some (flux.get (x ++ p :: (y ++ q :: (z ++ [pol * n + t, s]))))) ∧
        ((¬ ∃ p q t, p < nx ∧ q < ny ∧ IsMergedCell lo nx ny (G t) p q r c) →
          out.get (x ++ (y ++ (z ++ [r, c, pol, s]))) = none) := by
  obtain ⟨src, e1, e2⟩ := unflattenSource_eq hG hb nx ny
  obtain ⟨out, e3, e4, e5⟩ := unflattenFlux_eq flux hs hpos h1 h2 e1
  refine ⟨out, e3, e4, fun x y z pol s r c hx hy hz hpol hS => ⟨fun p q t hp hq hc => ?_, fun hno => ?_⟩⟩
  · rw [e5 x y z pol s r c hx hy hz hpol hS]
    simp only
    rw [(e2 r c (⟨p, hp⟩, ⟨q, hq⟩, t)).2 hc]
    rfl
  · rw [e5 x y z pol s r c hx hy hz hpol hS]
    simp only
    cases h : src r c with
    | none => rfl
    | some w => exact absurd ⟨w.1, w.2.1, w.2.2, w.1.2, w.2.1.2, (e2 r c w).1 h⟩ hno

/-- C64, side finding: the order in which the Brillouin axes are given is ignored.  Axes `(b, a)` are treated like `(a, b)`,
so that an array whose `ky` axis precedes its `kx` axis is rearranged wrongly without an error. -/
theorem C64_finding_axis_order {α : Type} (flux : NDArray α) (G : Fin n → ℤ × ℤ) (a b : ℤ) :
    unflattenFlux flux G (b, a) = unflattenFlux flux G (a, b) := by
  have key : ∀ ndim : ℕ, ∀ r, absoluteAxes [a, b] ndim = r →
      (∃ p q, r = .ok [p, q] ∧ absoluteAxes [b, a] ndim = .ok [q, p]) ∨ (∃ e, r = .error e ∧ absoluteAxes [b, a] ndim = .error e) := by
    intro ndim r hr
    unfold absoluteAxes at hr ⊢
    by_cases h : ([a, b].all fun a => decide (-(ndim : ℤ) ≤ a ∧ a < ndim)) = true
    · have h' : ([b, a].all fun a => decide (-(ndim : ℤ) ≤ a ∧ a < ndim)) = true := by
        simp only [List.all_cons, List.all_nil, Bool.and_true, Bool.and_eq_true, decide_eq_true_eq] at h ⊢
        tauto
      rw [if_neg (not_not.2 h)] at hr
      rw [if_neg (not_not.2 h')]
      simp only [List.map_cons, List.map_nil] at hr ⊢
      by_cases he : a % (ndim : ℤ) = b % ndim
      · rw [he] at hr
        rw [he]
        right
        rw [if_pos (by simp)] at hr
        rw [if_pos (by simp)]
        exact ⟨_, hr.symm, rfl⟩
      · left
        rw [if_neg (by rw [List.Nodup.dedup (by simp [he])]; simp)] at hr
        rw [if_neg (by rw [List.Nodup.dedup (by simp [Ne.symm he])]; simp)]
        exact ⟨_, _, hr.symm, rfl⟩
    · have h' : ¬([b, a].all fun a => decide (-(ndim : ℤ) ≤ a ∧ a < ndim)) = true := by
        simp only [List.all_cons, List.all_nil, Bool.and_true, Bool.and_eq_true, decide_eq_true_eq] at h ⊢
        tauto
      rw [if_pos h] at hr
      rw [if_pos h']
      exact Or.inr ⟨_, hr.symm, rfl⟩
  unfold unflattenFlux
  simp only
  by_cases c1 : 4 ≤ flux.shape.length
  swap
  · rw [if_pos c1, if_pos c1]
  rw [if_neg (not_not.2 c1), if_neg (not_not.2 c1)]
  by_cases c2 : flux.shape.getD (flux.shape.length - 2) 0 ≠ 2 * n
  · rw [if_pos c2, if_pos c2]
  · rw [if_neg c2, if_neg c2]
    rcases key flux.shape.length _ rfl with ⟨p, q, h1, h2⟩ | ⟨e, h1, h2⟩
    · rw [h1, h2]
      simp only [bind, Except.bind, List.map_cons, List.map_nil, List.cons_append, List.nil_append]
      rw [moveToEnd_swap]
    · rw [h1, h2]

example : ∃ out, unflattenFlux ⟨[7, 2, 4, 3, 10, 6], fun i => i⟩ plusOrders (1, -3) = .ok out ∧
    out.shape = [7, 4, 6, 9, 2, 6] := by
  obtain ⟨out, h, hs, -⟩ := C64_unflatten_flux ⟨[7, 2, 4, 3, 10, 6], fun i => i⟩ plusOrders plusOrders_injective _ _
    plusOrders_bounds [7] [4] [] 2 3 6 rfl (by decide) (1, -3) (Or.inl rfl) (Or.inr rfl)
  exact ⟨out, h, hs⟩

/-! ### C63 -/

/-- C63: unflattening the transverse wavevectors of a Brillouin grid, at any position of the grid axes, gives wavevectors that
are affine in the cell `(r, c)`: the components along the lattice vectors advance by `2π/nx` and `2π/ny` per cell. -/
theorem C63_regular_grid (l : LatticeVectors) (hl : Independent l.u l.v) (G : Fin n → ℤ × ℤ) (hG : Function.Injective G)
    (lo hi : ℤ × ℤ) (hb : OrderBounds G lo hi) (nx ny : ℕ) (g : List (List (ℝ × ℝ)))
    (hg : brillouinZoneInPlaneWavevector [(nx : ℤ), (ny : ℤ)] l = .ok g) (X Y Z : List ℕ) (k : NDArray ℝ)
    (hs : k.shape = X ++ nx :: (Y ++ ny :: (Z ++ [n, 2])))
    (hk : ∀ x y z p q row kin kt, ValidIndex X x → ValidIndex Y y → ValidIndex Z z → g[p]? = some row → row[q]? = some kin → transverseWavevectors kin l G = .ok kt →
      ∀ t : Fin n, k.get (x ++ p :: (y ++ q :: (z ++ [(t : ℕ), 0]))) = (kt t).1 ∧
        k.get (x ++ p :: (y ++ q :: (z ++ [(t : ℕ), 1]))) = (kt t).2)
    (axes : ℤ × ℤ) (h1 : axes.1 = X.length ∨ axes.1 = X.length - k.shape.length)
    (h2 : axes.2 = (X.length + 1 + Y.length : ℕ) ∨ axes.2 = (X.length + 1 + Y.length : ℕ) - k.shape.length) :
    ∃ out, unflattenTransverseWavevectors k G axes = .ok out ∧
      out.shape = X ++ (Y ++ (Z ++ [((hi.1 - lo.1 + 1) * nx).toNat, ((hi.2 - lo.2 + 1) * ny).toNat, 2])) ∧
      ∀ x y z r c, ValidIndex X x → ValidIndex Y y → ValidIndex Z z →
        ((∃ p q t, p < nx ∧ q < ny ∧ IsMergedCell lo nx ny (G t) p q r c) →
          ∃ a b, out.get (x ++ (y ++ (z ++ [r, c, 0]))) = some a ∧ out.get (x ++ (y ++ (z ++ [r, c, 1]))) = some b ∧
            dot (a, b) l.u = 2 * Real.pi * (((r : ℝ) + 1 / 2) / nx - 1 / 2 + lo.1) ∧
            dot (a, b) l.v = 2 * Real.pi * (((c : ℝ) + 1 / 2) / ny - 1 / 2 + lo.2)) ∧
        ((¬ ∃ p q t, p < nx ∧ q < ny ∧ IsMergedCell lo nx ny (G t) p q r c) → ∀ i,
          out.get (x ++ (y ++ (z ++ [r, c, i]))) = none) := by
  obtain ⟨src, e1, e2⟩ := unflattenSource_eq hG hb nx ny
  obtain ⟨out, e3, e4, e5⟩ := unflattenTransverseWavevectors_eq k hs h1 h2 e1
  refine ⟨out, e3, e4, fun x y z r c hx hy hz => ⟨?_, fun hno i => ?_⟩⟩
  · rintro ⟨p, q, t, hp, hq, hc⟩
    have hnx : 1 ≤ nx := by omega
    have hny : 1 ≤ ny := by omega
    obtain ⟨row, kin, hrow, hkin, hu, hv⟩ := brillouin_entry l hl nx ny hnx hny g hg hp hq
    obtain ⟨rec, hrec, d1, d2, d3, d4, -⟩ := C01_reciprocal_dual l hl
    have hkt : transverseWavevectors kin l G = .ok fun i =>
        (kin.1 + 2 * Real.pi * ((G i).1 * rec.u.1 + (G i).2 * rec.v.1),
         kin.2 + 2 * Real.pi * ((G i).1 * rec.u.2 + (G i).2 * rec.v.2)) := by
      unfold transverseWavevectors
      rw [hrec]
      rfl
    obtain ⟨k1, k2⟩ := hk x y z p q row kin _ hx hy hz hrow hkin hkt t
    have hsrc := (e2 r c (⟨p, hp⟩, ⟨q, hq⟩, t)).2 hc
    refine ⟨kin.1 + 2 * Real.pi * ((G t).1 * rec.u.1 + (G t).2 * rec.v.1),
      kin.2 + 2 * Real.pi * ((G t).1 * rec.u.2 + (G t).2 * rec.v.2), ?_, ?_, ?_, ?_⟩
    · rw [e5 x y z 0 r c hx.length_eq hy.length_eq hz.length_eq]
      simp only
      rw [hsrc]
      exact congrArg some k1
    · rw [e5 x y z 1 r c hx.length_eq hy.length_eq hz.length_eq]
      simp only
      rw [hsrc]
      exact congrArg some k2
    · have hr : (r : ℝ) = ((G t).1 - lo.1) * nx + p := by exact_mod_cast hc.1
      have hnx' : (nx : ℝ) ≠ 0 := by exact_mod_cast (by omega : nx ≠ 0)
      have e : ((r : ℝ) + 1 / 2) / nx = ((p : ℝ) + 1 / 2) / nx + ((G t).1 - lo.1) := by
        rw [hr]; field_simp; ring
      rw [e]
      simp only [dot] at hu d1 d2 d3 d4 ⊢
      linear_combination hu + 2 * Real.pi * (G t).1 * d1 + 2 * Real.pi * (G t).2 * d3
    · have hr : (c : ℝ) = ((G t).2 - lo.2) * ny + q := by exact_mod_cast hc.2
      have hny' : (ny : ℝ) ≠ 0 := by exact_mod_cast (by omega : ny ≠ 0)
      have e : ((c : ℝ) + 1 / 2) / ny = ((q : ℝ) + 1 / 2) / ny + ((G t).2 - lo.2) := by
        rw [hr]; field_simp; ring
      rw [e]
      simp only [dot] at hv d1 d2 d3 d4 ⊢
      linear_combination hv + 2 * Real.pi * (G t).1 * d2 + 2 * Real.pi * (G t).2 * d4
  · rw [e5 x y z i r c hx.length_eq hy.length_eq hz.length_eq]
    simp only
    cases h : src r c with
    | none => rfl
    | some w => exact absurd ⟨w.1, w.2.1, w.2.2, w.1.2, w.2.1.2, (e2 r c w).1 h⟩ hno

example : ∃ (g : List (List (ℝ × ℝ))) (k : NDArray ℝ) (out : NDArray (Option ℝ)),
    brillouinZoneInPlaneWavevector [2, 3] ⟨(1, 0), (0, 1)⟩ = .ok g ∧
    unflattenTransverseWavevectors k plusOrders (0, 1) = .ok out ∧ out.shape = [6, 9, 2] := by
  have hl : Independent (1, 0) (0, 1) := by simp [Independent]
  obtain ⟨g, hg, -⟩ := C10_brillouin_grid ⟨(1, 0), (0, 1)⟩ hl 2 3 (by norm_num) (by norm_num)
  let k : NDArray ℝ := ⟨[2, 3, 5, 2], fun i =>
    match transverseWavevectors ((g.getD (i.getD 0 0) []).getD (i.getD 1 0) (0, 0)) ⟨(1, 0), (0, 1)⟩ plusOrders with
    | .ok kt => if h : i.getD 2 0 < 5 then (if i.getD 3 0 = 0 then (kt ⟨_, h⟩).1 else (kt ⟨_, h⟩).2) else 0
    | .error _ => 0⟩
  obtain ⟨out, h, hs, -⟩ := C63_regular_grid ⟨(1, 0), (0, 1)⟩ hl plusOrders plusOrders_injective _ _ plusOrders_bounds
    2 3 g hg [] [] [] k rfl (by
      intro x y z p q row kin kt hx hy hz hrow hkin hkt t
      cases hx; cases hy; cases hz
      have e1 : g.getD p [] = row := by rw [List.getD_eq_getElem?_getD, hrow]; rfl
      have e2 : row.getD q (0, 0) = kin := by rw [List.getD_eq_getElem?_getD, hkin]; rfl
      simp only [k, List.nil_append, List.getD_cons_zero, List.getD_cons_succ, e1, e2, hkt]
      simp) (0, 1) (Or.inl rfl) (Or.inl rfl)
  exact ⟨g, k, out, hg, h, hs⟩

/-! ### C66 -/

section IntegratedFlux

variable {nx ny sources : ℕ}

/-- C66: the reduction to weights is exact.  `integrated_flux`, which differentiates the integral of a dummy flux once and
then forms an inner product, succeeds exactly if the integral does, and gives each source's integral. -/
theorem C66_weights_exact (flux : Fin nx → Fin ny → Fin 2 × Fin n → Fin sources → ℝ) (wavelength : ℝ)
    (inPlane : Fin nx → Fin ny → ℝ × ℝ) (l : LatticeVectors) (G : Fin n → ℤ × ℤ) (bounds : ℝ → ℝ → Bool) (s : ℕ)
    (out : Fin sources → ℝ) (h : integratedFlux flux wavelength inPlane l G bounds s = .ok out) (source : Fin sources) :
    integratedFluxUpsampled (fun p q m => flux p q m source) wavelength inPlane l G bounds s = .ok (out source) := by
  obtain ⟨w, hw, -⟩ := bind_eq_ok.1 h
  obtain ⟨v, hv, -⟩ := bind_eq_ok.1 hw
  obtain ⟨-, src, k, -, -, angles, -, hall⟩ := integratedFluxUpsampled_eq bounds _ hv
  rw [integratedFlux_eq (hall bounds) flux] at h
  rw [hall bounds, ← ok_inj.1 h]

/-- C66: selecting all angles gives the plain sum of the flux over the Brillouin zone, orders and polarizations, for every
upsampling factor, lattice, expansion and nonnegative wavelength. -/
theorem C66_total (flux : Fin nx → Fin ny → Fin 2 × Fin n → Fin sources → ℝ) (wavelength : ℝ) (hw : 0 ≤ wavelength)
    (inPlane : Fin nx → Fin ny → ℝ × ℝ) (l : LatticeVectors) (hl : Independent l.u l.v) (G : Fin n → ℤ × ℤ)
    (hG : Function.Injective G) (hn : 0 < n) (bounds : ℝ → ℝ → Bool)
    (hall : ∀ polar azimuth, 0 ≤ polar → polar ≤ Real.pi / 2 → -Real.pi < azimuth → azimuth ≤ Real.pi →
      bounds polar azimuth = true) (s : ℕ) (hs : 1 ≤ s) :
    integratedFlux flux wavelength inPlane l G bounds s = .ok fun source => ∑ p, ∑ q, ∑ m, flux p q m source := by
  obtain ⟨v, hv⟩ := integratedFluxUpsampled_ok hw inPlane hl hG hn hs bounds fun _ _ _ => 1
  obtain ⟨-, src, k, hsrc, -, angles, ha, h⟩ := integratedFluxUpsampled_eq bounds _ hv
  obtain ⟨lo, hi, hb⟩ := orderBounds_exists hn G
  rw [integratedFlux_eq (h bounds) flux]
  refine congrArg Except.ok ?_
  funext source
  rw [← fluxIntegral_total hG hb hs hsrc]
  congr 1
  funext x
  have hx := ha x
  unfold anglesFromTransverseWavevector at hx
  simp only at hx
  rw [if_neg (by
    have : ∀ a : ℝ, 0 ≤ Real.sqrt a * wavelength / (2 * Real.pi) := fun a =>
      div_nonneg (mul_nonneg (Real.sqrt_nonneg _) hw) (by positivity)
    exact not_lt.2 (le_trans (by norm_num) (this _)))] at hx
  rw [← ok_inj.1 hx]
  refine hall _ _ ?_ ?_ (Complex.neg_pi_lt_arg _) (Complex.arg_le_pi _)
  · simp only
    split_ifs
    · positivity
    · exact Real.arcsin_nonneg.2 (div_nonneg (mul_nonneg (Real.sqrt_nonneg _) hw) (by positivity))
  · simp only
    split_ifs
    · exact le_rfl
    · exact Real.arcsin_le_pi_div_two _

/-- C66: the integrals over two angular regions add up to those over the union and the intersection. -/
theorem C66_additive (flux : Fin nx → Fin ny → Fin 2 × Fin n → Fin sources → ℝ) (wavelength : ℝ)
    (inPlane : Fin nx → Fin ny → ℝ × ℝ) (l : LatticeVectors) (G : Fin n → ℤ × ℤ) (b₁ b₂ : ℝ → ℝ → Bool) (s : ℕ)
    (o₁ : Fin sources → ℝ) (h₁ : integratedFlux flux wavelength inPlane l G b₁ s = .ok o₁) :
    ∃ o₂ union inter, integratedFlux flux wavelength inPlane l G b₂ s = .ok o₂ ∧
      integratedFlux flux wavelength inPlane l G (fun p a => b₁ p a || b₂ p a) s = .ok union ∧
      integratedFlux flux wavelength inPlane l G (fun p a => b₁ p a && b₂ p a) s = .ok inter ∧
      (∀ i, union i + inter i = o₁ i + o₂ i) ∧ ((∀ p a, ¬(b₁ p a = true ∧ b₂ p a = true)) → ∀ i, union i = o₁ i + o₂ i) := by
  obtain ⟨w, hw, -⟩ := bind_eq_ok.1 h₁
  obtain ⟨v, hv, -⟩ := bind_eq_ok.1 hw
  obtain ⟨-, src, k, -, -, angles, -, hall⟩ := integratedFluxUpsampled_eq b₁ _ hv
  rw [integratedFlux_eq (hall b₁) flux] at h₁
  have e₁ := ok_inj.1 h₁
  have key : ∀ f, fluxIntegral src s (fun x => b₁ (angles x).1 (angles x).2 || b₂ (angles x).1 (angles x).2) f +
      fluxIntegral src s (fun x => b₁ (angles x).1 (angles x).2 && b₂ (angles x).1 (angles x).2) f =
      fluxIntegral src s (fun x => b₁ (angles x).1 (angles x).2) f +
        fluxIntegral src s (fun x => b₂ (angles x).1 (angles x).2) f := by
    intro f
    unfold fluxIntegral
    rw [← add_div, ← add_div, ← Finset.sum_add_distrib, ← Finset.sum_add_distrib]
    congr 1
    refine Finset.sum_congr rfl fun r _ => ?_
    rw [← Finset.sum_add_distrib, ← Finset.sum_add_distrib]
    refine Finset.sum_congr rfl fun c _ => ?_
    rw [← Finset.sum_add_distrib, ← Finset.sum_add_distrib]
    refine Finset.sum_congr rfl fun pol _ => ?_
    beta_reduce
    generalize b₁ (angles (r, c)).1 (angles (r, c)).2 = c₁
    generalize b₂ (angles (r, c)).1 (angles (r, c)).2 = c₂
    cases c₁ <;> cases c₂ <;> simp
  refine ⟨_, _, _, integratedFlux_eq (hall b₂) flux, integratedFlux_eq (hall _) flux, integratedFlux_eq (hall _) flux,
    fun i => ?_, fun hd i => ?_⟩
  · rw [← e₁]; exact key _
  · rw [← e₁, ← key]
    have : fluxIntegral src s (fun x => b₁ (angles x).1 (angles x).2 && b₂ (angles x).1 (angles x).2)
        (fun p q m => flux p q m i) = 0 := by
      have hf : (fun x => b₁ (angles x).1 (angles x).2 && b₂ (angles x).1 (angles x).2) =
          fun _ : Fin (s * src.1.1) × Fin (s * src.1.2) => false := by
        funext x
        have := hd (angles x).1 (angles x).2
        revert this
        cases b₁ (angles x).1 (angles x).2 <;> cases b₂ (angles x).1 (angles x).2 <;> simp
      rw [hf]
      simp [fluxIntegral]
    rw [this, add_zero]

/-- C66: enlarging the region does not decrease the integral of a nonnegative flux, and the result lies between zero and the
total. -/
theorem C66_monotone (flux : Fin nx → Fin ny → Fin 2 × Fin n → Fin sources → ℝ) (hf : ∀ p q m i, 0 ≤ flux p q m i)
    (wavelength : ℝ) (inPlane : Fin nx → Fin ny → ℝ × ℝ) (l : LatticeVectors) (G : Fin n → ℤ × ℤ)
    (b₁ b₂ : ℝ → ℝ → Bool) (hb : ∀ p a, b₁ p a = true → b₂ p a = true) (s : ℕ) (o₁ o₂ : Fin sources → ℝ)
    (h₁ : integratedFlux flux wavelength inPlane l G b₁ s = .ok o₁)
    (h₂ : integratedFlux flux wavelength inPlane l G b₂ s = .ok o₂) (i : Fin sources) : 0 ≤ o₁ i ∧ o₁ i ≤ o₂ i := by
  obtain ⟨w, hw, -⟩ := bind_eq_ok.1 h₁
  obtain ⟨v, hv, -⟩ := bind_eq_ok.1 hw
  obtain ⟨-, src, k, -, -, angles, -, hall⟩ := integratedFluxUpsampled_eq b₁ _ hv
  rw [integratedFlux_eq (hall b₁) flux] at h₁
  rw [integratedFlux_eq (hall b₂) flux] at h₂
  rw [← ok_inj.1 h₁, ← ok_inj.1 h₂]
  have hnn : ∀ (pol : Fin 2) (r c : ℕ), 0 ≤ resizeLinear src.1.1 src.1.2 s
      (fun i' j => ((src.2 i' j).map fun x => flux x.1 x.2.1 (pol, x.2.2) i).getD 0) r c := by
    intro pol r c
    refine resizeLinear_nonneg (fun i' j => ?_) r c
    generalize src.2 i' j = o
    cases o with
    | none => exact le_rfl
    | some x => exact hf _ _ _ _
  constructor
  · refine div_nonneg (Finset.sum_nonneg fun r _ => Finset.sum_nonneg fun c _ => Finset.sum_nonneg fun pol _ => ?_)
      (by positivity)
    split_ifs
    · exact hnn _ _ _
    · exact le_rfl
  · refine div_le_div_of_nonneg_right (Finset.sum_le_sum fun r _ => Finset.sum_le_sum fun c _ =>
      Finset.sum_le_sum fun pol _ => ?_) (by positivity)
    beta_reduce
    by_cases h1 : b₁ (angles (r, c)).1 (angles (r, c)).2 = true
    · rw [if_pos h1, if_pos (hb _ _ h1)]
    · rw [if_neg h1]
      split_ifs
      · exact hnn _ _ _
      · exact le_rfl

end IntegratedFlux

example : integratedFlux (fun _ _ m i => if m = (0, 2) then (i : ℝ) + 1 else 0 : Fin 2 → Fin 3 → Fin 2 × Fin 5 → Fin 2 → ℝ) 2
    (fun p q => (p, q)) ⟨(1, 0), (1, 2)⟩ plusOrders (fun _ _ => true) 3 = .ok fun i => 6 * ((i : ℝ) + 1) := by
  rw [C66_total _ 2 (by norm_num) _ _ (by simp [Independent]) plusOrders plusOrders_injective (by norm_num) _
    (fun _ _ _ _ _ _ => rfl) 3 (by norm_num)]
  refine congrArg Except.ok ?_
  funext i
  simp only [Finset.sum_ite_eq', Finset.mem_univ, if_true]
  simp
  ring

/-- One sample of a 3 × 3 array upsampled by two. -/
theorem resizeLinear_corner (X : ℕ → ℕ → ℝ) : resizeLinear 3 3 2 X 5 4 = 3 / 4 * X 2 2 + 1 / 4 * X 2 1 := by
  have w5 : ∀ i, i < 3 → resizeWeight 3 2 i 5 = if i = 2 then 1 else 0 := by
    intro i hi
    rw [show 5 = 2 * 2 + 1 from rfl, resizeWeight_eq (by norm_num) (by norm_num) hi]
    have : resizeOffset 2 1 = 1 / 4 := by unfold resizeOffset; norm_num
    rw [this, abs_of_pos (by norm_num), max_eq_right (by norm_num), max_eq_left (by norm_num)]
    norm_num
    split_ifs <;> norm_num
  have w4 : ∀ i, i < 3 → resizeWeight 3 2 i 4 = if i = 2 then 3 / 4 else if i = 1 then 1 / 4 else 0 := by
    intro i hi
    rw [show 4 = 2 * 2 + 0 from rfl, resizeWeight_eq (by norm_num) (by norm_num) hi]
    have : resizeOffset 2 0 = -1 / 4 := by unfold resizeOffset; norm_num
    rw [this, abs_of_neg (by norm_num), max_eq_left (by norm_num), max_eq_right (by norm_num)]
    norm_num
    split_ifs <;> first | omega | norm_num
  unfold resizeLinear
  simp only [Finset.sum_range_succ, Finset.sum_range_zero]
  rw [w5 0 (by norm_num), w5 1 (by norm_num), w5 2 (by norm_num), w4 0 (by norm_num), w4 1 (by norm_num),
    w4 2 (by norm_num)]
  norm_num
  ring

/-- C66, side finding: cells of the merged grid without an order are given the wavevector zero before upsampling, so that
flux of the orders beside them is counted at angles where there is none.  For the plus-shaped expansion, upsampling by two
and flux only in order `(1, 0)`, which leaves at polar angle `arcsin (1/2)`, the integral over polar angles below
`arcsin (1/4)` is positive. -/
theorem C66_finding_missing_orders :
    ∃ out, integratedFlux (fun _ _ m _ => if m = (0, 2) then 1 else 0 : Fin 1 → Fin 1 → Fin 2 × Fin 5 → Fin 1 → ℝ) (1 / 2)
      (fun _ _ => (0, 0)) ⟨(1, 0), (0, 1)⟩ plusOrders (fun polar _ => decide (polar < Real.arcsin (1 / 4))) 2 = .ok out ∧
      0 < out 0 ∧ ∃ kt, transverseWavevectors (0, 0) ⟨(1, 0), (0, 1)⟩ plusOrders = .ok kt ∧
      ∃ azimuth, anglesFromTransverseWavevector (kt 2) (1 / 2) = .ok (Real.arcsin (1 / 2), azimuth) ∧
      ¬Real.arcsin (1 / 2) < Real.arcsin (1 / 4) := by
  have hl : Independent (1, 0) (0, 1) := by simp [Independent]
  have hrec : reciprocal ⟨(1, 0), (0, 1)⟩ = .ok ⟨(1, 0), (0, 1)⟩ := by
    rw [reciprocal_eq_ok]
    refine ⟨hl, ?_⟩
    simp [crossProduct]
  have hkt : transverseWavevectors (0, 0) ⟨(1, 0), (0, 1)⟩ plusOrders =
      .ok fun t => (2 * Real.pi * (plusOrders t).1, 2 * Real.pi * (plusOrders t).2) := by
    unfold transverseWavevectors
    rw [hrec]
    refine congrArg Except.ok ?_
    funext t
    simp
  have hpi := Real.pi_pos
  obtain ⟨v, hv⟩ := integratedFluxUpsampled_ok (by norm_num : (0 : ℝ) ≤ 1 / 2) (fun (_ _ : Fin 1) => ((0 : ℝ), (0 : ℝ)))
    (l := ⟨(1, 0), (0, 1)⟩) hl plusOrders_injective (by norm_num) (by norm_num : 1 ≤ 2)
    (fun polar _ => decide (polar < Real.arcsin (1 / 4))) fun _ _ _ => 1
  obtain ⟨-, src, k, hsrc, hk, angles, ha, hall⟩ := integratedFluxUpsampled_eq _ _ hv
  obtain ⟨src', e1, e2⟩ := unflattenSource_eq plusOrders_injective plusOrders_bounds 1 1
  rw [hsrc] at e1
  have e1 := ok_inj.1 e1
  have e3 : src = ((3, 3), src') := e1
  subst e3
  have s1 : src' 2 1 = some (0, 0, 2) := (e2 2 1 (0, 0, 2)).2 ⟨by decide, by decide⟩
  have s2 : src' 2 2 = none := by
    cases h : src' 2 2 with
    | none => rfl
    | some x =>
      obtain ⟨c1, c2⟩ := (e2 2 2 x).1 h
      obtain ⟨p, q, t⟩ := x
      exfalso
      revert c1 c2
      clear h
      revert t
      revert p q
      decide
  refine ⟨_, integratedFlux_eq (hall _) _, ?_, _, hkt, Complex.arg (2 * Real.pi), ?_, ?_⟩
  · have hnn : ∀ (pol : Fin 2) (r c : ℕ), 0 ≤ resizeLinear 3 3 2
        (fun i j => ((src' i j).map fun x => if ((pol, x.2.2) : Fin 2 × Fin 5) = (0, 2) then (1 : ℝ) else 0).getD 0) r c := by
      intro pol r c
      refine resizeLinear_nonneg (fun i j => ?_) r c
      generalize src' i j = o
      cases o with
      | none => exact le_rfl
      | some x =>
        simp only [Option.map_some, Option.getD_some]
        split_ifs <;> norm_num
    have hang : (angles (⟨5, by norm_num⟩, ⟨4, by norm_num⟩)).1 = Real.arcsin (1 / 8) := by
      have hx := ha (⟨5, by norm_num⟩, ⟨4, by norm_num⟩)
      have hk0 := hk (0, 0)
      rw [hkt] at hk0
      simp only [resizeLinear_corner, s1, s2, Option.map_some, Option.map_none, Option.getD_some, Option.getD_none,
        ← ok_inj.1 hk0] at hx
      unfold anglesFromTransverseWavevector at hx
      have hs : Real.sqrt ((3 / 4 * 0 + 1 / 4 * (2 * Real.pi * ((plusOrders 2).1 : ℝ))) ^ 2 +
          (3 / 4 * 0 + 1 / 4 * (2 * Real.pi * ((plusOrders 2).2 : ℝ))) ^ 2) * (1 / 2) / (2 * Real.pi) = 1 / 8 := by
        have : (3 / 4 * 0 + 1 / 4 * (2 * Real.pi * ((plusOrders 2).1 : ℝ))) ^ 2 +
          (3 / 4 * 0 + 1 / 4 * (2 * Real.pi * ((plusOrders 2).2 : ℝ))) ^ 2 = (Real.pi / 2) ^ 2 := by
          simp [plusOrders]
          ring
        rw [this, Real.sqrt_sq (by positivity)]
        field_simp
        norm_num
      simp only [hs] at hx
      rw [if_neg (by norm_num)] at hx
      rw [← ok_inj.1 hx]
      simp only
      rw [if_neg (by norm_num)]
    have hsel : Real.arcsin (1 / 8) < Real.arcsin (1 / 4) :=
      Real.strictMonoOn_arcsin ⟨by norm_num, by norm_num⟩ ⟨by norm_num, by norm_num⟩ (by norm_num)
    refine div_pos ?_ (by norm_num)
    refine Finset.sum_pos' (fun r _ => Finset.sum_nonneg fun c _ => Finset.sum_nonneg fun pol _ => ?_)
      ⟨⟨5, by norm_num⟩, Finset.mem_univ _, Finset.sum_pos' (fun c _ => Finset.sum_nonneg fun pol _ => ?_)
        ⟨⟨4, by norm_num⟩, Finset.mem_univ _, Finset.sum_pos' (fun pol _ => ?_) ⟨0, Finset.mem_univ _, ?_⟩⟩⟩
    · split_ifs
      · exact hnn _ _ _
      · exact le_rfl
    · split_ifs
      · exact hnn _ _ _
      · exact le_rfl
    · split_ifs
      · exact hnn _ _ _
      · exact le_rfl
    · beta_reduce
      rw [hang, if_pos (by simpa using hsel)]
      simp only [resizeLinear_corner, s1, s2, Option.map_some, Option.map_none, Option.getD_some, Option.getD_none]
      norm_num
  · unfold anglesFromTransverseWavevector
    have hs : Real.sqrt ((2 * Real.pi * ((plusOrders 2).1 : ℝ)) ^ 2 + (2 * Real.pi * ((plusOrders 2).2 : ℝ)) ^ 2) *
        (1 / 2) / (2 * Real.pi) = 1 / 2 := by
      have : (2 * Real.pi * ((plusOrders 2).1 : ℝ)) ^ 2 + (2 * Real.pi * ((plusOrders 2).2 : ℝ)) ^ 2 =
          (2 * Real.pi) ^ 2 := by
        simp [plusOrders]
      rw [this, Real.sqrt_sq (by positivity)]
      field_simp
    simp only [hs]
    rw [if_neg (by norm_num), if_neg (by norm_num)]
    simp [plusOrders]
  · exact not_lt.2 (Real.monotone_arcsin (by norm_num))

end Fmmax
