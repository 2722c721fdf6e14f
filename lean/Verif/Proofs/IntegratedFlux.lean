import Verif.Proofs.Resize
import Verif.Proofs.Farfield
import Verif.Proofs.Layer
import Verif.Spec.Lattice
import Mathlib.Analysis.Calculus.Deriv.Mul
import Mathlib.Analysis.Calculus.Deriv.Add
import Mathlib.LinearAlgebra.Pi
import Mathlib.LinearAlgebra.StdBasis

/-! Integrated flux: linearity, weights and total. -/

namespace Fmmax

open Spec

variable {n nx ny : ℕ}

/-- The value of the integral for given cells and angles. -/
noncomputable def fluxIntegral (src : (ℕ × ℕ) × (ℕ → ℕ → Option (Fin nx × Fin ny × Fin n))) (s : ℕ)
    (sel : Fin (s * src.1.1) × Fin (s * src.1.2) → Bool) (flux : Fin nx → Fin ny → Fin 2 × Fin n → ℝ) : ℝ :=
  (∑ r, ∑ c, ∑ pol, if sel (r, c) then resizeLinear src.1.1 src.1.2 s
    (fun i j => ((src.2 i j).map fun x => flux x.1 x.2.1 (pol, x.2.2)).getD 0) r c else 0) / (s : ℝ) ^ 2

theorem fluxIntegral_add (src : (ℕ × ℕ) × (ℕ → ℕ → Option (Fin nx × Fin ny × Fin n))) (s : ℕ)
    (sel : Fin (s * src.1.1) × Fin (s * src.1.2) → Bool) (f g : Fin nx → Fin ny → Fin 2 × Fin n → ℝ) :
    fluxIntegral src s sel (f + g) = fluxIntegral src s sel f + fluxIntegral src s sel g := by
  unfold fluxIntegral
  rw [← add_div, ← Finset.sum_add_distrib]
  congr 1
  refine Finset.sum_congr rfl fun r _ => ?_
  rw [← Finset.sum_add_distrib]
  refine Finset.sum_congr rfl fun c _ => ?_
  rw [← Finset.sum_add_distrib]
  refine Finset.sum_congr rfl fun pol _ => ?_
  split_ifs
  · unfold resizeLinear
    rw [← Finset.sum_add_distrib]
    refine Finset.sum_congr rfl fun i _ => ?_
    rw [← Finset.sum_add_distrib]
    refine Finset.sum_congr rfl fun j _ => ?_
    beta_reduce
    generalize src.2 i j = o
    cases o with
    | none => simp
    | some x => simp only [Option.map_some, Option.getD_some, Pi.add_apply]; ring
  · ring

theorem fluxIntegral_smul (src : (ℕ × ℕ) × (ℕ → ℕ → Option (Fin nx × Fin ny × Fin n))) (s : ℕ)
    (sel : Fin (s * src.1.1) × Fin (s * src.1.2) → Bool) (a : ℝ) (f : Fin nx → Fin ny → Fin 2 × Fin n → ℝ) :
    fluxIntegral src s sel (a • f) = a * fluxIntegral src s sel f := by
  unfold fluxIntegral
  rw [← mul_div_assoc, Finset.mul_sum]
  congr 1
  refine Finset.sum_congr rfl fun r _ => ?_
  rw [Finset.mul_sum]
  refine Finset.sum_congr rfl fun c _ => ?_
  rw [Finset.mul_sum]
  refine Finset.sum_congr rfl fun pol _ => ?_
  split_ifs
  · unfold resizeLinear
    rw [Finset.mul_sum]
    refine Finset.sum_congr rfl fun i _ => ?_
    rw [Finset.mul_sum]
    refine Finset.sum_congr rfl fun j _ => ?_
    beta_reduce
    generalize src.2 i j = o
    cases o with
    | none => simp
    | some x => simp only [Option.map_some, Option.getD_some, Pi.smul_apply, smul_eq_mul]; ring
  · ring

/-- The integral as a linear form. -/
noncomputable def fluxIntegralLin (src : (ℕ × ℕ) × (ℕ → ℕ → Option (Fin nx × Fin ny × Fin n))) (s : ℕ)
    (sel : Fin (s * src.1.1) × Fin (s * src.1.2) → Bool) : (Fin nx × Fin ny × (Fin 2 × Fin n) → ℝ) →ₗ[ℝ] ℝ where
  toFun f := fluxIntegral src s sel fun p q m => f (p, q, m)
  map_add' f g := fluxIntegral_add src s sel _ _
  map_smul' a f := fluxIntegral_smul src s sel a _

/-- The single-entry flux. -/
def unitFlux (p : Fin nx) (q : Fin ny) (m : Fin 2 × Fin n) : Fin nx → Fin ny → Fin 2 × Fin n → ℝ :=
  fun p' q' m' => if (p', q', m') = (p, q, m) then 1 else 0

theorem fluxIntegral_expand (src : (ℕ × ℕ) × (ℕ → ℕ → Option (Fin nx × Fin ny × Fin n))) (s : ℕ)
    (sel : Fin (s * src.1.1) × Fin (s * src.1.2) → Bool) (f : Fin nx → Fin ny → Fin 2 × Fin n → ℝ) :
    fluxIntegral src s sel f = ∑ p, ∑ q, ∑ m, fluxIntegral src s sel (unitFlux p q m) * f p q m := by
  have h := LinearMap.pi_apply_eq_sum_univ (fluxIntegralLin src s sel) fun x => f x.1 x.2.1 x.2.2
  have e : fluxIntegralLin src s sel (fun x => f x.1 x.2.1 x.2.2) = fluxIntegral src s sel f := rfl
  rw [← e, h, Fintype.sum_prod_type]
  refine Finset.sum_congr rfl fun p _ => ?_
  rw [Fintype.sum_prod_type]
  refine Finset.sum_congr rfl fun q _ => Finset.sum_congr rfl fun m _ => ?_
  rw [smul_eq_mul, mul_comm]
  congr 1
  unfold fluxIntegralLin
  simp only [LinearMap.coe_mk, AddHom.coe_mk]
  congr 1
  funext p' q' m'
  unfold unitFlux
  by_cases h : (p, q, m) = (p', q', m')
  · rw [if_pos h, if_pos h.symm]
  · rw [if_neg h, if_neg (Ne.symm h)]

/-- What the computation of one source's integral looks like when it succeeds; the cells and angles do not depend on the flux
or the bounds. -/
theorem integratedFluxUpsampled_eq {wavelength : ℝ} {inPlane : Fin nx → Fin ny → ℝ × ℝ} {l : LatticeVectors}
    {G : Fin n → ℤ × ℤ} {s : ℕ} (bounds₀ : ℝ → ℝ → Bool) (flux₀ : Fin nx → Fin ny → Fin 2 × Fin n → ℝ)
    {v : ℝ} (h : integratedFluxUpsampled flux₀ wavelength inPlane l G bounds₀ s = .ok v) :
    1 ≤ s ∧ ∃ src, ∃ k : Fin nx × Fin ny → Fin n → ℝ × ℝ, unflattenSource G nx ny = .ok src ∧
      (∀ x : Fin nx × Fin ny, transverseWavevectors (inPlane x.1 x.2) l G = .ok (k x)) ∧
      ∃ angles : Fin (s * src.1.1) × Fin (s * src.1.2) → ℝ × ℝ,
      (∀ x, anglesFromTransverseWavevector
        (resizeLinear src.1.1 src.1.2 s (fun r c => (((src.2 r c).map fun x => k (x.1, x.2.1) x.2.2).getD (0, 0)).1) x.1 x.2,
         resizeLinear src.1.1 src.1.2 s (fun r c => (((src.2 r c).map fun x => k (x.1, x.2.1) x.2.2).getD (0, 0)).2) x.1 x.2)
        wavelength = .ok (angles x)) ∧
      ∀ bounds flux, integratedFluxUpsampled flux wavelength inPlane l G bounds s =
        .ok (fluxIntegral src s (fun x => bounds (angles x).1 (angles x).2) flux) := by
  unfold integratedFluxUpsampled at h
  by_cases hs : 1 ≤ s
  swap
  · rw [if_pos hs] at h; cases h
  rw [if_neg (not_not.2 hs)] at h
  obtain ⟨k, hk, h⟩ := bind_eq_ok.1 h
  obtain ⟨src, hsrc, h⟩ := bind_eq_ok.1 h
  simp only at h
  obtain ⟨angles, ha, h⟩ := bind_eq_ok.1 h
  refine ⟨hs, src, k, hsrc, fun x => allOk_eq_ok.1 hk x, angles, fun x => allOk_eq_ok.1 ha x, fun bounds flux => ?_⟩
  unfold integratedFluxUpsampled
  rw [if_neg (not_not.2 hs), hk]
  simp only [bind, Except.bind]
  rw [hsrc]
  simp only
  rw [ha]
  rfl

/-- The weights are the integrals of the single-entry fluxes. -/
theorem integratedFluxWeights_eq {wavelength : ℝ} {inPlane : Fin nx → Fin ny → ℝ × ℝ} {l : LatticeVectors}
    {G : Fin n → ℤ × ℤ} {s : ℕ} {bounds : ℝ → ℝ → Bool}
    {src : (ℕ × ℕ) × (ℕ → ℕ → Option (Fin nx × Fin ny × Fin n))} {sel : Fin (s * src.1.1) × Fin (s * src.1.2) → Bool}
    (h : ∀ flux, integratedFluxUpsampled flux wavelength inPlane l G bounds s = .ok (fluxIntegral src s sel flux)) :
    integratedFluxWeights wavelength inPlane l G bounds s =
      .ok fun p q m => fluxIntegral src s sel (unitFlux p q m) := by
  unfold integratedFluxWeights
  simp only [h, bind, Except.bind]
  refine congrArg Except.ok ?_
  funext p q m
  have e : (fun t : ℝ => (Except.ok (fluxIntegral src s sel fun p' q' m' =>
        1 + if (p', q', m') = (p, q, m) then t else 0) : Res ℝ).toOption.getD 0) =
      fun t : ℝ => fluxIntegral src s sel (fun _ _ _ => 1) + t * fluxIntegral src s sel (unitFlux p q m) := by
    funext t
    rw [← fluxIntegral_smul, ← fluxIntegral_add]
    have e' : (fun (p' : Fin nx) (q' : Fin ny) (m' : Fin 2 × Fin n) =>
        (1 : ℝ) + if (p', q', m') = (p, q, m) then t else 0) = (fun _ _ _ => 1) + t • unitFlux p q m := by
      funext p' q' m'
      simp only [Pi.add_apply, Pi.smul_apply, smul_eq_mul, unitFlux]
      split_ifs <;> simp
    rw [e']
    rfl
  rw [e]
  have hd : HasDerivAt (fun t : ℝ => fluxIntegral src s sel (fun _ _ _ => 1) + t * fluxIntegral src s sel (unitFlux p q m))
      (1 * fluxIntegral src s sel (unitFlux p q m)) 0 := ((hasDerivAt_id (0 : ℝ)).mul_const _).const_add _
  rw [hd.deriv, one_mul]

theorem integratedFlux_eq {sources : ℕ} {wavelength : ℝ} {inPlane : Fin nx → Fin ny → ℝ × ℝ} {l : LatticeVectors}
    {G : Fin n → ℤ × ℤ} {s : ℕ} {bounds : ℝ → ℝ → Bool}
    {src : (ℕ × ℕ) × (ℕ → ℕ → Option (Fin nx × Fin ny × Fin n))} {sel : Fin (s * src.1.1) × Fin (s * src.1.2) → Bool}
    (h : ∀ flux, integratedFluxUpsampled flux wavelength inPlane l G bounds s = .ok (fluxIntegral src s sel flux))
    (flux : Fin nx → Fin ny → Fin 2 × Fin n → Fin sources → ℝ) :
    integratedFlux flux wavelength inPlane l G bounds s =
      .ok fun source => fluxIntegral src s sel fun p q m => flux p q m source := by
  unfold integratedFlux
  rw [integratedFluxWeights_eq h]
  simp only [bind, Except.bind]
  refine congrArg Except.ok ?_
  funext source
  rw [fluxIntegral_expand]

/-- The integral succeeds for independent lattice vectors, distinct orders and a nonnegative wavelength. -/
theorem integratedFluxUpsampled_ok {wavelength : ℝ} (hw : 0 ≤ wavelength) (inPlane : Fin nx → Fin ny → ℝ × ℝ)
    {l : LatticeVectors} (hl : Independent l.u l.v) {G : Fin n → ℤ × ℤ} (hG : Function.Injective G) (hn : 0 < n)
    {s : ℕ} (hs : 1 ≤ s) (bounds : ℝ → ℝ → Bool) (flux : Fin nx → Fin ny → Fin 2 × Fin n → ℝ) :
    ∃ v, integratedFluxUpsampled flux wavelength inPlane l G bounds s = .ok v := by
  obtain ⟨lo, hi, hb⟩ := orderBounds_exists hn G
  obtain ⟨src, hsrc, -⟩ := unflattenSource_eq hG hb nx ny
  obtain ⟨rec, hrec⟩ : ∃ r, reciprocal l = .ok r := ⟨_, reciprocal_eq_ok.2 ⟨hl, rfl⟩⟩
  have hk : ∀ x : Fin nx × Fin ny, ∃ k, transverseWavevectors (inPlane x.1 x.2) l G = .ok k := by
    intro x
    unfold transverseWavevectors
    rw [hrec]
    exact ⟨_, rfl⟩
  obtain ⟨k, hk, -⟩ := allOk_exists hk
  have ha : ∀ k : ℝ × ℝ, ∃ a, anglesFromTransverseWavevector k wavelength = .ok a := by
    intro k
    unfold anglesFromTransverseWavevector
    simp only
    rw [if_neg]
    · exact ⟨_, rfl⟩
    · have : 0 ≤ Real.sqrt (k.1 ^ 2 + k.2 ^ 2) * wavelength / (2 * Real.pi) :=
        div_nonneg (mul_nonneg (Real.sqrt_nonneg _) hw) (by positivity)
      linarith
  unfold integratedFluxUpsampled
  rw [if_neg (not_not.2 hs), hk]
  simp only [bind, Except.bind]
  rw [hsrc]
  simp only
  obtain ⟨a, ha', -⟩ := allOk_exists (f := fun x : Fin (s * ((hi.1 - lo.1 + 1) * nx).toNat) × Fin (s * ((hi.2 - lo.2 + 1) * ny).toNat) =>
    anglesFromTransverseWavevector (resizeLinear ((hi.1 - lo.1 + 1) * nx).toNat ((hi.2 - lo.2 + 1) * ny).toNat s
      (fun r c => (((src r c).map fun x => k (x.1, x.2.1) x.2.2).getD (0, 0)).1) x.1 x.2,
      resizeLinear ((hi.1 - lo.1 + 1) * nx).toNat ((hi.2 - lo.2 + 1) * ny).toNat s
      (fun r c => (((src r c).map fun x => k (x.1, x.2.1) x.2.2).getD (0, 0)).2) x.1 x.2) wavelength) fun x => ha _
  rw [ha']
  exact ⟨_, rfl⟩

/-- Over all cells the integral is the plain sum. -/
theorem fluxIntegral_total {G : Fin n → ℤ × ℤ} (hG : Function.Injective G) {lo hi : ℤ × ℤ} (hb : OrderBounds G lo hi)
    {s : ℕ} (hs : 1 ≤ s) {src : (ℕ × ℕ) × (ℕ → ℕ → Option (Fin nx × Fin ny × Fin n))}
    (hsrc : unflattenSource G nx ny = .ok src) (flux : Fin nx → Fin ny → Fin 2 × Fin n → ℝ) :
    fluxIntegral src s (fun _ => true) flux = ∑ p, ∑ q, ∑ m, flux p q m := by
  obtain ⟨src', e1, e2⟩ := unflattenSource_eq hG hb nx ny
  rw [hsrc] at e1
  have e1 := ok_inj.1 e1
  subst e1
  have hs' : (s : ℝ) ≠ 0 := by exact_mod_cast (by omega : s ≠ 0)
  unfold fluxIntegral
  simp only [if_true]
  have cells : ∀ pol : Fin 2, ∑ i ∈ Finset.range ((hi.1 - lo.1 + 1) * nx).toNat,
      ∑ j ∈ Finset.range ((hi.2 - lo.2 + 1) * ny).toNat,
        ((src' i j).map fun x => flux x.1 x.2.1 (pol, x.2.2)).getD 0 = ∑ x : Fin nx × Fin ny × Fin n,
          flux x.1 x.2.1 (pol, x.2.2) := by
    intro pol
    have h1 : ∀ i j, ((src' i j).map fun x => flux x.1 x.2.1 (pol, x.2.2)).getD 0 =
        ∑ x : Fin nx × Fin ny × Fin n, if src' i j = some x then flux x.1 x.2.1 (pol, x.2.2) else 0 := by
      intro i j
      cases h : src' i j with
      | none => simp
      | some y =>
        simp only [Option.map_some, Option.getD_some, Option.some.injEq]
        rw [Finset.sum_ite_eq, if_pos (Finset.mem_univ y)]
    simp only [h1]
    rw [Finset.sum_congr rfl fun i _ => Finset.sum_comm, Finset.sum_comm]
    refine Finset.sum_congr rfl fun x _ => ?_
    obtain ⟨a1, a2⟩ := merged_bounds (hb.le1 x.2.2) x.1.2
    obtain ⟨b1, b2⟩ := merged_bounds (hb.le2 x.2.2) x.2.1.2
    set r := ((G x.2.2).1 * nx + x.1 - lo.1 * nx).toNat with hr
    set c := ((G x.2.2).2 * ny + x.2.1 - lo.2 * ny).toNat with hc
    have hcell : ∀ i j, src' i j = some x ↔ i = r ∧ j = c := by
      intro i j
      rw [e2 i j x]
      constructor
      · rintro ⟨c1, c2⟩
        constructor
        · rw [hr]
          have : (G x.2.2).1 * nx + x.1 - lo.1 * nx = i := by rw [c1]; ring
          rw [this]; simp
        · rw [hc]
          have : (G x.2.2).2 * ny + x.2.1 - lo.2 * ny = j := by rw [c2]; ring
          rw [this]; simp
      · rintro ⟨rfl, rfl⟩
        exact ⟨by rw [hr, Int.toNat_of_nonneg a1]; ring, by rw [hc, Int.toNat_of_nonneg b1]; ring⟩
    simp only [hcell]
    rw [Finset.sum_eq_single r]
    · rw [Finset.sum_eq_single c]
      · rw [if_pos ⟨rfl, rfl⟩]
      · intro j _ hj
        rw [if_neg fun h => hj h.2]
      · intro h
        exact absurd (Finset.mem_range.2 (by omega)) h
    · intro i _ hi'
      exact Finset.sum_eq_zero fun j _ => if_neg fun h => hi' h.1
    · intro h
      exact absurd (Finset.mem_range.2 (by omega)) h
  have e : ∑ r : Fin (s * ((hi.1 - lo.1 + 1) * nx).toNat), ∑ c : Fin (s * ((hi.2 - lo.2 + 1) * ny).toNat), ∑ pol : Fin 2,
      resizeLinear ((hi.1 - lo.1 + 1) * nx).toNat ((hi.2 - lo.2 + 1) * ny).toNat s
        (fun i j => ((src' i j).map fun x => flux x.1 x.2.1 (pol, x.2.2)).getD 0) r c =
      (s : ℝ) ^ 2 * ∑ pol : Fin 2, ∑ x : Fin nx × Fin ny × Fin n, flux x.1 x.2.1 (pol, x.2.2) := by
    rw [Finset.sum_congr rfl fun r _ => Finset.sum_comm, Finset.sum_comm, Finset.mul_sum]
    refine Finset.sum_congr rfl fun pol _ => ?_
    rw [resizeLinear_sum, cells pol]
  rw [e, mul_div_cancel_left₀ _ (pow_ne_zero 2 hs')]
  rw [Finset.sum_comm, Fintype.sum_prod_type]
  refine Finset.sum_congr rfl fun p _ => ?_
  rw [Fintype.sum_prod_type]
  refine Finset.sum_congr rfl fun q _ => ?_
  rw [Fintype.sum_prod_type, Finset.sum_comm]

end Fmmax
