import Verif.Proofs.Profile
import Verif.Props.Farfield

/-! Property theorems C77 and C78: transverse wavevectors with batch dimensions and the far-field profile. -/

namespace Fmmax

open Spec

variable {n : ℕ}

/-! ### C77 -/

/-- C77: the transverse wavevectors are computed for each batch element of the in-plane wavevector, for a single lattice of
any rank up to that of the in-plane wavevector. -/
theorem C77_transverse_wavevectors_batch {m : ℕ} {B : List ℕ} (inPlane u v : NDArray ℝ) (hi : inPlane.shape = B ++ [2])
    (hu : u.shape = List.replicate m 1 ++ [2]) (hv : v.shape = List.replicate m 1 ++ [2]) (hm : m ≤ B.length + 1)
    (l : LatticeVectors) (hl : latticeAt u v (List.replicate m 0) = l) (hind : Independent l.u l.v) (G : Fin n → ℤ × ℤ) :
    ∃ out, transverseWavevectorsBatch inPlane u v G = .ok out ∧ out.shape = B ++ [n, 2] ∧
      ∀ b, ValidIndex B b → ∀ t : Fin n,
        dot (out.get (b ++ [(t : ℕ), 0]), out.get (b ++ [(t : ℕ), 1])) l.u =
          dot (inPlane.get (b ++ [0]), inPlane.get (b ++ [1])) l.u + 2 * Real.pi * (G t).1 ∧
        dot (out.get (b ++ [(t : ℕ), 0]), out.get (b ++ [(t : ℕ), 1])) l.v =
          dot (inPlane.get (b ++ [0]), inPlane.get (b ++ [1])) l.v + 2 * Real.pi * (G t).2 := by
  subst hl
  obtain ⟨out, h1, h2, h3⟩ := transverseWavevectorsBatch_eq hi hu hv hm hind G
  refine ⟨out, h1, h2, fun b hb t => ?_⟩
  obtain ⟨kt, h4, h5⟩ := h3 b hb
  obtain ⟨k, h6, h7, -⟩ := C12_transverse_wavevectors (inPlane.get (b ++ [0]), inPlane.get (b ++ [1]))
    (latticeAt u v (List.replicate m 0)) G hind
  rw [h4] at h6
  cases h6
  have h8 := h7 t
  rw [(h5 t).1, (h5 t).2]
  simp only [dot, Prod.fst_sub, Prod.snd_sub] at h8 ⊢
  constructor
  · linear_combination h8.1
  · linear_combination h8.2

/-- Three in-plane wavevectors and an oblique lattice given with an extra axis. -/
example : ∃ out, transverseWavevectorsBatch ⟨[3, 2], fun i => i.getD 0 0⟩ ⟨[1, 2], fun i => if i.getLastD 0 = 0 then 2 else 1⟩
    ⟨[1, 2], fun i => if i.getLastD 0 = 0 then 0 else 3⟩ plusOrders = .ok out ∧ out.shape = [3, 5, 2] := by
  obtain ⟨out, h1, h2, -⟩ := C77_transverse_wavevectors_batch (m := 1) (B := [3]) ⟨[3, 2], fun i => (i.getD 0 0 : ℝ)⟩
    ⟨[1, 2], fun i => if i.getLastD 0 = 0 then 2 else 1⟩ ⟨[1, 2], fun i => if i.getLastD 0 = 0 then 0 else 3⟩ rfl rfl rfl
    (by simp) ⟨(2, 1), (0, 3)⟩ (by simp [latticeAt]) (by norm_num [Independent]) plusOrders
  exact ⟨out, h1, h2⟩

/-! ### C78 -/

/-- The cells of an `R × C` grid used for the area of cell `(r, c)`: the adjacent ones, except the one at the far corner. -/
def Spec.AreaNeighbour (R C r c a b : ℕ) : Prop :=
  a < R ∧ b < C ∧ a ≤ r + 1 ∧ r ≤ a + 1 ∧ b ≤ c + 1 ∧ c ≤ b + 1 ∧ ¬(a = r + 1 ∧ b = c + 1)

theorem cellVertexNan_eq_some {R C : ℕ} {k : ℕ → ℕ → Option (ℝ × ℝ)} {i j : ℕ} {v : ℝ × ℝ}
    (h : cellVertexNan R C k i j = some v) :
    ∃ a b c d, edgePad R C k i j = some a ∧ edgePad R C k i (j + 1) = some b ∧ edgePad R C k (i + 1) j = some c ∧
      edgePad R C k (i + 1) (j + 1) = some d ∧ v = ((a.1 + b.1 + c.1 + d.1) / 4, (a.2 + b.2 + c.2 + d.2) / 4) := by
  unfold cellVertexNan at h
  simp only [bind, Option.bind_eq_some_iff, Option.some.injEq] at h
  obtain ⟨a, h1, b, h2, c, h3, d, h4, h5⟩ := h
  exact ⟨a, b, c, d, h1, h2, h3, h4, h5.symm⟩

theorem solidAngleNan_eq_some {R C : ℕ} {k : ℕ → ℕ → Option (ℝ × ℝ)} {r c : ℕ} {ω : ℝ}
    (h : solidAngleNan R C k r c = some ω) {a b : ℕ} (hr : r < R) (hc : c < C) (hab : AreaNeighbour R C r c a b) :
    ∃ q, k a b = some q := by
  unfold solidAngleNan at h
  simp only [bind, Option.bind_eq_some_iff] at h
  obtain ⟨q, hq, v00, h00, v01, h01, v10, h10, -⟩ := h
  obtain ⟨a1, a2, a3, a4, x1, x2, x3, x4, -⟩ := cellVertexNan_eq_some h00
  obtain ⟨b1, b2, b3, b4, y1, y2, y3, y4, -⟩ := cellVertexNan_eq_some h01
  obtain ⟨c1, c2, c3, c4, z1, z2, z3, z4, -⟩ := cellVertexNan_eq_some h10
  obtain ⟨g1, g2, g3, g4, g5, g6, g7⟩ := hab
  unfold edgePad at *
  have key : ∀ p q v, k (min p (R - 1)) (min q (C - 1)) = some v → min p (R - 1) = a → min q (C - 1) = b → ∃ q, k a b = some q := by
    intro p q v h e1 e2
    rw [e1, e2] at h
    exact ⟨v, h⟩
  rcases (by omega : a + 1 = r ∨ a = r ∨ a = r + 1) with ha | ha | ha <;>
    rcases (by omega : b + 1 = c ∨ b = c ∨ b = c + 1) with hb | hb | hb
  · exact key _ _ _ x1 (by omega) (by omega)
  · exact key _ _ _ x2 (by omega) (by omega)
  · exact key _ _ _ y2 (by omega) (by omega)
  · exact key _ _ _ x3 (by omega) (by omega)
  · exact key _ _ _ x4 (by omega) (by omega)
  · exact key _ _ _ y4 (by omega) (by omega)
  · exact key _ _ _ z3 (by omega) (by omega)
  · exact key _ _ _ z4 (by omega) (by omega)
  · exact absurd ⟨ha, hb⟩ g7

/-- If the neighbours are present the solid angle is the one of a grid without missing entries. -/
theorem solidAngleNan_eq {R C : ℕ} {f : ℕ → ℕ → Option (ℝ × ℝ)} {k : ℕ → ℕ → ℝ × ℝ} {w : ℝ} (hw : w ≠ 0) {r c : ℕ}
    (hr : r < R) (hc : c < C)
    (h : ∀ a b, AreaNeighbour R C r c a b → f a b = some ((k a b).1 / (2 * Real.pi / w), (k a b).2 / (2 * Real.pi / w))) :
    solidAngleNan R C f r c = (solidAngle R C k w r c).toOption := by
  have e : ∀ p q, AreaNeighbour R C r c (min (p - 1) (R - 1)) (min (q - 1) (C - 1)) → edgePad R C f p q =
      some (edgePad R C (fun i j => (k i j).1 / (2 * Real.pi / w)) p q, edgePad R C (fun i j => (k i j).2 / (2 * Real.pi / w)) p q) :=
    fun p q hpq => h _ _ hpq
  unfold solidAngleNan cellVertexNan
  rw [h r c ⟨hr, hc, by omega, by omega, by omega, by omega, by omega⟩,
    e r c ⟨by omega, by omega, by omega, by omega, by omega, by omega, by omega⟩,
    e r (c + 1) ⟨by omega, by omega, by omega, by omega, by omega, by omega, by omega⟩,
    e (r + 1) c ⟨by omega, by omega, by omega, by omega, by omega, by omega, by omega⟩,
    e (r + 1) (c + 1) ⟨by omega, by omega, by omega, by omega, by omega, by omega, by omega⟩,
    e r (c + 1 + 1) ⟨by omega, by omega, by omega, by omega, by omega, by omega, by omega⟩,
    e (r + 1) (c + 1 + 1) ⟨by omega, by omega, by omega, by omega, by omega, by omega, by omega⟩,
    e (r + 1 + 1) c ⟨by omega, by omega, by omega, by omega, by omega, by omega, by omega⟩,
    e (r + 1 + 1) (c + 1) ⟨by omega, by omega, by omega, by omega, by omega, by omega, by omega⟩]
  unfold solidAngle
  rw [if_neg hw]
  simp only [bind, Option.bind, cellVertex]
  split_ifs <;> rfl

/-- Evanescent and grazing wavevectors have no solid angle. -/
theorem solidAngleNan_evanescent {R C : ℕ} {k : ℕ → ℕ → Option (ℝ × ℝ)} {r c : ℕ} {q : ℝ × ℝ} (hq : k r c = some q)
    (h : 1 ≤ Real.sqrt (q.1 ^ 2 + q.2 ^ 2)) : solidAngleNan R C k r c = none := by
  cases hs : solidAngleNan R C k r c with
  | none => rfl
  | some ω =>
    exfalso
    unfold solidAngleNan at hs
    simp only [bind, Option.bind_eq_some_iff] at hs
    obtain ⟨q', hq', v00, -, v01, -, v10, -, hs⟩ := hs
    rw [hq] at hq'
    cases hq'
    rcases h.lt_or_eq with h | h
    · rw [if_pos h] at hs
      cases hs
    · rw [← h] at hs
      simp at hs

/-- The documented arguments of `farfield_profile`: the flux has batch axes `X`, `Y`, `Z` around the two axes of the Brillouin
grid; the wavelength can be broadcast to the batch with single entries along the Brillouin axes; the in-plane wavevector has
the Brillouin axes and can be broadcast along the others; there is a single lattice `l`. -/
structure Spec.ProfileArgs (flux w ip u v : NDArray ℝ) (G : Fin n → ℤ × ℤ) (axes : ℤ × ℤ) (X Y Z : List ℕ) (nx ny S : ℕ)
    (l : LatticeVectors) (lo hi : ℤ × ℤ) : Prop where
  flux_shape : flux.shape = X ++ nx :: (Y ++ ny :: (Z ++ [2 * n, S]))
  flux_pos : ∀ d ∈ flux.shape, 0 < d
  wavelength : BroadcastsTo w.shape (X ++ 1 :: (Y ++ 1 :: Z))
  inPlane : ∃ P Y2 Z2, ip.shape = P ++ nx :: (Y2 ++ ny :: (Z2 ++ [2])) ∧ BroadcastsTo P X ∧
    List.Forall₂ (fun a b => a = 1 ∨ a = b) Y2 Y ∧ List.Forall₂ (fun a b => a = 1 ∨ a = b) Z2 Z
  lattice : ∃ m, u.shape = List.replicate m 1 ++ [2] ∧ v.shape = List.replicate m 1 ++ [2] ∧
    m ≤ X.length + Y.length + Z.length + 3 ∧ latticeAt u v (List.replicate m 0) = l
  independent : Independent l.u l.v
  axis1 : axes.1 = X.length ∨ axes.1 = X.length - flux.shape.length
  axis2 : axes.2 = (X.length + 1 + Y.length : ℕ) ∨ axes.2 = (X.length + 1 + Y.length : ℕ) - flux.shape.length
  distinct : Function.Injective G
  bounds : OrderBounds G lo hi

/-- C78: the far-field profile.  In the cell of Brillouin point `(p, q)` and order `t`, for every batch element, the angles are
those of the plane wave with the transverse wavevector `k` of the order; the profile is the flux divided by the solid angle,
and `nan` where this is not finite; evanescent waves have no solid angle.  All other cells are `nan`. -/
theorem C78_profile {flux w ip u v : NDArray ℝ} {G : Fin n → ℤ × ℤ} {axes : ℤ × ℤ} {X Y Z : List ℕ} {nx ny S : ℕ}
    {l : LatticeVectors} {lo hi : ℤ × ℤ} (h : ProfileArgs flux w ip u v G axes X Y Z nx ny S l lo hi) :
    ∃ R C out, R = ((hi.1 - lo.1 + 1) * nx).toNat ∧ C = ((hi.2 - lo.2 + 1) * ny).toNat ∧
      farfieldProfile flux w ip u v G axes = .ok out ∧
      out.profile.shape = X ++ (Y ++ (Z ++ [R, C, 2, S])) ∧
      BroadcastsTo out.polar.shape (X ++ (Y ++ (Z ++ [R, C]))) ∧
      BroadcastsTo out.azimuthal.shape (X ++ (Y ++ (Z ++ [R, C]))) ∧
      BroadcastsTo out.solidAngle.shape (X ++ (Y ++ (Z ++ [R, C]))) ∧
      ∀ x y z r c pol s wavelength, ValidIndex X x → ValidIndex Y y → ValidIndex Z z → r < R → c < C → pol < 2 → s < S →
        w.elementAt (x ++ 0 :: (y ++ 0 :: z)) = wavelength → 0 < wavelength →
        (∀ p q (t : Fin n), p < nx → q < ny → IsMergedCell lo nx ny (G t) p q r c →
          ∃ k polar az,
            dot k l.u = dot (ip.elementAt (x ++ p :: (y ++ q :: (z ++ [0]))), ip.elementAt (x ++ p :: (y ++ q :: (z ++ [1])))) l.u +
              2 * Real.pi * (G t).1 ∧
            dot k l.v = dot (ip.elementAt (x ++ p :: (y ++ q :: (z ++ [0]))), ip.elementAt (x ++ p :: (y ++ q :: (z ++ [1])))) l.v +
              2 * Real.pi * (G t).2 ∧
            out.polar.elementAt (x ++ (y ++ (z ++ [r, c]))) = some polar ∧
            out.azimuthal.elementAt (x ++ (y ++ (z ++ [r, c]))) = some az ∧
            (0 ≤ polar ∧ polar ≤ Real.pi / 2) ∧ (-Real.pi < az ∧ az ≤ Real.pi) ∧
            (2 * Real.pi / wavelength < length k → polar = Real.pi / 2) ∧
            (length k ≤ 2 * Real.pi / wavelength → k = (2 * Real.pi / wavelength * Real.sin polar * Real.cos az,
              2 * Real.pi / wavelength * Real.sin polar * Real.sin az)) ∧
            (2 * Real.pi / wavelength ≤ length k → out.solidAngle.elementAt (x ++ (y ++ (z ++ [r, c]))) = none) ∧
            (∀ ω, out.solidAngle.elementAt (x ++ (y ++ (z ++ [r, c]))) = some ω → ω ≠ 0 →
              ∃ f, out.profile.get (x ++ (y ++ (z ++ [r, c, pol, s]))) = some f ∧
                f * ω = flux.get (x ++ p :: (y ++ q :: (z ++ [pol * n + t, s])))) ∧
            ((∀ ω, out.solidAngle.elementAt (x ++ (y ++ (z ++ [r, c]))) = some ω → ω = 0) →
              out.profile.get (x ++ (y ++ (z ++ [r, c, pol, s]))) = none)) ∧
        ((¬∃ p q t, p < nx ∧ q < ny ∧ IsMergedCell lo nx ny (G t) p q r c) →
          out.polar.elementAt (x ++ (y ++ (z ++ [r, c]))) = none ∧ out.azimuthal.elementAt (x ++ (y ++ (z ++ [r, c]))) = none ∧
          out.solidAngle.elementAt (x ++ (y ++ (z ++ [r, c]))) = none ∧
          out.profile.get (x ++ (y ++ (z ++ [r, c, pol, s]))) = none) := by
  obtain ⟨P, Y2, Z2, hip, hP, hY2, hZ2⟩ := h.inPlane
  obtain ⟨m, hu, hv, hm, hlat⟩ := h.lattice
  obtain ⟨src, hsrc1, hsrc2⟩ := unflattenSource_eq h.distinct h.bounds nx ny
  have hKe : ∀ k0, ∃ k, transverseWavevectors k0 l G = .ok k ∧
      ∀ i, dot (k i - k0) l.u = 2 * Real.pi * (G i).1 ∧ dot (k i - k0) l.v = 2 * Real.pi * (G i).2 := fun k0 => by
    obtain ⟨k, h1, h2, -⟩ := C12_transverse_wavevectors k0 l G h.independent
    exact ⟨k, h1, h2⟩
  choose K hK1 hK2 using hKe
  obtain ⟨out, h1, h2, h3, h4, h5, h6⟩ := farfieldProfile_eq h.flux_shape h.flux_pos h.wavelength hip hP hY2 hZ2 hu hv hm
    (by rw [hlat]; exact h.independent) h.axis1 h.axis2 hsrc1 (K := K) (by rw [hlat]; exact hK1)
  simp only at h2 h3 h4 h5 h6
  refine ⟨_, _, out, rfl, rfl, h1, h5, h2, h3, h4, fun x y z r c pol s wl hx hy hz hr hc hpol hs hwl hwpos =>
    ⟨fun p q t hp hq hcell => ?_, fun hno => ?_⟩⟩
  · have hi := (hsrc2 r c (⟨p, hp⟩, ⟨q, hq⟩, t)).2 hcell
    obtain ⟨g1, g2, g3, g4⟩ := h6 x y z hx hy hz r c hr hc
    have g5 := g4 pol s hpol hs
    rw [hi] at g1 g2 g5
    simp only [Option.bind_some, Option.map_some] at g1 g2 g5
    rw [hwl] at g1 g3
    obtain ⟨k0, hk0⟩ : ∃ k0, k0 = (ip.elementAt (x ++ p :: (y ++ q :: (z ++ [0]))), ip.elementAt (x ++ p :: (y ++ q :: (z ++ [1])))) := ⟨_, rfl⟩
    rw [← hk0] at g1 g2
    obtain ⟨polar, az, ha, hpr, har, hev, hre⟩ := C65_angles (K k0 t) wl hwpos
    have haz : az = Complex.arg ((K k0 t).1 + Complex.I * (K k0 t).2) := by
      unfold anglesFromTransverseWavevector at ha
      simp only at ha
      split_ifs at ha
      · have := ok_inj.1 ha
        exact (congrArg Prod.snd this).symm
      · have := ok_inj.1 ha
        exact (congrArg Prod.snd this).symm
    rw [ha] at g1
    have hd := hK2 k0 t
    refine ⟨K k0 t, polar, az, ?_, ?_, g1, ?_, hpr, har, hev, hre, ?_, ?_, ?_⟩
    · rw [← hk0]
      simp only [dot, Prod.fst_sub, Prod.snd_sub] at hd ⊢
      linear_combination hd.1
    · rw [← hk0]
      simp only [dot, Prod.fst_sub, Prod.snd_sub] at hd ⊢
      linear_combination hd.2
    · rw [g2, haz]
    · intro hev
      rw [g3]
      apply solidAngleNan_evanescent (q := ((K k0 t).1 / (2 * Real.pi / wl), (K k0 t).2 / (2 * Real.pi / wl)))
      · rw [if_neg hwpos.ne', hi, hk0]
        rfl
      · simp only
        have hq0 : 0 < 2 * Real.pi / wl := by have := Real.pi_pos; positivity
        generalize 2 * Real.pi / wl = κ at hq0 hev
        rw [div_pow, div_pow, ← add_div, Real.sqrt_div (by positivity), Real.sqrt_sq hq0.le, le_div_iff₀ hq0, one_mul]
        exact hev
    · intro ω hω hω0
      rw [g5, hω]
      simp only [Option.bind_some, if_neg hω0]
      exact ⟨_, rfl, div_mul_cancel₀ _ hω0⟩
    · intro hω
      rw [g5]
      cases hs : out.solidAngle.elementAt (x ++ (y ++ (z ++ [r, c]))) with
      | none => rfl
      | some ω => simp only [Option.bind_some, if_pos (hω ω hs)]
  · have hi : src r c = none := by
      cases hs : src r c with
      | none => rfl
      | some i => exact absurd ⟨i.1, i.2.1, i.2.2, i.1.2, i.2.1.2, (hsrc2 r c i).1 hs⟩ hno
    obtain ⟨g1, g2, g3, g4⟩ := h6 x y z hx hy hz r c hr hc
    have g5 := g4 pol s hpol hs
    rw [hi] at g1 g2 g5
    refine ⟨g1, g2, ?_, g5⟩
    cases hs : out.solidAngle.elementAt (x ++ (y ++ (z ++ [r, c]))) with
    | none => rfl
    | some ω =>
      rw [g3] at hs
      obtain ⟨q, hq⟩ := solidAngleNan_eq_some hs hr hc (a := r) (b := c) ⟨hr, hc, by omega, by omega, by omega, by omega, by omega⟩
      rw [hwl, if_neg hwpos.ne', hi] at hq
      cases hq

/-- Arguments with four wavelengths between the Brillouin axes. -/
theorem profileArgs_example : ProfileArgs ⟨[2, 4, 3, 10, 6], fun i => (i.sum : ℝ)⟩ ⟨[1, 4, 1], fun i => (i.getD 1 0 : ℝ) + 1⟩
    ⟨[2, 1, 3, 2], fun i => (i.sum : ℝ)⟩ ⟨[2], fun i => if i.getLastD 0 = 0 then 2 else 1⟩
    ⟨[2], fun i => if i.getLastD 0 = 0 then 0 else 3⟩ plusOrders (0, -3) [] [4] [] 2 3 6 ⟨(2, 1), (0, 3)⟩ (-1, -1) (1, 1) where
  flux_shape := rfl
  flux_pos := by decide
  wavelength := BroadcastsTo.refl _
  inPlane := ⟨[], [1], [], rfl, BroadcastsTo.refl _, .cons (Or.inl rfl) .nil, .nil⟩
  lattice := ⟨0, rfl, rfl, by decide, by simp [latticeAt]⟩
  independent := by norm_num [Independent]
  axis1 := Or.inl rfl
  axis2 := Or.inr rfl
  distinct := plusOrders_injective
  bounds := plusOrders_bounds

example : ∃ out, farfieldProfile ⟨[2, 4, 3, 10, 6], fun i => (i.sum : ℝ)⟩ ⟨[1, 4, 1], fun i => (i.getD 1 0 : ℝ) + 1⟩
    ⟨[2, 1, 3, 2], fun i => (i.sum : ℝ)⟩ ⟨[2], fun i => if i.getLastD 0 = 0 then 2 else 1⟩
    ⟨[2], fun i => if i.getLastD 0 = 0 then 0 else 3⟩ plusOrders (0, -3) = .ok out ∧ out.profile.shape = [4, 6, 9, 2, 6] := by
  obtain ⟨R, C, out, rfl, rfl, h1, h2, -⟩ := C78_profile profileArgs_example
  exact ⟨out, h1, h2⟩

/-- C78: for in-plane wavevectors on a Brillouin grid, the profile of every propagating order in a cell with no missing
neighbours is the flux times `nx ny |u × v| cos(polar) / λ²`.  Along the rim of the grid the cells are halved. -/
theorem C78_brillouin_profile {flux w ip u v : NDArray ℝ} {G : Fin n → ℤ × ℤ} {axes : ℤ × ℤ} {X Y Z : List ℕ} {nx ny S : ℕ}
    {l : LatticeVectors} {lo hi : ℤ × ℤ} (h : ProfileArgs flux w ip u v G axes X Y Z nx ny S l lo hi)
    (g : List (List (ℝ × ℝ))) (hg : brillouinZoneInPlaneWavevector [(nx : ℤ), (ny : ℤ)] l = .ok g)
    (hbz : ∀ x y z p q row kin, ValidIndex X x → ValidIndex Y y → ValidIndex Z z → g[p]? = some row → row[q]? = some kin →
      (ip.elementAt (x ++ p :: (y ++ q :: (z ++ [0]))), ip.elementAt (x ++ p :: (y ++ q :: (z ++ [1])))) = kin)
    {R C : ℕ} (hR : R = ((hi.1 - lo.1 + 1) * nx).toNat) (hC : C = ((hi.2 - lo.2 + 1) * ny).toNat) (hR2 : 2 ≤ R) (hC2 : 2 ≤ C) :
    ∃ out, farfieldProfile flux w ip u v G axes = .ok out ∧
      ∀ x y z r c pol s wavelength p q (t : Fin n) k, ValidIndex X x → ValidIndex Y y → ValidIndex Z z → r < R → c < C →
        pol < 2 → s < S → w.elementAt (x ++ 0 :: (y ++ 0 :: z)) = wavelength → 0 < wavelength →
        p < nx → q < ny → IsMergedCell lo nx ny (G t) p q r c →
        (∀ a b, AreaNeighbour R C r c a b → ∃ p q t, p < nx ∧ q < ny ∧ IsMergedCell lo nx ny (G t) p q a b) →
        dot k l.u = 2 * Real.pi * (((r : ℝ) + 1 / 2) / nx - 1 / 2 + lo.1) →
        dot k l.v = 2 * Real.pi * (((c : ℝ) + 1 / 2) / ny - 1 / 2 + lo.2) →
        length k < 2 * Real.pi / wavelength →
        ∃ polar, out.polar.elementAt (x ++ (y ++ (z ++ [r, c]))) = some polar ∧
          Real.sin polar = length k / (2 * Real.pi / wavelength) ∧ 0 < Real.cos polar ∧
          out.profile.get (x ++ (y ++ (z ++ [r, c, pol, s]))) =
            some (flux.get (x ++ p :: (y ++ q :: (z ++ [pol * n + t, s]))) *
              (nx * ny * |l.u.1 * l.v.2 - l.u.2 * l.v.1| * Real.cos polar / wavelength ^ 2) /
              (cellFraction R r * cellFraction C c)) := by
  have hpi := Real.pi_pos
  obtain ⟨P, Y2, Z2, hip, hP, hY2, hZ2⟩ := h.inPlane
  obtain ⟨m, hu, hv, hm, hlat⟩ := h.lattice
  obtain ⟨src, hsrc1, hsrc2⟩ := unflattenSource_eq h.distinct h.bounds nx ny
  rw [← hR, ← hC] at hsrc1
  have hKe : ∀ k0, ∃ k, transverseWavevectors k0 l G = .ok k ∧
      ∀ i, dot (k i - k0) l.u = 2 * Real.pi * (G i).1 ∧ dot (k i - k0) l.v = 2 * Real.pi * (G i).2 := fun k0 => by
    obtain ⟨k, h1, h2, -⟩ := C12_transverse_wavevectors k0 l G h.independent
    exact ⟨k, h1, h2⟩
  choose K hK1 hK2 using hKe
  obtain ⟨out, h1, -, -, -, -, h6⟩ := farfieldProfile_eq h.flux_shape h.flux_pos h.wavelength hip hP hY2 hZ2 hu hv hm
    (by rw [hlat]; exact h.independent) h.axis1 h.axis2 hsrc1 (K := K) (by rw [hlat]; exact hK1)
  simp only at h6
  refine ⟨out, h1, fun x y z r c pol s wl p q t k hx hy hz hr hc hpol hs hwl hwpos hp hq hcell hnb hku hkv hprop => ?_⟩
  have hi := (hsrc2 r c (⟨p, hp⟩, ⟨q, hq⟩, t)).2 hcell
  obtain ⟨g1, -, g3, g4⟩ := h6 x y z hx hy hz r c hr hc
  have g5 := g4 pol s hpol hs
  rw [hi] at g1 g5
  simp only [Option.bind_some] at g1 g5
  rw [hwl] at g1 g3
  have hnx : 1 ≤ nx := by omega
  have hny : 1 ≤ ny := by omega
  have hnx' : (nx : ℝ) ≠ 0 := by exact_mod_cast (by omega : nx ≠ 0)
  have hny' : (ny : ℝ) ≠ 0 := by exact_mod_cast (by omega : ny ≠ 0)
  -- the regular grid
  obtain ⟨rec, hrec, d1, d2, d3, d4, -⟩ := C01_reciprocal_dual l h.independent
  obtain ⟨kk, hkk⟩ : ∃ kk : ℕ → ℕ → ℝ × ℝ, kk = fun (i j : ℕ) =>
      (((2 * Real.pi * (1 / 2 / nx - 1 / 2 + lo.1)) * rec.u.1 + (2 * Real.pi * (1 / 2 / ny - 1 / 2 + lo.2)) * rec.v.1) +
        i * (2 * Real.pi / nx * rec.u.1) + j * (2 * Real.pi / ny * rec.v.1),
       ((2 * Real.pi * (1 / 2 / nx - 1 / 2 + lo.1)) * rec.u.2 + (2 * Real.pi * (1 / 2 / ny - 1 / 2 + lo.2)) * rec.v.2) +
        i * (2 * Real.pi / nx * rec.u.2) + j * (2 * Real.pi / ny * rec.v.2)) := ⟨_, rfl⟩
  have hkku : ∀ i j : ℕ, dot (kk i j) l.u = 2 * Real.pi * (((i : ℝ) + 1 / 2) / nx - 1 / 2 + lo.1) ∧
      dot (kk i j) l.v = 2 * Real.pi * (((j : ℝ) + 1 / 2) / ny - 1 / 2 + lo.2) := by
    intro i j
    rw [hkk]
    simp only [dot] at d1 d2 d3 d4 ⊢
    constructor
    · linear_combination (2 * Real.pi * (((i : ℝ) + 1 / 2) / nx - 1 / 2 + lo.1)) * d1 + (2 * Real.pi * (((j : ℝ) + 1 / 2) / ny - 1 / 2 + lo.2)) * d3
    · linear_combination (2 * Real.pi * (((i : ℝ) + 1 / 2) / nx - 1 / 2 + lo.1)) * d2 + (2 * Real.pi * (((j : ℝ) + 1 / 2) / ny - 1 / 2 + lo.2)) * d4
  have hent : ∀ (a b : ℕ) i, src a b = some i →
      K (ip.elementAt (x ++ (i.1 : ℕ) :: (y ++ (i.2.1 : ℕ) :: (z ++ [0]))),
        ip.elementAt (x ++ (i.1 : ℕ) :: (y ++ (i.2.1 : ℕ) :: (z ++ [1])))) i.2.2 = kk a b := by
    intro a b i hi
    have hcell := (hsrc2 a b i).1 hi
    obtain ⟨row, kin, hrow, hkin, bu, bv⟩ := brillouin_entry l h.independent nx ny hnx hny g hg i.1.2 i.2.1.2
    rw [hbz x y z _ _ row kin hx hy hz hrow hkin]
    have hd := hK2 kin i.2.2
    have ea : (a : ℝ) = ((G i.2.2).1 - lo.1) * nx + (i.1 : ℕ) := by exact_mod_cast hcell.1
    have eb : (b : ℝ) = ((G i.2.2).2 - lo.2) * ny + (i.2.1 : ℕ) := by exact_mod_cast hcell.2
    have ea' : ((a : ℝ) + 1 / 2) / nx = (((i.1 : ℕ) : ℝ) + 1 / 2) / nx + ((G i.2.2).1 - lo.1) := by
      rw [ea]; field_simp; ring
    have eb' : ((b : ℝ) + 1 / 2) / ny = (((i.2.1 : ℕ) : ℝ) + 1 / 2) / ny + ((G i.2.2).2 - lo.2) := by
      rw [eb]; field_simp; ring
    refine dot_injective h.independent ?_ ?_
    · rw [(hkku a b).1, ea']
      simp only [dot, Prod.fst_sub, Prod.snd_sub] at hd bu ⊢
      linear_combination hd.1 + bu
    · rw [(hkku a b).2, eb']
      simp only [dot, Prod.fst_sub, Prod.snd_sub] at hd bv ⊢
      linear_combination hd.2 + bv
  have hkrc : kk r c = k := dot_injective h.independent ((hkku r c).1.trans hku.symm) ((hkku r c).2.trans hkv.symm)
  rw [hent r c _ hi, hkrc] at g1
  -- the solid angle
  have hsol := solidAngleNan_eq (f := fun r c => if wl = 0 then none else (src r c).map fun i =>
      ((K (ip.elementAt (x ++ (i.1 : ℕ) :: (y ++ (i.2.1 : ℕ) :: (z ++ [0]))),
        ip.elementAt (x ++ (i.1 : ℕ) :: (y ++ (i.2.1 : ℕ) :: (z ++ [1])))) i.2.2).1 / (2 * Real.pi / wl),
       (K (ip.elementAt (x ++ (i.1 : ℕ) :: (y ++ (i.2.1 : ℕ) :: (z ++ [0]))),
        ip.elementAt (x ++ (i.1 : ℕ) :: (y ++ (i.2.1 : ℕ) :: (z ++ [1])))) i.2.2).2 / (2 * Real.pi / wl))) (k := kk)
    hwpos.ne' hr hc (by
      intro a b hab
      obtain ⟨p', q', t', hp', hq', hcell'⟩ := hnb a b hab
      have hi' := (hsrc2 a b (⟨p', hp'⟩, ⟨q', hq'⟩, t')).2 hcell'
      have := hent a b _ hi'
      beta_reduce
      rw [if_neg hwpos.ne', hi', Option.map_some, this])
  obtain ⟨polar, az, ha, hsa⟩ := C72_solid_angle R C
    ((2 * Real.pi * (1 / 2 / nx - 1 / 2 + lo.1)) * rec.u.1 + (2 * Real.pi * (1 / 2 / ny - 1 / 2 + lo.2)) * rec.v.1,
      (2 * Real.pi * (1 / 2 / nx - 1 / 2 + lo.1)) * rec.u.2 + (2 * Real.pi * (1 / 2 / ny - 1 / 2 + lo.2)) * rec.v.2)
    (2 * Real.pi / nx * rec.u.1, 2 * Real.pi / nx * rec.u.2)
    (2 * Real.pi / ny * rec.v.1, 2 * Real.pi / ny * rec.v.2) wl hwpos r c hr hc kk
    (fun i j _ _ => by rw [hkk]) (by rw [hkrc]; exact hprop)
  rw [hkrc] at ha
  rw [hsol, hsa] at g3
  rw [ha] at g1
  obtain ⟨polar', az', ha', hpr, -, -, hre⟩ := C65_angles k wl hwpos
  rw [ha] at ha'
  obtain ⟨rfl, rfl⟩ : polar = polar' ∧ az = az' := by
    have := ok_inj.1 ha'
    exact ⟨congrArg Prod.fst this, congrArg Prod.snd this⟩
  have hq0 : 0 < 2 * Real.pi / wl := by positivity
  have hsp := Real.sin_nonneg_of_nonneg_of_le_pi hpr.1 (by linarith)
  have hsin : Real.sin polar = length k / (2 * Real.pi / wl) := by
    rw [eq_div_iff hq0.ne']
    have e := hre hprop.le
    have : length k = Real.sin polar * (2 * Real.pi / wl) := by
      unfold length
      rw [Real.sqrt_eq_iff_eq_sq (by positivity) (by positivity), e]
      simp only
      have := Real.cos_sq_add_sin_sq az
      linear_combination (2 * Real.pi / wl * Real.sin polar) ^ 2 * this
    exact this.symm
  have hcos : 0 < Real.cos polar := by
    have hlt : Real.sin polar < 1 := by rw [hsin, div_lt_one hq0]; exact hprop
    have hc0 := Real.cos_nonneg_of_neg_pi_div_two_le_of_le (by linarith : -(Real.pi / 2) ≤ polar) hpr.2
    have hsq := Real.cos_sq_add_sin_sq polar
    rcases hc0.lt_or_eq with h | h
    · exact h
    · rw [← h] at hsq; nlinarith
  refine ⟨polar, g1, hsin, hcos, ?_⟩
  rw [g5, g3]
  simp only [Except.toOption, Option.bind_some]
  have hcr : l.u.1 * l.v.2 - l.u.2 * l.v.1 ≠ 0 := h.independent
  have hcr' : 0 < |l.u.1 * l.v.2 - l.u.2 * l.v.1| := abs_pos.2 hcr
  have hf1 : 0 < cellFraction R r := by
    unfold cellFraction
    rw [if_neg (by omega)]
    split_ifs <;> norm_num
  have hf2 : 0 < cellFraction C c := by
    unfold cellFraction
    rw [if_neg (by omega)]
    split_ifs <;> norm_num
  have harea : |2 * Real.pi / nx * rec.u.1 * (2 * Real.pi / ny * rec.v.2) - 2 * Real.pi / nx * rec.u.2 * (2 * Real.pi / ny * rec.v.1)| =
      (2 * Real.pi) ^ 2 / (nx * ny * |l.u.1 * l.v.2 - l.u.2 * l.v.1|) := by
    have hdet : (rec.u.1 * rec.v.2 - rec.u.2 * rec.v.1) * (l.u.1 * l.v.2 - l.u.2 * l.v.1) = 1 := by
      simp only [dot] at d1 d2 d3 d4
      linear_combination d1 * (rec.v.1 * l.v.1 + rec.v.2 * l.v.2) + d4 - d2 * (rec.v.1 * l.u.1 + rec.v.2 * l.u.2)
    have e1 : 2 * Real.pi / nx * rec.u.1 * (2 * Real.pi / ny * rec.v.2) - 2 * Real.pi / nx * rec.u.2 * (2 * Real.pi / ny * rec.v.1) =
        (2 * Real.pi) ^ 2 / (nx * ny) * (rec.u.1 * rec.v.2 - rec.u.2 * rec.v.1) := by field_simp
    have e2 : |rec.u.1 * rec.v.2 - rec.u.2 * rec.v.1| * |l.u.1 * l.v.2 - l.u.2 * l.v.1| = 1 := by
      rw [← abs_mul, hdet, abs_one]
    rw [e1, abs_mul, abs_of_pos (by positivity), eq_div_of_mul_eq hcr'.ne' e2]
    field_simp
  rw [harea]
  have hωpos : 0 < cellFraction R r * cellFraction C c *
      ((2 * Real.pi) ^ 2 / (nx * ny * |l.u.1 * l.v.2 - l.u.2 * l.v.1|) / (2 * Real.pi / wl) ^ 2) / Real.cos polar := by positivity
  rw [if_neg hωpos.ne']
  congr 1
  field_simp

example : ∃ (g : List (List (ℝ × ℝ))) (ip : NDArray ℝ) (out : FarfieldProfile),
    brillouinZoneInPlaneWavevector [3, 3] ⟨(1, 0), (0, 1)⟩ = .ok g ∧
    farfieldProfile ⟨[3, 3, 10, 1], fun i => (i.getD 2 0 : ℝ)⟩ ⟨[], fun _ => 1⟩ ip
      ⟨[2], fun i => if i.getLastD 0 = 0 then 1 else 0⟩ ⟨[2], fun i => if i.getLastD 0 = 0 then 0 else 1⟩ plusOrders (0, 1) =
        .ok out ∧ out.profile.get [4, 4, 1, 0] = some 45 := by
  have hl : Independent (1, 0) (0, 1) := by simp [Independent]
  obtain ⟨g, hg, -⟩ := C10_brillouin_grid ⟨(1, 0), (0, 1)⟩ hl 3 3 (by norm_num) (by norm_num)
  let ip : NDArray ℝ := ⟨[3, 3, 2], fun i =>
    if i.getD 2 0 = 0 then ((g.getD (i.getD 0 0) []).getD (i.getD 1 0) (0, 0)).1
    else ((g.getD (i.getD 0 0) []).getD (i.getD 1 0) (0, 0)).2⟩
  have hargs : ProfileArgs ⟨[3, 3, 10, 1], fun i => (i.getD 2 0 : ℝ)⟩ ⟨[], fun _ => 1⟩ ip
      ⟨[2], fun i => if i.getLastD 0 = 0 then 1 else 0⟩ ⟨[2], fun i => if i.getLastD 0 = 0 then 0 else 1⟩ plusOrders (0, 1)
      [] [] [] 3 3 1 ⟨(1, 0), (0, 1)⟩ (-1, -1) (1, 1) :=
    { flux_shape := rfl
      flux_pos := by decide
      wavelength := BroadcastsTo.nil _
      inPlane := ⟨[], [], [], rfl, BroadcastsTo.refl _, .nil, .nil⟩
      lattice := ⟨0, rfl, rfl, by decide, by simp [latticeAt]⟩
      independent := hl
      axis1 := Or.inl rfl
      axis2 := Or.inl rfl
      distinct := plusOrders_injective
      bounds := plusOrders_bounds }
  obtain ⟨out, h1, h2⟩ := C78_brillouin_profile hargs g hg (by
    intro x y z p q row kin hx hy hz hrow hkin
    cases hx; cases hy; cases hz
    have e1 : g.getD p [] = row := by rw [List.getD_eq_getElem?_getD, hrow]; rfl
    have e2 : row.getD q (0, 0) = kin := by rw [List.getD_eq_getElem?_getD, hkin]; rfl
    change ((((g.getD p []).getD q (0, 0)).1 : ℝ), ((g.getD p []).getD q (0, 0)).2) = kin
    rw [e1, e2]) (R := 9) (C := 9) rfl rfl (by norm_num) (by norm_num)
  refine ⟨g, ip, out, hg, h1, ?_⟩
  obtain ⟨polar, -, hs, hc, h3⟩ := h2 [] [] [] 4 4 1 0 1 1 1 0 (0, 0) .nil .nil .nil (by norm_num) (by norm_num) (by norm_num)
    (by norm_num) rfl one_pos (by norm_num) (by norm_num) ⟨rfl, rfl⟩ (by
      rintro a b ⟨-, -, h1, h2, h3, h4, -⟩
      exact ⟨a - 3, b - 3, 0, by omega, by omega, by simp only [IsMergedCell, plusOrders, Matrix.cons_val_zero]; omega⟩)
    (by simp [dot]; norm_num) (by simp [dot]; norm_num) (by simp [length]; positivity)
  have hp : Real.cos polar = 1 := by
    have hsq := Real.cos_sq_add_sin_sq polar
    rw [hs] at hsq
    simp only [length, ne_eq, OfNat.ofNat_ne_zero, not_false_eq_true, zero_pow, add_zero, Real.sqrt_zero, zero_div, sq_eq_one_iff] at hsq
    rcases hsq with h | h
    · exact h
    · rw [h] at hc; norm_num at hc
  rw [hp] at h3
  refine h3.trans (congrArg some ?_)
  norm_num [cellFraction]

/-- C78, side finding: a propagating order next to a cell without an order has no solid angle and no profile.  The orders at
the rim of a circular expansion are lost. -/
theorem C78_finding_missing_neighbour {flux w ip u v : NDArray ℝ} {G : Fin n → ℤ × ℤ} {axes : ℤ × ℤ} {X Y Z : List ℕ} {nx ny S : ℕ}
    {l : LatticeVectors} {lo hi : ℤ × ℤ} (h : ProfileArgs flux w ip u v G axes X Y Z nx ny S l lo hi)
    {R C : ℕ} (hR : R = ((hi.1 - lo.1 + 1) * nx).toNat) (hC : C = ((hi.2 - lo.2 + 1) * ny).toNat) :
    ∃ out, farfieldProfile flux w ip u v G axes = .ok out ∧
      ∀ x y z r c pol s a b, ValidIndex X x → ValidIndex Y y → ValidIndex Z z → r < R → c < C → pol < 2 → s < S →
        AreaNeighbour R C r c a b → (¬∃ p q t, p < nx ∧ q < ny ∧ IsMergedCell lo nx ny (G t) p q a b) →
        out.solidAngle.elementAt (x ++ (y ++ (z ++ [r, c]))) = none ∧
        out.profile.get (x ++ (y ++ (z ++ [r, c, pol, s]))) = none := by
  obtain ⟨P, Y2, Z2, hip, hP, hY2, hZ2⟩ := h.inPlane
  obtain ⟨m, hu, hv, hm, hlat⟩ := h.lattice
  obtain ⟨src, hsrc1, hsrc2⟩ := unflattenSource_eq h.distinct h.bounds nx ny
  rw [← hR, ← hC] at hsrc1
  have hKe : ∀ k0, ∃ k, transverseWavevectors k0 l G = .ok k := fun k0 => by
    obtain ⟨k, h1, -⟩ := C12_transverse_wavevectors k0 l G h.independent
    exact ⟨k, h1⟩
  choose K hK1 using hKe
  obtain ⟨out, h1, -, -, -, -, h6⟩ := farfieldProfile_eq h.flux_shape h.flux_pos h.wavelength hip hP hY2 hZ2 hu hv hm
    (by rw [hlat]; exact h.independent) h.axis1 h.axis2 hsrc1 (K := K) (by rw [hlat]; exact hK1)
  simp only at h6
  refine ⟨out, h1, fun x y z r c pol s a b hx hy hz hr hc hpol hs hab hno => ?_⟩
  obtain ⟨-, -, g3, g4⟩ := h6 x y z hx hy hz r c hr hc
  have hnone : out.solidAngle.elementAt (x ++ (y ++ (z ++ [r, c]))) = none := by
    cases hs : out.solidAngle.elementAt (x ++ (y ++ (z ++ [r, c]))) with
    | none => rfl
    | some ω =>
      rw [g3] at hs
      obtain ⟨q, hq⟩ := solidAngleNan_eq_some hs hr hc hab
      have hi : src a b = none := by
        cases hs : src a b with
        | none => rfl
        | some i => exact absurd ⟨i.1, i.2.1, i.2.2, i.1.2, i.2.1.2, (hsrc2 a b i).1 hs⟩ hno
      rw [hi] at hq
      split_ifs at hq
      cases hq
  refine ⟨hnone, ?_⟩
  rw [g4 pol s hpol hs, hnone]
  cases src r c <;> rfl

/-- With one point per Brillouin zone, five orders and a wavelength small enough for all of them to propagate, the whole
profile is `nan`: even the zeroth order, in cell `(1, 1)`, is next to the missing order in cell `(0, 0)`. -/
example : ∃ out, farfieldProfile ⟨[1, 1, 10, 1], fun i => (i.getD 2 0 : ℝ)⟩ ⟨[], fun _ => 1 / 10⟩ ⟨[1, 1, 2], fun _ => 0⟩
      ⟨[2], fun i => if i.getLastD 0 = 0 then 1 else 0⟩ ⟨[2], fun i => if i.getLastD 0 = 0 then 0 else 1⟩ plusOrders (0, 1) =
        .ok out ∧ out.profile.get [1, 1, 0, 0] = none := by
  have hl : Independent (1, 0) (0, 1) := by simp [Independent]
  have hargs : ProfileArgs ⟨[1, 1, 10, 1], fun i => (i.getD 2 0 : ℝ)⟩ ⟨[], fun _ => 1 / 10⟩ ⟨[1, 1, 2], fun _ => 0⟩
      ⟨[2], fun i => if i.getLastD 0 = 0 then 1 else 0⟩ ⟨[2], fun i => if i.getLastD 0 = 0 then 0 else 1⟩ plusOrders (0, 1)
      [] [] [] 1 1 1 ⟨(1, 0), (0, 1)⟩ (-1, -1) (1, 1) :=
    { flux_shape := rfl
      flux_pos := by decide
      wavelength := BroadcastsTo.nil _
      inPlane := ⟨[], [], [], rfl, BroadcastsTo.refl _, .nil, .nil⟩
      lattice := ⟨0, rfl, rfl, by decide, by simp [latticeAt]⟩
      independent := hl
      axis1 := Or.inl rfl
      axis2 := Or.inl rfl
      distinct := plusOrders_injective
      bounds := plusOrders_bounds }
  obtain ⟨out, h1, h2⟩ := C78_finding_missing_neighbour hargs (R := 3) (C := 3) rfl rfl
  exact ⟨out, h1, (h2 [] [] [] 1 1 0 0 0 0 .nil .nil .nil (by norm_num) (by norm_num) (by norm_num) (by norm_num)
    ⟨by norm_num, by norm_num, by norm_num, by norm_num, by norm_num, by norm_num, by norm_num⟩ (by
      rintro ⟨p, q, t, hp, hq, h⟩
      obtain rfl : p = 0 := by omega
      obtain rfl : q = 0 := by omega
      revert h
      simp only [IsMergedCell]
      revert t
      decide)).2⟩

end Fmmax
