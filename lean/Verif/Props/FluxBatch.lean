import Verif.Proofs.FluxBatchWeights
import Verif.Props.Profile

/-! Property theorems C111: the integrated flux of arrays with batch dimensions. -/

namespace Fmmax

open Spec

variable {n : ℕ}

/-- The batch `MX`, `MY`, `MZ` around the Brillouin axes has room for the flux with batch `X`, `Y`, `Z`, for the wavelength, and for
the in-plane wavevector. -/
def Spec.BatchFits (X Y Z : List ℕ) (w ip : NDArray ℝ) (nx ny : ℕ) (MX MY MZ : List ℕ) : Prop :=
  (List.Forall₂ (fun a b => a = 1 ∨ a = b) X MX ∧ List.Forall₂ (fun a b => a = 1 ∨ a = b) Y MY ∧
    List.Forall₂ (fun a b => a = 1 ∨ a = b) Z MZ) ∧
  BroadcastsTo w.shape (MX ++ 1 :: (MY ++ 1 :: MZ)) ∧
  ∃ P Y2 Z2, ip.shape = P ++ nx :: (Y2 ++ ny :: (Z2 ++ [2])) ∧ BroadcastsTo P MX ∧
    List.Forall₂ (fun a b => a = 1 ∨ a = b) Y2 MY ∧ List.Forall₂ (fun a b => a = 1 ∨ a = b) Z2 MZ

/-- Arguments of `integrated_flux` that are batch-compatible, with `TX`, `TY`, `TZ` the batch to which they are broadcast. -/
structure Spec.FluxArgs (flux w ip u v : NDArray ℝ) (G : Fin n → ℤ × ℤ) (axes : ℤ × ℤ) (X Y Z TX TY TZ : List ℕ) (nx ny S : ℕ)
    (l : LatticeVectors) : Prop where
  flux_shape : flux.shape = X ++ nx :: (Y ++ ny :: (Z ++ [2 * n, S]))
  flux_pos : ∀ d ∈ flux.shape, 0 < d
  fits : BatchFits X Y Z w ip nx ny TX TY TZ
  least : ∀ MX MY MZ, BatchFits X Y Z w ip nx ny MX MY MZ → List.Forall₂ (fun a b => a = 1 ∨ a = b) TX MX ∧
    List.Forall₂ (fun a b => a = 1 ∨ a = b) TY MY ∧ List.Forall₂ (fun a b => a = 1 ∨ a = b) TZ MZ
  lattice : ∃ m, u.shape = List.replicate m 1 ++ [2] ∧ v.shape = List.replicate m 1 ++ [2] ∧
    m ≤ X.length + Y.length + Z.length + 3 ∧ latticeAt u v (List.replicate m 0) = l
  independent : Independent l.u l.v
  axis1 : axes.1 = X.length ∨ axes.1 = X.length - flux.shape.length
  axis2 : axes.2 = (X.length + 1 + Y.length : ℕ) ∨ axes.2 = (X.length + 1 + Y.length : ℕ) - flux.shape.length
  distinct : Function.Injective G

/-- The integrated flux of the element `x`, `y`, `z` of the common batch, for all sources: a single wavelength, a single Brillouin
grid of in-plane wavevectors, and the flux to which the element is assigned. -/
noncomputable def Spec.elementFlux (flux w ip : NDArray ℝ) (X Y Z : List ℕ) (nx ny S : ℕ) (l : LatticeVectors) (G : Fin n → ℤ × ℤ)
    (bounds : ℝ → ℝ → Bool) (s : ℕ) (x y z : List ℕ) : Res (Fin S → ℝ) :=
  integratedFlux (fun (p : Fin nx) (q : Fin ny) (m : Fin 2 × Fin n) (σ : Fin S) => flux.get (broadcastIndex X x ++ (p : ℕ) ::
      (broadcastIndex Y y ++ (q : ℕ) :: (broadcastIndex Z z ++ [(m.1 : ℕ) * n + (m.2 : ℕ), (σ : ℕ)]))))
    (w.elementAt (x ++ 0 :: (y ++ 0 :: z)))
    (fun p q => (ip.elementAt (x ++ (p : ℕ) :: (y ++ (q : ℕ) :: (z ++ [0]))), ip.elementAt (x ++ (p : ℕ) :: (y ++ (q : ℕ) :: (z ++ [1])))))
    l G bounds s

/-- C111: for batch-compatible arguments the integrated flux has the batch dimensions of the flux, and its entries are the sums of
the integrals of all elements of the common batch that use the entry of the flux. -/
theorem C111_common_batch {flux w ip u v : NDArray ℝ} {G : Fin n → ℤ × ℤ} {axes : ℤ × ℤ} {X Y Z TX TY TZ : List ℕ} {nx ny S s : ℕ}
    {l : LatticeVectors} (h : FluxArgs flux w ip u v G axes X Y Z TX TY TZ nx ny S l) (bounds : ℝ → ℝ → Bool) (hs : 1 ≤ s)
    (hw : ∀ x y z, ValidIndex TX x → ValidIndex TY y → ValidIndex TZ z → 0 ≤ w.elementAt (x ++ 0 :: (y ++ 0 :: z))) :
    ∃ out, ∃ I : List ℕ → List ℕ → List ℕ → Fin S → ℝ,
      (∀ x y z, ValidIndex TX x → ValidIndex TY y → ValidIndex TZ z →
        elementFlux flux w ip X Y Z nx ny S l G bounds s x y z = .ok (I x y z)) ∧
      integratedFluxBatch flux w ip u v G axes bounds s = .ok out ∧ out.shape = X ++ (Y ++ (Z ++ [S])) ∧
      ∀ x0 y0 z0 (σ : Fin S), ValidIndex X x0 → ValidIndex Y y0 → ValidIndex Z z0 →
        ∃ N : Finset (List ℕ × List ℕ × List ℕ), (∀ e, e ∈ N ↔ (ValidIndex TX e.1 ∧ ValidIndex TY e.2.1 ∧ ValidIndex TZ e.2.2) ∧
            broadcastIndex X e.1 = x0 ∧ broadcastIndex Y e.2.1 = y0 ∧ broadcastIndex Z e.2.2 = z0) ∧
          out.get (x0 ++ (y0 ++ (z0 ++ [(σ : ℕ)]))) = ∑ e ∈ N, I e.1 e.2.1 e.2.2 σ := by
  obtain ⟨⟨hX, hY, hZ⟩, hwb, P, Y2, Z2, hip, hP, hY2, hZ2⟩ := h.fits
  obtain ⟨m, hu, hv, hm, hlat⟩ := h.lattice
  have hn : 0 < n := by
    have := h.flux_pos (2 * n) (by rw [h.flux_shape]; simp)
    omega
  obtain ⟨lo, hi, hb⟩ := orderBounds_exists hn G
  obtain ⟨src, hsrc⟩ : ∃ src, unflattenSource G nx ny = .ok src := ⟨_, (unflattenSource_eq h.distinct hb nx ny).choose_spec.1⟩
  have hKe : ∀ k0, ∃ k, transverseWavevectors k0 l G = .ok k := fun k0 => by
    obtain ⟨k, h1, -⟩ := C12_transverse_wavevectors k0 l G h.independent
    exact ⟨k, h1⟩
  choose K hK using hKe
  have hlen : (X ++ nx :: (Y ++ ny :: (Z ++ [2 * n, 1]))).length = flux.shape.length := by rw [h.flux_shape]; simp
  obtain ⟨out, o1, o2, o3⟩ := integratedFluxBatch_eq (w := w) (ip := ip) (u := u) (v := v) (G := G) (s := s) (bounds := bounds)
    (src := src) (sel := fun x y z rc => selectedAt src s K w ip bounds x y z rc.1 rc.2) h.flux_shape hX hY hZ h.axis1 h.axis2
    (fun f => integratedFluxUpsampledBatch_eq (flux := ⟨X ++ nx :: (Y ++ ny :: (Z ++ [2 * n, 1])), f⟩) hs rfl (fun d hd => by
        have hpos := h.flux_pos
        rw [h.flux_shape] at hpos
        simp only [List.mem_append, List.mem_cons, List.not_mem_nil, or_false] at hd hpos
        rcases hd with hd | hd | hd | hd | hd | hd | hd
        · exact hpos d (by tauto)
        · exact hpos d (by tauto)
        · exact hpos d (by tauto)
        · exact hpos d (by tauto)
        · exact hpos d (by tauto)
        · exact hpos d (by tauto)
        · omega) hX hY hZ hwb hip hP hY2 hZ2
      (fun MX MY MZ a1 a2 a3 a4 a5 a6 a7 => h.least MX MY MZ ⟨⟨a1, a2, a3⟩, a4, P, Y2, Z2, hip, a5, a6, a7⟩)
      hu hv hm (by rw [hlat]; exact h.independent) (Or.inl rfl) (Or.inl rfl) hsrc (by rw [hlat]; exact hK) bounds)
  refine ⟨out, fun x y z σ => fluxIntegral src s (fun rc => selectedAt src s K w ip bounds x y z rc.1 rc.2)
    fun p q m => flux.get (broadcastIndex X x ++ (p : ℕ) :: (broadcastIndex Y y ++ (q : ℕ) :: (broadcastIndex Z z ++
      [(m.1 : ℕ) * n + (m.2 : ℕ), (σ : ℕ)]))), fun x y z hx hy hz => ?_, o1, o2, fun x0 y0 z0 σ hx0 hy0 hz0 => ?_⟩
  · exact integratedFlux_element hs h.independent h.distinct hn hsrc hK w ip bounds x y z (hw x y z hx hy hz) _
  · refine ⟨(indexSet TX ×ˢ (indexSet TY ×ˢ indexSet TZ)).filter fun e =>
      broadcastIndex X e.1 = x0 ∧ broadcastIndex Y e.2.1 = y0 ∧ broadcastIndex Z e.2.2 = z0, fun e => ?_, ?_⟩
    · simp only [Finset.mem_filter, Finset.mem_product, mem_indexSet]
    · rw [o3 x0 y0 z0 σ hx0 hy0 hz0 σ.2, Finset.sum_filter, Finset.sum_product]
      refine Finset.sum_congr rfl fun x _ => ?_
      rw [Finset.sum_product]
      refine Finset.sum_congr rfl fun y _ => Finset.sum_congr rfl fun z _ => ?_
      simp only
      split_ifs with he
      · obtain ⟨rfl, rfl, rfl⟩ := he
        rfl
      · rfl

/-- Arguments with two wavelengths and one flux. -/
theorem fluxArgs_example : FluxArgs ⟨[1, 3, 2, 10, 4], fun i => (i.sum : ℝ)⟩ ⟨[2, 1, 1], fun i => (i.getD 0 0 : ℝ) + 1⟩
    ⟨[3, 2, 2], fun i => (i.sum : ℝ)⟩ ⟨[2], fun i => if i.getLastD 0 = 0 then 2 else 1⟩
    ⟨[2], fun i => if i.getLastD 0 = 0 then 0 else 3⟩ plusOrders (1, 2) [1] [] [] [2] [] [] 3 2 4 ⟨(2, 1), (0, 3)⟩ where
  flux_shape := rfl
  flux_pos := by decide
  fits := ⟨⟨.cons (Or.inl rfl) .nil, .nil, .nil⟩, BroadcastsTo.refl _, [], [], [], rfl, ⟨[2], [], rfl, .nil⟩, .nil, .nil⟩
  least := by
    rintro MX MY MZ ⟨⟨a1, a2, a3⟩, a4, -⟩
    cases a2
    cases a3
    refine ⟨?_, .nil, .nil⟩
    have hl := a1.length_eq
    have := forall₂_of_broadcastsTo a4 (by simp at hl ⊢; omega)
    exact (forall₂_append_split (a := [2]) (b := [1, 1]) this (by simp at hl ⊢; omega)).1
  lattice := ⟨0, rfl, rfl, by decide, by simp [latticeAt]⟩
  independent := by norm_num [Independent]
  axis1 := Or.inl rfl
  axis2 := Or.inl rfl
  distinct := plusOrders_injective

example : ∃ out, integratedFluxBatch ⟨[1, 3, 2, 10, 4], fun i => (i.sum : ℝ)⟩ ⟨[2, 1, 1], fun i => (i.getD 0 0 : ℝ) + 1⟩
    ⟨[3, 2, 2], fun i => (i.sum : ℝ)⟩ ⟨[2], fun i => if i.getLastD 0 = 0 then 2 else 1⟩
    ⟨[2], fun i => if i.getLastD 0 = 0 then 0 else 3⟩ plusOrders (1, 2) (fun polar _ => decide (polar < 1)) 2 = .ok out ∧
      out.shape = [1, 4] := by
  obtain ⟨out, I, -, h1, h2, -⟩ := C111_common_batch fluxArgs_example (fun polar _ => decide (polar < 1)) (s := 2) (by decide)
    (fun x y z _ _ _ => by
      unfold NDArray.elementAt
      positivity)
  exact ⟨out, h1, h2⟩

/-- The documented arguments of `farfield_profile` have the batch of the flux as their common batch. -/
theorem fluxArgs_of_profileArgs {flux w ip u v : NDArray ℝ} {G : Fin n → ℤ × ℤ} {axes : ℤ × ℤ} {X Y Z : List ℕ} {nx ny S : ℕ}
    {l : LatticeVectors} {lo hi : ℤ × ℤ} (h : ProfileArgs flux w ip u v G axes X Y Z nx ny S l lo hi) :
    FluxArgs flux w ip u v G axes X Y Z X Y Z nx ny S l where
  flux_shape := h.flux_shape
  flux_pos := h.flux_pos
  fits := ⟨⟨List.forall₂_same.2 fun _ _ => Or.inr rfl, List.forall₂_same.2 fun _ _ => Or.inr rfl,
    List.forall₂_same.2 fun _ _ => Or.inr rfl⟩, h.wavelength, h.inPlane⟩
  least := fun _ _ _ hM => hM.1
  lattice := h.lattice
  independent := h.independent
  axis1 := h.axis1
  axis2 := h.axis2
  distinct := h.distinct

/-- C111: if the wavelength and the in-plane wavevector can be broadcast to the batch of the flux, then `integrated_flux` acts on each
batch element. -/
theorem C111_elements {flux w ip u v : NDArray ℝ} {G : Fin n → ℤ × ℤ} {axes : ℤ × ℤ} {X Y Z : List ℕ} {nx ny S s : ℕ}
    {l : LatticeVectors} {lo hi : ℤ × ℤ} (h : ProfileArgs flux w ip u v G axes X Y Z nx ny S l lo hi) (bounds : ℝ → ℝ → Bool)
    (hs : 1 ≤ s) (hw : ∀ x y z, ValidIndex X x → ValidIndex Y y → ValidIndex Z z → 0 ≤ w.elementAt (x ++ 0 :: (y ++ 0 :: z))) :
    ∃ out, integratedFluxBatch flux w ip u v G axes bounds s = .ok out ∧ out.shape = X ++ (Y ++ (Z ++ [S])) ∧
      ∀ x y z, ValidIndex X x → ValidIndex Y y → ValidIndex Z z →
        integratedFlux (fun (p : Fin nx) (q : Fin ny) (m : Fin 2 × Fin n) (σ : Fin S) =>
            flux.get (x ++ (p : ℕ) :: (y ++ (q : ℕ) :: (z ++ [(m.1 : ℕ) * n + (m.2 : ℕ), (σ : ℕ)]))))
          (w.elementAt (x ++ 0 :: (y ++ 0 :: z)))
          (fun p q => (ip.elementAt (x ++ (p : ℕ) :: (y ++ (q : ℕ) :: (z ++ [0]))),
            ip.elementAt (x ++ (p : ℕ) :: (y ++ (q : ℕ) :: (z ++ [1])))))
          l G bounds s = .ok fun σ => out.get (x ++ (y ++ (z ++ [(σ : ℕ)]))) := by
  obtain ⟨out, I, h1, h2, h3, h4⟩ := C111_common_batch (fluxArgs_of_profileArgs h) bounds hs hw
  refine ⟨out, h2, h3, fun x y z hx hy hz => ?_⟩
  have e := h1 x y z hx hy hz
  unfold Spec.elementFlux at e
  rw [broadcastIndex_of_valid hx, broadcastIndex_of_valid hy, broadcastIndex_of_valid hz] at e
  rw [e]
  refine congrArg Except.ok ?_
  funext σ
  obtain ⟨N, hN, hsum⟩ := h4 x y z σ hx hy hz
  have : N = {(x, y, z)} := by
    ext ⟨x', y', z'⟩
    rw [hN, Finset.mem_singleton, Prod.mk.injEq, Prod.mk.injEq]
    constructor
    · rintro ⟨⟨g1, g2, g3⟩, g4, g5, g6⟩
      simp only at g1 g2 g3 g4 g5 g6
      rw [broadcastIndex_of_valid g1] at g4
      rw [broadcastIndex_of_valid g2] at g5
      rw [broadcastIndex_of_valid g3] at g6
      exact ⟨g4, g5, g6⟩
    · rintro ⟨rfl, rfl, rfl⟩
      exact ⟨⟨hx, hy, hz⟩, broadcastIndex_of_valid hx, broadcastIndex_of_valid hy, broadcastIndex_of_valid hz⟩
  rw [hsum, this, Finset.sum_singleton]

example : ∃ out, integratedFluxBatch ⟨[2, 4, 3, 10, 6], fun i => (i.sum : ℝ)⟩ ⟨[1, 4, 1], fun i => (i.getD 1 0 : ℝ) + 1⟩
    ⟨[2, 1, 3, 2], fun i => (i.sum : ℝ)⟩ ⟨[2], fun i => if i.getLastD 0 = 0 then 2 else 1⟩
    ⟨[2], fun i => if i.getLastD 0 = 0 then 0 else 3⟩ plusOrders (0, -3) (fun polar _ => decide (polar < 1)) 4 = .ok out ∧
      out.shape = [4, 6] := by
  obtain ⟨out, h1, h2, -⟩ := C111_elements profileArgs_example (fun polar _ => decide (polar < 1)) (s := 4) (by decide)
    (fun x y z _ _ _ => by
      unfold NDArray.elementAt
      positivity)
  exact ⟨out, h1, h2⟩

/-- C111: for bounds that select all angles the result is the total flux, multiplied by the number of elements of the common batch that
share the entry of the flux. -/
theorem C111_total {flux w ip u v : NDArray ℝ} {G : Fin n → ℤ × ℤ} {axes : ℤ × ℤ} {X Y Z TX TY TZ : List ℕ} {nx ny S s : ℕ}
    {l : LatticeVectors} (h : FluxArgs flux w ip u v G axes X Y Z TX TY TZ nx ny S l) (bounds : ℝ → ℝ → Bool)
    (hall : ∀ polar azimuth, 0 ≤ polar → polar ≤ Real.pi / 2 → -Real.pi < azimuth → azimuth ≤ Real.pi → bounds polar azimuth = true)
    (hs : 1 ≤ s)
    (hw : ∀ x y z, ValidIndex TX x → ValidIndex TY y → ValidIndex TZ z → 0 ≤ w.elementAt (x ++ 0 :: (y ++ 0 :: z))) :
    ∃ out, integratedFluxBatch flux w ip u v G axes bounds s = .ok out ∧ out.shape = X ++ (Y ++ (Z ++ [S])) ∧
      ∀ x0 y0 z0 (σ : Fin S), ValidIndex X x0 → ValidIndex Y y0 → ValidIndex Z z0 →
        ∃ N : Finset (List ℕ × List ℕ × List ℕ), (∀ e, e ∈ N ↔ (ValidIndex TX e.1 ∧ ValidIndex TY e.2.1 ∧ ValidIndex TZ e.2.2) ∧
            broadcastIndex X e.1 = x0 ∧ broadcastIndex Y e.2.1 = y0 ∧ broadcastIndex Z e.2.2 = z0) ∧
          out.get (x0 ++ (y0 ++ (z0 ++ [(σ : ℕ)]))) = N.card * ∑ p : Fin nx, ∑ q : Fin ny, ∑ m : Fin 2 × Fin n,
            flux.get (x0 ++ (p : ℕ) :: (y0 ++ (q : ℕ) :: (z0 ++ [(m.1 : ℕ) * n + (m.2 : ℕ), (σ : ℕ)]))) := by
  have hn : 0 < n := by
    have := h.flux_pos (2 * n) (by rw [h.flux_shape]; simp)
    omega
  obtain ⟨out, I, h1, h2, h3, h4⟩ := C111_common_batch h bounds hs hw
  refine ⟨out, h2, h3, fun x0 y0 z0 σ hx0 hy0 hz0 => ?_⟩
  obtain ⟨N, hN, hsum⟩ := h4 x0 y0 z0 σ hx0 hy0 hz0
  refine ⟨N, hN, ?_⟩
  rw [hsum, ← nsmul_eq_mul, ← Finset.sum_const]
  refine Finset.sum_congr rfl fun e he => ?_
  obtain ⟨⟨g1, g2, g3⟩, g4, g5, g6⟩ := (hN e).1 he
  have e1 := h1 e.1 e.2.1 e.2.2 g1 g2 g3
  unfold Spec.elementFlux at e1
  rw [C66_total _ _ (hw _ _ _ g1 g2 g3) _ l h.independent G h.distinct hn bounds hall s hs, g4, g5, g6] at e1
  exact (congrFun (ok_inj.1 e1) σ).symm

example : ∃ out, integratedFluxBatch ⟨[1, 3, 2, 10, 4], fun i => (i.sum : ℝ)⟩ ⟨[2, 1, 1], fun i => (i.getD 0 0 : ℝ) + 1⟩
    ⟨[3, 2, 2], fun i => (i.sum : ℝ)⟩ ⟨[2], fun i => if i.getLastD 0 = 0 then 2 else 1⟩
    ⟨[2], fun i => if i.getLastD 0 = 0 then 0 else 3⟩ plusOrders (1, 2) (fun _ _ => true) 2 = .ok out ∧ out.shape = [1, 4] := by
  obtain ⟨out, h1, h2, -⟩ := C111_total fluxArgs_example (fun _ _ => true) (fun _ _ _ _ _ _ => rfl) (s := 2) (by decide)
    (fun x y z _ _ _ => by
      unfold NDArray.elementAt
      positivity)
  exact ⟨out, h1, h2⟩

/-- C111 finding: for a flux with a single batch entry and `k` wavelengths there is no error; the result has the batch of the flux and
is the sum over the wavelengths.  For bounds that select all angles it is `k` times the total flux. -/
theorem C111_finding_wavelengths_summed {nx ny S s k : ℕ} {flux w ip u v : NDArray ℝ} {G : Fin n → ℤ × ℤ}
    (hn : 0 < n) (hnx : 0 < nx) (hny : 0 < ny) (hS : 0 < S) (hf : flux.shape = [1, nx, ny, 2 * n, S]) (hw : w.shape = [k, 1, 1])
    (hpos : ∀ i < k, 0 ≤ w.get [i, 0, 0]) (hip : ip.shape = [nx, ny, 2]) (hu : u.shape = [2]) (hv : v.shape = [2])
    (hl : Independent (u.get [0], u.get [1]) (v.get [0], v.get [1])) (hG : Function.Injective G) (bounds : ℝ → ℝ → Bool) (hs : 1 ≤ s) :
    ∃ out, ∃ I : ℕ → Fin S → ℝ,
      (∀ i < k, integratedFlux (fun (p : Fin nx) (q : Fin ny) (m : Fin 2 × Fin n) (σ : Fin S) =>
          flux.get [0, p, q, (m.1 : ℕ) * n + (m.2 : ℕ), σ]) (w.get [i, 0, 0]) (fun p q => (ip.get [p, q, 0], ip.get [p, q, 1]))
          ⟨(u.get [0], u.get [1]), (v.get [0], v.get [1])⟩ G bounds s = .ok (I i)) ∧
      integratedFluxBatch flux w ip u v G (1, 2) bounds s = .ok out ∧ out.shape = [1, S] ∧
      (∀ σ : Fin S, out.get [0, σ] = ∑ i ∈ Finset.range k, I i σ) ∧
      ((∀ polar azimuth, 0 ≤ polar → polar ≤ Real.pi / 2 → -Real.pi < azimuth → azimuth ≤ Real.pi → bounds polar azimuth = true) →
        ∀ σ : Fin S, out.get [0, σ] = k * ∑ p : Fin nx, ∑ q : Fin ny, ∑ m : Fin 2 × Fin n,
          flux.get [0, p, q, (m.1 : ℕ) * n + (m.2 : ℕ), σ]) := by
  have hargs : FluxArgs flux w ip u v G (1, 2) [1] [] [] [k] [] [] nx ny S ⟨(u.get [0], u.get [1]), (v.get [0], v.get [1])⟩ := by
    refine ⟨hf, ?_, ?_, ?_, ⟨0, hu, hv, by simp, rfl⟩, hl, Or.inl rfl, Or.inl rfl, hG⟩
    · rw [hf]
      simp only [List.mem_cons, List.not_mem_nil, or_false]
      rintro d (rfl | rfl | rfl | rfl | rfl) <;> omega
    · exact ⟨⟨.cons (Or.inl rfl) .nil, .nil, .nil⟩, by rw [hw]; exact BroadcastsTo.refl _, [], [], [], hip, ⟨[k], [], rfl, .nil⟩, .nil, .nil⟩
    · rintro MX MY MZ ⟨⟨a1, a2, a3⟩, a4, -⟩
      cases a2
      cases a3
      refine ⟨?_, .nil, .nil⟩
      have hl := a1.length_eq
      rw [hw] at a4
      have := forall₂_of_broadcastsTo a4 (by simp at hl ⊢; omega)
      exact (forall₂_append_split (a := [k]) (b := [1, 1]) this (by simp at hl ⊢; omega)).1
  have hwe : ∀ i < k, w.elementAt ([i] ++ 0 :: ([] ++ 0 :: [])) = w.get [i, 0, 0] := by
    intro i hi
    unfold NDArray.elementAt
    rw [hw, broadcastIndex_of_valid]
    · rfl
    · exact .cons hi (.cons Nat.zero_lt_one (.cons Nat.zero_lt_one .nil))
  have hvalid : ∀ x : List ℕ, ValidIndex [k] x ↔ ∃ i < k, x = [i] := by
    intro x
    constructor
    · intro h
      cases h with
      | cons h1 h2 => cases h2; exact ⟨_, h1, rfl⟩
    · rintro ⟨i, hi, rfl⟩
      exact .cons hi .nil
  obtain ⟨out, I, h1, h2, h3, h4⟩ := C111_common_batch hargs bounds hs (fun x y z hx hy hz => by
    obtain ⟨i, hi, rfl⟩ := (hvalid x).1 hx
    cases hy
    cases hz
    rw [hwe i hi]
    exact hpos i hi)
  have hI : ∀ i < k, integratedFlux (fun (p : Fin nx) (q : Fin ny) (m : Fin 2 × Fin n) (σ : Fin S) =>
          flux.get [0, p, q, (m.1 : ℕ) * n + (m.2 : ℕ), σ]) (w.get [i, 0, 0]) (fun p q => (ip.get [p, q, 0], ip.get [p, q, 1]))
          ⟨(u.get [0], u.get [1]), (v.get [0], v.get [1])⟩ G bounds s = .ok (I [i] [] []) := by
    intro i hi
    have e := h1 [i] [] [] ((hvalid _).2 ⟨i, hi, rfl⟩) .nil .nil
    unfold Spec.elementFlux at e
    rw [hwe i hi, broadcastIndex_one] at e
    rw [← e]
    congr 1
    funext p q
    unfold NDArray.elementAt
    rw [hip]
    have hb : ∀ j, j < 2 → broadcastIndex [nx, ny, 2] ([i] ++ (p : ℕ) :: ([] ++ (q : ℕ) :: ([] ++ [j]))) = [(p : ℕ), (q : ℕ), j] := by
      intro j hj
      have e1 : broadcastIndex [nx, ny, 2] ([i] ++ [(p : ℕ), (q : ℕ), j]) = broadcastIndex [nx, ny, 2] [(p : ℕ), (q : ℕ), j] :=
        broadcastIndex_lead (by simp)
      exact e1.trans (broadcastIndex_of_valid (.cons p.2 (.cons q.2 (.cons hj .nil))))
    rw [hb 0 (by omega), hb 1 (by omega)]
  have hsum : ∀ σ : Fin S, out.get [0, σ] = ∑ i ∈ Finset.range k, I [i] [] [] σ := by
    intro σ
    obtain ⟨N, hN, e⟩ := h4 [0] [] [] σ (.cons Nat.zero_lt_one .nil) .nil .nil
    refine Eq.trans e (Eq.symm ?_)
    refine Finset.sum_bij' (fun i _ => ([i], [], [])) (fun e _ => e.1.getD 0 0) ?_ ?_ ?_ ?_ ?_
    · intro i hi
      exact (hN _).2 ⟨⟨(hvalid _).2 ⟨i, Finset.mem_range.1 hi, rfl⟩, .nil, .nil⟩, broadcastIndex_one _, rfl, rfl⟩
    · rintro ⟨x, y, z⟩ he
      obtain ⟨⟨g1, -⟩, -⟩ := (hN _).1 he
      obtain ⟨i, hi, e⟩ := (hvalid _).1 g1
      simp only at e
      rw [e]
      exact Finset.mem_range.2 hi
    · intro i _
      rfl
    · rintro ⟨x, y, z⟩ he
      obtain ⟨⟨g1, g2, g3⟩, -⟩ := (hN _).1 he
      obtain ⟨i, hi, e⟩ := (hvalid _).1 g1
      simp only at e g2 g3
      cases g2
      cases g3
      rw [e]
      rfl
    · intro i _
      rfl
  refine ⟨out, fun i => I [i] [] [], hI, h2, h3, hsum, fun hall σ => ?_⟩
  rw [hsum σ]
  have he : ∀ i ∈ Finset.range k, I [i] [] [] σ = ∑ p : Fin nx, ∑ q : Fin ny, ∑ m : Fin 2 × Fin n,
          flux.get [0, p, q, (m.1 : ℕ) * n + (m.2 : ℕ), σ] := by
    intro i hi
    have hi := Finset.mem_range.1 hi
    have e := hI i hi
    rw [C66_total _ _ (hpos i hi) _ _ hl G hG hn bounds hall s hs] at e
    exact (congrFun (ok_inj.1 e) σ).symm
  rw [Finset.sum_congr rfl he, Finset.sum_const, Finset.card_range, nsmul_eq_mul]

/-- Two wavelengths, a flux of one in every entry: the total is ten, the result twenty. -/
example : ∃ out, integratedFluxBatch ⟨[1, 1, 1, 10, 1], fun _ => 1⟩ ⟨[2, 1, 1], fun i => (i.getD 0 0 : ℝ) + 1⟩ ⟨[1, 1, 2], fun _ => 0⟩
    ⟨[2], fun i => if i.getLastD 0 = 0 then 2 else 1⟩ ⟨[2], fun i => if i.getLastD 0 = 0 then 0 else 3⟩ plusOrders (1, 2)
    (fun _ _ => true) 1 = .ok out ∧ out.shape = [1, 1] ∧ out.get [0, 0] = 20 := by
  obtain ⟨out, I, -, h1, h2, -, h3⟩ := C111_finding_wavelengths_summed (nx := 1) (ny := 1) (S := 1) (k := 2) (s := 1)
    (flux := ⟨[1, 1, 1, 10, 1], fun _ => 1⟩) (w := ⟨[2, 1, 1], fun i => (i.getD 0 0 : ℝ) + 1⟩) (ip := ⟨[1, 1, 2], fun _ => 0⟩)
    (u := ⟨[2], fun i => if i.getLastD 0 = 0 then 2 else 1⟩) (v := ⟨[2], fun i => if i.getLastD 0 = 0 then 0 else 3⟩)
    (G := plusOrders) (by decide) (by decide) (by decide) (by decide) rfl rfl (fun i _ => by positivity) rfl rfl rfl
    (by norm_num [Independent]) plusOrders_injective (fun _ _ => true) (by decide)
  refine ⟨out, h1, h2, ?_⟩
  refine (h3 (fun _ _ _ _ _ _ => rfl) 0).trans ?_
  simp
  norm_num

/-- C111: an upsampling factor of zero is rejected. -/
theorem C111_rejects_zero {flux w ip u v : NDArray ℝ} {G : Fin n → ℤ × ℤ} {axes : ℤ × ℤ} {X Y Z TX TY TZ : List ℕ} {nx ny S : ℕ}
    {l : LatticeVectors} (h : FluxArgs flux w ip u v G axes X Y Z TX TY TZ nx ny S l) (bounds : ℝ → ℝ → Bool) :
    integratedFluxBatch flux w ip u v G axes bounds 0 = .error .assertionError := by
  have hlen : flux.shape.length = X.length + Y.length + Z.length + 4 := by rw [h.flux_shape]; simp; omega
  have ha := absoluteAxes_pair (a := X.length) (b := X.length + 1 + Y.length) (ndim := flux.shape.length) (by omega)
    (by omega) h.axis1 h.axis2
  have ha' := absoluteAxes_pair (a := X.length) (b := X.length + 1 + Y.length) (ndim := flux.shape.length)
    (axes := ((X.length : ℤ), ((X.length + 1 + Y.length : ℕ) : ℤ))) (by omega) (by omega) (Or.inl rfl) (Or.inl rfl)
  simp only at ha'
  unfold integratedFluxBatch
  rw [ha]
  simp only [bind, Except.bind, List.getD_cons_zero, List.getD_cons_succ]
  unfold integratedFluxWeightsBatch
  simp only
  rw [ha']
  simp only [bind, Except.bind, List.getD_cons_zero, List.getD_cons_succ]
  unfold integratedFluxUpsampledBatch
  rw [if_pos (by decide)]

example : integratedFluxBatch ⟨[2, 4, 3, 10, 6], fun i => (i.sum : ℝ)⟩ ⟨[1, 4, 1], fun i => (i.getD 1 0 : ℝ) + 1⟩
    ⟨[2, 1, 3, 2], fun i => (i.sum : ℝ)⟩ ⟨[2], fun i => if i.getLastD 0 = 0 then 2 else 1⟩
    ⟨[2], fun i => if i.getLastD 0 = 0 then 0 else 3⟩ plusOrders (0, -3) (fun _ _ => true) 0 = .error .assertionError :=
  C111_rejects_zero (fluxArgs_of_profileArgs profileArgs_example) _

end Fmmax
