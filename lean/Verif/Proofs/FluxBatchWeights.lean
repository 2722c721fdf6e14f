import Verif.Proofs.FluxBatch

/-! The weights of the integrated flux of arrays with batch dimensions. -/

namespace Fmmax

open Spec

variable {n nx ny : ℕ}

theorem append_cons_inj {a a' b b' c c' : List ℕ} {p p' q q' k k' σ σ' : ℕ} (ha : a.length = a'.length) (hb : b.length = b'.length)
    (hc : c.length = c'.length) : a ++ p :: (b ++ q :: (c ++ [k, σ])) = a' ++ p' :: (b' ++ q' :: (c' ++ [k', σ'])) ↔
      (a = a' ∧ b = b' ∧ c = c') ∧ p = p' ∧ q = q' ∧ k = k' ∧ σ = σ' := by
  constructor
  · intro h
    obtain ⟨h1, h2⟩ := List.append_inj h ha
    obtain ⟨h3, h4⟩ := List.cons.inj h2
    obtain ⟨h5, h6⟩ := List.append_inj h4 hb
    obtain ⟨h7, h8⟩ := List.cons.inj h6
    obtain ⟨h9, h10⟩ := List.append_inj h8 hc
    simp only [List.cons.injEq, and_true] at h10
    exact ⟨⟨h1, h5, h9⟩, h3, h7, h10.1, h10.2⟩
  · rintro ⟨⟨rfl, rfl, rfl⟩, rfl, rfl, rfl, rfl⟩
    rfl

/-- `integrated_flux` if the sum of all integrals is linear with the given coefficients: the elements of the common batch that use
an element of the flux contribute to its integral. -/
theorem integratedFluxBatch_eq {flux w ip u v : NDArray ℝ} {G : Fin n → ℤ × ℤ} {X Y Z TX TY TZ : List ℕ} {S s : ℕ}
    (hs : flux.shape = X ++ nx :: (Y ++ ny :: (Z ++ [2 * n, S])))
    (hX : List.Forall₂ (fun a b => a = 1 ∨ a = b) X TX) (hY : List.Forall₂ (fun a b => a = 1 ∨ a = b) Y TY)
    (hZ : List.Forall₂ (fun a b => a = 1 ∨ a = b) Z TZ)
    {axes : ℤ × ℤ} (h1 : axes.1 = X.length ∨ axes.1 = X.length - flux.shape.length)
    (h2 : axes.2 = (X.length + 1 + Y.length : ℕ) ∨ axes.2 = (X.length + 1 + Y.length : ℕ) - flux.shape.length)
    {src : (ℕ × ℕ) × (ℕ → ℕ → Option (Fin nx × Fin ny × Fin n))}
    {sel : List ℕ → List ℕ → List ℕ → Fin (s * src.1.1) × Fin (s * src.1.2) → Bool} {bounds : ℝ → ℝ → Bool}
    (hc : ∀ f : List ℕ → ℝ, ∃ out, integratedFluxUpsampledBatch ⟨X ++ nx :: (Y ++ ny :: (Z ++ [2 * n, 1])), f⟩ w ip u v G
        ((X.length : ℤ), ((X.length + 1 + Y.length : ℕ) : ℤ)) bounds s = .ok out ∧
      out.shape = TX ++ (TY ++ (TZ ++ [1])) ∧
      ∀ x y z σ, ValidIndex TX x → ValidIndex TY y → ValidIndex TZ z → σ < 1 →
        out.get (x ++ (y ++ (z ++ [σ]))) = fluxIntegral src s (sel x y z)
          fun p q m => f (broadcastIndex X x ++ (p : ℕ) :: (broadcastIndex Y y ++ (q : ℕ) ::
            (broadcastIndex Z z ++ [(m.1 : ℕ) * n + (m.2 : ℕ), σ])))) :
    ∃ out, integratedFluxBatch flux w ip u v G axes bounds s = .ok out ∧ out.shape = X ++ (Y ++ (Z ++ [S])) ∧
      ∀ x0 y0 z0 σ, ValidIndex X x0 → ValidIndex Y y0 → ValidIndex Z z0 → σ < S →
        out.get (x0 ++ (y0 ++ (z0 ++ [σ]))) = ∑ x ∈ indexSet TX, ∑ y ∈ indexSet TY, ∑ z ∈ indexSet TZ,
          if broadcastIndex X x = x0 ∧ broadcastIndex Y y = y0 ∧ broadcastIndex Z z = z0 then
            fluxIntegral src s (sel x y z) fun p q m => flux.get (x0 ++ (p : ℕ) :: (y0 ++ (q : ℕ) ::
              (z0 ++ [(m.1 : ℕ) * n + (m.2 : ℕ), σ]))) else 0 := by
  have hXl := hX.length_eq
  have hYl := hY.length_eq
  have hZl := hZ.length_eq
  have hlen : flux.shape.length = X.length + Y.length + Z.length + 4 := by rw [hs]; simp; omega
  have ha := absoluteAxes_pair (a := X.length) (b := X.length + 1 + Y.length) (ndim := flux.shape.length) (by omega)
    (by omega) h1 h2
  have ha' := absoluteAxes_pair (a := X.length) (b := X.length + 1 + Y.length) (ndim := flux.shape.length)
    (axes := ((X.length : ℤ), ((X.length + 1 + Y.length : ℕ) : ℤ))) (by omega) (by omega) (Or.inl rfl) (Or.inl rfl)
  simp only at ha'
  have hshape : flux.shape.dropLast ++ [1] = X ++ nx :: (Y ++ ny :: (Z ++ [2 * n, 1])) := by
    rw [hs, show X ++ nx :: (Y ++ ny :: (Z ++ [2 * n, S])) = (X ++ nx :: (Y ++ ny :: (Z ++ [2 * n]))) ++ [S] by simp,
      List.dropLast_concat]
    simp
  -- the sum of all integrals
  have hfn : ∀ f : List ℕ → ℝ, ∃ out, integratedFluxUpsampledBatch ⟨X ++ nx :: (Y ++ ny :: (Z ++ [2 * n, 1])), f⟩ w ip u v G
        ((X.length : ℤ), ((X.length + 1 + Y.length : ℕ) : ℤ)) bounds s = .ok out ∧
      out.sumAll = ∑ x ∈ indexSet TX, ∑ y ∈ indexSet TY, ∑ z ∈ indexSet TZ, fluxIntegral src s (sel x y z)
          fun p q m => f (broadcastIndex X x ++ (p : ℕ) :: (broadcastIndex Y y ++ (q : ℕ) ::
            (broadcastIndex Z z ++ [(m.1 : ℕ) * n + (m.2 : ℕ), 0]))) := by
    intro f
    obtain ⟨out, o1, o2, o3⟩ := hc f
    refine ⟨out, o1, ?_⟩
    unfold NDArray.sumAll
    rw [o2, sumIndices_append, sumIndices_eq_sum]
    refine Finset.sum_congr rfl fun x hx => ?_
    rw [sumIndices_append, sumIndices_eq_sum]
    refine Finset.sum_congr rfl fun y hy => ?_
    rw [sumIndices_append, sumIndices_eq_sum]
    refine Finset.sum_congr rfl fun z hz => ?_
    simp only [sumIndices, Finset.sum_range_one]
    exact o3 x y z 0 (mem_indexSet.1 hx) (mem_indexSet.1 hy) (mem_indexSet.1 hz) Nat.zero_lt_one
  obtain ⟨W, hW⟩ : ∃ W : List ℕ → ℝ, W = fun idx => ∑ x ∈ indexSet TX, ∑ y ∈ indexSet TY, ∑ z ∈ indexSet TZ, fluxIntegral src s (sel x y z)
      fun p q m => if broadcastIndex X x ++ (p : ℕ) :: (broadcastIndex Y y ++ (q : ℕ) ::
            (broadcastIndex Z z ++ [(m.1 : ℕ) * n + (m.2 : ℕ), 0])) = idx then 1 else 0 := ⟨_, rfl⟩
  have hweights : integratedFluxWeightsBatch flux w ip u v G ((X.length : ℤ), ((X.length + 1 + Y.length : ℕ) : ℤ)) bounds s =
      .ok ⟨X ++ nx :: (Y ++ ny :: (Z ++ [2 * n, 1])), W⟩ := by
    unfold integratedFluxWeightsBatch
    simp only
    rw [ha']
    simp only [bind, Except.bind, List.getD_cons_zero, List.getD_cons_succ]
    rw [hshape]
    obtain ⟨out, o1, -⟩ := hfn fun _ => 1
    rw [o1]
    simp only
    refine congrArg Except.ok ?_
    rw [NDArray.mk.injEq]
    refine ⟨rfl, ?_⟩
    funext idx
    have hd : HasDerivAt (fun t : ℝ => (∑ x ∈ indexSet TX, ∑ y ∈ indexSet TY, ∑ z ∈ indexSet TZ,
        fluxIntegral src s (sel x y z) fun _ _ _ => 1) + t * W idx) (1 * W idx) 0 := ((hasDerivAt_id (0 : ℝ)).mul_const _).const_add _
    rw [one_mul] at hd
    refine Eq.trans (congrArg (fun g : ℝ → ℝ => deriv g 0) (?_ : _ = fun t : ℝ => (∑ x ∈ indexSet TX, ∑ y ∈ indexSet TY,
      ∑ z ∈ indexSet TZ, fluxIntegral src s (sel x y z) fun _ _ _ => 1) + t * W idx)) hd.deriv
    funext t
    obtain ⟨out, o1, o2⟩ := hfn fun i => 1 + if i = idx then t else 0
    rw [o1]
    simp only [Except.toOption, Option.getD_some]
    rw [o2, hW]
    simp only [Finset.mul_sum, ← Finset.sum_add_distrib]
    refine Finset.sum_congr rfl fun x _ => Finset.sum_congr rfl fun y _ => Finset.sum_congr rfl fun z _ => ?_
    rw [← fluxIntegral_smul, ← fluxIntegral_add]
    congr 1
    funext p q m
    simp only [Pi.add_apply, Pi.smul_apply, smul_eq_mul]
    split_ifs <;> simp
  -- the product
  have hwb : BroadcastsTo (⟨X ++ nx :: (Y ++ ny :: (Z ++ [2 * n, 1])), W⟩ : NDArray ℝ).shape flux.shape := by
    rw [hs]
    have hrefl : ∀ l : List ℕ, List.Forall₂ (fun a b : ℕ => a = 1 ∨ a = b) l l := fun l => List.forall₂_same.2 fun _ _ => Or.inr rfl
    exact ⟨[], _, rfl, List.rel_append (R := fun a b : ℕ => a = 1 ∨ a = b) (hrefl X) (.cons (Or.inr rfl)
      (List.rel_append (R := fun a b : ℕ => a = 1 ∨ a = b) (hrefl Y) (.cons (Or.inr rfl)
        (List.rel_append (R := fun a b : ℕ => a = 1 ∨ a = b) (hrefl Z) (.cons (Or.inr rfl) (.cons (Or.inl rfl) .nil))))))⟩
  obtain ⟨product, p1, p2, p3, p4⟩ := zipWith_elementAt (fun w f : ℝ => w * f) hwb (BroadcastsTo.refl flux.shape)
  have hps : product.shape = flux.shape := BroadcastsTo.antisymm p2 (broadcastShapes_bounds p3).2
  obtain ⟨s1, s2⟩ := sumAxes_eq product (hps.trans hs)
  refine ⟨product.sumAxes [X.length, X.length + 1 + Y.length, product.shape.length - 2], ?_, s1, fun x0 y0 z0 σ hx0 hy0 hz0 hσ => ?_⟩
  · unfold integratedFluxBatch
    rw [ha]
    simp only [bind, Except.bind, List.getD_cons_zero, List.getD_cons_succ]
    rw [hweights]
    simp only
    rw [p1]
    simp only [List.map_cons, List.map_nil, Int.toNat_natCast, List.cons_append, List.nil_append]
  · have hx0l := validIndex_length hx0
    have hy0l := validIndex_length hy0
    have hz0l := validIndex_length hz0
    rw [s2 x0 y0 z0 σ hx0l hy0l hz0l]
    have hpg : ∀ p q k, p < nx → q < ny → k < 2 * n → product.get (x0 ++ p :: (y0 ++ q :: (z0 ++ [k, σ]))) =
        W (x0 ++ p :: (y0 ++ q :: (z0 ++ [k, 0]))) * flux.get (x0 ++ p :: (y0 ++ q :: (z0 ++ [k, σ]))) := by
      intro p q k hp hq hk
      have hval : ValidIndex flux.shape (x0 ++ p :: (y0 ++ q :: (z0 ++ [k, σ]))) := by
        rw [hs]
        exact validIndex_append hx0 (.cons hp (validIndex_append hy0 (.cons hq (validIndex_append hz0 (.cons hk (.cons hσ .nil))))))
      have e := p4 (x0 ++ p :: (y0 ++ q :: (z0 ++ [k, σ]))) (validIndex_length hval)
      unfold NDArray.elementAt at e
      rw [hps, broadcastIndex_of_valid hval] at e
      rw [e]
      congr 2
      simp only
      rw [show X ++ nx :: (Y ++ ny :: (Z ++ [2 * n, 1])) = X ++ ([nx] ++ (Y ++ ([ny] ++ (Z ++ ([2 * n] ++ [1]))))) by simp,
        show x0 ++ p :: (y0 ++ q :: (z0 ++ [k, σ])) = x0 ++ ([p] ++ (y0 ++ ([q] ++ (z0 ++ ([k] ++ [σ]))))) by simp,
        broadcastIndex_append (by omega) (by simp; omega), broadcastIndex_append (by simp) (by simp; omega),
        broadcastIndex_append (by omega) (by simp; omega), broadcastIndex_append (by simp) (by simp; omega),
        broadcastIndex_append (by omega) (by simp), broadcastIndex_append (by simp) (by simp),
        broadcastIndex_of_valid hx0, broadcastIndex_of_valid hy0, broadcastIndex_of_valid hz0,
        broadcastIndex_single hp, broadcastIndex_single hq, broadcastIndex_single hk, broadcastIndex_one]
      simp
    have hWe : ∀ (p : Fin nx) (q : Fin ny) (m : Fin 2 × Fin n), W (x0 ++ (p : ℕ) :: (y0 ++ (q : ℕ) :: (z0 ++ [(m.1 : ℕ) * n + (m.2 : ℕ), 0]))) =
        ∑ x ∈ indexSet TX, ∑ y ∈ indexSet TY, ∑ z ∈ indexSet TZ,
          if broadcastIndex X x = x0 ∧ broadcastIndex Y y = y0 ∧ broadcastIndex Z z = z0 then
            fluxIntegral src s (sel x y z) (unitFlux p q m) else 0 := by
      intro p q m
      rw [hW]
      refine Finset.sum_congr rfl fun x hx => Finset.sum_congr rfl fun y hy => Finset.sum_congr rfl fun z hz => ?_
      have hx' := validIndex_length (broadcastIndex_valid (s := X) ⟨[], _, rfl, hX⟩ (mem_indexSet.1 hx))
      have hy' := validIndex_length (broadcastIndex_valid (s := Y) ⟨[], _, rfl, hY⟩ (mem_indexSet.1 hy))
      have hz' := validIndex_length (broadcastIndex_valid (s := Z) ⟨[], _, rfl, hZ⟩ (mem_indexSet.1 hz))
      simp only [append_cons_inj (hx'.trans hx0l.symm) (hy'.trans hy0l.symm) (hz'.trans hz0l.symm)]
      split_ifs with hsame
      · congr 1
        funext p' q' m'
        unfold unitFlux
        have hm : (m'.1 : ℕ) * n + (m'.2 : ℕ) = (m.1 : ℕ) * n + (m.2 : ℕ) ↔ m' = m := by
          constructor
          · intro h
            have : finProdFinEquiv m' = finProdFinEquiv m := by
              apply Fin.ext
              simp only [finProdFinEquiv_apply_val]
              nlinarith
            exact finProdFinEquiv.injective this
          · rintro rfl; rfl
        simp only [hsame, true_and, and_true, hm, Prod.mk.injEq, Fin.val_inj, and_self]
      · have h0 := fluxIntegral_smul src s (sel x y z) 0 fun _ _ _ => 0
        rw [zero_mul] at h0
        refine Eq.trans ?_ h0
        congr 1
        funext p' q' m'
        simp [hsame]
    have step : ∑ i ∈ Finset.range nx, ∑ j ∈ Finset.range ny, ∑ k ∈ Finset.range (2 * n), product.get (x0 ++ i :: (y0 ++ j :: (z0 ++ [k, σ]))) =
        ∑ p : Fin nx, ∑ q : Fin ny, ∑ m : Fin 2 × Fin n, ∑ x ∈ indexSet TX, ∑ y ∈ indexSet TY, ∑ z ∈ indexSet TZ,
          (if broadcastIndex X x = x0 ∧ broadcastIndex Y y = y0 ∧ broadcastIndex Z z = z0 then
            fluxIntegral src s (sel x y z) (unitFlux p q m) else 0) *
            flux.get (x0 ++ (p : ℕ) :: (y0 ++ (q : ℕ) :: (z0 ++ [(m.1 : ℕ) * n + (m.2 : ℕ), σ]))) := by
      rw [Finset.sum_range]
      refine Finset.sum_congr rfl fun p _ => ?_
      rw [Finset.sum_range]
      refine Finset.sum_congr rfl fun q _ => ?_
      rw [sum_range_two_mul]
      refine Finset.sum_congr rfl fun m _ => ?_
      have hk : (m.1 : ℕ) * n + (m.2 : ℕ) < 2 * n := by
        have h1 := m.1.2
        have h2 := m.2.2
        have : (m.1 : ℕ) ≤ 1 := by omega
        nlinarith
      rw [hpg p q _ p.2 q.2 hk, hWe p q m]
      simp only [Finset.sum_mul]
    rw [step]
    have swap : ∀ f : Fin nx → Fin ny → Fin 2 × Fin n → List ℕ → List ℕ → List ℕ → ℝ,
        ∑ p, ∑ q, ∑ m, ∑ x ∈ indexSet TX, ∑ y ∈ indexSet TY, ∑ z ∈ indexSet TZ, f p q m x y z =
        ∑ x ∈ indexSet TX, ∑ y ∈ indexSet TY, ∑ z ∈ indexSet TZ, ∑ p, ∑ q, ∑ m, f p q m x y z := by
      intro f
      have e1 : ∑ p, ∑ q, ∑ m, ∑ x ∈ indexSet TX, ∑ y ∈ indexSet TY, ∑ z ∈ indexSet TZ, f p q m x y z =
          ∑ a : Fin nx × Fin ny × (Fin 2 × Fin n), ∑ b ∈ indexSet TX ×ˢ (indexSet TY ×ˢ indexSet TZ), f a.1 a.2.1 a.2.2 b.1 b.2.1 b.2.2 := by
        simp only [Fintype.sum_prod_type, Finset.sum_product]
      have e2 : ∑ x ∈ indexSet TX, ∑ y ∈ indexSet TY, ∑ z ∈ indexSet TZ, ∑ p, ∑ q, ∑ m, f p q m x y z =
          ∑ b ∈ indexSet TX ×ˢ (indexSet TY ×ˢ indexSet TZ), ∑ a : Fin nx × Fin ny × (Fin 2 × Fin n), f a.1 a.2.1 a.2.2 b.1 b.2.1 b.2.2 := by
        simp only [Fintype.sum_prod_type, Finset.sum_product]
      rw [e1, e2, Finset.sum_comm]
    rw [swap]
    refine Finset.sum_congr rfl fun x _ => Finset.sum_congr rfl fun y _ => Finset.sum_congr rfl fun z _ => ?_
    split_ifs with hsame
    · rw [fluxIntegral_expand]
    · simp

/-- The integral of one batch element. -/
theorem integratedFlux_element {G : Fin n → ℤ × ℤ} {s : ℕ} (hs1 : 1 ≤ s) {l : LatticeVectors} (hl : Independent l.u l.v)
    (hG : Function.Injective G) (hn : 0 < n) {src : (ℕ × ℕ) × (ℕ → ℕ → Option (Fin nx × Fin ny × Fin n))}
    (hr : unflattenSource G nx ny = .ok src) {K : ℝ × ℝ → Fin n → ℝ × ℝ} (hK : ∀ k0, transverseWavevectors k0 l G = .ok (K k0))
    (w ip : NDArray ℝ) (bounds : ℝ → ℝ → Bool) (x y z : List ℕ) (hw : 0 ≤ w.elementAt (x ++ 0 :: (y ++ 0 :: z))) {S : ℕ}
    (flux : Fin nx → Fin ny → Fin 2 × Fin n → Fin S → ℝ) :
    integratedFlux flux (w.elementAt (x ++ 0 :: (y ++ 0 :: z)))
      (fun p q => (ip.elementAt (x ++ (p : ℕ) :: (y ++ (q : ℕ) :: (z ++ [0]))), ip.elementAt (x ++ (p : ℕ) :: (y ++ (q : ℕ) :: (z ++ [1])))))
      l G bounds s = .ok fun σ => fluxIntegral src s (fun rc => selectedAt src s K w ip bounds x y z rc.1 rc.2) fun p q m => flux p q m σ := by
  obtain ⟨v, hv⟩ := integratedFluxUpsampled_ok hw
    (fun (p : Fin nx) (q : Fin ny) => (ip.elementAt (x ++ (p : ℕ) :: (y ++ (q : ℕ) :: (z ++ [0]))), ip.elementAt (x ++ (p : ℕ) :: (y ++ (q : ℕ) :: (z ++ [1])))))
    hl hG hn hs1 bounds fun _ _ _ => 0
  obtain ⟨-, src', k, hr', hk, angles, hang, hall⟩ := integratedFluxUpsampled_eq bounds _ hv
  rw [hr] at hr'
  have e := ok_inj.1 hr'
  subst e
  have hkK : ∀ i : Fin nx × Fin ny × Fin n, k (i.1, i.2.1) i.2.2 = waveAt K ip x y z i := by
    intro i
    have := hk (i.1, i.2.1)
    rw [hK] at this
    rw [← ok_inj.1 this]
    rfl
  refine integratedFlux_eq (fun f => ?_) flux
  rw [hall]
  congr 2
  funext rc
  have h := hang rc
  simp only [hkK] at h
  unfold selectedAt
  rw [h]
  rfl

end Fmmax
