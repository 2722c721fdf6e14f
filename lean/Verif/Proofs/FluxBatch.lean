import Verif.Proofs.FluxBatchSum
import Verif.Proofs.IntegratedFlux
import Verif.Proofs.BatchUniform

/-! The integrated flux of arrays with batch dimensions, in terms of the elements. -/

namespace Fmmax

open Spec

variable {n nx ny : ℕ}

theorem forall₂_append_split {R : ℕ → ℕ → Prop} {a b c d : List ℕ} (h : List.Forall₂ R (a ++ b) (c ++ d)) (hl : a.length = c.length) :
    List.Forall₂ R a c ∧ List.Forall₂ R b d := by
  have h1 := List.forall₂_take c.length h
  have h2 := List.forall₂_drop c.length h
  rw [List.take_left, List.take_left' hl] at h1
  rw [List.drop_left, List.drop_left' hl] at h2
  exact ⟨h1, h2⟩

theorem forall₂_of_broadcastsTo {s t : List ℕ} (h : BroadcastsTo s t) (hl : s.length = t.length) :
    List.Forall₂ (fun a b => a = 1 ∨ a = b) s t := by
  have := broadcastsTo_padded h
  rw [hl, Nat.sub_self] at this
  exact this

theorem broadcastsTo_of_padded {s t : List ℕ} {k : ℕ} (h : List.Forall₂ (fun a b => a = 1 ∨ a = b) (List.replicate k 1 ++ s) t) :
    BroadcastsTo s t := by
  refine ⟨t.take k, t.drop k, (List.take_append_drop _ _).symm, ?_⟩
  have := List.forall₂_drop k h
  rwa [List.drop_left' (by simp)] at this

theorem forall₂_fits_antisymm {s t : List ℕ} (h : List.Forall₂ (fun a b => a = 1 ∨ a = b) s t)
    (h' : List.Forall₂ (fun a b => a = 1 ∨ a = b) t s) : s = t :=
  BroadcastsTo.antisymm ⟨[], _, rfl, h⟩ ⟨[], _, rfl, h'⟩

/-- The transverse wavevector of an order at a Brillouin point of a batch element. -/
noncomputable def waveAt (K : ℝ × ℝ → Fin n → ℝ × ℝ) (ip : NDArray ℝ) (x y z : List ℕ) (i : Fin nx × Fin ny × Fin n) : ℝ × ℝ :=
  K (ip.elementAt (x ++ (i.1 : ℕ) :: (y ++ (i.2.1 : ℕ) :: (z ++ [0]))),
    ip.elementAt (x ++ (i.1 : ℕ) :: (y ++ (i.2.1 : ℕ) :: (z ++ [1])))) i.2.2

/-- Whether a point of the upsampled grid of a batch element is selected. -/
noncomputable def selectedAt (src : (ℕ × ℕ) × (ℕ → ℕ → Option (Fin nx × Fin ny × Fin n))) (s : ℕ) (K : ℝ × ℝ → Fin n → ℝ × ℝ)
    (w ip : NDArray ℝ) (bounds : ℝ → ℝ → Bool) (x y z : List ℕ) (r c : ℕ) : Bool :=
  (((anglesFromTransverseWavevector
    (resizeLinear src.1.1 src.1.2 s (fun r c => (((src.2 r c).map (waveAt K ip x y z)).getD (0, 0)).1) r c,
      resizeLinear src.1.1 src.1.2 s (fun r c => (((src.2 r c).map (waveAt K ip x y z)).getD (0, 0)).2) r c)
    (w.elementAt (x ++ 0 :: (y ++ 0 :: z)))).toOption).map fun a => bounds a.1 a.2).getD false

theorem angles_bind (k : ℝ × ℝ) (w : ℝ) (bounds : ℝ → ℝ → Bool) :
    (((anglesFromTransverseWavevector k w).toOption.map Prod.fst).bind fun p =>
      (some (Complex.arg (k.1 + Complex.I * k.2))).map fun a => bounds p a) =
    (anglesFromTransverseWavevector k w).toOption.map fun a => bounds a.1 a.2 := by
  unfold anglesFromTransverseWavevector
  simp only
  split_ifs <;> rfl

set_option maxHeartbeats 1000000 in
/-- The integral before the reduction to weights, for fluxes, wavelengths and wavevectors with a common batch `TX`, `TY`, `TZ`. -/
theorem integratedFluxUpsampledBatch_eq {flux w ip u v : NDArray ℝ} {G : Fin n → ℤ × ℤ} {X Y Z TX TY TZ P Y2 Z2 : List ℕ} {S m s : ℕ}
    (hs1 : 1 ≤ s) (hs : flux.shape = X ++ nx :: (Y ++ ny :: (Z ++ [2 * n, S]))) (hpos : ∀ d ∈ flux.shape, 0 < d)
    (hX : List.Forall₂ (fun a b => a = 1 ∨ a = b) X TX) (hY : List.Forall₂ (fun a b => a = 1 ∨ a = b) Y TY)
    (hZ : List.Forall₂ (fun a b => a = 1 ∨ a = b) Z TZ)
    (hw : BroadcastsTo w.shape (TX ++ 1 :: (TY ++ 1 :: TZ)))
    (hip : ip.shape = P ++ nx :: (Y2 ++ ny :: (Z2 ++ [2]))) (hP : BroadcastsTo P TX)
    (hY2 : List.Forall₂ (fun a b => a = 1 ∨ a = b) Y2 TY) (hZ2 : List.Forall₂ (fun a b => a = 1 ∨ a = b) Z2 TZ)
    (hT : ∀ MX MY MZ, List.Forall₂ (fun a b => a = 1 ∨ a = b) X MX → List.Forall₂ (fun a b => a = 1 ∨ a = b) Y MY →
      List.Forall₂ (fun a b => a = 1 ∨ a = b) Z MZ → BroadcastsTo w.shape (MX ++ 1 :: (MY ++ 1 :: MZ)) → BroadcastsTo P MX →
      List.Forall₂ (fun a b => a = 1 ∨ a = b) Y2 MY → List.Forall₂ (fun a b => a = 1 ∨ a = b) Z2 MZ →
      List.Forall₂ (fun a b => a = 1 ∨ a = b) TX MX ∧ List.Forall₂ (fun a b => a = 1 ∨ a = b) TY MY ∧
        List.Forall₂ (fun a b => a = 1 ∨ a = b) TZ MZ)
    (hu : u.shape = List.replicate m 1 ++ [2]) (hv : v.shape = List.replicate m 1 ++ [2])
    (hm : m ≤ X.length + Y.length + Z.length + 3)
    (hl : Independent (latticeAt u v (List.replicate m 0)).u (latticeAt u v (List.replicate m 0)).v)
    {axes : ℤ × ℤ} (h1 : axes.1 = X.length ∨ axes.1 = X.length - flux.shape.length)
    (h2 : axes.2 = (X.length + 1 + Y.length : ℕ) ∨ axes.2 = (X.length + 1 + Y.length : ℕ) - flux.shape.length)
    {src : (ℕ × ℕ) × (ℕ → ℕ → Option (Fin nx × Fin ny × Fin n))} (hr : unflattenSource G nx ny = .ok src)
    {K : ℝ × ℝ → Fin n → ℝ × ℝ}
    (hK : ∀ k0, transverseWavevectors k0 (latticeAt u v (List.replicate m 0)) G = .ok (K k0)) (bounds : ℝ → ℝ → Bool) :
    ∃ out, integratedFluxUpsampledBatch flux w ip u v G axes bounds s = .ok out ∧
      out.shape = TX ++ (TY ++ (TZ ++ [S])) ∧
      ∀ x y z σ, ValidIndex TX x → ValidIndex TY y → ValidIndex TZ z → σ < S →
        out.get (x ++ (y ++ (z ++ [σ]))) = fluxIntegral src s (fun rc => selectedAt src s K w ip bounds x y z rc.1 rc.2)
          fun p q m => flux.get (broadcastIndex X x ++ (p : ℕ) :: (broadcastIndex Y y ++ (q : ℕ) ::
            (broadcastIndex Z z ++ [(m.1 : ℕ) * n + (m.2 : ℕ), σ]))) := by
  have hXl := hX.length_eq
  have hYl := hY.length_eq
  have hZl := hZ.length_eq
  have hlen : flux.shape.length = X.length + Y.length + Z.length + 4 := by rw [hs]; simp; omega
  have ha := absoluteAxes_pair (a := X.length) (b := X.length + 1 + Y.length) (ndim := flux.shape.length) (by omega)
    (by omega) h1 h2
  have hY2l := hY2.length_eq
  have hZ2l := hZ2.length_eq
  -- the wavelength
  have hwl : w.shape.length ≤ X.length + Y.length + Z.length + 2 := by
    have := hw.length_le
    simp at this; omega
  have hTl : (TX ++ 1 :: (TY ++ 1 :: TZ)).length = X.length + Y.length + Z.length + 2 := by simp; omega
  have hwp : (w.atleastNd (flux.shape.length - 2)).shape = List.replicate (X.length + Y.length + Z.length + 2 - w.shape.length) 1 ++ w.shape := by
    unfold NDArray.atleastNd
    simp only
    rw [hlen]
    rfl
  obtain ⟨X1, Y1, Z1, hw1, hX1, hY1, hZ1⟩ : ∃ X1 Y1 Z1, (w.atleastNd (flux.shape.length - 2)).shape = X1 ++ 1 :: (Y1 ++ 1 :: Z1) ∧
      List.Forall₂ (fun a b => a = 1 ∨ a = b) X1 TX ∧ List.Forall₂ (fun a b => a = 1 ∨ a = b) Y1 TY ∧
      List.Forall₂ (fun a b => a = 1 ∨ a = b) Z1 TZ := by
    have h := broadcastsTo_padded hw
    obtain ⟨X1, b, e, g1, g2⟩ := forall₂_append_inv h
    cases g2 with
    | @cons a _ b' _ g3 g4 =>
      obtain ⟨Y1, b'', e', g5, g6⟩ := forall₂_append_inv g4
      cases g6 with
      | @cons a' _ Z1 _ g7 g8 =>
        refine ⟨X1, Y1, Z1, ?_, g1, g5, g8⟩
        have ea : a = 1 := by tauto
        have ea' : a' = 1 := by tauto
        rw [e', ea, ea'] at e
        rw [hwp, ← e, hTl]
  have hX1l := hX1.length_eq
  have hY1l := hY1.length_eq
  have hZ1l := hZ1.length_eq
  obtain ⟨w', hw', hw's, hw'g⟩ := squeeze_eq _ hw1
  rw [hX1l, hY1l, ← hXl, ← hYl] at hw'
  have hB1 : List.Forall₂ (fun a b : ℕ => a = 1 ∨ a = b) (X1 ++ (Y1 ++ Z1)) (TX ++ (TY ++ TZ)) :=
    List.rel_append (R := fun a b : ℕ => a = 1 ∨ a = b) hX1 (List.rel_append (R := fun a b : ℕ => a = 1 ∨ a = b) hY1 hZ1)
  have hw'b : BroadcastsTo w'.shape (TX ++ (TY ++ TZ)) := ⟨[], _, rfl, by rw [hw's]; exact hB1⟩
  have hw'e : ∀ x y z, ValidIndex TX x → ValidIndex TY y → ValidIndex TZ z →
      w'.elementAt (x ++ (y ++ z)) = w.elementAt (x ++ 0 :: (y ++ 0 :: z)) := by
    intro x y z hx hy hz
    have hxl := validIndex_length hx
    have hyl := validIndex_length hy
    have hzl := validIndex_length hz
    rw [← elementAt_atleastNd w (N := flux.shape.length - 2) (by simp; omega) (by omega)]
    unfold NDArray.elementAt
    rw [hw's, hw1, broadcastIndex_append (by omega) (by simp; omega), broadcastIndex_append (by omega) (by omega),
      broadcastIndex_append (s' := 1 :: (Y1 ++ 1 :: Z1)) (by omega) (by simp; omega),
      show (1 :: (Y1 ++ 1 :: Z1)) = [1] ++ (Y1 ++ ([1] ++ Z1)) by simp, show (0 :: (y ++ 0 :: z)) = [0] ++ (y ++ ([0] ++ z)) by simp,
      broadcastIndex_append (s := [1]) (by simp) (by simp; omega), broadcastIndex_append (s := Y1) (by omega) (by simp; omega),
      broadcastIndex_append (s := [1]) (by simp) (by omega), broadcastIndex_one]
    exact hw'g _ _ _ (by simp [broadcastIndex]; omega) (by simp [broadcastIndex]; omega) (by simp [broadcastIndex]; omega)
  -- the wavevectors
  have hPl := hP.length_le
  obtain ⟨X2, hX2⟩ : ∃ X2, X2 = List.replicate (TX.length - P.length) 1 ++ P := ⟨_, rfl⟩
  have hX2f : List.Forall₂ (fun a b => a = 1 ∨ a = b) X2 TX := by rw [hX2]; exact broadcastsTo_padded hP
  have hX2l := hX2f.length_eq
  have hipl : ip.shape.length = P.length + Y.length + Z.length + 3 := by rw [hip]; simp; omega
  have hip' : (ip.atleastNd (flux.shape.length - 2 + 1)).shape = (X2 ++ nx :: (Y2 ++ ny :: Z2)) ++ [2] := by
    unfold NDArray.atleastNd
    simp only
    rw [hipl, hlen, show X.length + Y.length + Z.length + 4 - 2 + 1 - (P.length + Y.length + Z.length + 3) =
      TX.length - P.length by omega, hip, hX2]
    simp
  obtain ⟨k, hk, hks, hkg⟩ := transverseWavevectorsBatch_eq hip' hu hv (by simp; omega) hl G
  have hks' : k.shape = X2 ++ nx :: (Y2 ++ ny :: (Z2 ++ [n, 2])) := by rw [hks]; simp
  obtain ⟨k', hk', hk's, hk'g⟩ := unflattenTransverseWavevectors_eq k hks' (axes := ((X.length : ℤ), ((X.length + 1 + Y.length : ℕ) : ℤ)))
    (Or.inl (by rw [hX2l, ← hXl])) (Or.inl (by rw [hX2l, hY2l, ← hXl, ← hYl])) hr
  obtain ⟨flux', hf', hf's, hf'g⟩ := unflattenFlux_eq flux hs hpos (axes := ((X.length : ℤ), ((X.length + 1 + Y.length : ℕ) : ℤ)))
    (Or.inl rfl) (Or.inl rfl) hr
  have hB2 : List.Forall₂ (fun a b : ℕ => a = 1 ∨ a = b) (X2 ++ (Y2 ++ Z2)) (TX ++ (TY ++ TZ)) :=
    List.rel_append (R := fun a b : ℕ => a = 1 ∨ a = b) hX2f (List.rel_append (R := fun a b : ℕ => a = 1 ∨ a = b) hY2 hZ2)
  have hB0 : List.Forall₂ (fun a b : ℕ => a = 1 ∨ a = b) (X ++ (Y ++ Z)) (TX ++ (TY ++ TZ)) :=
    List.rel_append (R := fun a b : ℕ => a = 1 ∨ a = b) hX (List.rel_append (R := fun a b : ℕ => a = 1 ∨ a = b) hY hZ)
  obtain ⟨R, hR⟩ : ∃ R, R = src.1.1 := ⟨_, rfl⟩
  obtain ⟨C, hC⟩ : ∃ C, C = src.1.2 := ⟨_, rfl⟩
  rw [← hR, ← hC] at hk's hf's
  -- resizing
  have hkm : (k'.map fun k => k.getD 0).shape = (X2 ++ (Y2 ++ Z2)) ++ R :: C :: [2] := by
    simp only [NDArray.map]; rw [hk's]; simp
  have hfm : (flux'.map fun k => k.getD 0).shape = (X ++ (Y ++ Z)) ++ R :: C :: [2, S] := by
    simp only [NDArray.map]; rw [hf's]; simp
  obtain ⟨hkr1, hkr2⟩ := resizeTwo_eq (s := s) _ hkm
  obtain ⟨hfr1, hfr2⟩ := resizeTwo_eq (s := s) _ hfm
  obtain ⟨kr, hkr⟩ : ∃ kr, kr = (k'.map fun k => k.getD 0).resizeTwo (X2 ++ (Y2 ++ Z2)).length s := ⟨_, rfl⟩
  obtain ⟨fr, hfr⟩ : ∃ fr, fr = (flux'.map fun k => k.getD 0).resizeTwo (X ++ (Y ++ Z)).length s := ⟨_, rfl⟩
  rw [← hkr] at hkr1 hkr2
  rw [← hfr] at hfr1 hfr2
  -- pairs of components
  have hps : (wavevectorPairs (kr.map some)).shape = (X2 ++ (Y2 ++ Z2)) ++ [s * R, s * C] := by
    unfold wavevectorPairs
    simp only [NDArray.map]
    rw [hkr1, show (X2 ++ (Y2 ++ Z2)) ++ s * R :: s * C :: [2] = ((X2 ++ (Y2 ++ Z2)) ++ [s * R, s * C]) ++ [2] by simp,
      List.dropLast_concat]
  have hpb : BroadcastsTo (wavevectorPairs (kr.map some)).shape ((TX ++ (TY ++ TZ)) ++ [s * R, s * C]) := by
    rw [hps]
    exact BroadcastsTo.append ⟨[], _, rfl, hB2⟩ (.cons (Or.inr rfl) (.cons (Or.inr rfl) .nil))
  have hpe : ∀ x y z, ValidIndex TX x → ValidIndex TY y → ValidIndex TZ z → ∀ r c, r < s * R → c < s * C →
      (wavevectorPairs (kr.map some)).elementAt ((x ++ (y ++ z)) ++ [r, c]) = some
        (resizeLinear R C s (fun r c => (((src.2 r c).map (waveAt K ip x y z)).getD (0, 0)).1) r c,
          resizeLinear R C s (fun r c => (((src.2 r c).map (waveAt K ip x y z)).getD (0, 0)).2) r c) := by
    intro x y z hx hy hz r c hrr hcc
    have hxl := validIndex_length hx
    have hyl := validIndex_length hy
    have hzl := validIndex_length hz
    have hx2 : ValidIndex X2 (broadcastIndex X2 x) := broadcastIndex_valid ⟨[], _, rfl, hX2f⟩ hx
    have hy2 : ValidIndex Y2 (broadcastIndex Y2 y) := broadcastIndex_valid ⟨[], _, rfl, hY2⟩ hy
    have hz2 : ValidIndex Z2 (broadcastIndex Z2 z) := broadcastIndex_valid ⟨[], _, rfl, hZ2⟩ hz
    have hbi : broadcastIndex ((X2 ++ (Y2 ++ Z2)) ++ [s * R, s * C]) ((x ++ (y ++ z)) ++ [r, c]) =
        (broadcastIndex X2 x ++ (broadcastIndex Y2 y ++ broadcastIndex Z2 z)) ++ [r, c] := by
      rw [broadcastIndex_append (by simp; omega) (by simp), broadcastIndex_append (by omega) (by simp; omega),
        broadcastIndex_append (by omega) (by omega), broadcastIndex_of_valid (.cons hrr (.cons hcc .nil))]
    have hbl : (broadcastIndex X2 x ++ (broadcastIndex Y2 y ++ broadcastIndex Z2 z)).length = (X2 ++ (Y2 ++ Z2)).length := by
      simp only [List.length_append, validIndex_length hx2, validIndex_length hy2, validIndex_length hz2]
    have hcomp : ∀ r c j (f : ℝ × ℝ → ℝ), j < 2 → (∀ t : Fin n, ∀ kt : Fin n → ℝ × ℝ, ∀ b,
        (k.get (b ++ [(t : ℕ), 0]) = (kt t).1 ∧ k.get (b ++ [(t : ℕ), 1]) = (kt t).2) → k.get (b ++ [(t : ℕ), j]) = f (kt t)) →
        f (0, 0) = 0 →
        ((k'.map fun k => k.getD 0).get ((broadcastIndex X2 x ++ (broadcastIndex Y2 y ++ broadcastIndex Z2 z)) ++ r :: c :: [j])) =
          f (((src.2 r c).map (waveAt K ip x y z)).getD (0, 0)) := by
      intro r c j f hj hf h0
      simp only [NDArray.map, List.append_assoc]
      rw [hk'g _ _ _ j r c (validIndex_length hx2) (validIndex_length hy2) (validIndex_length hz2)]
      cases hsrc : src.2 r c with
      | none => simp [h0]
      | some i =>
        simp only [Option.map_some, Option.getD_some]
        obtain ⟨kt, g1, g2⟩ := hkg (broadcastIndex X2 x ++ (i.1 : ℕ) :: (broadcastIndex Y2 y ++ (i.2.1 : ℕ) :: broadcastIndex Z2 z))
          (validIndex_append hx2 (.cons i.1.2 (validIndex_append hy2 (.cons i.2.1.2 hz2))))
        rw [hK] at g1
        have g1' := ok_inj.1 g1
        have g2' := hf i.2.2 kt _ (g2 i.2.2)
        simp only [List.append_assoc, List.cons_append] at g2'
        rw [g2', ← g1']
        have hread : ∀ j, j < 2 → (ip.atleastNd (flux.shape.length - 2 + 1)).get
            (broadcastIndex X2 x ++ (i.1 : ℕ) :: (broadcastIndex Y2 y ++ (i.2.1 : ℕ) :: broadcastIndex Z2 z) ++ [j]) =
            ip.elementAt (x ++ (i.1 : ℕ) :: (y ++ (i.2.1 : ℕ) :: (z ++ [j]))) := by
          intro j hj
          rw [← elementAt_atleastNd ip (N := flux.shape.length - 2 + 1) (by simp; omega) (by omega)]
          unfold NDArray.elementAt
          rw [hip', show (X2 ++ nx :: (Y2 ++ ny :: Z2)) ++ [2] = X2 ++ ([nx] ++ (Y2 ++ ([ny] ++ (Z2 ++ [2])))) by simp,
            show x ++ (i.1 : ℕ) :: (y ++ (i.2.1 : ℕ) :: (z ++ [j])) = x ++ ([(i.1 : ℕ)] ++ (y ++ ([(i.2.1 : ℕ)] ++ (z ++ [j])))) by simp,
            broadcastIndex_append (by omega) (by simp; omega), broadcastIndex_append (by simp) (by simp; omega),
            broadcastIndex_append (by omega) (by simp; omega), broadcastIndex_append (by simp) (by simp; omega),
            broadcastIndex_append (by omega) (by simp), broadcastIndex_single i.1.2, broadcastIndex_single i.2.1.2,
            broadcastIndex_single hj]
          simp
        rw [hread 0 (by omega), hread 1 (by omega)]
        rfl
    unfold NDArray.elementAt
    rw [hps, hbi]
    unfold wavevectorPairs
    simp only [NDArray.map]
    rw [show (broadcastIndex X2 x ++ (broadcastIndex Y2 y ++ broadcastIndex Z2 z)) ++ [r, c] ++ [0] =
      (broadcastIndex X2 x ++ (broadcastIndex Y2 y ++ broadcastIndex Z2 z)) ++ r :: c :: [0] by simp,
      show (broadcastIndex X2 x ++ (broadcastIndex Y2 y ++ broadcastIndex Z2 z)) ++ [r, c] ++ [1] =
      (broadcastIndex X2 x ++ (broadcastIndex Y2 y ++ broadcastIndex Z2 z)) ++ r :: c :: [1] by simp,
      hkr2 _ _ _ _ hbl, hkr2 _ _ _ _ hbl]
    simp only [hcomp _ _ 0 Prod.fst (by omega) (fun _ _ _ h => h.1) rfl, hcomp _ _ 1 Prod.snd (by omega) (fun _ _ _ h => h.2) rfl]
    rfl
  -- the arrays
  have hwee : BroadcastsTo w'.expandLast.expandLast.shape ((TX ++ (TY ++ TZ)) ++ [s * R, s * C]) := by
    have := broadcastsTo_expandLast (broadcastsTo_expandLast hw'b (s * R)) (s * C)
    simpa using this
  have hweg : ∀ x y z, ValidIndex TX x → ValidIndex TY y → ValidIndex TZ z → ∀ r c,
      w'.expandLast.expandLast.elementAt ((x ++ (y ++ z)) ++ [r, c]) = w.elementAt (x ++ 0 :: (y ++ 0 :: z)) := by
    intro x y z hx hy hz r c
    have hxl := validIndex_length hx
    have hyl := validIndex_length hy
    have hzl := validIndex_length hz
    have hl1 : w'.shape.length ≤ (x ++ (y ++ z)).length := by rw [hw's]; simp; omega
    rw [show (x ++ (y ++ z)) ++ [r, c] = ((x ++ (y ++ z)) ++ [r]) ++ [c] by simp,
      elementAt_expandLast _ (by simp only [NDArray.expandLast, List.length_append, List.length_singleton] at hl1 ⊢; omega),
      elementAt_expandLast _ hl1, hw'e x y z hx hy hz]
  obtain ⟨polar, hp1, hp2, hp3, hp4⟩ := zipWith_elementAt (fun (k : Option (ℝ × ℝ)) w => k.bind fun k => (anglesFromTransverseWavevector k w).toOption.map Prod.fst) hpb hwee
  obtain ⟨az, haz⟩ : ∃ az : NDArray (Option ℝ), az = (wavevectorPairs (kr.map some)).map fun k => k.map fun k => Complex.arg (k.1 + Complex.I * k.2) := ⟨_, rfl⟩
  have hazs : az.shape = (wavevectorPairs (kr.map some)).shape := by rw [haz]; rfl
  have hazb : BroadcastsTo az.shape ((TX ++ (TY ++ TZ)) ++ [s * R, s * C]) := by rw [hazs]; exact hpb
  obtain ⟨sel, hq1, hq2, hq3, hq4⟩ := zipWith_elementAt
    (fun polar azimuthal : Option ℝ => polar.bind fun p => azimuthal.map fun a => bounds p a) hp2 hazb
  obtain ⟨sel', hsel'⟩ : ∃ sel' : NDArray Bool, sel' = sel.map fun b => b.getD false := ⟨_, rfl⟩
  have hsels : sel'.shape = sel.shape := by rw [hsel']; rfl
  have hselb : BroadcastsTo sel'.shape ((TX ++ (TY ++ TZ)) ++ [s * R, s * C]) := by rw [hsels]; exact hq2
  have hsee : BroadcastsTo sel'.expandLast.expandLast.shape ((TX ++ (TY ++ TZ)) ++ [s * R, s * C, 2, S]) := by
    have := broadcastsTo_expandLast (broadcastsTo_expandLast hselb 2) S
    simpa using this
  have hfb : BroadcastsTo fr.shape ((TX ++ (TY ++ TZ)) ++ [s * R, s * C, 2, S]) := by
    rw [hfr1]
    exact BroadcastsTo.append ⟨[], _, rfl, hB0⟩
      (.cons (Or.inr rfl) (.cons (Or.inr rfl) (.cons (Or.inr rfl) (.cons (Or.inr rfl) .nil))))
  obtain ⟨masked, hm1, hm2, hm3, hm4⟩ := zipWith_elementAt (fun (b : Bool) (f : ℝ) => if b then f else 0) hsee hfb
  -- the shape of the masked flux
  have hms : masked.shape = (TX ++ (TY ++ TZ)) ++ [s * R, s * C, 2, S] := by
    obtain ⟨c1, c2⟩ := broadcastShapes_bounds hm3
    obtain ⟨c3, c4⟩ := broadcastShapes_bounds hp3
    obtain ⟨c5, c6⟩ := broadcastShapes_bounds hq3
    have hee : sel'.expandLast.expandLast.shape = sel.shape ++ [1, 1] := by simp [NDArray.expandLast, hsels]
    have hwe : w'.expandLast.expandLast.shape = w'.shape ++ [1, 1] := by simp [NDArray.expandLast]
    have d11 : List.Forall₂ (fun a b : ℕ => a = 1 ∨ a = b) [1, 1] [1, 1] := .cons (Or.inl rfl) (.cons (Or.inl rfl) .nil)
    rw [hee] at c1
    have t1 : BroadcastsTo ((w'.shape ++ [1, 1]) ++ [1, 1]) masked.shape := by
      have := (c4.trans c5).append d11
      rw [hwe] at this
      exact this.trans c1
    have t2 : BroadcastsTo ((X2 ++ (Y2 ++ Z2)) ++ [s * R, s * C] ++ [1, 1]) masked.shape := by
      have := (c3.trans c5).append d11
      rw [hps] at this
      exact this.trans c1
    have hml : masked.shape.length = ((TX ++ (TY ++ TZ)) ++ [s * R, s * C, 2, S]).length := by
      have e1 := hm2.length_le
      have e2 := c2.length_le
      rw [hfr1] at e2
      have e3 := hB0.length_eq
      simp only [List.length_append, List.length_cons, List.length_nil] at e1 e2 e3 ⊢
      omega
    have f0 := forall₂_of_broadcastsTo hm2 hml
    have f1 := forall₂_of_broadcastsTo t1 (by
      rw [hml, hw's]
      have e3 := hB1.length_eq
      simp only [List.length_append, List.length_cons, List.length_nil] at e3 ⊢
      omega)
    have f2 := forall₂_of_broadcastsTo t2 (by
      rw [hml]
      have e3 := hB2.length_eq
      simp only [List.length_append, List.length_cons, List.length_nil] at e3 ⊢
      omega)
    have f3 := forall₂_of_broadcastsTo c2 (by
      rw [hml, hfr1]
      have e3 := hB0.length_eq
      simp only [List.length_append, List.length_cons, List.length_nil] at e3 ⊢
      omega)
    rw [hfr1] at f3
    obtain ⟨M1, M2, e, g1, g2⟩ := forall₂_append_inv f0
    obtain ⟨MX, M', e', gx, g3⟩ := forall₂_append_inv g1
    obtain ⟨MY, MZ, e'', gy, gz⟩ := forall₂_append_inv g3
    have lx := gx.length_eq
    have ly := gy.length_eq
    have lz := gz.length_eq
    rw [e, e', e''] at f1 f2 f3
    rw [List.append_assoc] at f1 f2
    obtain ⟨f1, -⟩ := forall₂_append_split f1 (by rw [hw's]; simp; omega)
    obtain ⟨f2, -⟩ := forall₂_append_split f2 (by simp; omega)
    obtain ⟨f3, f4⟩ := forall₂_append_split f3 (by simp; omega)
    rw [hw's] at f1
    obtain ⟨a1, f1⟩ := forall₂_append_split f1 (by omega)
    obtain ⟨a2, a3⟩ := forall₂_append_split f1 (by omega)
    obtain ⟨b1, f2⟩ := forall₂_append_split f2 (by omega)
    obtain ⟨b2, b3⟩ := forall₂_append_split f2 (by omega)
    obtain ⟨d1, f3⟩ := forall₂_append_split f3 (by omega)
    obtain ⟨d2, d3⟩ := forall₂_append_split f3 (by omega)
    obtain ⟨q1, q2, q3⟩ := hT MX MY MZ d1 d2 d3 (broadcastsTo_of_padded (k := X.length + Y.length + Z.length + 2 - w.shape.length) (by
      rw [← hwp, hw1]
      exact List.rel_append (R := fun a b : ℕ => a = 1 ∨ a = b) a1 (.cons (Or.inl rfl)
        (List.rel_append (R := fun a b : ℕ => a = 1 ∨ a = b) a2 (.cons (Or.inl rfl) a3)))))
      (broadcastsTo_of_padded (by rw [← hX2]; exact b1)) b2 b3
    rw [e, e', e'', forall₂_fits_antisymm gx q1, forall₂_fits_antisymm gy q2, forall₂_fits_antisymm gz q3, forall₂_fits_antisymm g2 f4]
  have hmg : ∀ x y z, ValidIndex TX x → ValidIndex TY y → ValidIndex TZ z → ∀ r c pol σ, r < s * R → c < s * C → pol < 2 → σ < S →
      masked.get ((x ++ (y ++ z)) ++ [r, c, pol, σ]) = if selectedAt src s K w ip bounds x y z r c then
        resizeLinear R C s (fun i j => ((src.2 i j).map fun t => flux.get (broadcastIndex X x ++ (t.1 : ℕ) :: (broadcastIndex Y y ++ (t.2.1 : ℕ) ::
            (broadcastIndex Z z ++ [pol * n + (t.2.2 : ℕ), σ])))).getD 0) r c else 0 := by
    intro x y z hx hy hz r c pol σ hrr hcc hpol hσ
    have hb := validIndex_append hx (validIndex_append hy hz)
    have hbl := validIndex_length hb
    have hxl := validIndex_length hx
    have hyl := validIndex_length hy
    have hzl := validIndex_length hz
    have hval : ValidIndex masked.shape ((x ++ (y ++ z)) ++ [r, c, pol, σ]) := by
      rw [hms]
      exact validIndex_append hb (.cons hrr (.cons hcc (.cons hpol (.cons hσ .nil))))
    have e1 := hm4 ((x ++ (y ++ z)) ++ [r, c, pol, σ]) (by
      simp only [List.length_append, List.length_cons, List.length_nil] at hbl ⊢; omega)
    have e2 : masked.elementAt ((x ++ (y ++ z)) ++ [r, c, pol, σ]) = masked.get ((x ++ (y ++ z)) ++ [r, c, pol, σ]) := by
      unfold NDArray.elementAt
      rw [broadcastIndex_of_valid hval]
    have e3 : sel'.expandLast.expandLast.elementAt ((x ++ (y ++ z)) ++ [r, c, pol, σ]) = selectedAt src s K w ip bounds x y z r c := by
      have hl1 : sel'.shape.length ≤ ((x ++ (y ++ z)) ++ [r, c]).length := by
        have := hselb.length_le
        simp only [List.length_append, List.length_cons, List.length_nil] at this hbl ⊢; omega
      rw [show (x ++ (y ++ z)) ++ [r, c, pol, σ] = (((x ++ (y ++ z)) ++ [r, c]) ++ [pol]) ++ [σ] by simp,
        elementAt_expandLast _ (by simp only [NDArray.expandLast, List.length_append, List.length_singleton] at hl1 ⊢; omega),
        elementAt_expandLast _ hl1]
      have hle : ((x ++ (y ++ z)) ++ [r, c]).length = ((TX ++ (TY ++ TZ)) ++ [s * R, s * C]).length := by
        simp only [List.length_append, List.length_cons, List.length_nil] at hbl ⊢; omega
      have e4 : sel'.elementAt ((x ++ (y ++ z)) ++ [r, c]) = (sel.elementAt ((x ++ (y ++ z)) ++ [r, c])).getD false := by
        rw [hsel']; rfl
      have e5 : az.elementAt ((x ++ (y ++ z)) ++ [r, c]) = ((wavevectorPairs (kr.map some)).elementAt ((x ++ (y ++ z)) ++ [r, c])).map
          fun k => Complex.arg (k.1 + Complex.I * k.2) := by
        rw [haz]; rfl
      rw [e4, hq4 _ hle, hp4 _ hle, e5, hpe x y z hx hy hz r c hrr hcc, hweg x y z hx hy hz, Option.bind_some, Option.map_some,
        angles_bind, hR, hC]
      rfl
    have hx0 : ValidIndex X (broadcastIndex X x) := broadcastIndex_valid ⟨[], _, rfl, hX⟩ hx
    have hy0 : ValidIndex Y (broadcastIndex Y y) := broadcastIndex_valid ⟨[], _, rfl, hY⟩ hy
    have hz0 : ValidIndex Z (broadcastIndex Z z) := broadcastIndex_valid ⟨[], _, rfl, hZ⟩ hz
    have e6 : fr.elementAt ((x ++ (y ++ z)) ++ [r, c, pol, σ]) = resizeLinear R C s (fun i j => ((src.2 i j).map fun t => flux.get (broadcastIndex X x ++ (t.1 : ℕ) :: (broadcastIndex Y y ++ (t.2.1 : ℕ) ::
            (broadcastIndex Z z ++ [pol * n + (t.2.2 : ℕ), σ])))).getD 0) r c := by
      unfold NDArray.elementAt
      rw [hfr1, broadcastIndex_append (by simp; omega) (by simp), broadcastIndex_append (by omega) (by simp; omega),
        broadcastIndex_append (by omega) (by omega),
        broadcastIndex_of_valid (.cons hrr (.cons hcc (.cons hpol (.cons hσ .nil)))),
        hfr2 _ _ _ _ (by simp only [List.length_append, validIndex_length hx0, validIndex_length hy0, validIndex_length hz0])]
      congr 1
      funext i j
      simp only [NDArray.map, List.append_assoc]
      rw [hf'g _ _ _ pol σ i j hx0 hy0 hz0 hpol hσ]
    rw [← e2, e1, e3, e6]
  -- the sum
  have hml : masked.shape.length = (TX ++ (TY ++ TZ)).length + 4 := by rw [hms, List.length_append]; rfl
  obtain ⟨s1, s2⟩ := sumAxes_eq masked (X := TX ++ (TY ++ TZ)) (Y := []) (Z := []) (p := s * R) (q := s * C) (t := 2) (S := S)
    (by rw [hms]; simp)
  refine ⟨(masked.sumAxes [masked.shape.length - 4, masked.shape.length - 3, masked.shape.length - 2]).map fun x => x / (s : ℝ) ^ 2,
    ?_, ?_, fun x y z σ hx hy hz hσ => ?_⟩
  · unfold integratedFluxUpsampledBatch
    rw [if_neg (not_not.2 hs1)]
    simp only
    rw [ha]
    simp only [bind, Except.bind, List.getD_cons_zero, List.getD_cons_succ, List.map_cons, List.map_nil, Int.toNat_natCast]
    rw [hk]
    simp only
    rw [hf']
    simp only
    rw [hk']
    simp only
    rw [hw']
    simp only
    have l1 : (k'.map fun k => k.getD 0).shape.length - 3 = (X2 ++ (Y2 ++ Z2)).length := by
      rw [hkm, List.length_append]; exact Nat.add_sub_cancel _ 3
    have l2 : (flux'.map fun k => k.getD 0).shape.length - 4 = (X ++ (Y ++ Z)).length := by
      rw [hfm, List.length_append]; exact Nat.add_sub_cancel _ 4
    rw [l1, l2, ← hkr, ← hfr]
    unfold anglesFromUnflattened
    have hk'l : (kr.map some).shape.length = X.length + Y.length + Z.length + 3 := by
      simp only [NDArray.map]; rw [hkr1]; simp; omega
    have hw'l : w'.shape.length = X.length + Y.length + Z.length := by rw [hw's]; simp; omega
    rw [if_neg (by rw [hk'l, hw'l]; push_cast; omega)]
    simp only [bind, Except.bind]
    rw [hp1]
    simp only
    rw [← haz, hq1]
    simp only
    rw [← hsel', hm1]
  · simp only [NDArray.map]
    rw [show [masked.shape.length - 4, masked.shape.length - 3, masked.shape.length - 2] =
      [(TX ++ (TY ++ TZ)).length, (TX ++ (TY ++ TZ)).length + 1 + ([] : List ℕ).length, masked.shape.length - 2] by
        rw [hml]; simp, s1]
    simp
  · simp only [NDArray.map]
    rw [show [masked.shape.length - 4, masked.shape.length - 3, masked.shape.length - 2] =
      [(TX ++ (TY ++ TZ)).length, (TX ++ (TY ++ TZ)).length + 1 + ([] : List ℕ).length, masked.shape.length - 2] by
        rw [hml]; simp]
    have hbl := validIndex_length (validIndex_append hx (validIndex_append hy hz))
    have s3 := s2 (x ++ (y ++ z)) [] [] σ hbl rfl rfl
    simp only [List.nil_append] at s3
    rw [show x ++ (y ++ (z ++ [σ])) = x ++ (y ++ z) ++ [σ] by simp, s3]
    unfold fluxIntegral
    rw [Finset.sum_range, ← hR, ← hC]
    congr 1
    refine Finset.sum_congr rfl fun r _ => ?_
    rw [Finset.sum_range]
    refine Finset.sum_congr rfl fun c _ => ?_
    rw [Finset.sum_range]
    refine Finset.sum_congr rfl fun pol _ => ?_
    exact hmg x y z hx hy hz r c pol σ r.2 c.2 pol.2 hσ

end Fmmax
