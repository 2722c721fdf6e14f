import Verif.Model.Thickness
import Verif.Proofs.NDArray

/-! Property theorems C91: thicknesses and distances given as arrays.

`BroadcastsTo`, `ValidIndex` are from `Verif/Spec/Shapes.lean`. -/

namespace Fmmax

open Spec

/-- **C91** One thickness for all batch elements. -/
theorem C91_scalar_thickness {B : List ℕ} {m : ℕ} {q : NDArray ℂ} (hq : q.shape = B ++ [m]) {d : NDArray ℝ} (hd : d.shape = []) :
    ∃ P, layerPhases q d = .ok P ∧ P.shape = B ++ [m] ∧
      ∀ b i, ValidIndex B b → i < m → P.get (b ++ [i]) = Complex.exp (Complex.I * q.get (b ++ [i]) * d.get []) := by
  obtain ⟨P, hP, hs, hv⟩ := zipWith_left (fun q (d : ℝ) => Complex.exp (Complex.I * q * d)) q d (by rw [hd]; exact .nil _)
  refine ⟨P, hP, hs.trans hq, fun b i hb hi => ?_⟩
  rw [hv _ (by rw [hq]; exact validIndex_append hb (.cons hi .nil)), hd]
  simp [broadcastIndex]

/-- **C91** Thicknesses of shape `(..., 1)`: the phases of every batch element are those of its own thickness. -/
theorem C91_batched_thickness {B : List ℕ} {m : ℕ} {q : NDArray ℂ} (hq : q.shape = B ++ [m]) {d : NDArray ℝ}
    (hd : d.shape = B ++ [1]) :
    ∃ P, layerPhases q d = .ok P ∧ P.shape = B ++ [m] ∧
      ∀ b i, ValidIndex B b → i < m →
        P.get (b ++ [i]) = Complex.exp (Complex.I * q.get (b ++ [i]) * d.get (b ++ [0])) := by
  obtain ⟨P, hP, hs, hv⟩ := zipWith_left (fun q (d : ℝ) => Complex.exp (Complex.I * q * d)) q d (by
    rw [hd, hq]; exact (BroadcastsTo.refl B).append (.cons (Or.inl rfl) .nil))
  refine ⟨P, hP, hs.trans hq, fun b i hb hi => ?_⟩
  rw [hv _ (by rw [hq]; exact validIndex_append hb (.cons hi .nil)), hd,
    broadcastIndex_append (by rw [validIndex_length hb]) (by simp), broadcastIndex_of_valid hb, broadcastIndex_one]

/-- **C91 (finding)** In a scattering matrix, thicknesses of shape `(..., 2 num_terms)`, in particular a batch of as many
thicknesses as there are modes, are thicknesses of the modes: every mode is propagated by a distance of its own. -/
theorem C91_finding_thickness_per_mode {B : List ℕ} {m : ℕ} {q : NDArray ℂ} (hq : q.shape = B ++ [m]) {d : NDArray ℝ}
    (hd : d.shape = [m]) :
    ∃ P, layerPhases q d = .ok P ∧ P.shape = B ++ [m] ∧
      ∀ b i, ValidIndex B b → i < m → P.get (b ++ [i]) = Complex.exp (Complex.I * q.get (b ++ [i]) * d.get [i]) := by
  obtain ⟨P, hP, hs, hv⟩ := zipWith_left (fun q (d : ℝ) => Complex.exp (Complex.I * q * d)) q d (by
    rw [hd, hq]; exact ⟨B, [m], rfl, .cons (Or.inr rfl) .nil⟩)
  refine ⟨P, hP, hs.trans hq, fun b i hb hi => ?_⟩
  rw [hv _ (by rw [hq]; exact validIndex_append hb (.cons hi .nil)), hd, broadcastIndex_lead (by simp), broadcastIndex_single hi]

/-- **C91** Distances of shape `(..., 1, 1)`: the amplitudes of every batch element are propagated by its own distance. -/
theorem C91_batched_distance {B : List ℕ} {m n : ℕ} {amp q : NDArray ℂ} (ha : amp.shape = B ++ [m, n])
    (hq : q.shape = B ++ [m]) {d : NDArray ℝ} (hd : d.shape = B ++ [1, 1]) :
    ∃ A, propagateAmplitudeBatch amp q d m = .ok A ∧ A.shape = B ++ [m, n] ∧
      ∀ b i c, ValidIndex B b → i < m → c < n → A.get (b ++ [i, c]) =
        amp.get (b ++ [i, c]) * Complex.exp (Complex.I * q.get (b ++ [i]) * d.get (b ++ [0, 0])) := by
  have hqs : q.expandLast.shape = B ++ [m, 1] := by simp [NDArray.expandLast, hq]
  obtain ⟨P, hP, hs, hv⟩ := zipWith_left (fun q (d : ℝ) => Complex.exp (Complex.I * q * d)) q.expandLast d (by
    rw [hd, hqs]; exact (BroadcastsTo.refl B).append (.cons (Or.inl rfl) (.cons (Or.inl rfl) .nil)))
  obtain ⟨A, hA, hs', hv'⟩ := zipWith_left (fun a f : ℂ => a * f) amp P (by
    rw [hs, hqs, ha]; exact (BroadcastsTo.refl B).append (.cons (Or.inr rfl) (.cons (Or.inl rfl) .nil)))
  refine ⟨A, ?_, hs'.trans ha, fun b i c hb hi hc => ?_⟩
  · unfold propagateAmplitudeBatch
    rw [if_neg (by simp [ha])]
    exact bind_eq_ok.2 ⟨P, hP, hA⟩
  · rw [hv' _ (by rw [ha]; exact validIndex_append hb (.cons hi (.cons hc .nil))), hs, hqs,
      broadcastIndex_append (by rw [validIndex_length hb]) (by simp), broadcastIndex_of_valid hb]
    have e : broadcastIndex [m, 1] [i, c] = [i, 0] := by
      simp [broadcastIndex]; omega
    rw [e, hv _ (by rw [hqs]; exact validIndex_append hb (.cons hi (.cons one_pos .nil))), hd,
      broadcastIndex_append (by rw [validIndex_length hb]) (by simp), broadcastIndex_of_valid hb]
    simp [NDArray.expandLast, broadcastIndex]

/-- **C91** One distance for all batch elements. -/
theorem C91_scalar_distance {B : List ℕ} {m n : ℕ} {amp q : NDArray ℂ} (ha : amp.shape = B ++ [m, n])
    (hq : q.shape = B ++ [m]) {d : NDArray ℝ} (hd : d.shape = []) :
    ∃ A, propagateAmplitudeBatch amp q d m = .ok A ∧ A.shape = B ++ [m, n] ∧
      ∀ b i c, ValidIndex B b → i < m → c < n → A.get (b ++ [i, c]) =
        amp.get (b ++ [i, c]) * Complex.exp (Complex.I * q.get (b ++ [i]) * d.get []) := by
  have hqs : q.expandLast.shape = B ++ [m, 1] := by simp [NDArray.expandLast, hq]
  obtain ⟨P, hP, hs, hv⟩ := zipWith_left (fun q (d : ℝ) => Complex.exp (Complex.I * q * d)) q.expandLast d (by
    rw [hd]; exact .nil _)
  obtain ⟨A, hA, hs', hv'⟩ := zipWith_left (fun a f : ℂ => a * f) amp P (by
    rw [hs, hqs, ha]; exact (BroadcastsTo.refl B).append (.cons (Or.inr rfl) (.cons (Or.inl rfl) .nil)))
  refine ⟨A, ?_, hs'.trans ha, fun b i c hb hi hc => ?_⟩
  · unfold propagateAmplitudeBatch
    rw [if_neg (by simp [ha])]
    exact bind_eq_ok.2 ⟨P, hP, hA⟩
  · rw [hv' _ (by rw [ha]; exact validIndex_append hb (.cons hi (.cons hc .nil))), hs, hqs,
      broadcastIndex_append (by rw [validIndex_length hb]) (by simp), broadcastIndex_of_valid hb]
    have e : broadcastIndex [m, 1] [i, c] = [i, 0] := by
      simp [broadcastIndex]; omega
    rw [e, hv _ (by rw [hqs]; exact validIndex_append hb (.cons hi (.cons one_pos .nil))), hd]
    simp [NDArray.expandLast, broadcastIndex]

/-- **C91** Distances of shape `(num_amplitudes,)` are distances of the amplitude columns (this is used for the fields in
three dimensions), also if they are meant as a batch of distances. -/
theorem C91_distance_per_amplitude {B : List ℕ} {m n : ℕ} {amp q : NDArray ℂ} (ha : amp.shape = B ++ [m, n])
    (hq : q.shape = B ++ [m]) {d : NDArray ℝ} (hd : d.shape = [n]) :
    ∃ A, propagateAmplitudeBatch amp q d m = .ok A ∧ A.shape = B ++ [m, n] ∧
      ∀ b i c, ValidIndex B b → i < m → c < n → A.get (b ++ [i, c]) =
        amp.get (b ++ [i, c]) * Complex.exp (Complex.I * q.get (b ++ [i]) * d.get [c]) := by
  have hqs : q.expandLast.shape = B ++ [m, 1] := by simp [NDArray.expandLast, hq]
  have hb : broadcastShapes (B ++ [m, 1]) [n] = some (B ++ [m, n]) := by
    unfold broadcastShapes
    simp only [List.reverse_append, List.reverse_cons, List.reverse_nil, List.nil_append, List.cons_append, broadcastRev]
    by_cases h : 1 = n
    · simp [← h]
    · simp [h]
  have hP : ∃ P : NDArray ℂ, q.expandLast.zipWith (fun q (d : ℝ) => Complex.exp (Complex.I * q * d)) d = .ok P ∧
      P.shape = B ++ [m, n] ∧ ∀ idx, P.get idx = Complex.exp (Complex.I *
        q.expandLast.get (broadcastIndex (B ++ [m, 1]) idx) * d.get (broadcastIndex [n] idx)) := by
    unfold NDArray.zipWith
    rw [hqs, hd, hb]
    exact ⟨_, rfl, rfl, fun _ => rfl⟩
  obtain ⟨P, hP, hs, hv⟩ := hP
  obtain ⟨A, hA, hs', hv'⟩ := zipWith_left (fun a f : ℂ => a * f) amp P (by
    rw [hs, ha]; exact .refl _)
  refine ⟨A, ?_, hs'.trans ha, fun b i c hb hi hc => ?_⟩
  · unfold propagateAmplitudeBatch
    rw [if_neg (by simp [ha])]
    exact bind_eq_ok.2 ⟨P, hP, hA⟩
  · have hval : ValidIndex (B ++ [m, n]) (b ++ [i, c]) := validIndex_append hb (.cons hi (.cons hc .nil))
    rw [hv' _ (by rwa [ha]), hs, broadcastIndex_of_valid hval, hv,
      broadcastIndex_append (by rw [validIndex_length hb]) (by simp), broadcastIndex_of_valid hb]
    have e : broadcastIndex [m, 1] [i, c] = [i, 0] := by
      simp [broadcastIndex]; omega
    have e' : broadcastIndex [n] (b ++ [i, c]) = [c] := by
      rw [show b ++ [i, c] = (b ++ [i]) ++ [c] by simp, broadcastIndex_lead (by simp), broadcastIndex_single hc]
    rw [e, e']
    simp [NDArray.expandLast]

theorem broadcastRev_length {s t u : List ℕ} (h : broadcastRev s t = some u) : u.length = max s.length t.length := by
  induction s generalizing t u with
  | nil => simp [broadcastRev] at h; simp [h]
  | cons m s ih =>
    cases t with
    | nil => simp [broadcastRev] at h; simp [← h]
    | cons k t =>
      simp only [broadcastRev] at h
      split_ifs at h <;>
      · obtain ⟨w, hw, rfl⟩ := Option.map_eq_some_iff.1 h
        simp [ih hw]

/-- **C91 (finding)** There is no shape in which a batch of thicknesses can be given to both functions: if an array of any
shape gives the phases of thickness `t b` in the scattering matrix of every batch element `b`, and propagates the amplitudes
of every batch element by `t b`, then all thicknesses are equal. -/
theorem C91_finding_no_common_shape {N m n : ℕ} (hm : 0 < m) (hn : 0 < n) (d : NDArray ℝ) (t : ℕ → ℝ)
    (hS : ∀ q : NDArray ℂ, q.shape = [N, m] → ∃ P, layerPhases q d = .ok P ∧ P.shape = [N, m] ∧
      ∀ b i, b < N → i < m → P.get [b, i] = Complex.exp (Complex.I * q.get [b, i] * t b))
    (hA : ∀ amp q : NDArray ℂ, amp.shape = [N, m, n] → q.shape = [N, m] → ∃ A, propagateAmplitudeBatch amp q d m = .ok A ∧
      A.shape = [N, m, n] ∧ ∀ b i c, b < N → i < m → c < n →
        A.get [b, i, c] = amp.get [b, i, c] * Complex.exp (Complex.I * q.get [b, i] * t b)) :
    ∀ b b', b < N → b' < N → t b = t b' := by
  set q : NDArray ℂ := { shape := [N, m], get := fun _ => -Complex.I } with hq
  set amp : NDArray ℂ := { shape := [N, m, n], get := fun _ => 1 } with hamp
  obtain ⟨P, hP, hPs, -⟩ := hS q rfl
  have hr : d.shape.length ≤ 2 := by
    unfold layerPhases NDArray.zipWith at hP
    cases hb : broadcastShapes q.shape d.shape with
    | none => rw [hb] at hP; cases hP
    | some u =>
      rw [hb] at hP
      cases hP
      simp only at hPs
      obtain ⟨w, hw, rfl⟩ := Option.map_eq_some_iff.1 hb
      have := broadcastRev_length hw
      have h2 := congrArg List.length hPs
      simp at this h2
      omega
  obtain ⟨A, hA', -, hv⟩ := hA amp q rfl rfl
  have key : ∀ b, b < N → Complex.exp (t b) = Complex.exp (d.get (broadcastIndex d.shape [0, 0])) := by
    intro b hb
    have h1 := hv b 0 0 hb hm hn
    unfold propagateAmplitudeBatch at hA'
    rw [if_neg (by simp [hamp])] at hA'
    obtain ⟨fd, hf, hA'⟩ := bind_eq_ok.1 hA'
    unfold NDArray.zipWith at hf hA'
    split at hA'
    · cases hA'
    · split at hf
      · cases hf
      · cases hf
        cases hA'
        rename_i _ w hw _
        have hw3 : w.length = 3 := by
          obtain ⟨x, hx, rfl⟩ := Option.map_eq_some_iff.1 hw
          have := broadcastRev_length hx
          simp only [List.length_reverse, NDArray.expandLast, hq, List.length_append, List.length_cons, List.length_nil] at this ⊢
          omega
        have e : broadcastIndex d.shape (broadcastIndex w [b, 0, 0]) = broadcastIndex d.shape [0, 0] := by
          match w, hw3 with
          | [w1, w2, w3], _ =>
            match d.shape, hr with
            | [], _ => simp [broadcastIndex]
            | [d1], _ => simp [broadcastIndex]
            | [d1, d2], _ => simp [broadcastIndex]
        simp only [e, hq, hamp, NDArray.expandLast] at h1
        rw [one_mul, one_mul, mul_neg, Complex.I_mul_I, neg_neg, one_mul, one_mul] at h1
        exact h1.symm
  intro b b' hb hb'
  have := (key b hb).trans (key b' hb').symm
  rw [← Complex.ofReal_exp, ← Complex.ofReal_exp] at this
  exact Real.exp_injective (by exact_mod_cast this)

/-! ### Examples -/

/-- The hypotheses are met by one thickness for all batch elements. -/
example (t : ℝ) : ∀ b b', b < 3 → b' < 3 → (fun _ : ℕ => t) b = (fun _ : ℕ => t) b' :=
  C91_finding_no_common_shape (N := 3) (m := 2) (n := 4) (by norm_num) (by norm_num) { shape := [], get := fun _ => t } _
    (fun q hq => by
      obtain ⟨P, h1, h2, h3⟩ := C91_scalar_thickness (B := [3]) (m := 2) hq (d := { shape := [], get := fun _ => t }) rfl
      exact ⟨P, h1, h2, fun b i hb hi => h3 [b] i (.cons hb .nil) hi⟩)
    (fun amp q ha hq => by
      obtain ⟨A, h1, h2, h3⟩ := C91_scalar_distance (B := [3]) (m := 2) (n := 4) ha hq
        (d := { shape := [], get := fun _ => t }) rfl
      exact ⟨A, h1, h2, fun b i c hb hi hc => h3 [b] i c (.cons hb .nil) hi hc⟩)

/-- Eigenvalues of two layers with two modes. -/
noncomputable def twoByTwo : NDArray ℂ := { shape := [2, 2], get := fun idx => (1 + ravelIndex [2, 2] idx : ℂ) }

/-- Thicknesses 1 and 5, in an array of a given shape with two elements. -/
noncomputable def twoThicknesses (shape : List ℕ) : NDArray ℝ := { shape := shape, get := fun idx => 1 + 4 * idx.sum }

example : ∃ P, layerPhases twoByTwo (twoThicknesses [2, 1]) = .ok P ∧ P.get [0, 1] = Complex.exp (Complex.I * 2 * 1) ∧
    P.get [1, 0] = Complex.exp (Complex.I * 3 * 5) := by
  obtain ⟨P, hP, -, hv⟩ := C91_batched_thickness (B := [2]) (m := 2) (q := twoByTwo) rfl (d := twoThicknesses [2, 1]) rfl
  refine ⟨P, hP, ?_, ?_⟩
  · have := hv [0] 1 (.cons (by norm_num) .nil) (by norm_num)
    simp [twoByTwo, twoThicknesses, ravelIndex] at this
    rw [this]; norm_num
  · have := hv [1] 0 (.cons (by norm_num) .nil) (by norm_num)
    simp [twoByTwo, twoThicknesses, ravelIndex] at this
    rw [this]; norm_num

example : ∃ P, layerPhases twoByTwo (twoThicknesses [2]) = .ok P ∧ P.get [0, 1] = Complex.exp (Complex.I * 2 * 5) ∧
    P.get [1, 0] = Complex.exp (Complex.I * 3 * 1) := by
  obtain ⟨P, hP, -, hv⟩ := C91_finding_thickness_per_mode (B := [2]) (m := 2) (q := twoByTwo) rfl (d := twoThicknesses [2]) rfl
  refine ⟨P, hP, ?_, ?_⟩
  · have := hv [0] 1 (.cons (by norm_num) .nil) (by norm_num)
    simp [twoByTwo, twoThicknesses, ravelIndex] at this
    rw [this]; norm_num
  · have := hv [1] 0 (.cons (by norm_num) .nil) (by norm_num)
    simp [twoByTwo, twoThicknesses, ravelIndex] at this
    rw [this]; norm_num

end Fmmax
