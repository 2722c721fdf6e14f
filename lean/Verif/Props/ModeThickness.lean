import Verif.Props.BatchThickness

/-! Property theorems C109, continued: arrays of thicknesses whose last axis has the length of the axis of modes. -/

namespace Fmmax

open Spec

variable {n r : ℕ} {t : List ℕ}

/-- The phases for an array of thicknesses of shape `(2 * num_terms,)`. -/
theorem phaseSweep_modes {q : Batch (Fin n ⊕ Fin n → ℂ)} {d : NDArray ℝ} (hq : BroadcastsTo q.shape t) (hd : d.shape = [2 * n]) :
    ∃ f, phaseSweep q d = .ok f ∧ BroadcastsTo f.shape t ∧ ∀ i v, i.length = t.length → q.elementAt i = .ok v →
      f.elementAt i = .ok fun j => Complex.exp (Complex.I * v j * (d.get [modePosition j] : ℂ)) := by
  have h1 : ¬2 * n = 1 := by omega
  obtain ⟨f, ef, rf⟩ := Batch.zip_to (fun (q : Fin n ⊕ Fin n → ℂ) (d : Fin n ⊕ Fin n → ℝ) =>
    .ok fun j => Complex.exp (Complex.I * q j * (d j : ℂ))) hq
    (b := { shape := [], get := fun b => .ok fun j => d.get (b ++ [modePosition j]) }) (.nil _)
  refine ⟨f, ?_, rf.broadcasts, fun i v hi hv => ?_⟩
  · unfold phaseSweep modeThickness
    simp only [hd, List.getLastD_cons, List.getLastD_nil, if_neg h1, if_true, List.dropLast_singleton, reduceCtorEq, if_false]
    exact ef
  · rw [rf.element i hi, hv]
    simp only [NDArray.elementAt, broadcastIndex, List.zip_nil_left, List.map_nil, List.nil_append]
    rfl

/-- **C109** An array of thicknesses whose last axis has the length of the axis of modes (twice the number of terms) is accepted, but it is no batch of
thicknesses: there is no new batch axis, and every mode propagates through a layer with a thickness of its own. -/
theorem C109_finding_mode_axis {s : SweepScatteringMatrix n} (h : SweepFits t r s) (hs : s.endThickness.shape = []) {d : NDArray ℝ} (hd : d.shape = [2 * n]) :
    ∃ s', setEndLayerThicknessSweep s d = .ok s' ∧ BroadcastsTo s'.s12.shape t ∧ BroadcastsTo s'.s22.shape t ∧
      ∀ i x, ValidIndex t i → s.elementAt i = .ok x →
        s'.s11.elementAt i = .ok x.s11 ∧ s'.s21.elementAt i = .ok x.s21 ∧
        (s'.s12.elementAt i = .ok (Matrix.of fun a j => x.s12 a j *
          Complex.exp (Complex.I * x.endLayer.eigenvalues j * (Sum.elim (fun k : Fin n => d.get [(k : ℕ)]) (fun k : Fin n => d.get [n + (k : ℕ)]) j - x.endThickness)))) ∧
        (s'.s22.elementAt i = .ok (Matrix.of fun a j => x.s22 a j *
          Complex.exp (Complex.I * x.endLayer.eigenvalues j * (Sum.elim (fun k : Fin n => d.get [(k : ℕ)]) (fun k : Fin n => d.get [n + (k : ℕ)]) j - x.endThickness)))) := by
  have h1 : ¬2 * n = 1 := by omega
  obtain ⟨lat, hl⟩ := h.last
  have ec : d.zipWith (fun a b => a - b) s.endThickness =
      .ok { shape := [2 * n], get := fun idx => d.get (broadcastIndex [2 * n] idx) - s.endThickness.get (broadcastIndex [] idx) } := by
    unfold NDArray.zipWith
    rw [hd, hs]
    rfl
  obtain ⟨fd, efd, tfd, hfd⟩ := phaseSweep_modes (t := t) hl.eigenvalues.broadcasts
    (d := { shape := [2 * n], get := fun idx => d.get (broadcastIndex [2 * n] idx) - s.endThickness.get (broadcastIndex [] idx) }) rfl
  obtain ⟨X, eX, rX⟩ := Batch.zip_to (fun (x : ModeMatrix (Fin n)) v => .ok (Fmmax.colScale x v)) h.s12 tfd
  obtain ⟨Y, eY, rY⟩ := Batch.zip_to (fun (x : ModeMatrix (Fin n)) v => .ok (Fmmax.colScale x v)) h.s22 tfd
  refine ⟨{ s with s12 := X, s22 := Y, endThickness := d }, ?_, rX.broadcasts, rY.broadcasts, fun i x hi hx => ?_⟩
  · unfold setEndLayerThicknessSweep
    simp only [bind_eq_ok, ok_inj]
    exact ⟨_, ec, fd, efd, X, eX, Y, eY, rfl⟩
  · have hil := validIndex_length hi
    obtain ⟨x1, x2, x3, x4, x5, x6, x7, x8⟩ := SweepScatteringMatrix.elementAt_ok.1 hx
    have ea := BatchLayer.elementAt_ok x6
    have e8 : s.endThickness.get [] = x.endThickness := by
      rw [← x8]
      unfold thicknessAt NDArray.elementAt
      rw [hs]
      rfl
    have key : ∀ A : ModeMatrix (Fin n), colScale A (fun j => Complex.exp (Complex.I * x.endLayer.eigenvalues j *
        ((d.get (broadcastIndex [2 * n] [modePosition j]) - s.endThickness.get (broadcastIndex [] [modePosition j]) : ℝ) : ℂ))) =
        Matrix.of fun a j => A a j *
          Complex.exp (Complex.I * x.endLayer.eigenvalues j * (Sum.elim (fun k : Fin n => d.get [(k : ℕ)]) (fun k : Fin n => d.get [n + (k : ℕ)]) j - x.endThickness)) := by
      intro A
      ext a j
      simp only [colScale, Matrix.of_apply]
      have e : broadcastIndex [] [modePosition j] = [] := rfl
      have e' : broadcastIndex [2 * n] [modePosition j] = [modePosition j] := by simp [broadcastIndex, h1]
      rw [e, e', e8]
      rcases j with j | j <;> simp [modePosition]
    refine ⟨x1, x3, ?_, ?_⟩
    · show X.elementAt i = _
      rw [rX.element i hil, hfd i _ hil ea.eigenvalues, x2, ← key]
      rfl
    · show Y.elementAt i = _
      rw [rY.element i hil, hfd i _ hil ea.eigenvalues, x4, ← key]
      rfl

section

variable (eig : Matrix (Fin 1 ⊕ Fin 1) (Fin 1 ⊕ Fin 1) ℂ → (Fin 1 ⊕ Fin 1 → ℂ) × Matrix (Fin 1 ⊕ Fin 1) (Fin 1 ⊕ Fin 1) ℂ)

/-- The hypotheses hold for a stack with one term and the array of thicknesses `[5, 7]`: the two modes (the two polarisations) see different thicknesses. -/
example : ∃ s s' : SweepScatteringMatrix 1, s.endThickness.shape = [] ∧
    setEndLayerThicknessSweep s { shape := [2], get := fun i => if i = [0] then 5 else 7 } = .ok s' ∧ BroadcastsTo s'.s22.shape [4, 3, 2] := by
  obtain ⟨layers, -, hl, hf⟩ := example_sweep_layers eig
  have hlen : layers.length = [exampleThickness 1, exampleThicknessSweep, exampleThickness 3, exampleThickness 1].length := by
    rw [hl]; rfl
  have hne : layers ≠ [] := by rintro rfl; simp at hl
  obtain ⟨s, -, h2, -⟩ := C109_stack (t := [4, 3, 2]) (r := 2) hne hlen (fun L hL => (hf L hL).1.1) example_thicknesses
  obtain ⟨⟨⟨lat, hL⟩, -⟩, -⟩ := hf (layers[1]'(by omega)) (List.getElem_mem _)
  obtain ⟨s1, -, f1, -, -, -, en, -⟩ := appendLayerSweep_ok h2 hL (d' := exampleThickness 2) (Or.inl rfl)
  obtain ⟨s', e, -, hb, -⟩ := C109_finding_mode_axis f1 (by rw [en]; rfl) (d := { shape := [2], get := fun i => if i = [0] then 5 else 7 }) rfl
  exact ⟨s1, s', by rw [en]; rfl, e, hb⟩

end

end Fmmax
