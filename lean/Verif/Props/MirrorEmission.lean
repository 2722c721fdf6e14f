import Verif.Props.Mirror
import Verif.Props.Emission

/-! Property theorems C112, continued: sources inside stacks turned upside down.

`Regular` (layers at one wavelength without vanishing eigenvalues) is from `Verif/Spec/SMatrix.lean`. -/

set_option linter.unusedSectionVars false

namespace Fmmax

open Spec Matrix

variable {ι : Type} [Fintype ι] [DecidableEq ι] {β κ : Type}

theorem reversed_eq {lam : ℝ} {layers : List (LayerSolveResult ι)} {ds : List ℝ} {S R : ScatteringMatrix ι}
    (hr : ∀ l ∈ layers, l.wavelength = lam ∧ ∀ i, l.eigenvalues i ≠ 0) (hS : stackSMatrix layers ds = .ok S)
    (hR : stackSMatrix layers.reverse ds.reverse = .ok R) :
    R = S.reverse ∧ IsSMatrix S (layers.zip ds) ∧ layers.length = ds.length := by
  have hreg : Regular lam (layers.zip ds) := fun p hp => hr _ (List.of_mem_zip hp).1
  obtain ⟨ss, hss, -⟩ := stackSMatrix_eq_ok hS
  obtain ⟨hlen, -⟩ := stackSMatrices_length hss
  have h1 := isSMatrix_reverse (stackSMatrix_spec hreg hS)
  have h2 := stackSMatrix_spec (by rw [zip_reverse hlen]; exact regular_reverse hreg) hR
  rw [zip_reverse hlen] at h2
  exact ⟨h2.eq h1, stackSMatrix_spec hreg hS, hlen⟩

/-- The equations for the amplitudes next to the source, seen from the other side. -/
theorem emission_flip {P Q P' Q' : ModeMatrix ι} {T B : Matrix (ι ⊕ ι) β ℂ} {x y : Matrix (ι ⊕ ι) β ℂ} :
    Matrix.fromBlocks P Q P' (-Q') * Matrix.fromRows x y = Matrix.fromRows T B ↔
      Matrix.fromBlocks Q P Q' (-P') * Matrix.fromRows y x = Matrix.fromRows T (-B) := by
  rw [Matrix.fromBlocks_mul_fromRows, Matrix.fromBlocks_mul_fromRows, Matrix.fromRows_ext_iff, Matrix.fromRows_ext_iff]
  refine and_congr (by rw [add_comm]) ?_
  rw [← neg_inj, neg_add]
  simp only [Matrix.neg_mul, neg_neg]
  rw [add_comm]

theorem emission_flip_isUnit {P Q P' Q' : ModeMatrix ι} (h : IsUnit (Matrix.fromBlocks P Q P' (-Q')).det) :
    IsUnit (Matrix.fromBlocks Q P Q' (-P')).det := by
  rw [isUnit_iff_ne_zero] at h ⊢
  intro h0
  obtain ⟨v, hv, hv0⟩ := Matrix.exists_mulVec_eq_zero_iff.2 h0
  refine h (Matrix.exists_mulVec_eq_zero_iff.1 ⟨Sum.elim (fun i => v (.inr i)) (fun i => v (.inl i)), ?_, ?_⟩)
  · intro hz
    refine hv (funext fun i => ?_)
    rcases i with i | i
    · exact congrFun hz (.inr i)
    · exact congrFun hz (.inl i)
  · have hf : ∀ u : (ι ⊕ ι) ⊕ (ι ⊕ ι) → ℂ, u = Sum.elim (fun i => u (.inl i)) (fun i => u (.inr i)) := fun u => by
      funext i; rcases i with i | i <;> rfl
    rw [hf v, Matrix.fromBlocks_mulVec] at hv0
    rw [Matrix.fromBlocks_mulVec]
    funext i
    rcases i with i | i
    · have := congrFun hv0 (.inl i)
      simp only [Function.comp_def, Sum.elim_inl, Sum.elim_inr, Pi.add_apply, Pi.zero_apply] at this ⊢
      rw [add_comm]; exact this
    · have := congrFun hv0 (.inr i)
      simp only [Function.comp_def, Sum.elim_inl, Sum.elim_inr, Pi.add_apply, Pi.zero_apply, Matrix.neg_mulVec, Pi.neg_apply] at this ⊢
      linear_combination -this

/-- A slab of one absorbing medium in another one, with a source of any currents inside the slab. -/
theorem slabSource (jx jy jz : Matrix (Fin 2) (Fin 3) ℂ) : ∃ (u v : LayerSolveResult (Fin 2)) (Sb Sa Sb' Sa' : ScatteringMatrix (Fin 2))
    (ib ia : List (ScatteringMatrix (Fin 2) × ScatteringMatrix (Fin 2))) (R : SourceAmplitudes (Fin 2) (Fin 3)),
    (∀ l ∈ [v, u] ++ [u, v, u], l.wavelength = 2 * Real.pi ∧ ∀ i, l.eigenvalues i ≠ 0) ∧
    stackSMatrix [v, u] [1, 2] = .ok Sb ∧ stackSMatrix [u, v, u] [1 / 2, 3, 1] = .ok Sa ∧
    stackSMatrix [v, u].reverse [(1 : ℝ), 2].reverse = .ok Sb' ∧ stackSMatrix [u, v, u].reverse [(1 / 2 : ℝ), 3, 1].reverse = .ok Sa' ∧
    stackSMatricesInterior [v, u] [1, 2] = .ok ib ∧ stackSMatricesInterior [u, v, u] [1 / 2, 3, 1] = .ok ia ∧
    [v, u].getLast? = [u, v, u].head? ∧ amplitudesForSource jx jy jz Sb Sa = .ok R := by
  obtain ⟨u, v, h1, h2, h3, h4⟩ := EmissionExample.halfSpaces
  obtain ⟨Sb, Sa, ib, ia, k1, k2, k3, k4, k5⟩ := C97_absorbing (before := [v, u]) (after := [u, v, u]) (db := [1, 2]) (da := [1 / 2, 3, 1])
    (lam := 2 * Real.pi) (by simp) (by simp) rfl rfl (by simp [h3, h4]) (by simp [h1, h2]) (by norm_num)
  obtain ⟨R, -, -, -, hR, -⟩ := k5 jx jy jz [1, 1, 1, 1, 1] (fun _ : Unit => (0, 0)) rfl
  obtain ⟨Sb', -, m1, -⟩ := C81_absorbing_stack (layers := [u, v]) (ds := [2, 1]) (lam := 2 * Real.pi) (by simp) rfl (by simp [h3, h4])
    (by simp [h1, h2]) (by norm_num)
  obtain ⟨Sa', -, m2, -⟩ := C81_absorbing_stack (layers := [u, v, u]) (ds := [1, 3, 1 / 2]) (lam := 2 * Real.pi) (by simp) rfl (by simp [h3, h4])
    (by simp [h1, h2]) (by norm_num)
  exact ⟨u, v, Sb, Sa, Sb', Sa', ib, ia, R, by simp [h3, h4, h1.modes.2, h2.modes.2], k1, k2, m1, m2, k3, k4, rfl, hR⟩

/-- **C112** A source inside the reversed stack, with the in-plane currents reversed and the vertical one kept, emits what the
source inside the stack emits, with the two sides and the two directions exchanged.  (Vertical currents enter through the layer before the
source, so that with vertical currents the layers on the two sides of the source must agree.) -/
theorem C112_emission {lam : ℝ} {before after : List (LayerSolveResult ι)} {db da : List ℝ} {Sb Sa Sb' Sa' : ScatteringMatrix ι}
    (hr : ∀ l ∈ before ++ after, l.wavelength = lam ∧ ∀ i, l.eigenvalues i ≠ 0)
    (hSb : stackSMatrix before db = .ok Sb) (hSa : stackSMatrix after da = .ok Sa)
    (hSb' : stackSMatrix before.reverse db.reverse = .ok Sb') (hSa' : stackSMatrix after.reverse da.reverse = .ok Sa')
    {jx jy jz : Matrix ι β ℂ} (hz : jz = 0 ∨ before.getLast? = after.head?) {R : SourceAmplitudes ι β}
    (h : amplitudesForSource jx jy jz Sb Sa = .ok R) :
    amplitudesForSource (-jx) (-jy) jz Sa' Sb' = .ok
      { backward0End := R.forwardNStart, forwardBeforeStart := R.backwardAfterEnd, backwardBeforeEnd := R.forwardAfterStart,
        forwardAfterStart := R.backwardBeforeEnd, backwardAfterEnd := R.forwardBeforeStart, forwardNStart := R.backward0End } := by
  obtain ⟨rfl, kb, lb⟩ := reversed_eq (fun l hl => hr l (List.mem_append_left _ hl)) hSb hSb'
  obtain ⟨rfl, ka, la⟩ := reversed_eq (fun l hl => hr l (List.mem_append_right _ hl)) hSa hSa'
  have hlayer : jz = 0 ∨ Sb.endLayer = Sa.startLayer := by
    refine hz.imp_right fun e => ?_
    have e1 : before.getLast? = some Sb.endLayer := by
      have := congrArg (Option.map Prod.fst) kb.finish
      rwa [← List.getLast?_map, List.map_fst_zip lb.le] at this
    have e2 : after.head? = some Sa.startLayer := by
      have := congrArg (Option.map Prod.fst) ka.start
      rwa [← List.head?_map, List.map_fst_zip la.le] at this
    rw [e1, e2] at e
    exact Option.some.inj e
  obtain ⟨X, M, hX, hM, hu, hab, h1, h2, h3, h4⟩ := amplitudesForSource_eq_ok.1 h
  obtain ⟨hb, ha, rfl⟩ := emissionMatrix_eq_ok.1 hM
  obtain ⟨-, rfl⟩ := polarizationTerms_eq_ok.1 hX
  rw [Matrix.neg_mul] at hab hu
  have hab' := emission_flip.1 hab
  have hu' := emission_flip_isUnit hu
  refine amplitudesForSource_eq_ok.2 ⟨_, _, polarizationTerms_eq_ok.2 ⟨ha.1.2.1, rfl⟩, emissionMatrix_eq_ok.2 ⟨ha, hb, rfl⟩, ?_, ?_, h4, h3, h2, h1⟩
  · rw [Matrix.neg_mul]; exact hu'
  · rw [Matrix.neg_mul]
    refine hab'.trans ?_
    congr 1
    · rcases hlayer with rfl | e
      · simp
      · show _ = Matrix.fromRows (-(Matrix.of fun i c => ((orderWavevector Sa.startLayer i).2 : ℂ) * (Sa.startLayer.inverseZPermittivityMatrix * jz) i c)) (Matrix.of fun i c => ((orderWavevector Sa.startLayer i).1 : ℂ) * (Sa.startLayer.inverseZPermittivityMatrix * jz) i c)
        rw [e]
    · ext (i | i) c <;> simp

/-- What the source in the slab emits into the two half spaces is exchanged. -/
example (jx jy jz : Matrix (Fin 2) (Fin 3) ℂ) : ∃ (Sb Sa Sb' Sa' : ScatteringMatrix (Fin 2)) (R R' : SourceAmplitudes (Fin 2) (Fin 3)),
    amplitudesForSource jx jy jz Sb Sa = .ok R ∧ amplitudesForSource (-jx) (-jy) jz Sa' Sb' = .ok R' ∧
    R'.backward0End = R.forwardNStart ∧ R'.forwardNStart = R.backward0End := by
  obtain ⟨u, v, Sb, Sa, Sb', Sa', ib, ia, R, hr, h1, h2, h3, h4, -, -, hz, hR⟩ := slabSource jx jy jz
  exact ⟨Sb, Sa, Sb', Sa', R, _, hR, C112_emission hr h1 h2 h3 h4 (.inr hz) hR, rfl, rfl⟩

/-- **C112** The amplitudes inside the reversed stack with the source: those of the stack in reversed order, with forward and
backward exchanged. -/
theorem C112_emission_interior {lam : ℝ} {before after : List (LayerSolveResult ι)} {db da : List ℝ}
    {Sb Sa Sb' Sa' : ScatteringMatrix ι} {ib ia : List (ScatteringMatrix ι × ScatteringMatrix ι)}
    (hr : ∀ l ∈ before ++ after, l.wavelength = lam ∧ ∀ i, l.eigenvalues i ≠ 0)
    (hSb : stackSMatrix before db = .ok Sb) (hSa : stackSMatrix after da = .ok Sa)
    (hSb' : stackSMatrix before.reverse db.reverse = .ok Sb') (hSa' : stackSMatrix after.reverse da.reverse = .ok Sa')
    (hib : stackSMatricesInterior before db = .ok ib) (hia : stackSMatricesInterior after da = .ok ia)
    {jx jy jz : Matrix ι β ℂ} (hz : jz = 0 ∨ before.getLast? = after.head?) {R : SourceAmplitudes ι β}
    (h : amplitudesForSource jx jy jz Sb Sa = .ok R) :
    ∃ xs ib' ia' R', stackAmplitudesInteriorWithSource ib ia R.backwardBeforeEnd R.forwardAfterStart = .ok xs ∧
      amplitudesForSource (-jx) (-jy) jz Sa' Sb' = .ok R' ∧
      stackSMatricesInterior after.reverse da.reverse = .ok ia' ∧ stackSMatricesInterior before.reverse db.reverse = .ok ib' ∧
      stackAmplitudesInteriorWithSource ia' ib' R'.backwardBeforeEnd R'.forwardAfterStart = .ok (xs.map Prod.swap).reverse := by
  obtain ⟨ib', x, k1, k2, k3⟩ := C112_amplitudes (fun l hl => hr l (List.mem_append_left _ hl)) hib (0 : Matrix (ι ⊕ ι) β ℂ) R.backwardBeforeEnd
  obtain ⟨ia', y, m1, m2, m3⟩ := C112_amplitudes (fun l hl => hr l (List.mem_append_right _ hl)) hia R.forwardAfterStart (0 : Matrix (ι ⊕ ι) β ℂ)
  refine ⟨x ++ y, ib', ia', _, ?_, C112_emission hr hSb hSa hSb' hSa' hz h, m1, k1, ?_⟩
  · simp only [stackAmplitudesInteriorWithSource, bind_eq_ok, ok_inj]
    exact ⟨_, k2, _, m2, rfl⟩
  · simp only [stackAmplitudesInteriorWithSource, bind_eq_ok, ok_inj]
    exact ⟨_, m3, _, k3, by rw [List.map_append, List.reverse_append]⟩

/-- The amplitudes in the five layers around the source. -/
example (jx jy jz : Matrix (Fin 2) (Fin 3) ℂ) : ∃ (u v : LayerSolveResult (Fin 2)) (xs : List (Matrix (Fin 2 ⊕ Fin 2) (Fin 3) ℂ × Matrix (Fin 2 ⊕ Fin 2) (Fin 3) ℂ))
    (ib' ia' : List (ScatteringMatrix (Fin 2) × ScatteringMatrix (Fin 2))) (R' : SourceAmplitudes (Fin 2) (Fin 3)),
    stackSMatricesInterior [u, v, u].reverse [(1 / 2 : ℝ), 3, 1].reverse = .ok ia' ∧
    stackSMatricesInterior [v, u].reverse [(1 : ℝ), 2].reverse = .ok ib' ∧
    stackAmplitudesInteriorWithSource ia' ib' R'.backwardBeforeEnd R'.forwardAfterStart = .ok (xs.map Prod.swap).reverse := by
  obtain ⟨u, v, Sb, Sa, Sb', Sa', ib, ia, R, hr, h1, h2, h3, h4, h5, h6, hz, hR⟩ := slabSource jx jy jz
  obtain ⟨xs, ib', ia', R', -, -, k1, k2, k3⟩ := C112_emission_interior hr h1 h2 h3 h4 h5 h6 (.inr hz) hR
  exact ⟨u, v, xs, ib', ia', R', k1, k2, k3⟩

end Fmmax
