import Verif.Props.Energy

/-! Property theorems C42 and C43, continued: incidence from both sides. -/

set_option linter.unusedSectionVars false

namespace Fmmax

open Spec Matrix

variable {ι : Type} [Fintype ι] [DecidableEq ι] {β : Type}

theorem netFlux_neg (e h : Matrix (ι ⊕ ι) β ℂ) (c : β) : netFlux (-e) h c = -netFlux e h c := by
  unfold netFlux
  rw [← Finset.sum_neg_distrib]
  refine Finset.sum_congr rfl fun i _ => ?_
  simp

/-- The flux at the end of a uniform lossless layer into which propagating backward amplitudes enter. -/
theorem end_flux {wavelength : ℝ} {inPlane : ℝ × ℝ} {lv : LatticeVectors} {ε : ℂ} {G : ι → ℤ × ℤ} (hε : ε.im = 0)
    {s : LayerState ι β} (h0 : eigensolveUniformIsotropic wavelength inPlane lv ε G = .ok s.layer)
    (hb : ∀ i c, (s.layer.eigenvalues i).im ≠ 0 → s.b i c = 0) (c : β) :
    stateFlux s c s.thickness =
      netFlux (electricModes s.layer * propagateAmplitude s.a (fun _ => s.thickness) s.layer)
        (s.layer.eigenvectors * propagateAmplitude s.a (fun _ => s.thickness) s.layer) c -
      netFlux (electricModes s.layer * s.b) (s.layer.eigenvectors * s.b) c := by
  obtain ⟨k, w, -, -, -, hr⟩ := eigensolveUniformIsotropic_ok_iff.1 h0
  have hφ : s.layer.eigenvectors = 1 := by rw [hr]
  have hp : propagator s.layer 0 = 1 := by
    unfold propagator
    simp
  unfold stateFlux electricAt magneticAt
  rw [sub_self, hp, Matrix.one_mul, ← propagateAmplitude_const, hφ, Matrix.one_mul, Matrix.one_mul, Matrix.one_mul]
  have := netFlux_split (uniform_electricModes_hermitian h0 hε hb) (propagateAmplitude s.a (fun _ => s.thickness) s.layer) c
  rw [add_comm, ← neg_sub (propagateAmplitude s.a (fun _ => s.thickness) s.layer) s.b, Matrix.mul_neg, netFlux_neg] at this
  linarith

/-- A state of a stack for given incident amplitudes, with its first and last layer, and the outgoing amplitudes of the
scattering matrix. -/
theorem two_sided_state {lam : ℝ} {layers : List (LayerSolveResult ι)} {ds : List ℝ} {l0 lN : LayerSolveResult ι} {d0 dN : ℝ}
    {S : ScatteringMatrix ι} (hr : Regular lam (layers.zip ds)) (h0 : (layers.zip ds).head? = some (l0, d0))
    (hN : (layers.zip ds).getLast? = some (lN, dN)) (hS : stackSMatrix layers ds = .ok S) (a0 bN : Matrix (ι ⊕ ι) β ℂ) :
    ∃ st first last, geometry st = layers.zip ds ∧ Consistent st ∧ st.head? = some first ∧ st.getLast? = some last ∧
      first.layer = l0 ∧ first.thickness = d0 ∧ first.a = a0 ∧ first.b = S.s21 * a0 + S.s22 * bN ∧
      last.layer = lN ∧ last.thickness = dN ∧ last.b = bN ∧ last.a = S.s11 * a0 + S.s12 * bN := by
  have hspec := stackSMatrix_spec hr hS
  obtain ⟨st, first, last, hg, hc, hf, hl, ha, hb⟩ := hspec.complete a0 bN
  obtain ⟨e1, e2⟩ := hspec.sound st first last hg hc hf hl
  have g1 : (geometry st).head? = some (first.layer, first.thickness) := by
    rw [geometry, List.head?_map, hf]; rfl
  have g2 : (geometry st).getLast? = some (last.layer, last.thickness) := by
    rw [geometry, List.getLast?_map, hl]; rfl
  rw [hg, h0] at g1
  rw [hg, hN] at g2
  simp only [Option.some.injEq, Prod.mk.injEq] at g1 g2
  rw [ha, hb] at e1 e2
  exact ⟨st, first, last, hg, hc, hf, hl, g1.1.symm, g1.2.symm, ha, e2, g2.1.symm, g2.2.symm, hb, e1⟩

/-- **C42** Power unitarity: in a lossless stack between two uniform layers the total outgoing power equals the total incident
power, for any propagating amplitudes incident from both sides at once. -/
theorem C42_two_sided {lam : ℝ} {layers : List (LayerSolveResult ι)} {ds : List ℝ} {l0 lN : LayerSolveResult ι} {d0 dN : ℝ}
    {S : ScatteringMatrix ι} (hr : Regular lam (layers.zip ds)) (hL : ∀ l ∈ layers, LosslessLayer l)
    (h0 : (layers.zip ds).head? = some (l0, d0)) (hN : (layers.zip ds).getLast? = some (lN, dN))
    (hS : stackSMatrix layers ds = .ok S)
    {w0 wN : ℝ} {k0 kN : ℝ × ℝ} {v0 vN : LatticeVectors} {ε0 εN : ℂ} {G0 GN : ι → ℤ × ℤ} (hε0 : ε0.im = 0) (hεN : εN.im = 0)
    (u0 : eigensolveUniformIsotropic w0 k0 v0 ε0 G0 = .ok l0) (uN : eigensolveUniformIsotropic wN kN vN εN GN = .ok lN)
    (a0 bN : Matrix (ι ⊕ ι) β ℂ) (ha : ∀ i c, (l0.eigenvalues i).im ≠ 0 → a0 i c = 0)
    (hb : ∀ i c, (lN.eigenvalues i).im ≠ 0 → bN i c = 0) :
    ∃ I0 IN O0 ON, forwardPower l0 a0 = .ok I0 ∧ forwardPower lN bN = .ok IN ∧
      forwardPower l0 (propagateAmplitude (S.s21 * a0 + S.s22 * bN) (fun _ => d0) l0) = .ok O0 ∧
      forwardPower lN (propagateAmplitude (S.s11 * a0 + S.s12 * bN) (fun _ => dN) lN) = .ok ON ∧
      ∀ c, O0 c + ON c = I0 c + IN c := by
  obtain ⟨st, first, last, hg, hc, hf, hl, rfl, rfl, rfl, fb, rfl, rfl, rfl, la⟩ := two_sided_state hr h0 hN hS a0 bN
  have hst : ∀ s ∈ st, s.layer ∈ layers ∧ ∀ i, s.layer.eigenvalues i ≠ 0 := by
    intro s hs
    have hm : (s.layer, s.thickness) ∈ layers.zip ds := by
      rw [← hg]
      exact List.mem_map_of_mem hs
    exact ⟨(List.of_mem_zip hm).1, (hr _ hm).2⟩
  have m1 : first ∈ st := List.mem_of_head? hf
  have m2 : last ∈ st := List.mem_of_getLast? hl
  obtain ⟨E1, hE1, -⟩ := hL _ (hst _ m1).1
  obtain ⟨E2, hE2, -⟩ := hL _ (hst _ m2).1
  rw [← fb, ← la]
  refine ⟨_, _, _, _, forwardPower_eq hE1.wellPosed (hst _ m1).2 _, forwardPower_eq hE2.wellPosed (hst _ m2).2 _,
    forwardPower_eq hE1.wellPosed (hst _ m1).2 _, forwardPower_eq hE2.wellPosed (hst _ m2).2 _, fun c => ?_⟩
  obtain ⟨J, hJ⟩ := stack_flux_const c st hc fun s hs => hL _ (hst s hs).1
  have j1 := hJ _ m1 (hst _ m1).2 0
  have j2 := hJ _ m2 (hst _ m2).2 last.thickness
  rw [boundary_flux hε0 u0 ha] at j1
  rw [end_flux hεN uN hb] at j2
  linarith

/-- **C43** Without gain the total outgoing power does not exceed the total incident power, for any propagating amplitudes
incident from both sides at once. -/
theorem C43_two_sided {lam : ℝ} {layers : List (LayerSolveResult ι)} {ds : List ℝ} {l0 lN : LayerSolveResult ι} {d0 dN : ℝ}
    {S : ScatteringMatrix ι} (hr : Regular lam (layers.zip ds)) (hL : ∀ l ∈ layers, PassiveLayer l) (hd : ∀ d ∈ ds, 0 ≤ d)
    (h0 : (layers.zip ds).head? = some (l0, d0)) (hN : (layers.zip ds).getLast? = some (lN, dN))
    (hS : stackSMatrix layers ds = .ok S)
    {w0 wN : ℝ} {k0 kN : ℝ × ℝ} {v0 vN : LatticeVectors} {ε0 εN : ℂ} {G0 GN : ι → ℤ × ℤ} (hε0 : ε0.im = 0) (hεN : εN.im = 0)
    (u0 : eigensolveUniformIsotropic w0 k0 v0 ε0 G0 = .ok l0) (uN : eigensolveUniformIsotropic wN kN vN εN GN = .ok lN)
    (a0 bN : Matrix (ι ⊕ ι) β ℂ) (ha : ∀ i c, (l0.eigenvalues i).im ≠ 0 → a0 i c = 0)
    (hb : ∀ i c, (lN.eigenvalues i).im ≠ 0 → bN i c = 0) :
    ∃ I0 IN O0 ON, forwardPower l0 a0 = .ok I0 ∧ forwardPower lN bN = .ok IN ∧
      forwardPower l0 (propagateAmplitude (S.s21 * a0 + S.s22 * bN) (fun _ => d0) l0) = .ok O0 ∧
      forwardPower lN (propagateAmplitude (S.s11 * a0 + S.s12 * bN) (fun _ => dN) lN) = .ok ON ∧
      ∀ c, O0 c + ON c ≤ I0 c + IN c := by
  obtain ⟨st, first, last, hg, hc, hf, hl, rfl, rfl, rfl, fb, rfl, rfl, rfl, la⟩ := two_sided_state hr h0 hN hS a0 bN
  have hst : ∀ s ∈ st, s.layer ∈ layers ∧ s.thickness ∈ ds ∧ ∀ i, s.layer.eigenvalues i ≠ 0 := by
    intro s hs
    have hm : (s.layer, s.thickness) ∈ layers.zip ds := by
      rw [← hg]
      exact List.mem_map_of_mem hs
    exact ⟨(List.of_mem_zip hm).1, (List.of_mem_zip hm).2, (hr _ hm).2⟩
  have m1 : first ∈ st := List.mem_of_head? hf
  have m2 : last ∈ st := List.mem_of_getLast? hl
  obtain ⟨-, E1, hE1, -⟩ := hL _ (hst _ m1).1
  obtain ⟨-, E2, hE2, -⟩ := hL _ (hst _ m2).1
  rw [← fb, ← la]
  refine ⟨_, _, _, _, forwardPower_eq hE1.wellPosed (hst _ m1).2.2 _, forwardPower_eq hE2.wellPosed (hst _ m2).2.2 _,
    forwardPower_eq hE1.wellPosed (hst _ m1).2.2 _, forwardPower_eq hE2.wellPosed (hst _ m2).2.2 _, fun c => ?_⟩
  have hp := stack_flux_antitone c hc (fun s hs => hL _ (hst s hs).1) (fun s hs => hd _ (hst s hs).2.1)
  have hle : stateFlux last c last.thickness ≤ stateFlux first c 0 := by
    obtain ⟨s, st', rfl⟩ : ∃ s st', st = s :: st' := by
      cases st with
      | nil => simp at hf
      | cons s st' => exact ⟨s, st', rfl⟩
    simp only [List.head?_cons, Option.some.injEq] at hf
    subst hf
    rcases List.mem_cons.1 m2 with rfl | m3
    · exact stateFlux_antitone (hL _ (hst _ m1).1) (hst _ m1).2.2 c (hd _ (hst _ m1).2.1)
    · exact ((List.pairwise_cons.1 hp).1 last m3).2 0 last.thickness (hd _ (hst _ m1).2.1) (hd _ (hst _ m2).2.1)
  rw [boundary_flux hε0 u0 ha, end_flux hεN uN hb] at hle
  linarith

example (a0 bN : Matrix (Fin 1 ⊕ Fin 1) (Fin 2) ℂ) :
    ∃ S I0 IN O0 ON, stackSMatrix [Examples.exLayer 1, Examples.exLayer 2, Examples.exLayer 1] [Real.pi, Real.pi, Real.pi] = .ok S ∧
      forwardPower (Examples.exLayer 1) a0 = .ok I0 ∧ forwardPower (Examples.exLayer 1) bN = .ok IN ∧
      forwardPower (Examples.exLayer 1)
        (propagateAmplitude (S.s21 * a0 + S.s22 * bN) (fun _ => Real.pi) (Examples.exLayer 1)) = .ok O0 ∧
      forwardPower (Examples.exLayer 1)
        (propagateAmplitude (S.s11 * a0 + S.s12 * bN) (fun _ => Real.pi) (Examples.exLayer 1)) = .ok ON ∧
      ∀ c, O0 c + ON c = I0 c + IN c := by
  have e1 := exLayer_eigensolve one_pos
  simp only [Complex.ofReal_one] at e1
  have hreg : Regular (2 * Real.pi) ([Examples.exLayer 1, Examples.exLayer 2, Examples.exLayer 1].zip
      [Real.pi, Real.pi, Real.pi]) := Examples.exRegular [1, 2, 1] (by simp) [Real.pi, Real.pi, Real.pi]
  obtain ⟨I0, IN, O0, ON, h⟩ := C42_two_sided hreg exLayers_lossless rfl rfl Examples.exStack3 (by simp) (by simp) e1 e1 a0 bN
    (by intro i c hi; simp [Examples.exLayer] at hi) (by intro i c hi; simp [Examples.exLayer] at hi)
  exact ⟨_, I0, IN, O0, ON, Examples.exStack3, h⟩

end Fmmax
