import Verif.Proofs.Reciprocity
import Verif.Props.Radiation

/-! Scattering matrices of stacks and of their reciprocal stacks. -/

set_option linter.unusedSectionVars false

namespace Fmmax

open Matrix Spec

variable {ι : Type} [Fintype ι] [DecidableEq ι] {β γ : Type} {c : Setup ι}
variable {eig : Matrix (ι ⊕ ι) (ι ⊕ ι) ℂ → (ι ⊕ ι → ℂ) × Matrix (ι ⊕ ι) (ι ⊕ ι) ℂ}

/-- All layers appended to a stack have nonzero propagation constants. -/
theorem scanLoop_nonzero : ∀ (ms : List (LayerSolveResult ι × ℝ)) (S S1 : ScatteringMatrix ι), scanLoop S ms = .ok S1 →
    ∀ p ∈ ms, ∀ i, p.1.eigenvalues i ≠ 0
  | [], _, _, _ => by simp
  | (l, d) :: ms, S, S1, hS => by
    simp only [scanLoop, bind_eq_ok] at hS
    obtain ⟨S2, hS2, hS⟩ := hS
    intro p hp
    rcases List.mem_cons.1 hp with rfl | hp
    · rw [appendLayer_ok_iff] at hS2
      obtain ⟨hb, -⟩ := hS2
      rw [extendSMatrix_ok_iff] at hb
      obtain ⟨i11, i12, hi, -⟩ := hb
      rw [interfaceMatrices_ok_iff] at hi
      obtain ⟨Ω, Ω', T1, T2, hΩ, hΩ', hr, -⟩ := hi
      exact hr
    · exact scanLoop_nonzero ms S2 S1 hS p hp

theorem forall₂_last {ps : List (StackLayer ι)} {rs : List (LayerSolveResult ι)} (h : List.Forall₂ (fun p r => p.solve eig c = .ok r) ps rs)
    {P : LayerSolveResult ι → Prop} (hp : ∀ p ∈ ps.getLast?, ∀ r, p.solve eig c = .ok r → P r) : ∀ x ∈ rs.getLast?, P x := by
  induction h with
  | nil => simp
  | @cons a b as bs hab habs ih =>
    intro x hx
    cases habs with
    | nil =>
      simp only [List.getLast?_singleton, Option.mem_some_iff] at hx
      subst hx
      exact hp a (by simp) _ hab
    | cons h1 h2 =>
      refine ih (fun q hq => hp q ?_) x ?_
      · rw [List.getLast?_cons_cons]; exact hq
      · rw [List.getLast?_cons_cons] at hx; exact hx

/-- Every layer of a computed stack has a complete set of modes, if the first one has no vanishing propagation constant and the last one independent modes. -/
theorem solved_complete {layers : List (StackLayer ι)} {solved : List (LayerSolveResult ι)}
    (hs : List.Forall₂ (fun p r => p.solve eig c = .ok r) layers solved) {S : ScatteringMatrix ι}
    (hS : stackSMatrix solved (layers.map StackLayer.thickness) = .ok S)
    (hfirst : ∀ p ∈ layers.head?, ∀ r, p.solve eig c = .ok r → ∀ i, r.eigenvalues i ≠ 0)
    (hlast : ∀ p ∈ layers.getLast?, ∀ r, p.solve eig c = .ok r → IsUnit r.eigenvectors.det) : ∀ r ∈ solved, CompleteModes r := by
  have hl := forall₂_last hs hlast
  cases hs with
  | nil => simp
  | @cons p r ps rs hr hrs =>
    have hlen : rs.length = (ps.map StackLayer.thickness).length := by rw [List.length_map, hrs.length_eq]
    rw [List.map_cons] at hS
    have hdrop := stackSMatrix_independent hlen hS
    have hz : (rs.zip (ps.map StackLayer.thickness)).map Prod.fst = rs := List.map_fst_zip (by omega)
    rw [stackSMatrix_cons _ _ _ _ hlen] at hS
    have hnz := scanLoop_nonzero _ _ _ hS
    intro x hx
    constructor
    · rw [← List.dropLast_append_getLast? _ (List.getLast?_eq_some_getLast (l := r :: rs) (by simp)), List.mem_append, List.mem_singleton] at hx
      rcases hx with hx | rfl
      · exact hdrop x hx
      · exact hl _ (List.getLast?_eq_some_getLast (by simp))
    · rcases List.mem_cons.1 hx with rfl | hx
      · exact hfirst p (by simp) _ hr
      · rw [← hz] at hx
        obtain ⟨y, hy, rfl⟩ := List.mem_map.1 hx
        exact hnz y hy

theorem numerical_wavelength (he : IsEig eig) {wavelength : ℝ} {inPlane : ℝ × ℝ} {l : LatticeVectors} {m : FourierMatrices ι}
    {G : ι → ℤ × ℤ} {r : LayerSolveResult ι} (h : numericalEigensolve eig wavelength inPlane l m G = .ok r) : r.wavelength = wavelength :=
  (numerical_solvedFor he h).2.1

theorem solve_wavelength (he : IsEig eig) {p : StackLayer ι} {r : LayerSolveResult ι} (hr : p.solve eig c = .ok r) : r.wavelength = c.wavelength := by
  obtain ⟨nx, ny, med, d⟩ := p
  by_cases hn : nx = 1 ∧ ny = 1
  · obtain ⟨rfl, rfl⟩ := hn
    cases med with
    | isotropic ε f =>
      simp only [StackLayer.solve, eigensolveIsotropicMedia, and_self, dite_true] at hr
      obtain ⟨_, _, -, -, -, er⟩ := eigensolveUniformIsotropic_ok_iff.1 hr
      rw [er]
    | anisotropic ε μ f x =>
      simp only [StackLayer.solve, eigensolveGeneralAnisotropicMedia, and_self, dite_true, eigensolveUniformAnisotropic,
        bind_eq_ok] at hr
      obtain ⟨m, hm, hr⟩ := hr
      exact numerical_wavelength he hr
  · cases med with
    | isotropic ε f =>
      simp only [StackLayer.solve, eigensolveIsotropicMedia, dif_neg hn, eigensolvePatternedIsotropic, bind_eq_ok] at hr
      obtain ⟨m, hm, hr⟩ := hr
      exact numerical_wavelength he hr
    | anisotropic ε μ f x =>
      simp only [StackLayer.solve, eigensolveGeneralAnisotropicMedia, dif_neg hn, eigensolvePatternedAnisotropic, bind_eq_ok] at hr
      obtain ⟨m, hm, hr⟩ := hr
      exact numerical_wavelength he hr

/-- The reciprocal stack is solved. -/
theorem layers_reciprocal (he : IsEig eig) (hG : Function.Injective c.expansion) {layers : List (StackLayer ι)} {solved : List (LayerSolveResult ι)}
    (hs : List.Forall₂ (fun p r => p.solve eig c = .ok r) layers solved) (hp : ∀ p ∈ layers, p.ConstantTangent c) (hc : ∀ r ∈ solved, CompleteModes r) :
    ∃ solved', List.Forall₂ (fun p r => p.solve eig c.reverse = .ok r) (layers.map StackLayer.transpose) solved' ∧
      List.Forall₂ ReciprocalPair (solved.zip (layers.map StackLayer.thickness)) (solved'.zip (layers.map StackLayer.thickness)) := by
  induction hs with
  | nil => exact ⟨[], .nil, .nil⟩
  | @cons p r ps rs hr hrs ih =>
    obtain ⟨rs', h1, h2⟩ := ih (fun p h => hp p (List.mem_cons_of_mem _ h)) (fun r h => hc r (List.mem_cons_of_mem _ h))
    obtain ⟨r', hr', hrec⟩ := layer_reciprocal he hG (hp p (by simp)) hr (hc r (by simp))
    exact ⟨r' :: rs', .cons hr' h1, .cons ⟨hrec, rfl⟩ h2⟩

theorem forall₂_take {α δ : Type*} {R : α → δ → Prop} {l : List α} {l' : List δ} (h : List.Forall₂ R l l') (n : ℕ) :
    List.Forall₂ R (l.take n) (l'.take n) := by
  induction h generalizing n with
  | nil => simp
  | cons h _ ih =>
    cases n with
    | zero => simp
    | succ n => exact .cons h (ih n)

theorem forall₂_mem_right {α δ : Type*} {R : α → δ → Prop} {l : List α} {l' : List δ} (h : List.Forall₂ R l l') : ∀ y ∈ l', ∃ x ∈ l, R x y := by
  induction h with
  | nil => simp
  | cons a _ ih =>
    intro y hy
    rcases List.mem_cons.1 hy with rfl | hy
    · exact ⟨_, by simp, a⟩
    · obtain ⟨x, hx, hr⟩ := ih y hy
      exact ⟨x, by simp [hx], hr⟩

theorem forall₂_head {α δ : Type*} {R : α → δ → Prop} {l : List α} {l' : List δ} (h : List.Forall₂ R l l') : ∀ x ∈ l.head?, ∀ y ∈ l'.head?, R x y := by
  cases h with
  | nil => simp
  | cons a _ => simpa using a

theorem forall₂_getLast {α δ : Type*} {R : α → δ → Prop} {l : List α} {l' : List δ} (h : List.Forall₂ R l l') :
    ∀ x ∈ l.getLast?, ∀ y ∈ l'.getLast?, R x y := by
  induction h with
  | nil => simp
  | @cons a b as bs hab h ih =>
    cases h with
    | nil => simpa using hab
    | cons h1 h2 =>
      rw [List.getLast?_cons_cons, List.getLast?_cons_cons]
      exact ih

theorem forall₂_solve_unique {ps : List (StackLayer ι)} {rs rs' : List (LayerSolveResult ι)} (h : List.Forall₂ (fun p r => p.solve eig c = .ok r) ps rs)
    (h' : List.Forall₂ (fun p r => p.solve eig c = .ok r) ps rs') : rs = rs' := by
  induction h generalizing rs' with
  | nil => cases h'; rfl
  | cons a _ ih =>
    cases h' with
    | cons b h' =>
      rw [a] at b
      rw [ok_inj.1 b, ih h']

theorem forall₂_getLast_mem {ps : List (StackLayer ι)} {rs : List (LayerSolveResult ι)} (h : List.Forall₂ (fun p r => p.solve eig c = .ok r) ps rs)
    {p : StackLayer ι} (hp : p ∈ ps.getLast?) : ∃ r ∈ rs, p.solve eig c = .ok r := by
  have hne : rs ≠ [] := by
    rintro rfl
    cases h
    simp at hp
  exact ⟨_, List.getLast_mem hne, forall₂_getLast h _ hp _ (List.getLast?_eq_some_getLast hne)⟩

/-- The scattering matrix of a stack and that of the reciprocal stack. -/
theorem relations_reciprocal {layers layers' : List (LayerSolveResult ι × ℝ)} (h : List.Forall₂ ReciprocalPair layers layers') {S S' : ScatteringMatrix ι}
    (hS : IsSMatrix S layers) (hS' : IsSMatrix S' layers') :
    ReciprocalSMatrices (pairing S.startLayer S'.startLayer S.startThickness) (pairing S.endLayer S'.endLayer S.endThickness) S S' := by
  have key : ∀ (a0 bN a0' bN' : Matrix (ι ⊕ ι) (ι ⊕ ι) ℂ),
      a0'ᵀ * pairing S.startLayer S'.startLayer S.startThickness * (S.s21 * a0 + S.s22 * bN) -
        (S'.s21 * a0' + S'.s22 * bN')ᵀ * pairing S.startLayer S'.startLayer S.startThickness * a0 =
      (S'.s11 * a0' + S'.s12 * bN')ᵀ * pairing S.endLayer S'.endLayer S.endThickness * bN -
        bN'ᵀ * pairing S.endLayer S'.endLayer S.endThickness * (S.s11 * a0 + S.s12 * bN) := by
    intro a0 bN a0' bN'
    obtain ⟨su, f, y, hg, hc, hf, hy, hfa, hyb⟩ := hS.complete a0 bN
    obtain ⟨su', f', y', hg', hc', hf', hy', hfa', hyb'⟩ := hS'.complete a0' bN'
    have r := hS.sound su f y hg hc hf hy
    have r' := hS'.sound su' f' y' hg' hc' hf' hy'
    obtain ⟨f1, hf1, k1, k2⟩ := geometry_head hg hS.start
    obtain ⟨y1, hy1, k3, k4⟩ := geometry_getLast hg hS.finish
    obtain ⟨f2, hf2, k1', k2'⟩ := geometry_head hg' hS'.start
    obtain ⟨y2, hy2, k3', k4'⟩ := geometry_getLast hg' hS'.finish
    rw [hf] at hf1; simp only [Option.some.injEq] at hf1; subst hf1
    rw [hy] at hy1; simp only [Option.some.injEq] at hy1; subst hy1
    rw [hf'] at hf2; simp only [Option.some.injEq] at hf2; subst hf2
    rw [hy'] at hy2; simp only [Option.some.injEq] at hy2; subst hy2
    have e := stateLorentz_ends hc hc' (by rw [hg, hg']; exact h) hf hy hf' hy'
    unfold stateLorentz at e
    have e2 := smul_right_injective _ (two_ne_zero (α := ℂ)) e
    obtain ⟨r1, r2⟩ := r
    obtain ⟨r1', r2'⟩ := r'
    rw [k1, k2, k3, k4, k1', k3', r1, r2, r1', r2', hfa, hyb, hfa', hyb'] at e2
    exact e2
  refine ⟨?_, ?_, ?_, ?_⟩
  · simpa [sub_eq_zero] using key 1 0 1 0
  · simpa [eq_comm (a := (0 : ModeMatrix ι)), sub_eq_zero, eq_comm (a := S'.s12ᵀ * _)] using key 0 1 0 1
  · simpa using key 0 1 1 0
  · simpa [eq_comm (a := S'.s22ᵀ * _)] using key 1 0 0 1

/-- Existence of the scattering matrix of the reciprocal stack. -/
theorem stack_reciprocal (he : IsEig eig) (hG : Function.Injective c.expansion) {layers : List (StackLayer ι)} (hp : ∀ p ∈ layers, p.ConstantTangent c)
    (hfirst : ∀ p ∈ layers.head?, ∀ r, p.solve eig c = .ok r → ∀ i, r.eigenvalues i ≠ 0)
    (hlast : ∀ p ∈ layers.getLast?, ∀ r, p.solve eig c = .ok r → IsUnit r.eigenvectors.det)
    {S : ScatteringMatrix ι} (hS : ComputedSMatrix eig c layers S) :
    ∃ S' solved solved', ComputedSMatrix eig c.reverse (layers.map StackLayer.transpose) S' ∧
      List.Forall₂ (fun p r => p.solve eig c = .ok r) layers solved ∧
      List.Forall₂ (fun p r => p.solve eig c.reverse = .ok r) (layers.map StackLayer.transpose) solved' ∧
      List.Forall₂ ReciprocalPair (solved.zip (layers.map StackLayer.thickness)) (solved'.zip (layers.map StackLayer.thickness)) ∧
      IsSMatrix S (solved.zip (layers.map StackLayer.thickness)) ∧ IsSMatrix S' (solved'.zip (layers.map StackLayer.thickness)) := by
  obtain ⟨solved, hs, hS⟩ := hS
  have hcm := solved_complete hs hS hfirst hlast
  obtain ⟨solved', hs', hpair⟩ := layers_reciprocal he hG hs hp hcm
  have hlen := hs.length_eq
  have hlen' := hs'.length_eq
  have hthick : (layers.map StackLayer.transpose).map StackLayer.thickness = layers.map StackLayer.thickness := by
    rw [List.map_map]; rfl
  have hreg : Regular c.wavelength (solved.zip (layers.map StackLayer.thickness)) := by
    intro q hq
    have hq' := (List.of_mem_zip hq).1
    refine ⟨?_, (hcm _ hq').2⟩
    obtain ⟨p, -, hp⟩ := forall₂_mem_right hs _ hq'
    exact solve_wavelength he hp
  have hpr : ∀ r' ∈ solved', ∃ r ∈ solved, Reciprocal r r' := by
    intro r' hr'
    have hz : (solved'.zip (layers.map StackLayer.thickness)).map Prod.fst = solved' := List.map_fst_zip (by simp at hlen' ⊢; omega)
    rw [← hz] at hr'
    obtain ⟨x, hx, rfl⟩ := List.mem_map.1 hr'
    obtain ⟨y, hy, hr⟩ := forall₂_mem_right hpair _ hx
    exact ⟨y.1, (List.of_mem_zip hy).1, hr.1⟩
  have hw' : ∀ r' ∈ solved', r'.wavelength = c.wavelength := by
    intro r' hr'
    obtain ⟨p, -, hp⟩ := forall₂_mem_right hs' _ hr'
    exact (solve_wavelength (c := c.reverse) he hp)
  have hreg' : Regular c.wavelength (solved'.zip (layers.map StackLayer.thickness)) := by
    intro q hq
    have hq' := (List.of_mem_zip hq).1
    obtain ⟨r, -, hr⟩ := hpr _ hq'
    exact ⟨hw' _ hq', hr.complete'.2⟩
  obtain ⟨ss, hss, -⟩ := stackSMatrix_eq_ok hS
  obtain ⟨hl1, hpre⟩ := stackSMatrices_spec hreg hss
  have hne : solved' ≠ [] := by
    rintro rfl
    cases layers with
    | nil =>
      cases hs
      exact absurd hS (by simp [stackSMatrix, stackSMatrices])
    | cons _ _ => simp at hlen'
  have hex : ∃ S', stackSMatrix solved' (layers.map StackLayer.thickness) = .ok S' := by
    rw [C81_succeeds_iff (lam := c.wavelength) hne (by simp at hlen' ⊢; omega)
      (fun r hr => ⟨hw' r hr, by obtain ⟨_, -, h⟩ := hpr r hr; exact h.complete'.2⟩) (fun r hr => by
        obtain ⟨_, -, h⟩ := hpr r hr
        obtain ⟨E, hE⟩ := h.solved'
        refine ⟨hE.wellPosed, ?_⟩
        rw [det_mul]
        exact (electricModes_isUnit hE h.complete').1.mul h.complete'.1)]
    intro n hn
    have hn' : n < ss.length := by
      rw [hl1, List.length_zip]
      simp at hlen' ⊢
      omega
    exact noResonance_reciprocal (forall₂_take hpair (n + 1)) (hpre n hn')
  obtain ⟨S', hS'⟩ := hex
  exact ⟨S', solved, solved', ⟨solved', hs', by rw [hthick]; exact hS'⟩, hs, hs', hpair, stackSMatrix_spec hreg hS, stackSMatrix_spec hreg' hS'⟩

end Fmmax
