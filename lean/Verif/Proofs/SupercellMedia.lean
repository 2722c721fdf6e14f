import Verif.Proofs.SupercellStack

/-! Supercells: Fourier matrices of media, and stacks of layers. -/

set_option linter.unusedSectionVars false

namespace Fmmax

open Matrix Spec

variable {ι κ : Type} [Fintype ι] [DecidableEq ι] [Fintype κ] [DecidableEq κ] {nx ny m n : ℕ}
variable {p : ℤ × ℤ} {place : ι → κ} {c : Setup ι} {c' : Setup κ}

theorem tile_surjective (hm : m ≠ 0) (hn : n ≠ 0) : Function.Surjective (tile m n : Fin (m * nx) × Fin (n * ny) → Fin nx × Fin ny) := by
  rintro ⟨r, s⟩
  refine ⟨(finProdFinEquiv (⟨0, Nat.pos_of_ne_zero hm⟩, r), finProdFinEquiv (⟨0, Nat.pos_of_ne_zero hn⟩, s)), ?_⟩
  unfold tile
  simp [Nat.mod_eq_of_lt r.isLt, Nat.mod_eq_of_lt s.isLt]

theorem recipGrid_of_pull {mx my : ℕ} {γ : Fin mx × Fin my → Fin nx × Fin ny} (hγ : Function.Surjective γ) {x : Grid nx ny} {y' : Grid mx my}
    (h : recipGrid (x.pull γ) = .ok y') : ∃ y, recipGrid x = .ok y ∧ y' = y.pull γ := by
  obtain ⟨h1, rfl⟩ := recipGrid_ok_iff.1 h
  refine ⟨_, recipGrid_ok_iff.2 ⟨fun r s => ?_, rfl⟩, rfl⟩
  obtain ⟨⟨r', s'⟩, hq⟩ := hγ (r, s)
  have := h1 r' s'
  unfold Grid.pull at this
  simp only [of_apply, hq] at this
  exact this

namespace Spec.SupercellClass

theorem vector (h : SupercellClass m n p place c c') (hm : m ≠ 0) (hn : n ≠ 0) {ε tx ty : Grid nx ny} (hR : Resolves nx ny c.expansion) {E' : ModeMatrix κ}
    (hE : transversePermittivityVector (ε.pull (tile m n)) (tx.pull (tile m n)) (ty.pull (tile m n)) c'.expansion = .ok E') :
    ∃ E, transversePermittivityVector ε tx ty c.expansion = .ok E ∧ h.part.double.Carries h.part.double E' E := by
  unfold transversePermittivityVector at hE ⊢
  simp only [bind_eq_ok, fourierConvolutionMatrix_ok_iff, inv_ok_iff, ok_inj] at hE ⊢
  obtain ⟨_, ⟨-, rfl⟩, η', hη', _, ⟨-, rfl⟩, _, ⟨hu, rfl⟩, _, ⟨-, rfl⟩, _, ⟨-, rfl⟩, _, ⟨-, rfl⟩, _, ⟨-, rfl⟩, rfl⟩ := hE
  obtain ⟨η, hη, rfl⟩ := recipGrid_of_pull (tile_surjective hm hn) hη'
  have cη := h.convolution hm hn η
  have cε := h.convolution hm hn ε
  refine ⟨_, ⟨_, ⟨hR, rfl⟩, _, hη, _, ⟨hR, rfl⟩, _, ⟨cη.isUnit hu, rfl⟩, _, ⟨hR, rfl⟩, _, ⟨hR, rfl⟩, _, ⟨hR, rfl⟩, _, ⟨hR, rfl⟩, rfl⟩, ?_⟩
  have cd := cε.sub (cη.inv hu (cη.isUnit hu))
  have z := h.part.carries_zero h.part
  refine (Part.carries_fromBlocks cε z z cε).sub ((Part.carries_fromBlocks cd z z cd).mul (Part.carries_fromBlocks ?_ ?_ ?_ ?_))
  · exact h.convolution hm hn (Matrix.of fun r s => (tangentTerms (tx r s) (ty r s)).yy)
  · exact h.convolution hm hn (Matrix.of fun r s => (tangentTerms (tx r s) (ty r s)).yx)
  · exact h.convolution hm hn (Matrix.of fun r s => (tangentTerms (tx r s) (ty r s)).xy)
  · exact h.convolution hm hn (Matrix.of fun r s => (tangentTerms (tx r s) (ty r s)).xx)

theorem isotropic (h : SupercellClass m n p place c c') (hm : m ≠ 0) (hn : n ≠ 0) {ε : Grid nx ny} (hR : Resolves nx ny c.expansion)
    {f : Formulation nx ny ι} {f' : Formulation (m * nx) (n * ny) κ} (hf : SupercellFormulation m n c c' ε f f') {M' : FourierMatrices κ}
    (hM : fourierMatricesPatternedIsotropic c'.lattice (ε.pull (tile m n)) c'.expansion f' = .ok M') :
    ∃ M, fourierMatricesPatternedIsotropic c.lattice ε c.expansion f = .ok M ∧ FourierPart h.part M' M := by
  unfold fourierMatricesPatternedIsotropic at hM ⊢
  simp only [bind_eq_ok, fourierConvolutionMatrix_ok_iff, ok_inj, diag_const, one_smul, zero_smul, Matrix.fromBlocks_one] at hM ⊢
  obtain ⟨E', hE', η', hη', _, ⟨-, rfl⟩, _, ⟨-, rfl⟩, rfl⟩ := hM
  obtain ⟨η, hη, rfl⟩ := recipGrid_of_pull (tile_surjective hm hn) hη'
  have cε := h.convolution hm hn ε
  have z := h.part.carries_zero h.part
  obtain ⟨E, hE, hEE⟩ : ∃ E, transversePermittivityIsotropic c.lattice ε c.expansion f = .ok E ∧ h.part.double.Carries h.part.double E' E := by
    cases f with
    | fft =>
      cases f' with
      | fft =>
        unfold transversePermittivityIsotropic transversePermittivityFft at hE' ⊢
        simp only [bind_eq_ok, fourierConvolutionMatrix_ok_iff, ok_inj] at hE' ⊢
        obtain ⟨_, ⟨-, rfl⟩, rfl⟩ := hE'
        exact ⟨_, ⟨_, ⟨hR, rfl⟩, rfl⟩, Part.carries_fromBlocks cε z z cε⟩
      | vector fn' => exact hf.elim
    | vector fn =>
      cases f' with
      | fft => exact hf.elim
      | vector fn' =>
        obtain ⟨t, ht, ht'⟩ := hf
        unfold transversePermittivityIsotropic at hE' ⊢
        simp only [bind_eq_ok] at hE' ⊢
        obtain ⟨t', ht2, hE'⟩ := hE'
        rw [ht', ok_inj] at ht2
        subst ht2
        obtain ⟨E, hE, h2⟩ := h.vector hm hn hR hE'
        exact ⟨E, ⟨_, ht, hE⟩, h2⟩
  exact ⟨_, ⟨_, hE, _, hη, _, ⟨hR, rfl⟩, _, ⟨hR, rfl⟩, rfl⟩, ⟨cε, h.part.carries_one, h.part.double.carries_one, hEE, h.convolution hm hn η, h.part.carries_one⟩⟩

theorem rotated (h : SupercellClass m n p place c c') (hm : m ≠ 0) (hn : n ≠ 0) (hR : Resolves nx ny c.expansion)
    {tensor : Fin nx → Fin ny → Matrix (Fin 2) (Fin 2) ℂ} {t00 t01 t10 t11 : Grid nx ny} {E' : ModeMatrix κ}
    (hE : rotatedFourierMatrix (fun r s => tensor (tile m n (r, s)).1 (tile m n (r, s)).2) (t00.pull (tile m n)) (t01.pull (tile m n))
      (t10.pull (tile m n)) (t11.pull (tile m n)) c'.expansion = .ok E') :
    ∃ E, rotatedFourierMatrix tensor t00 t01 t10 t11 c.expansion = .ok E ∧ h.part.double.Carries h.part.double E' E := by
  unfold rotatedFourierMatrix rotationMatrices at hE ⊢
  simp only [bind_eq_ok, fourierConvolutionMatrix_ok_iff, inv_ok_iff, ok_inj, allOk_eq_ok, Prod.exists, Prod.mk.injEq, solve_eq_ok] at hE ⊢
  obtain ⟨_, _, _, ⟨_, ⟨-, rfl⟩, _, ⟨-, rfl⟩, _, ⟨-, rfl⟩, _, ⟨-, rfl⟩, _, ⟨-, rfl⟩, _, ⟨-, rfl⟩, _, ⟨-, rfl⟩, _, ⟨-, rfl⟩, rfl, rfl, rfl⟩, rot', hrot',
    _, ⟨-, rfl⟩, _, ⟨-, rfl⟩, _, ⟨-, rfl⟩, η', hη', _, ⟨-, rfl⟩, _, ⟨hu, rfl⟩, rfl⟩ := hE
  have hs : Function.Surjective (tile m n : Fin (m * nx) × Fin (n * ny) → Fin nx × Fin ny) := tile_surjective hm hn
  obtain ⟨rot, hrot⟩ : ∃ rot : Fin nx × Fin ny → Matrix (Fin 2) (Fin 2) ℂ, ∀ q,
      IsUnit (!![t00 q.1 q.2, t01 q.1 q.2; t10 q.1 q.2, t11 q.1 q.2] : Matrix (Fin 2) (Fin 2) ℂ).det ∧
      !![t00 q.1 q.2, t01 q.1 q.2; t10 q.1 q.2, t11 q.1 q.2] * rot q = tensor q.1 q.2 * !![t00 q.1 q.2, t01 q.1 q.2; t10 q.1 q.2, t11 q.1 q.2] := by
    refine ⟨fun q => rot' (Function.surjInv hs q), fun q => ?_⟩
    have := hrot' (Function.surjInv hs q)
    simp only [Grid.pull, of_apply, Prod.mk.eta, Function.surjInv_eq hs q] at this
    exact this
  have hrr : rot' = fun q => rot (tile m n q) := by
    funext q
    obtain ⟨u1, e1⟩ := hrot' q
    obtain ⟨-, e2⟩ := hrot (tile m n q)
    have e3 := e1.trans e2.symm
    calc rot' q = (!![t00.pull (tile m n) q.1 q.2, t01.pull (tile m n) q.1 q.2; t10.pull (tile m n) q.1 q.2, t11.pull (tile m n) q.1 q.2])⁻¹ *
          (!![t00.pull (tile m n) q.1 q.2, t01.pull (tile m n) q.1 q.2; t10.pull (tile m n) q.1 q.2, t11.pull (tile m n) q.1 q.2] * rot' q) := by
          rw [← Matrix.mul_assoc, nonsing_inv_mul _ u1, Matrix.one_mul]
      _ = (!![t00.pull (tile m n) q.1 q.2, t01.pull (tile m n) q.1 q.2; t10.pull (tile m n) q.1 q.2, t11.pull (tile m n) q.1 q.2])⁻¹ *
          (!![t00.pull (tile m n) q.1 q.2, t01.pull (tile m n) q.1 q.2; t10.pull (tile m n) q.1 q.2, t11.pull (tile m n) q.1 q.2] * rot (tile m n q)) := by
          rw [e3]; rfl
      _ = _ := by rw [← Matrix.mul_assoc, nonsing_inv_mul _ u1, Matrix.one_mul]
  subst hrr
  obtain ⟨η, hη, rfl⟩ := recipGrid_of_pull (x := Matrix.of fun r s => rot (r, s) 1 1) hs hη'
  have cη := h.convolution hm hn η
  have cv := fun x : Grid nx ny => h.convolution hm hn x
  refine ⟨_, ⟨_, _, _, ⟨_, ⟨hR, rfl⟩, _, ⟨hR, rfl⟩, _, ⟨hR, rfl⟩, _, ⟨hR, rfl⟩, _, ⟨hR, rfl⟩, _, ⟨hR, rfl⟩, _, ⟨hR, rfl⟩, _, ⟨hR, rfl⟩, rfl, rfl, rfl⟩,
    rot, hrot, _, ⟨hR, rfl⟩, _, ⟨hR, rfl⟩, _, ⟨hR, rfl⟩, _, hη, _, ⟨hR, rfl⟩, _, ⟨cη.isUnit hu, rfl⟩, rfl⟩, ?_⟩
  refine ((Part.carries_fromBlocks (cv _) (cv _) (cv _) (cv _)).mul (Part.carries_fromBlocks ?_ ?_ ?_ (cη.inv hu (cη.isUnit hu)))).mul
    (Part.carries_fromBlocks ?_ ?_ ?_ ?_)
  · exact cv (Matrix.of fun r s => rot (r, s) 0 0)
  · exact cv (Matrix.of fun r s => rot (r, s) 0 1)
  · exact cv (Matrix.of fun r s => rot (r, s) 1 0)
  · exact cv (Matrix.of fun r s => t11 r s / (denomSafe ‖t00 r s * t11 r s - t10 r s * t01 r s‖ : ℂ))
  · exact cv (Matrix.of fun r s => -t01 r s / (denomSafe ‖t00 r s * t11 r s - t10 r s * t01 r s‖ : ℂ))
  · exact cv (Matrix.of fun r s => -t10 r s / (denomSafe ‖t00 r s * t11 r s - t10 r s * t01 r s‖ : ℂ))
  · exact cv (Matrix.of fun r s => t00 r s / (denomSafe ‖t00 r s * t11 r s - t10 r s * t01 r s‖ : ℂ))

theorem transverse (h : SupercellClass m n p place c c') (hm : m ≠ 0) (hn : n ≠ 0) (hR : Resolves nx ny c.expansion) {ε μ : TensorComponents nx ny}
    {source : Grid nx ny} {f : Formulation nx ny ι} {f' : Formulation (m * nx) (n * ny) κ} (hf : SupercellFormulation m n c c' source f f')
    {E' M' : ModeMatrix κ} (hE : transverseMatricesAnisotropic c'.lattice (ε.pull (tile m n)) (μ.pull (tile m n)) c'.expansion
      (source.pull (tile m n)) f' = .ok (E', M')) :
    ∃ E M, transverseMatricesAnisotropic c.lattice ε μ c.expansion source f = .ok (E, M) ∧ h.part.double.Carries h.part.double E' E ∧
      h.part.double.Carries h.part.double M' M := by
  have cv := fun x : Grid nx ny => h.convolution hm hn x
  cases f with
  | fft =>
    cases f' with
    | fft =>
      unfold transverseMatricesAnisotropic transversePermittivityFftAnisotropic transversePermeabilityFftAnisotropic at hE ⊢
      simp only [bind_eq_ok, ok_inj, Prod.mk.injEq, fourierConvolutionMatrix_ok_iff] at hE ⊢
      obtain ⟨_, ⟨_, ⟨-, rfl⟩, _, ⟨-, rfl⟩, _, ⟨-, rfl⟩, _, ⟨-, rfl⟩, rfl⟩, _, ⟨_, ⟨-, rfl⟩, _, ⟨-, rfl⟩, _, ⟨-, rfl⟩, _, ⟨-, rfl⟩, rfl⟩, rfl, rfl⟩ := hE
      refine ⟨_, _, ⟨_, ⟨_, ⟨hR, rfl⟩, _, ⟨hR, rfl⟩, _, ⟨hR, rfl⟩, _, ⟨hR, rfl⟩, rfl⟩, _, ⟨_, ⟨hR, rfl⟩, _, ⟨hR, rfl⟩, _, ⟨hR, rfl⟩, _, ⟨hR, rfl⟩, rfl⟩,
        rfl, rfl⟩, Part.carries_fromBlocks (cv ε.yy) (cv (-ε.yx)) (cv (-ε.xy)) (cv ε.xx), Part.carries_fromBlocks (cv μ.xx) (cv μ.xy) (cv μ.yx) (cv μ.yy)⟩
    | vector fn' => exact hf.elim
  | vector fn =>
    cases f' with
    | fft => exact hf.elim
    | vector fn' =>
      obtain ⟨t, ht, ht'⟩ := hf
      unfold transverseMatricesAnisotropic at hE ⊢
      simp only [bind_eq_ok, ok_inj, Prod.mk.injEq] at hE ⊢
      obtain ⟨t', ht2, E', hE', M', hM', rfl, rfl⟩ := hE
      rw [ht', ok_inj] at ht2
      subst ht2
      obtain ⟨E, hE, k1⟩ := h.rotated hm hn hR (tensor := epsBlock ε) (t00 := t.2) (t01 := Matrix.of fun r s => star (t.1 r s)) (t10 := -t.1)
        (t11 := Matrix.of fun r s => star (t.2 r s)) hE'
      obtain ⟨M, hM, k2⟩ := h.rotated hm hn hR (tensor := muBlock μ) (t00 := t.1) (t01 := Matrix.of fun r s => -star (t.2 r s)) (t10 := t.2)
        (t11 := Matrix.of fun r s => star (t.1 r s)) hM'
      exact ⟨E, M, ⟨t, ht, E, hE, M, hM, rfl, rfl⟩, k1, k2⟩

theorem anisotropic (h : SupercellClass m n p place c c') (hm : m ≠ 0) (hn : n ≠ 0) (hR : Resolves nx ny c.expansion) {ε μ : TensorComponents nx ny}
    {source : Grid nx ny} {f : Formulation nx ny ι} {f' : Formulation (m * nx) (n * ny) κ} (hf : SupercellFormulation m n c c' source f f')
    {M' : FourierMatrices κ} (hM : fourierMatricesPatternedAnisotropic c'.lattice (ε.pull (tile m n)) (μ.pull (tile m n)) c'.expansion f'
      (source.pull (tile m n)) = .ok M') :
    ∃ M, fourierMatricesPatternedAnisotropic c.lattice ε μ c.expansion f source = .ok M ∧ FourierPart h.part M' M := by
  unfold fourierMatricesPatternedAnisotropic at hM ⊢
  simp only [bind_eq_ok, fourierConvolutionMatrix_ok_iff, ok_inj] at hM ⊢
  obtain ⟨⟨E', T'⟩, hEM, η', hη', _, ⟨-, rfl⟩, _, ⟨-, rfl⟩, ζ', hζ', _, ⟨-, rfl⟩, _, ⟨-, rfl⟩, rfl⟩ := hM
  obtain ⟨η, hη, rfl⟩ := recipGrid_of_pull (x := ε.zz) (tile_surjective hm hn) hη'
  obtain ⟨ζ, hζ, rfl⟩ := recipGrid_of_pull (x := μ.zz) (tile_surjective hm hn) hζ'
  obtain ⟨E, T, hET, k1, k2⟩ := h.transverse hm hn hR hf hEM
  exact ⟨_, ⟨_, hET, _, hη, _, ⟨hR, rfl⟩, _, ⟨hR, rfl⟩, _, hζ, _, ⟨hR, rfl⟩, _, ⟨hR, rfl⟩, rfl⟩,
    ⟨h.convolution hm hn ε.zz, h.convolution hm hn μ.zz, k2, k1, h.convolution hm hn η, h.convolution hm hn ζ⟩⟩

theorem uniformAnisotropic (h : SupercellClass m n p place c c') {ε μ : TensorComponents 1 1} {M' : FourierMatrices κ}
    (hM : fourierMatricesUniformAnisotropic ε μ = .ok M') :
    ∃ M, fourierMatricesUniformAnisotropic ε μ = .ok M ∧ FourierPart h.part M' M := by
  unfold fourierMatricesUniformAnisotropic at hM ⊢
  split_ifs at hM with h0
  rw [ok_inj] at hM
  subst hM
  simp only [if_neg h0, diag_const, ok_inj]
  have s := fun t : ℂ => carries_smul_one h.part t
  exact ⟨_, rfl, ⟨s _, s _, Part.carries_fromBlocks (s _) (s _) (s _) (s _), Part.carries_fromBlocks (s _) (s _) (s _) (s _), s _, s _⟩⟩

variable {eig : Matrix (ι ⊕ ι) (ι ⊕ ι) ℂ → (ι ⊕ ι → ℂ) × Matrix (ι ⊕ ι) (ι ⊕ ι) ℂ}
variable {eig' : Matrix (κ ⊕ κ) (κ ⊕ κ) ℂ → (κ ⊕ κ → ℂ) × Matrix (κ ⊕ κ) (κ ⊕ κ) ℂ}

theorem nonzero (h : SupercellClass m n p place c c') {M' : FourierMatrices κ} {r' : LayerSolveResult κ}
    (hr' : numericalEigensolve eig' c'.wavelength c'.inPlaneWavevector c'.lattice M' c'.expansion = .ok r') : m ≠ 0 ∧ n ≠ 0 := by
  obtain ⟨k', _, hk', -⟩ := numericalEigensolve_ok_iff.1 hr'
  exact (h.wavevectors hk').1

theorem layer (he : IsEig eig) (he' : IsEig eig') (h : SupercellClass m n p place c c') {q : StackLayer ι} {q' : StackLayer κ}
    (hq : SupercellLayer m n c c' q q') {r' : LayerSolveResult κ} (hr' : q'.solve eig' c' = .ok r') (hφ' : IsUnit r'.eigenvectors.det) :
    ∃ r, q.solve eig c = .ok r ∧ ∃ hφ : IsUnit r.eigenvectors.det, LayerPart h.part.double (h.part.double.modes hφ' hφ) r' r ∧ FieldPart h.part place r' r := by
  have hne : ∀ {nx ny : ℕ}, ¬(nx = 1 ∧ ny = 1) → ¬(m * nx = 1 ∧ n * ny = 1) := fun h0 h1 =>
    h0 ⟨Nat.eq_one_of_mul_eq_one_left h1.1, Nat.eq_one_of_mul_eq_one_left h1.2⟩
  cases hq with
  | uniformIsotropic ε f f' d =>
    simp only [StackLayer.solve, eigensolveIsotropicMedia, and_self, dite_true] at hr' ⊢
    exact h.uniform hr' hφ'
  | uniformAnisotropic ε μ f f' x x' d =>
    simp only [StackLayer.solve, eigensolveGeneralAnisotropicMedia, and_self, dite_true, eigensolveUniformAnisotropic, bind_eq_ok] at hr' ⊢
    obtain ⟨M', hM', hr'⟩ := hr'
    obtain ⟨M, hM, hMM⟩ := h.uniformAnisotropic hM'
    obtain ⟨r, hr, hl⟩ := h.numerical he he' hMM hr' hφ'
    exact ⟨r, ⟨M, hM, hr⟩, hl⟩
  | isotropic hn hR ε f f' hf d =>
    simp only [StackLayer.solve, eigensolveIsotropicMedia, dif_neg hn, dif_neg (hne hn), eigensolvePatternedIsotropic, bind_eq_ok] at hr' ⊢
    obtain ⟨M', hM', hr'⟩ := hr'
    obtain ⟨h1, h2⟩ := h.nonzero hr'
    obtain ⟨M, hM, hMM⟩ := h.isotropic h1 h2 hR hf hM'
    obtain ⟨r, hr, hl⟩ := h.numerical he he' hMM hr' hφ'
    exact ⟨r, ⟨M, hM, hr⟩, hl⟩
  | anisotropic hn hR ε μ x f f' hf d =>
    simp only [StackLayer.solve, eigensolveGeneralAnisotropicMedia, dif_neg hn, dif_neg (hne hn), eigensolvePatternedAnisotropic, bind_eq_ok] at hr' ⊢
    obtain ⟨M', hM', hr'⟩ := hr'
    obtain ⟨h1, h2⟩ := h.nonzero hr'
    have hsrc : (x.map (Grid.pull (tile m n))).getD (Matrix.of fun r s => ((ε.pull (tile m n)).xx r s + (ε.pull (tile m n)).yy r s) / 2) =
        (x.getD (Matrix.of fun r s => (ε.xx r s + ε.yy r s) / 2)).pull (tile m n) := by
      cases x <;> rfl
    rw [hsrc] at hM'
    obtain ⟨M, hM, hMM⟩ := h.anisotropic h1 h2 hR hf hM'
    obtain ⟨r, hr, hl⟩ := h.numerical he he' hMM hr' hφ'
    exact ⟨r, ⟨M, hM, hr⟩, hl⟩

theorem thickness {q : StackLayer ι} {q' : StackLayer κ} (hq : SupercellLayer m n c c' q q') : q'.thickness = q.thickness := by
  cases hq <;> rfl

end Spec.SupercellClass

variable {eig : Matrix (ι ⊕ ι) (ι ⊕ ι) ℂ → (ι ⊕ ι → ℂ) × Matrix (ι ⊕ ι) (ι ⊕ ι) ℂ}
variable {eig' : Matrix (κ ⊕ κ) (κ ⊕ κ) ℂ → (κ ⊕ κ → ℂ) × Matrix (κ ⊕ κ) (κ ⊕ κ) ℂ}

/-- The modes of every layer of a calculated stack are linearly independent if those of the last one are. -/
theorem solved_independent {ps : List (StackLayer ι)} {rs : List (LayerSolveResult ι)} (hrs : List.Forall₂ (fun p r => p.solve eig c = .ok r) ps rs)
    {S : ScatteringMatrix ι} (hS : stackSMatrix rs (ps.map StackLayer.thickness) = .ok S)
    (hlast : ∀ p ∈ ps.getLast?, ∀ r, p.solve eig c = .ok r → IsUnit r.eigenvectors.det) : ∀ x ∈ rs, IsUnit x.eigenvectors.det := by
  have hlast' : ∀ (ps : List (StackLayer ι)) (rs : List (LayerSolveResult ι)), List.Forall₂ (fun p r => p.solve eig c = .ok r) ps rs →
      (∀ p ∈ ps.getLast?, ∀ r, p.solve eig c = .ok r → IsUnit r.eigenvectors.det) → ∀ x ∈ rs.getLast?, IsUnit x.eigenvectors.det := by
    intro ps rs hrs
    induction hrs with
    | nil => simp
    | @cons a b as bs hab habs ih =>
      intro hp x hx
      cases habs with
      | nil =>
        simp only [List.getLast?_singleton, Option.mem_some_iff] at hx
        subst hx
        exact hp a (by simp) _ hab
      | cons h1 h2 =>
        refine ih (fun q hq => hp q ?_) x ?_
        · rw [List.getLast?_cons_cons]; exact hq
        · rw [List.getLast?_cons_cons] at hx; exact hx
  have hl2 := hlast' ps rs hrs hlast
  cases hrs with
  | nil => simp
  | @cons p r ps rs hr hrs =>
    have hlen : rs.length = (ps.map StackLayer.thickness).length := by rw [List.length_map, hrs.length_eq]
    rw [List.map_cons] at hS
    have hdrop := stackSMatrix_independent hlen hS
    intro x hx
    rw [← List.dropLast_append_getLast? _ (List.getLast?_eq_some_getLast (l := r :: rs) (by simp)), List.mem_append, List.mem_singleton] at hx
    rcases hx with hx | rfl
    · exact hdrop x hx
    · exact hl2 _ (List.getLast?_eq_some_getLast (by simp))

theorem Spec.SupercellClass.stack (he : IsEig eig) (he' : IsEig eig') (h : SupercellClass m n p place c c') {layers : List (StackLayer ι)}
    {layers' : List (StackLayer κ)} (hl : List.Forall₂ (SupercellLayer m n c c') layers layers') {S' : ScatteringMatrix κ}
    (hlast : ∀ p ∈ layers'.getLast?, ∀ r, p.solve eig' c' = .ok r → IsUnit r.eigenvectors.det) (hS : ComputedSMatrix eig' c' layers' S') :
    ∃ S, ComputedSMatrix eig c layers S ∧ IsUnit S'.startLayer.eigenvectors.det ∧ IsUnit S'.endLayer.eigenvectors.det ∧
      ∃ m₀ m₁, SPart h.part.double m₀ m₁ S' S := by
  obtain ⟨solved, hsolved, hS⟩ := hS
  have hall := solved_independent hsolved hS hlast
  cases hl with
  | nil =>
    cases hsolved
    exact absurd hS (by simp [stackSMatrix, stackSMatrices])
  | @cons q q' qs qs' hq hqs =>
    obtain _ | ⟨hr, hrs⟩ := hsolved
    rename_i r' rs'
    have hlen : rs'.length = (qs'.map StackLayer.thickness).length := by rw [List.length_map, hrs.length_eq]
    have hz : (rs'.zip (qs'.map StackLayer.thickness)).map Prod.fst = rs' := List.map_fst_zip (by omega)
    rw [List.map_cons, stackSMatrix_cons _ _ _ _ hlen] at hS
    obtain ⟨ends1, ends2⟩ := scanLoop_ends _ _ _ hS
    rw [hz] at ends2
    obtain ⟨r, hr1, hφ, hpart, -⟩ := h.layer he he' hq hr (hall r' (by simp))
    have hrest : ∀ (qs : List (StackLayer ι)) (qs' : List (StackLayer κ)) (rs' : List (LayerSolveResult κ)), List.Forall₂ (SupercellLayer m n c c') qs qs' →
        List.Forall₂ (fun p r => p.solve eig' c' = .ok r) qs' rs' → (∀ x ∈ rs', IsUnit x.eigenvectors.det) →
        ∃ rs, List.Forall₂ (fun p r => p.solve eig c = .ok r) qs rs ∧
          List.Forall₂ (fun p' p => (∃ m, LayerPart h.part.double m p'.1 p.1) ∧ p'.2 = p.2) (rs'.zip (qs'.map StackLayer.thickness))
            (rs.zip (qs.map StackLayer.thickness)) := by
      intro qs qs' rs' hi
      induction hi generalizing rs' with
      | nil =>
        intro hs _
        cases hs
        exact ⟨[], .nil, .nil⟩
      | @cons a b as bs hab _ ih =>
        intro hs hu
        obtain _ | ⟨h1, h2⟩ := hs
        rename_i y ys
        obtain ⟨ys', k1, k2⟩ := ih ys h2 fun x hx => hu x (by simp [hx])
        obtain ⟨y', k3, _, k4, -⟩ := h.layer he he' hab h1 (hu y (by simp))
        exact ⟨y' :: ys', .cons k3 k1, .cons ⟨⟨_, k4⟩, SupercellClass.thickness hab⟩ k2⟩
    obtain ⟨rs, hrs2, hst⟩ := hrest qs qs' rs' hqs hrs fun x hx => hall x (by simp [hx])
    have hid : SPart h.part.double (h.part.double.modes (hall r' (by simp)) hφ) (h.part.double.modes (hall r' (by simp)) hφ)
        (identitySMatrix r' q'.thickness) (identitySMatrix r q.thickness) := by
      rw [SupercellClass.thickness hq]
      exact identity_part hpart _
    obtain ⟨S, m₁, hS1, hSP⟩ := scanLoop_part hst _ _ _ _ _ hid hS
    refine ⟨S, ⟨r :: rs, .cons hr1 hrs2, ?_⟩, ?_, ?_, _, m₁, hSP⟩
    · rw [List.map_cons, stackSMatrix_cons _ _ _ _ (by rw [List.length_map, hrs2.length_eq])]
      exact hS1
    · rw [ends1]; exact hall r' (by simp)
    · refine hall _ ?_
      rw [ends2]
      cases hrs3 : rs'.getLast? with
      | none => simp [identitySMatrix]
      | some x => exact List.mem_cons_of_mem _ (List.mem_of_getLast? hrs3)

/-- The blocks, between Fourier coefficients of the tangential magnetic field. -/
theorem SPart.blocks {e m₀ m₁ : Part (ι ⊕ ι) (κ ⊕ κ)} {S' : ScatteringMatrix κ} {S : ScatteringMatrix ι} (h : SPart e m₀ m₁ S' S)
    (h0 : IsUnit S'.startLayer.eigenvectors.det) (h1 : IsUnit S'.endLayer.eigenvectors.det) :
    e.Carries e (S'.endLayer.eigenvectors * S'.s11 * S'.startLayer.eigenvectors⁻¹) (S.endLayer.eigenvectors * S.s11 * S.startLayer.eigenvectors⁻¹) ∧
    e.Carries e (S'.endLayer.eigenvectors * S'.s12 * S'.endLayer.eigenvectors⁻¹) (S.endLayer.eigenvectors * S.s12 * S.endLayer.eigenvectors⁻¹) ∧
    e.Carries e (S'.startLayer.eigenvectors * S'.s21 * S'.startLayer.eigenvectors⁻¹) (S.startLayer.eigenvectors * S.s21 * S.startLayer.eigenvectors⁻¹) ∧
    e.Carries e (S'.startLayer.eigenvectors * S'.s22 * S'.endLayer.eigenvectors⁻¹) (S.startLayer.eigenvectors * S.s22 * S.endLayer.eigenvectors⁻¹) := by
  have a := h.start.eigenvectors
  have b := h.finish.eigenvectors
  have ai := a.inv h0 (a.isUnit h0)
  have bi := b.inv h1 (b.isUnit h1)
  exact ⟨(b.mul h.s11).mul ai, (b.mul h.s12).mul bi, (a.mul h.s21).mul ai, (a.mul h.s22).mul bi⟩

end Fmmax
