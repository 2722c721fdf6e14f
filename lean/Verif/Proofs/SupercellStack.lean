import Verif.Proofs.Supercell
import Mathlib.Logic.Equiv.Fin.Basic

/-! Supercells: patterns, Fourier matrices, layers and stacks. -/

set_option linter.unusedSectionVars false

namespace Fmmax

open Matrix Spec

variable {ι κ : Type} [Fintype ι] [DecidableEq ι] [Fintype κ] [DecidableEq κ] {nx ny m n : ℕ}

theorem tile_apply {x : Grid nx ny} (j1 : Fin m) (r : Fin nx) (j2 : Fin n) (s : Fin ny) :
    x.pull (tile m n) (finProdFinEquiv (j1, r)) (finProdFinEquiv (j2, s)) = x r s := by
  unfold Grid.pull tile
  simp only [of_apply, finProdFinEquiv_apply_val, Nat.add_mul_mod_self_left, Nat.mod_eq_of_lt r.isLt, Nat.mod_eq_of_lt s.isLt]

/-- The Fourier coefficients of a repeated pattern. -/
theorem tile_coefficient (hm : m ≠ 0) (hn : n ≠ 0) (x : Grid nx ny) (g : ℤ × ℤ) :
    fourierCoefficient (x.pull (tile m n)) g =
      if (m : ℤ) ∣ g.1 ∧ (n : ℤ) ∣ g.2 then fourierCoefficient x (g.1 / m, g.2 / n) else 0 := by
  have hmc : (m : ℂ) ≠ 0 := by exact_mod_cast hm
  have hnc : (n : ℂ) ≠ 0 := by exact_mod_cast hn
  have key : (∑ p : Fin (m * nx), ∑ q : Fin (n * ny), x.pull (tile m n) p q * planeWave (m * nx) (n * ny) (-g) p q) =
      (∑ r : Fin nx, ∑ s : Fin ny, x r s * planeWave (m * nx) (n * ny) (-g) r s) *
        ((∑ j : Fin m, Complex.exp (2 * Real.pi * Complex.I * ((-g.1 : ℤ) * (j : ℕ) / m))) *
          ∑ j : Fin n, Complex.exp (2 * Real.pi * Complex.I * ((-g.2 : ℤ) * (j : ℕ) / n))) := by
    have split : ∀ (j1 : Fin m) (r : Fin nx) (j2 : Fin n) (s : Fin ny),
        x.pull (tile m n) (finProdFinEquiv (j1, r)) (finProdFinEquiv (j2, s)) *
          planeWave (m * nx) (n * ny) (-g) (finProdFinEquiv (j1, r) : Fin (m * nx)) (finProdFinEquiv (j2, s) : Fin (n * ny)) =
        x r s * planeWave (m * nx) (n * ny) (-g) r s *
          (Complex.exp (2 * Real.pi * Complex.I * ((-g.1 : ℤ) * (j1 : ℕ) / m)) * Complex.exp (2 * Real.pi * Complex.I * ((-g.2 : ℤ) * (j2 : ℕ) / n))) := by
      intro j1 r j2 s
      rw [tile_apply, mul_assoc]
      congr 1
      unfold planeWave
      rw [← Complex.exp_add, ← Complex.exp_add]
      congr 1
      have h1 : (nx : ℂ) ≠ 0 := by exact_mod_cast (Fin.pos r).ne'
      have h2 : (ny : ℂ) ≠ 0 := by exact_mod_cast (Fin.pos s).ne'
      simp only [finProdFinEquiv_apply_val, Prod.fst_neg, Prod.snd_neg]
      push_cast
      field_simp
      ring
    have e1 : (∑ p : Fin (m * nx), ∑ q : Fin (n * ny), x.pull (tile m n) p q * planeWave (m * nx) (n * ny) (-g) p q) =
        ∑ j1 : Fin m, ∑ r : Fin nx, ∑ j2 : Fin n, ∑ s : Fin ny, x r s * planeWave (m * nx) (n * ny) (-g) r s *
          (Complex.exp (2 * Real.pi * Complex.I * ((-g.1 : ℤ) * (j1 : ℕ) / m)) * Complex.exp (2 * Real.pi * Complex.I * ((-g.2 : ℤ) * (j2 : ℕ) / n))) := by
      rw [← Equiv.sum_comp (finProdFinEquiv (m := m) (n := nx)) fun p => ∑ q : Fin (n * ny), x.pull (tile m n) p q * planeWave (m * nx) (n * ny) (-g) p q,
        Fintype.sum_prod_type]
      refine Finset.sum_congr rfl fun j1 _ => Finset.sum_congr rfl fun r _ => ?_
      rw [← Equiv.sum_comp (finProdFinEquiv (m := n) (n := ny)), Fintype.sum_prod_type]
      exact Finset.sum_congr rfl fun j2 _ => Finset.sum_congr rfl fun s _ => split j1 r j2 s
    rw [e1, Finset.sum_comm, Finset.sum_mul]
    refine Finset.sum_congr rfl fun r _ => ?_
    simp_rw [← Finset.sum_mul, ← Finset.mul_sum]
    rw [← Finset.sum_mul]
  unfold fourierCoefficient
  rw [key, sum_exp, sum_exp]
  simp only [dvd_neg]
  by_cases h1 : (m : ℤ) ∣ g.1
  · by_cases h2 : (n : ℤ) ∣ g.2
    · simp only [h1, h2, if_true, and_self]
      obtain ⟨a, ha⟩ := h1
      obtain ⟨b, hb⟩ := h2
      have ea : g.1 / m = a := by rw [ha]; exact Int.mul_ediv_cancel_left _ (by exact_mod_cast hm)
      have eb : g.2 / n = b := by rw [hb]; exact Int.mul_ediv_cancel_left _ (by exact_mod_cast hn)
      rw [ea, eb]
      have : ∀ (r : Fin nx) (s : Fin ny), planeWave (m * nx) (n * ny) (-g) r s = planeWave nx ny (-(a, b)) r s := by
        intro r s
        unfold planeWave
        congr 1
        have h1 : (nx : ℂ) ≠ 0 := by exact_mod_cast (Fin.pos r).ne'
        have h2 : (ny : ℂ) ≠ 0 := by exact_mod_cast (Fin.pos s).ne'
        simp only [Prod.fst_neg, Prod.snd_neg, ha, hb]
        push_cast
        field_simp
      simp only [this]
      push_cast
      rw [show (m : ℂ) * nx * (n * ny) = (nx * ny) * (m * n) by ring, mul_div_mul_right _ _ (mul_ne_zero hmc hnc)]
    · simp [h2]
  · simp [h1]

variable {p : ℤ × ℤ} {place : ι → κ} {c : Setup ι} {c' : Setup κ}

/-- The orders of the class. -/
abbrev Spec.SupercellClass.part (h : SupercellClass m n p place c c') : Part ι κ := placePart place h.injective

theorem Spec.SupercellClass.convolution (h : SupercellClass m n p place c c') (hm : m ≠ 0) (hn : n ≠ 0) (x : Grid nx ny) :
    h.part.Carries h.part (convolution c'.expansion (x.pull (tile m n))) (Fmmax.convolution c.expansion x) := by
  refine (placePart_carries_iff h.injective).2 ⟨?_, ?_⟩
  · intro i j
    simp only [Fmmax.convolution, of_apply]
    rw [tile_coefficient hm hn, h.expansion, h.expansion]
    have e1 : (m * (c.expansion i).1 + p.1, n * (c.expansion i).2 + p.2) - (m * (c.expansion j).1 + p.1, n * (c.expansion j).2 + p.2) =
        ((m : ℤ) * ((c.expansion i).1 - (c.expansion j).1), (n : ℤ) * ((c.expansion i).2 - (c.expansion j).2)) := by
      apply Prod.ext <;> simp only [Prod.fst_sub, Prod.snd_sub] <;> ring
    rw [e1, if_pos ⟨⟨_, rfl⟩, ⟨_, rfl⟩⟩]
    congr 1
    apply Prod.ext
    · exact Int.mul_ediv_cancel_left _ (by exact_mod_cast hm)
    · exact Int.mul_ediv_cancel_left _ (by exact_mod_cast hn)
  · intro x hx j
    have hd := h.others x hx
    have hno : ¬((m : ℤ) ∣ (c'.expansion x - c'.expansion (place j)).1 ∧ (n : ℤ) ∣ (c'.expansion x - c'.expansion (place j)).2) := by
      rintro ⟨⟨a, ha⟩, ⟨b, hb⟩⟩
      rw [h.expansion] at ha hb
      refine hd ⟨⟨a + (c.expansion j).1, ?_⟩, ⟨b + (c.expansion j).2, ?_⟩⟩
      · simp only [Prod.fst_sub] at ha
        linear_combination ha
      · simp only [Prod.snd_sub] at hb
        linear_combination hb
    have hno' : ¬((m : ℤ) ∣ (c'.expansion (place j) - c'.expansion x).1 ∧ (n : ℤ) ∣ (c'.expansion (place j) - c'.expansion x).2) := by
      rintro ⟨h1, h2⟩
      refine hno ⟨?_, ?_⟩
      · rw [← neg_sub, Prod.fst_neg]; exact (dvd_neg).2 h1
      · rw [← neg_sub, Prod.snd_neg]; exact (dvd_neg).2 h2
    simp only [Fmmax.convolution, of_apply]
    exact ⟨by rw [tile_coefficient hm hn, if_neg hno], by rw [tile_coefficient hm hn, if_neg hno']⟩

theorem Spec.SupercellClass.wavevectors (h : SupercellClass m n p place c c') {k' : κ → ℝ × ℝ}
    (hk : transverseWavevectors c'.inPlaneWavevector c'.lattice c'.expansion = .ok k') :
    (m ≠ 0 ∧ n ≠ 0) ∧ transverseWavevectors c.inPlaneWavevector c.lattice c.expansion = .ok fun i => k' (place i) := by
  have hind' : Independent c'.lattice.u c'.lattice.v := by
    unfold transverseWavevectors at hk
    simp only [bind_eq_ok, reciprocal_eq_ok] at hk
    obtain ⟨_, ⟨h1, -⟩, -⟩ := hk
    exact h1
  have harea : c'.lattice.u.1 * c'.lattice.v.2 - c'.lattice.u.2 * c'.lattice.v.1 =
      m * n * (c.lattice.u.1 * c.lattice.v.2 - c.lattice.u.2 * c.lattice.v.1) := by
    rw [h.u, h.v]
    simp only [Prod.smul_fst, Prod.smul_snd, smul_eq_mul]
    ring
  have hm : (m : ℝ) ≠ 0 := by
    intro h0
    unfold Independent at hind'
    rw [harea, h0] at hind'
    simp at hind'
  have hn : (n : ℝ) ≠ 0 := by
    intro h0
    unfold Independent at hind'
    rw [harea, h0] at hind'
    simp at hind'
  have hind : Independent c.lattice.u c.lattice.v := by
    intro h0
    unfold Independent at hind'
    rw [harea, h0, mul_zero] at hind'
    exact hind' rfl
  refine ⟨⟨by exact_mod_cast hm, by exact_mod_cast hn⟩, ?_⟩
  obtain ⟨k, hk1, hd, -⟩ := C12_transverse_wavevectors c.inPlaneWavevector c.lattice c.expansion hind
  obtain ⟨k2, hk2, hd', -⟩ := C12_transverse_wavevectors c'.inPlaneWavevector c'.lattice c'.expansion hind'
  rw [hk, ok_inj] at hk2
  subst hk2
  rw [hk1, ok_inj]
  funext i
  obtain ⟨d1, d2⟩ := hd i
  obtain ⟨d1', d2'⟩ := hd' (place i)
  rw [h.expansion, h.u] at d1'
  rw [h.expansion, h.v] at d2'
  have e1 := h.wavevector_u
  have e2 := h.wavevector_v
  apply dot_unique hind
  · simp only [dot, Prod.fst_sub, Prod.snd_sub, Prod.smul_fst, Prod.smul_snd, smul_eq_mul] at d1 d1' e1 ⊢
    push_cast at d1'
    apply mul_left_cancel₀ hm
    have : (m : ℝ) * (2 * Real.pi * (p.1 / m)) = 2 * Real.pi * p.1 := by field_simp
    linear_combination (m : ℝ) * d1 - d1' + (m : ℝ) * e1 + this
  · simp only [dot, Prod.fst_sub, Prod.snd_sub, Prod.smul_fst, Prod.smul_snd, smul_eq_mul] at d2 d2' e2 ⊢
    push_cast at d2'
    apply mul_left_cancel₀ hn
    have : (n : ℝ) * (2 * Real.pi * (p.2 / n)) = 2 * Real.pi * p.2 := by field_simp
    linear_combination (n : ℝ) * d2 - d2' + (n : ℝ) * e2 + this

/-- The Fourier matrices of a class. -/
structure FourierPart (e : Part ι κ) (M' : FourierMatrices κ) (M : FourierMatrices ι) : Prop where
  zPermittivity : e.Carries e M'.zPermittivity M.zPermittivity
  zPermeability : e.Carries e M'.zPermeability M.zPermeability
  transversePermeability : e.double.Carries e.double M'.transversePermeability M.transversePermeability
  transversePermittivity : e.double.Carries e.double M'.transversePermittivity M.transversePermittivity
  inverseZPermittivity : e.Carries e M'.inverseZPermittivity M.inverseZPermittivity
  inverseZPermeability : e.Carries e M'.inverseZPermeability M.inverseZPermeability

/-- What is needed for the `z` components of fields and for the wavevectors of orders. -/
structure FieldPart (e : Part ι κ) (place : ι → κ) (l' : LayerSolveResult κ) (l : LayerSolveResult ι) : Prop where
  wellPosed : WellPosed l'
  wavelength : l'.wavelength = l.wavelength
  wavevectors : ∀ i, orderWavevector l' (place i) = orderWavevector l i
  inverseZPermittivity : e.Carries e l'.inverseZPermittivityMatrix l.inverseZPermittivityMatrix
  inverseZPermeability : e.Carries e l'.inverseZPermeabilityMatrix l.inverseZPermeabilityMatrix

theorem magneticToElectric_part {e : Part ι κ} {l' : LayerSolveResult κ} {l : LayerSolveResult ι} (hw : omega l' = omega l)
    (kx : e.Carries e (diagonal fun i => ((orderWavevector l' i).1 : ℂ)) (diagonal fun i => ((orderWavevector l i).1 : ℂ)))
    (ky : e.Carries e (diagonal fun i => ((orderWavevector l' i).2 : ℂ)) (diagonal fun i => ((orderWavevector l i).2 : ℂ)))
    (hz : e.Carries e l'.zPermittivityMatrix l.zPermittivityMatrix) (hu : IsUnit l'.zPermittivityMatrix.det)
    (hM : e.double.Carries e.double l'.transversePermeabilityMatrix l.transversePermeabilityMatrix) :
    e.double.Carries e.double (magneticToElectric l') (magneticToElectric l) := by
  have hη := hz.inv hu (hz.isUnit hu)
  unfold magneticToElectric
  simp only
  rw [hw]
  exact (hM.smul _).sub (Part.carries_fromBlocks ((ky.mul hη).mul ky) ((ky.mul hη).mul kx).neg ((kx.mul hη).mul ky).neg ((kx.mul hη).mul kx))

theorem divergenceMatrix_part {e : Part ι κ} {l' : LayerSolveResult κ} {l : LayerSolveResult ι}
    (kx : e.Carries e (diagonal fun i => ((orderWavevector l' i).1 : ℂ)) (diagonal fun i => ((orderWavevector l i).1 : ℂ)))
    (ky : e.Carries e (diagonal fun i => ((orderWavevector l' i).2 : ℂ)) (diagonal fun i => ((orderWavevector l i).2 : ℂ)))
    (hz : e.Carries e l'.zPermeabilityMatrix l.zPermeabilityMatrix) (hu : IsUnit l'.zPermeabilityMatrix.det) :
    e.double.Carries e.double (divergenceMatrix l') (divergenceMatrix l) := by
  have hν := hz.inv hu (hz.isUnit hu)
  unfold divergenceMatrix
  exact Part.carries_fromBlocks ((kx.mul hν).mul kx) ((kx.mul hν).mul ky) ((ky.mul hν).mul kx) ((ky.mul hν).mul ky)

variable {eig : Matrix (ι ⊕ ι) (ι ⊕ ι) ℂ → (ι ⊕ ι → ℂ) × Matrix (ι ⊕ ι) (ι ⊕ ι) ℂ}
variable {eig' : Matrix (κ ⊕ κ) (κ ⊕ κ) ℂ → (κ ⊕ κ → ℂ) × Matrix (κ ⊕ κ) (κ ⊕ κ) ℂ}

theorem layer_wavevectors {l : LayerSolveResult ι} {c : Setup ι} (h1 : l.inPlaneWavevector = c.inPlaneWavevector) (h2 : l.primitiveLatticeVectors = c.lattice)
    (h3 : l.expansion = c.expansion) {k : ι → ℝ × ℝ} (hk : transverseWavevectors c.inPlaneWavevector c.lattice c.expansion = .ok k) :
    k = orderWavevector l := by
  rw [← h1, ← h2, ← h3] at hk
  exact (transverseWavevectors_layer.1 hk).2

theorem Spec.SupercellClass.numerical (he : IsEig eig) (he' : IsEig eig') (h : SupercellClass m n p place c c') {M' : FourierMatrices κ} {M : FourierMatrices ι}
    (hM : FourierPart h.part M' M) {r' : LayerSolveResult κ}
    (hr' : numericalEigensolve eig' c'.wavelength c'.inPlaneWavevector c'.lattice M' c'.expansion = .ok r') (hφ' : IsUnit r'.eigenvectors.det) :
    ∃ r, numericalEigensolve eig c.wavelength c.inPlaneWavevector c.lattice M c.expansion = .ok r ∧
      ∃ hφ : IsUnit r.eigenvectors.det, LayerPart h.part.double (h.part.double.modes hφ' hφ) r' r ∧ FieldPart h.part place r' r := by
  obtain ⟨hs', f1', f2', f3', f4', -, -⟩ := numerical_solvedFor he' hr'
  obtain ⟨-, -, -, hf'⟩ := numericalEigensolve_modes he' hr'
  obtain ⟨k', A', hk', hA', er'⟩ := numericalEigensolve_ok_iff.1 hr'
  obtain ⟨g1, g2, g3, -⟩ := (eigenproblemMatrix_ok_iff 0 0 hk').1 hA'
  have hk := (h.wavevectors hk').2
  have hA := (eigenproblemMatrix_ok_iff (wavelength := c.wavelength) (m := M) 0 0 hk).2
    ⟨by rw [← h.wavelength]; exact g1, hM.zPermittivity.isUnit g2, hM.zPermeability.isUnit g3, rfl⟩
  obtain ⟨r, hr⟩ : ∃ r, numericalEigensolve eig c.wavelength c.inPlaneWavevector c.lattice M c.expansion = .ok r :=
    ⟨_, numericalEigensolve_ok_iff.2 ⟨_, _, hk, hA, rfl⟩⟩
  refine ⟨r, hr, ?_⟩
  obtain ⟨hs, f1, f2, f3, f4, -, -⟩ := numerical_solvedFor he hr
  obtain ⟨-, -, -, hf⟩ := numericalEigensolve_modes he hr
  obtain ⟨_, _, -, -, er⟩ := numericalEigensolve_ok_iff.1 hr
  have w1 := layer_wavevectors (l := r) (c := c) (by rw [er]; rfl) (by rw [er]; rfl) (by rw [er]; rfl) hk
  have w2 := layer_wavevectors (l := r') (c := c') (by rw [er']; rfl) (by rw [er']; rfl) (by rw [er']; rfl) hk'
  have kx : h.part.Carries h.part (diagonal fun i => ((orderWavevector r' i).1 : ℂ)) (diagonal fun i => ((orderWavevector r i).1 : ℂ)) :=
    placePart_diagonal h.injective fun i => by rw [← w1, ← w2]
  have ky : h.part.Carries h.part (diagonal fun i => ((orderWavevector r' i).2 : ℂ)) (diagonal fun i => ((orderWavevector r i).2 : ℂ)) :=
    placePart_diagonal h.injective fun i => by rw [← w1, ← w2]
  have hE := magneticToElectric_part (by unfold omega; rw [f1, f1', h.wavelength]) kx ky (by rw [f3, f3']; exact hM.zPermittivity) hs'.wellPosed.2.2
    (by rw [f2, f2']; exact hM.transversePermeability)
  have hD := divergenceMatrix_part kx ky (by rw [f4, f4']; exact hM.zPermeability) hs'.zPermeability
  have hop : h.part.double.Carries h.part.double (modeOperator r' M'.transversePermittivity) (modeOperator r M.transversePermittivity) := by
    refine (hM.transversePermittivity.mul hE).sub (hD.mul ?_)
    rw [f2, f2']
    exact hM.transversePermeability
  have hφ : IsUnit r.eigenvectors.det := by
    obtain ⟨V, w, hV, hVw⟩ := hop.diagonalise hφ' hs'.modes
    exact numerical_eigenvectors_invertible he hr hV hVw
  refine ⟨hφ, layerPart_of_solved hs' hs hf' hf hφ' hφ hE hop, hs'.wellPosed, by rw [f1, f1', h.wavelength], fun i => by rw [← w1, ← w2], ?_, ?_⟩
  · rw [er, er']; exact hM.inverseZPermittivity
  · rw [er, er']; exact hM.inverseZPermeability

theorem carries_smul_one (e : Part ι κ) (t : ℂ) : e.Carries e (t • 1) (t • 1) := e.carries_one.smul t

theorem Spec.SupercellClass.uniform (h : SupercellClass m n p place c c') {ε : ℂ} {r' : LayerSolveResult κ}
    (hr' : eigensolveUniformIsotropic c'.wavelength c'.inPlaneWavevector c'.lattice ε c'.expansion = .ok r') (hφ' : IsUnit r'.eigenvectors.det) :
    ∃ r, eigensolveUniformIsotropic c.wavelength c.inPlaneWavevector c.lattice ε c.expansion = .ok r ∧
      ∃ hφ : IsUnit r.eigenvectors.det, LayerPart h.part.double (h.part.double.modes hφ' hφ) r' r ∧ FieldPart h.part place r' r := by
  have hs' := uniform_solvedFor hr'
  obtain ⟨-, -, hf'⟩ := uniform_modeEquation hr'
  obtain ⟨k', w, hk', hw, hε, er'⟩ := eigensolveUniformIsotropic_ok_iff.1 hr'
  have hk := (h.wavevectors hk').2
  obtain ⟨r, hr⟩ : ∃ r, eigensolveUniformIsotropic c.wavelength c.inPlaneWavevector c.lattice ε c.expansion = .ok r :=
    ⟨_, eigensolveUniformIsotropic_ok_iff.2 ⟨_, _, hk, by rw [← h.wavelength]; exact hw, hε, rfl⟩⟩
  refine ⟨r, hr, ?_⟩
  have hs := uniform_solvedFor hr
  obtain ⟨-, -, hf⟩ := uniform_modeEquation hr
  obtain ⟨_, _, -, -, -, er⟩ := eigensolveUniformIsotropic_ok_iff.1 hr
  have w1 := layer_wavevectors (l := r) (c := c) (by rw [er]) (by rw [er]) (by rw [er]) hk
  have w2 := layer_wavevectors (l := r') (c := c') (by rw [er']) (by rw [er']) (by rw [er']) hk'
  have kx : h.part.Carries h.part (diagonal fun i => ((orderWavevector r' i).1 : ℂ)) (diagonal fun i => ((orderWavevector r i).1 : ℂ)) :=
    placePart_diagonal h.injective fun i => by rw [← w1, ← w2]
  have ky : h.part.Carries h.part (diagonal fun i => ((orderWavevector r' i).2 : ℂ)) (diagonal fun i => ((orderWavevector r i).2 : ℂ)) :=
    placePart_diagonal h.injective fun i => by rw [← w1, ← w2]
  have hT : h.part.double.Carries h.part.double r'.transversePermeabilityMatrix r.transversePermeabilityMatrix := by
    rw [er, er']; simpa using h.part.double.carries_one
  have hE := magneticToElectric_part (by unfold omega; rw [er, er', h.wavelength]) kx ky (by rw [er, er']; simpa [diag_const] using carries_smul_one _ ε)
    hs'.wellPosed.2.2 hT
  have hD := divergenceMatrix_part kx ky (by rw [er, er']; simpa using h.part.carries_one) hs'.zPermeability
  have hop : h.part.double.Carries h.part.double (modeOperator r' (ε • 1)) (modeOperator r (ε • 1)) :=
    (((h.part.double.carries_one).smul ε).mul hE).sub (hD.mul hT)
  have hφ : IsUnit r.eigenvectors.det := by rw [er]; simp
  refine ⟨hφ, layerPart_of_solved hs' hs hf' hf hφ' hφ hE hop, hs'.wellPosed, by rw [er, er']; exact h.wavelength, fun i => by rw [← w1, ← w2], ?_, ?_⟩
  · rw [er, er']; simpa [diag_const] using carries_smul_one h.part (1 / ε)
  · rw [er, er']; simpa [diag_const] using h.part.carries_one

end Fmmax
