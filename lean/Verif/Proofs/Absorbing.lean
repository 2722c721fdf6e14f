import Verif.Proofs.Energy
import Verif.Props.Fmm

/-! In absorbing layers no mode has a vanishing eigenvalue: such a mode would give fields linear in `z`, whose energy balance
contradicts the absorption. -/

set_option linter.unusedSectionVars false

namespace Fmmax

open Spec Matrix

variable {nx ny : ℕ} {ι : Type} [Fintype ι] [DecidableEq ι]
variable {eig : Matrix (ι ⊕ ι) (ι ⊕ ι) ℂ → (ι ⊕ ι → ℂ) × Matrix (ι ⊕ ι) (ι ⊕ ι) ℂ}

theorem lossForm_zero {n : Type} [Fintype n] (A : Matrix n n ℂ) : lossForm A 0 = 0 := by simp [lossForm]

theorem Spec.Absorbing.passive {n : Type} [Fintype n] {A : Matrix n n ℂ} (h : Absorbing A) : Passive A := by
  intro x
  by_cases hx : x = 0
  · rw [hx, lossForm_zero]
  · exact (h x hx).le

theorem absorbing_eigenvalue_ne_zero {l : LayerSolveResult ι} {E : ModeMatrix ι} (hs : SolvedFor l E) (hl : 0 < l.wavelength)
    (hE : Absorbing E) (hε : Absorbing l.zPermittivityMatrix) (hM : Passive l.transversePermeabilityMatrix)
    (hMu : IsUnit l.transversePermeabilityMatrix.det) (hμ : Passive l.zPermeabilityMatrix) {j : ι ⊕ ι}
    (hv : ∃ i, l.eigenvectors i j ≠ 0) : l.eigenvalues j ≠ 0 := by
  intro hq
  have hω : 0 < omega l := by unfold omega; have := Real.pi_pos; positivity
  have hw := omega_ne_zero hs.wellPosed
  let v : Matrix (ι ⊕ ι) Unit ℂ := Matrix.of fun i _ => l.eigenvectors i j
  let u : Matrix (ι ⊕ ι) Unit ℂ := (Complex.I / (omega l : ℂ)) • (magneticToElectric l * v)
  have hcol : ∀ (A : ModeMatrix ι), A * v = Matrix.of fun i _ => (A * l.eigenvectors) i j := by
    intro A
    ext i c
    simp [v, Matrix.mul_apply]
  have hN : ((omega l : ℂ) ^ 2 • E - divergenceMatrix l) * u = 0 := by
    simp only [u]
    rw [Matrix.mul_smul, ← Matrix.mul_assoc, SolvedFor.product, Matrix.smul_mul, hcol, hs.modes]
    ext i c
    simp [Matrix.mul_diagonal, hq]
  have ode : TransverseODE l E (fun z => (z : ℂ) • u) (fun _ => v) := by
    intro z i c
    constructor
    · have := (Complex.ofRealCLM.hasDerivAt (x := z)).mul_const (u i c)
      simpa [u] using this
    · rw [Matrix.mul_smul, hN]
      simpa using hasDerivAt_const z (v i c)
  have hP := fun z => poynting (maxwell_of_ode hs.wellPosed hs.zPermeability ode) z ()
  simp only [tangentialE_maxwellFields, tangentialH_maxwellFields] at hP
  have hlin : ∀ z : ℝ, HasDerivAt (fun z : ℝ => netFlux ((z : ℂ) • u) v ()) (netFlux u v ()) z := by
    intro z
    have e : (fun z : ℝ => netFlux ((z : ℂ) • u) v ()) = fun z => z * netFlux u v () := by
      funext z
      simp only [netFlux, Finset.mul_sum, Matrix.smul_apply, smul_eq_mul]
      refine Finset.sum_congr rfl fun i _ => ?_
      rw [star_mul', Complex.star_def, Complex.conj_ofReal, mul_assoc, Complex.re_ofReal_mul]
    rw [e]
    simpa using (hasDerivAt_id z).mul_const (netFlux u v ())
  have h0 := (hlin 0).unique (hP 0)
  have h1 := (hlin 1).unique (hP 1)
  have z1 : (fun i => (((0 : ℝ) : ℂ) • u) i ()) = 0 := by funext i; simp
  have z2 : (fun i => (maxwellFields l (((0 : ℝ) : ℂ) • u) v).hz i ()) = 0 := by
    have e0 : ((0 : ℝ) : ℂ) • u = 0 := by simp
    rw [e0]
    have e1 : (Matrix.of fun i c => -(0 : Matrix (ι ⊕ ι) Unit ℂ) (.inl i) c : Matrix ι Unit ℂ) = 0 := by ext; simp
    have e2 : (Matrix.of fun i c => (0 : Matrix (ι ⊕ ι) Unit ℂ) (.inr i) c : Matrix ι Unit ℂ) = 0 := by ext; simp
    funext i
    simp only [maxwellFields, e1, e2]
    simp
  have z3 : ∀ z z' : ℝ, (fun i => (maxwellFields l ((z : ℂ) • u) v).ez i ()) = fun i => (maxwellFields l ((z' : ℂ) • u) v).ez i () :=
    fun z z' => rfl
  rw [z1, z2, lossForm_zero, lossForm_zero, z3 0 1] at h0
  rw [h0] at h1
  -- no electric field
  have hu : u = 0 := by
    by_contra hne
    have hx : (fun i => (((1 : ℝ) : ℂ) • u) i ()) ≠ 0 := by
      intro h
      apply hne
      ext i c
      have := congrFun h i
      simpa using this
    have p1 := hE _ hx
    have p2 := hμ fun i => (maxwellFields l (((1 : ℝ) : ℂ) • u) v).hz i ()
    generalize lossForm E _ = a at *
    generalize lossForm l.transversePermeabilityMatrix _ = b at *
    generalize lossForm l.zPermittivityMatrix _ = c at *
    generalize lossForm l.zPermeabilityMatrix _ = d at *
    have : omega l * (a + d) = 0 := by linear_combination h1
    have := mul_pos hω (by linarith : 0 < a + d)
    linarith
  -- no `Ez`
  have hez : (fun i => (maxwellFields l (((1 : ℝ) : ℂ) • u) v).ez i ()) = 0 := by
    by_contra hne
    have p1 := hε _ hne
    have p2 := hM fun i => v i ()
    have hz : netFlux u v () = 0 := by rw [hu]; simp [netFlux]
    rw [hz] at h0
    generalize lossForm l.transversePermeabilityMatrix _ = b at *
    generalize lossForm l.zPermittivityMatrix _ = c at *
    have := mul_pos hω (by linarith : 0 < b + c)
    linarith
  have hX : magneticToElectric l * v = 0 := by
    have : (Complex.I / (omega l : ℂ)) • (magneticToElectric l * v) = 0 := hu
    exact (smul_eq_zero.1 this).resolve_left (div_ne_zero Complex.I_ne_zero hw)
  have hvr : v = Matrix.fromRows (Matrix.of fun i c => v (.inl i) c) (Matrix.of fun i c => v (.inr i) c) := by
    ext i c
    rcases i <;> rfl
  have hη : l.zPermittivityMatrix⁻¹ * (kxMatrix l * (Matrix.of fun i c => v (.inr i) c) -
      kyMatrix l * Matrix.of fun i c => v (.inl i) c) = 0 := by
    ext i c
    have := congrFun hez i
    simp only [maxwellFields, Matrix.neg_apply, Matrix.smul_apply, smul_eq_mul, Pi.zero_apply, neg_eq_zero, mul_eq_zero,
      inv_eq_zero] at this
    exact this.resolve_left hw
  rw [hvr, magneticToElectric_mul, hη, ← hvr] at hX
  simp only [Matrix.mul_zero, neg_zero, Matrix.fromRows_zero, add_zero] at hX
  have hMv := (smul_eq_zero.1 hX).resolve_left (pow_ne_zero 2 hw)
  have hv0 : v = 0 := by
    have := congrArg (fun A => l.transversePermeabilityMatrix⁻¹ * A) hMv
    simp only [Matrix.mul_zero] at this
    rwa [← Matrix.mul_assoc, Matrix.nonsing_inv_mul _ hMu, Matrix.one_mul] at this
  obtain ⟨i, hi⟩ := hv
  exact hi (congrFun (congrFun hv0 i) ())

theorem convolution_absorbing {x : Grid nx ny} {G : ι → ℤ × ℤ} (hR : Resolves nx ny G) (hG : Function.Injective G)
    (hx : ∀ r s, 0 < (x r s).im) : Absorbing (Matrix.of fun i j => fourierCoefficient x (G i - G j)) := by
  intro y hy
  -- the form of `-i x` has positive real part
  have := convolution_form_re_pos (Matrix.of fun r s => -Complex.I * x r s) hR hG (by intro r s; simpa using hx r s) y hy
  unfold lossForm
  rw [convolution_form] at this ⊢
  have e : (∑ r : Fin nx, ∑ s : Fin ny, (Matrix.of fun r s => -Complex.I * x r s) r s *
      (Complex.normSq (fourierSeries G y nx ny r s) : ℂ)) / (nx * ny) =
      -Complex.I * ((∑ r : Fin nx, ∑ s : Fin ny, x r s * (Complex.normSq (fourierSeries G y nx ny r s) : ℂ)) / (nx * ny)) := by
    rw [mul_div_assoc', Finset.mul_sum]
    congr 1
    refine Finset.sum_congr rfl fun r _ => ?_
    rw [Finset.mul_sum]
    refine Finset.sum_congr rfl fun s _ => ?_
    rw [Matrix.of_apply, mul_assoc]
  rw [e] at this
  simpa using this

theorem absorbing_fromBlocks {A D : Matrix ι ι ℂ} (hA : Absorbing A) (hD : Absorbing D) :
    Absorbing (Matrix.fromBlocks A 0 0 D) := by
  intro x hx
  have e : lossForm (Matrix.fromBlocks A 0 0 D) x = lossForm A (fun i => x (.inl i)) + lossForm D (fun i => x (.inr i)) := by
    unfold lossForm
    obtain ⟨u, v, rfl⟩ : ∃ u v, x = Sum.elim u v := ⟨fun i => x (.inl i), fun i => x (.inr i), by funext i; rcases i <;> rfl⟩
    rw [Matrix.fromBlocks_mulVec]
    simp [dotProduct]
  rw [e]
  by_cases h : (fun i => x (.inl i)) = 0
  · have : (fun i => x (.inr i)) ≠ 0 := by
      intro h'
      apply hx
      funext i
      rcases i with i | i
      · exact congrFun h i
      · exact congrFun h' i
    have p1 := hA.passive fun i => x (.inl i)
    have p2 := hD _ this
    linarith
  · have p1 := hA _ h
    have p2 := hD.passive fun i => x (.inr i)
    linarith

end Fmmax
