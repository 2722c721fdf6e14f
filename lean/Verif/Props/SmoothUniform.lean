import Verif.Proofs.SmoothUniform
import Verif.Props.Smooth
import Verif.Props.Fmm
import Verif.Props.Fresnel

/-!
C115: uniform layers depend smoothly on wavelength, in-plane wavevector, lattice and permittivity, except that eigenvalues of
lossless propagating modes change sign when the permittivity acquires gain.
-/

namespace Fmmax

open Matrix Spec Topology

variable {E : Type} [NormedAddCommGroup E] [NormedSpace ℝ E] {k : WithTop ℕ∞} {x : E}
variable {ι : Type} [Fintype ι] [DecidableEq ι]

/-- The eigenvalues at the point do not vanish, and if one of them is real, then nearby permittivities have no gain. -/
def NoGainAtRealEigenvalues (x : E) (ε : E → ℂ) (q : ι ⊕ ι → ℂ) : Prop :=
  ∀ i, q i ≠ 0 ∧ ((q i).im = 0 → ∀ᶠ y in 𝓝 x, 0 ≤ (ε y).im)

/-- **C115** The solution for a uniform isotropic layer depends on wavelength, in-plane wavevector, lattice vectors and
permittivity as smoothly as these depend on the parameters. -/
theorem C115_uniform_layer {lam : E → ℝ} {p : E → ℝ × ℝ} {lat : E → LatticeVectors} {ε : E → ℂ} (G : ι → ℤ × ℤ)
    (hlam : ContDiffAt ℝ k lam x) (hp : SmoothPair k x p) (hu : SmoothPair k x fun y => (lat y).u)
    (hv : SmoothPair k x fun y => (lat y).v) (hε : ContDiffAt ℝ k ε x)
    (hq : ∀ r, eigensolveUniformIsotropic (lam x) (p x) (lat x) (ε x) G = .ok r →
      NoGainAtRealEigenvalues x ε r.eigenvalues) :
    DependsSmoothly (SmoothLayer k x) x fun y => eigensolveUniformIsotropic (lam y) (p y) (lat y) (ε y) G := by
  refine (dependsSmoothly_transverseWavevectors G hp hu hv).bind' fun q hqs hqx => ?_
  refine (dependsSmoothly_angularFrequency' hlam).bind' fun w hw hwx => ?_
  have hε' : ε x ≠ 0 → NoGainAtRealEigenvalues x ε (fun i : ι ⊕ ι => selectEigenvaluesSign (csqrt (ε x * (w x : ℂ) ^ 2 -
      ((q x (i.elim id id)).1 : ℂ) ^ 2 - ((q x (i.elim id id)).2 : ℂ) ^ 2))) := fun h0 =>
    hq _ (eigensolveUniformIsotropic_ok_iff.2 ⟨_, _, hqx, hwx, h0, rfl⟩)
  refine DependsSmoothly.guard (C := fun y => ε y ≠ 0) (fun y hy => if_neg hy) ?_
    (fun h0 => hε.continuousAt.eventually_ne h0) fun h0 => ?_
  · intro y hy v hv
    rw [if_pos (not_not.1 hy)] at hv
    cases hv
  have hW : ∀ i, ContDiffAt ℝ k (fun y => ε y * (w y : ℂ) ^ 2 - ((q y i).1 : ℂ) ^ 2 - ((q y i).2 : ℂ) ^ 2) x := fun i =>
    ((hε.mul ((contDiffAt_ofReal hw.1).pow 2)).sub ((contDiffAt_ofReal (hqs i).1).pow 2)).sub
      ((contDiffAt_ofReal (hqs i).2).pow 2)
  have key : ∀ i, ContDiffAt ℝ k (fun y => selectEigenvaluesSign (csqrt
      (ε y * (w y : ℂ) ^ 2 - ((q y i).1 : ℂ) ^ 2 - ((q y i).2 : ℂ) ^ 2))) x := by
    intro i
    obtain ⟨h1, h2⟩ := hε' h0 (.inl i)
    refine contDiffAt_forward (hW i) (fun h => h1 ?_) fun h => ?_
    · have h := (selectEigenvaluesSign_forward (ε x * (w x : ℂ) ^ 2 - ((q x i).1 : ℂ) ^ 2 - ((q x i).2 : ℂ) ^ 2)).1.trans h
      exact pow_eq_zero_iff two_ne_zero |>.1 h
    · refine (h2 h).mono fun y hy => ?_
      have e : (ε y * (w y : ℂ) ^ 2 - ((q y i).1 : ℂ) ^ 2 - ((q y i).2 : ℂ) ^ 2).im = (ε y).im * w y ^ 2 := by
        simp [← Complex.ofReal_pow]
      rw [e]
      positivity
  refine ⟨hlam, hp, hu, hv, fun _ => rfl, ?_, .const _, .diag fun _ => hε, .diag fun _ => ?_, .const _, .const _, .const _⟩
  · rintro (i | i)
    exacts [key i, key i]
  · simp only [one_div]
    exact contDiffAt_inv' hε h0

/-- **C115** From the physical parameters of uniform layers to the scattering matrix of the stack. -/
theorem C115_uniform_stack {lam : E → ℝ} {p : E → ℝ × ℝ} {lat : E → LatticeVectors} {εs : List (E → ℂ)} {ds : List (E → ℝ)}
    (G : ι → ℤ × ℤ) (hlam : ContDiffAt ℝ k lam x) (hp : SmoothPair k x p) (hu : SmoothPair k x fun y => (lat y).u)
    (hv : SmoothPair k x fun y => (lat y).v) (hε : ∀ ε ∈ εs, ContDiffAt ℝ k ε x) (hd : ∀ d ∈ ds, ContDiffAt ℝ k d x)
    (hq : ∀ ε ∈ εs, ∀ r, eigensolveUniformIsotropic (lam x) (p x) (lat x) (ε x) G = .ok r →
      NoGainAtRealEigenvalues x ε r.eigenvalues) :
    DependsSmoothly (SmoothScattering k x) x fun y =>
      (εs.mapM fun ε => eigensolveUniformIsotropic (lam y) (p y) (lat y) (ε y) G) >>= fun layers =>
        stackSMatrix layers (ds.map fun d => d y) := by
  have hsolve : DependsSmoothly (SmoothList (SmoothLayer k x)) x fun y =>
      εs.mapM fun ε => eigensolveUniformIsotropic (lam y) (p y) (lat y) (ε y) G := by
    clear hd
    induction εs with
    | nil =>
      simp only [List.mapM_nil]
      exact DependsSmoothly.pure SmoothList.nil
    | cons ε εs ih =>
      simp only [List.mapM_cons]
      refine (C115_uniform_layer G hlam hp hu hv (hε ε (by simp)) (hq ε (by simp))).bind fun r hr => ?_
      refine (ih (fun a ha => hε a (by simp [ha])) fun a ha => hq a (by simp [ha])).bind fun t ht => ?_
      exact DependsSmoothly.pure (ht.cons hr)
  refine hsolve.bind fun L hL => ?_
  obtain ⟨gs, h, hP⟩ := hL
  simp only [h]
  exact C114_stack_s_matrix hP hd

/-- **C115** If a lossless layer with a propagating mode acquires a little loss its eigenvalue moves continuously, but if it
acquires a little gain the eigenvalue jumps to the opposite number. -/
theorem C115_finding_gain_flips_eigenvalues {lam : ℝ} {p : ℝ × ℝ} {lat : LatticeVectors} {ε₀ : ℝ} {G : ι → ℤ × ℤ}
    {r : ℝ → LayerSolveResult ι} (h : ∀ t : ℝ, ε₀ + t * Complex.I ≠ 0 →
      eigensolveUniformIsotropic lam p lat (ε₀ + t * Complex.I) G = .ok (r t)) (hε₀ : ε₀ ≠ 0) (i : ι ⊕ ι)
    (hq : (r 0).eigenvalues i ≠ 0) (him : ((r 0).eigenvalues i).im = 0) :
    Filter.Tendsto (fun t => (r t).eigenvalues i) (𝓝[>] 0) (𝓝 ((r 0).eigenvalues i)) ∧
    Filter.Tendsto (fun t => (r t).eigenvalues i) (𝓝[<] 0) (𝓝 (-(r 0).eigenvalues i)) ∧
    ¬ContinuousAt (fun t => (r t).eigenvalues i) 0 := by
  have hne : ∀ t : ℝ, (ε₀ : ℂ) + t * Complex.I ≠ 0 := by
    intro t ht
    have := congrArg Complex.re ht
    simp at this
    exact hε₀ this
  obtain ⟨q, w, hqk, hw, -, hr0⟩ := eigensolveUniformIsotropic_ok_iff.1 (h 0 (hne 0))
  have hw0 : w ≠ 0 := by
    intro h0
    rw [h0] at hw
    unfold angularFrequency at hw
    split_ifs at hw with hl
    injection hw with hw
    have := Real.pi_ne_zero
    exact (div_ne_zero (by positivity) hl) hw
  have hr : ∀ t, (r t).eigenvalues i = selectEigenvaluesSign (csqrt ((ε₀ + t * Complex.I) * (w : ℂ) ^ 2 -
      ((q (i.elim id id)).1 : ℂ) ^ 2 - ((q (i.elim id id)).2 : ℂ) ^ 2)) := by
    intro t
    obtain ⟨q', w', hqk', hw', -, hrt⟩ := eigensolveUniformIsotropic_ok_iff.1 (h t (hne t))
    rw [hqk] at hqk'
    rw [hw] at hw'
    cases hqk'
    cases hw'
    rw [hrt]
  set a : ℂ := ((q (i.elim id id)).1 : ℂ) with ha
  set b : ℂ := ((q (i.elim id id)).2 : ℂ) with hb
  have hWim : ∀ t : ℝ, ((ε₀ + t * Complex.I) * (w : ℂ) ^ 2 - a ^ 2 - b ^ 2).im = t * w ^ 2 := by
    intro t
    simp [ha, hb, ← Complex.ofReal_pow]
  have hWc : Continuous fun t : ℝ => ((ε₀ : ℂ) + t * Complex.I) * (w : ℂ) ^ 2 - a ^ 2 - b ^ 2 := by fun_prop
  have hslit : ((ε₀ + (0 : ℝ) * Complex.I) * (w : ℂ) ^ 2 - a ^ 2 - b ^ 2) ∈ Complex.slitPlane := by
    have hs := (selectEigenvaluesSign_forward ((ε₀ + (0 : ℝ) * Complex.I) * (w : ℂ) ^ 2 - a ^ 2 - b ^ 2)).1
    rw [← hr 0] at hs
    rw [← hs]
    refine Complex.mem_slitPlane_iff.2 (Or.inl ?_)
    have hre : ((r 0).eigenvalues i).re ≠ 0 := fun h0 => hq (Complex.ext h0 him)
    simp only [pow_two, Complex.mul_re, him, mul_zero, sub_zero]
    exact mul_self_pos.2 hre
  have hsc : ContinuousAt (fun t : ℝ => csqrt (((ε₀ : ℂ) + t * Complex.I) * (w : ℂ) ^ 2 - a ^ 2 - b ^ 2)) 0 := by
    have h1 : ContDiffAt ℝ 0 (fun t : ℝ => ((ε₀ : ℂ) + t * Complex.I) * (w : ℂ) ^ 2 - a ^ 2 - b ^ 2) 0 :=
      contDiff_zero.2 hWc |>.contDiffAt
    exact (contDiffAt_csqrt h1 hslit).continuousAt
  have h0 : (r 0).eigenvalues i = csqrt ((ε₀ + (0 : ℝ) * Complex.I) * (w : ℂ) ^ 2 - a ^ 2 - b ^ 2) := by
    rw [hr 0]
    exact forward_eq_csqrt (by rw [hWim]; simp) hslit
  have hup : Filter.Tendsto (fun t => (r t).eigenvalues i) (𝓝[>] 0) (𝓝 ((r 0).eigenvalues i)) := by
    rw [h0]
    refine (hsc.tendsto.mono_left nhdsWithin_le_nhds).congr' ?_
    filter_upwards [self_mem_nhdsWithin, nhdsWithin_le_nhds
      (hWc.continuousAt.eventually (Complex.isOpen_slitPlane.mem_nhds hslit))] with t ht hs
    rw [hr t]
    refine (forward_eq_csqrt ?_ hs).symm
    rw [hWim]
    exact mul_nonneg (Set.mem_Ioi.1 ht).le (sq_nonneg w)
  have hdown : Filter.Tendsto (fun t => (r t).eigenvalues i) (𝓝[<] 0) (𝓝 (-(r 0).eigenvalues i)) := by
    rw [h0]
    refine (hsc.tendsto.mono_left nhdsWithin_le_nhds).neg.congr' ?_
    filter_upwards [self_mem_nhdsWithin] with t ht
    rw [hr t]
    refine (forward_eq_neg_csqrt ?_).symm
    rw [hWim]
    exact mul_neg_of_neg_of_pos (Set.mem_Iio.1 ht) (by positivity)
  refine ⟨hup, hdown, fun hc => hq ?_⟩
  have := tendsto_nhds_unique hdown (hc.tendsto.mono_left nhdsWithin_le_nhds)
  exact self_eq_neg.1 this.symm

/-- The limit of the forward root from the side of gain. -/
theorem forward_gain_limit {x ω : ℝ} {a b : ℝ} {q : ℂ} (hω : ω ≠ 0)
    (hq : IsForwardRoot ((x : ℂ) * (ω : ℂ) ^ 2 - (a : ℂ) ^ 2 - (b : ℂ) ^ 2) q) (h0 : q ≠ 0) (him : q.im = 0) :
    Filter.Tendsto (fun t : ℝ => selectEigenvaluesSign (csqrt (((x : ℂ) + t * Complex.I) * (ω : ℂ) ^ 2 - (a : ℂ) ^ 2 - (b : ℂ) ^ 2)))
      (𝓝[<] 0) (𝓝 (-q)) := by
  have hWc : Continuous fun t : ℝ => ((x : ℂ) + t * Complex.I) * (ω : ℂ) ^ 2 - (a : ℂ) ^ 2 - (b : ℂ) ^ 2 := by fun_prop
  have e0 : ((x : ℂ) + (0 : ℝ) * Complex.I) * (ω : ℂ) ^ 2 - (a : ℂ) ^ 2 - (b : ℂ) ^ 2 = q ^ 2 := by
    rw [hq.1]
    simp
  have hslit : ((x : ℂ) + (0 : ℝ) * Complex.I) * (ω : ℂ) ^ 2 - (a : ℂ) ^ 2 - (b : ℂ) ^ 2 ∈ Complex.slitPlane := by
    rw [e0]
    refine Complex.mem_slitPlane_iff.2 (Or.inl ?_)
    have hre : q.re ≠ 0 := fun h => h0 (Complex.ext h him)
    simp only [pow_two, Complex.mul_re, him, mul_zero, sub_zero]
    exact mul_self_pos.2 hre
  have hsc : ContinuousAt (fun t : ℝ => csqrt (((x : ℂ) + t * Complex.I) * (ω : ℂ) ^ 2 - (a : ℂ) ^ 2 - (b : ℂ) ^ 2)) 0 := by
    have h1 : ContDiffAt ℝ 0 (fun t : ℝ => ((x : ℂ) + t * Complex.I) * (ω : ℂ) ^ 2 - (a : ℂ) ^ 2 - (b : ℂ) ^ 2) 0 :=
      contDiff_zero.2 hWc |>.contDiffAt
    exact (contDiffAt_csqrt h1 hslit).continuousAt
  have hq' : csqrt (((x : ℂ) + (0 : ℝ) * Complex.I) * (ω : ℂ) ^ 2 - (a : ℂ) ^ 2 - (b : ℂ) ^ 2) = q := by
    have him' : 0 ≤ (((x : ℂ) + (0 : ℝ) * Complex.I) * (ω : ℂ) ^ 2 - (a : ℂ) ^ 2 - (b : ℂ) ^ 2).im := by
      rw [e0]
      simp [pow_two, him]
    rw [← forward_eq_csqrt him' hslit]
    refine isForwardRoot_unique (selectEigenvaluesSign_forward _) ?_
    rw [e0]
    exact ⟨rfl, hq.2⟩
  have := hsc.tendsto
  rw [hq'] at this
  refine (this.mono_left nhdsWithin_le_nhds).neg.congr' ?_
  filter_upwards [self_mem_nhdsWithin] with t ht
  refine (forward_eq_neg_csqrt ?_).symm
  have : (((x : ℂ) + t * Complex.I) * (ω : ℂ) ^ 2 - (a : ℂ) ^ 2 - (b : ℂ) ^ 2).im = t * ω ^ 2 := by
    simp [← Complex.ofReal_pow]
  rw [this]
  exact mul_neg_of_neg_of_pos (Set.mem_Iio.1 ht) (by positivity)

/-- **C115** The consequence for an interface with a lossless substrate in which the wave propagates: with vanishing gain in the
substrate the reflection coefficient tends to the inverse of the coefficient without gain. -/
theorem C115_finding_gain_inverts_reflection {eig : Matrix (ι ⊕ ι) (ι ⊕ ι) ℂ → (ι ⊕ ι → ℂ) × Matrix (ι ⊕ ι) (ι ⊕ ι) ℂ}
    {c : Setup ι} {q : ι → ℝ × ℝ} {ε₁ : ℂ} {x₂ d₁ d₂ : ℝ} {S : ℝ → ScatteringMatrix ι} {q₁ q₂ : ι → ℂ}
    (hS : ∀ᶠ t : ℝ in 𝓝 0, ComputedSMatrix eig c ([(ε₁, d₁), ((x₂ : ℂ) + t * Complex.I, d₂)].map homogeneous) (S t))
    (hk : transverseWavevectors c.inPlaneWavevector c.lattice c.expansion = .ok q)
    (hq1 : ZWavenumbers c q ε₁ q₁) (hq2 : ZWavenumbers c q x₂ q₂) {pol : Polarization} {i : ι} {p : ℂ × ℂ}
    (hp : pol.Along (q i) p) (him : (q₂ i).im = 0) (hR : pol.reflection ε₁ (q₁ i) x₂ (q₂ i) ≠ 0) :
    ∃ ρ : ℝ → ℂ, (∀ᶠ t : ℝ in 𝓝 0, (S t).s21 *ᵥ orderWave i p = (ρ t * Complex.exp (Complex.I * q₁ i * d₁)) • orderWave i p) ∧
      ρ 0 = pol.reflection ε₁ (q₁ i) x₂ (q₂ i) ∧ Filter.Tendsto ρ (𝓝[<] 0) (𝓝 (ρ 0)⁻¹) := by
  have hS0 := hS.self_of_nhds
  obtain ⟨hw, hε⟩ := computed_facts hS0 (by simp)
  have hω : 2 * Real.pi / c.wavelength ≠ 0 := div_ne_zero (by positivity) hw
  have hq2' : ZWavenumbers c q ((x₂ : ℂ) + (0 : ℝ) * Complex.I) q₂ := by simpa using hq2
  have hne := (C93_interface_succeeds_iff hw hk (hε (ε₁, d₁) (by simp)) (hε (_, d₂) (by simp)) hq1 hq2').1 ⟨_, hS0⟩
  set Q : ℝ → ι → ℂ := fun t j => selectEigenvaluesSign (csqrt (((x₂ : ℂ) + t * Complex.I) *
    ((2 * Real.pi / c.wavelength : ℝ) : ℂ) ^ 2 - ((q j).1 : ℂ) ^ 2 - ((q j).2 : ℂ) ^ 2)) with hQ
  have hZ : ∀ t : ℝ, ZWavenumbers c q ((x₂ : ℂ) + t * Complex.I) (Q t) := fun t j => selectEigenvaluesSign_forward _
  have hQ0 : Q 0 i = q₂ i := isForwardRoot_unique (hZ 0 i) (hq2' i)
  have hlim : Filter.Tendsto (fun t => Q t i) (𝓝[<] 0) (𝓝 (-q₂ i)) :=
    forward_gain_limit hω (hq2 i) (hne i).2.1 him
  have hεlim : Filter.Tendsto (fun t : ℝ => (x₂ : ℂ) + t * Complex.I) (𝓝[<] 0) (𝓝 x₂) := by
    have : Continuous fun t : ℝ => (x₂ : ℂ) + t * Complex.I := by fun_prop
    have := this.tendsto 0
    simp only [Complex.ofReal_zero, zero_mul, add_zero] at this
    exact this.mono_left nhdsWithin_le_nhds
  refine ⟨fun t => pol.reflection ε₁ (q₁ i) ((x₂ : ℂ) + t * Complex.I) (Q t i), ?_, ?_, ?_⟩
  · filter_upwards [hS] with t ht
    exact (C93_fresnel ht hk hq1 (hZ t) hp).1
  · simp [hQ0]
  · simp only [hQ0, Complex.ofReal_zero, zero_mul, add_zero]
    cases pol with
    | te =>
      simp only [Polarization.reflection] at hR ⊢
      have hnum : q₂ i - q₁ i ≠ 0 := fun h => hR (by simp [h])
      have : ((q₂ i - q₁ i) / (q₁ i + q₂ i))⁻¹ = (-q₂ i - q₁ i) / (q₁ i + -q₂ i) := by
        rw [inv_div, ← neg_div_neg_eq]
        congr 1 <;> ring
      rw [this]
      exact (hlim.sub_const _).div (hlim.const_add _) fun h => hnum (by linear_combination -h)
    | tm =>
      simp only [Polarization.reflection] at hR ⊢
      have hnum : (x₂ : ℂ) * q₁ i - ε₁ * q₂ i ≠ 0 := fun h => hR (by simp [h])
      have : (((x₂ : ℂ) * q₁ i - ε₁ * q₂ i) / ((x₂ : ℂ) * q₁ i + ε₁ * q₂ i))⁻¹ =
          ((x₂ : ℂ) * q₁ i - ε₁ * -q₂ i) / ((x₂ : ℂ) * q₁ i + ε₁ * -q₂ i) := by
        rw [inv_div]
        congr 1 <;> ring
      rw [this]
      exact ((hεlim.mul_const _).sub (hlim.const_mul _)).div ((hεlim.mul_const _).add (hlim.const_mul _))
        fun h => hnum (by linear_combination h)

/-! ### Examples -/

/-- Uniform layers of unit square cells at normal incidence, wavelength `2 π`, one order. -/
theorem unit_uniform (ε : ℂ) (h : ε ≠ 0) : ∃ r : LayerSolveResult (Fin 1),
    eigensolveUniformIsotropic (2 * Real.pi) (0, 0) { u := (1, 0), v := (0, 1) } ε (fun _ => (0, 0)) = .ok r ∧
    ∀ i, r.eigenvalues i ^ 2 = ε ∧ (ε = 4 → r.eigenvalues i = 2) := by
  have hpi := Real.pi_ne_zero
  have hk : transverseWavevectors (0, 0) { u := (1, 0), v := (0, 1) } (fun _ : Fin 1 => (0, 0)) =
      .ok fun _ => (0, 0) := by
    simp [transverseWavevectors, reciprocal, crossProduct]
  have hw : angularFrequency (2 * Real.pi) = .ok 1 := by
    simp [angularFrequency]
  refine ⟨_, eigensolveUniformIsotropic_ok_iff.2 ⟨_, _, hk, hw, h, rfl⟩, fun i => ?_⟩
  have e : ε * ((1 : ℝ) : ℂ) ^ 2 - ((0 : ℝ) : ℂ) ^ 2 - ((0 : ℝ) : ℂ) ^ 2 = ε := by simp
  simp only [e]
  refine ⟨(selectEigenvaluesSign_forward ε).1, ?_⟩
  rintro rfl
  exact isForwardRoot_unique (selectEigenvaluesSign_forward 4) ⟨by norm_num, by norm_num, by norm_num⟩

/-- Real permittivities near `4` satisfy the hypotheses of `C115_uniform_layer`. -/
example : ∃ g : ℝ → LayerSolveResult (Fin 1), SmoothLayer ⊤ 4 g ∧ ∀ᶠ t : ℝ in 𝓝 4,
    eigensolveUniformIsotropic (2 * Real.pi) (0, 0) { u := (1, 0), v := (0, 1) } (t : ℂ) (fun _ => (0, 0)) = .ok (g t) := by
  obtain ⟨r, hr, hq⟩ := unit_uniform ((4 : ℝ) : ℂ) (by norm_num)
  obtain ⟨g, -, h1, h2⟩ := C115_uniform_layer (E := ℝ) (k := ⊤) (x := 4) (lam := fun _ => 2 * Real.pi)
    (p := fun _ => (0, 0)) (lat := fun _ => { u := (1, 0), v := (0, 1) }) (ε := fun t => (t : ℂ)) (fun _ : Fin 1 => (0, 0))
    contDiffAt_const ⟨contDiffAt_const, contDiffAt_const⟩ ⟨contDiffAt_const, contDiffAt_const⟩
    ⟨contDiffAt_const, contDiffAt_const⟩ (contDiffAt_ofReal contDiffAt_id) (by
      intro r' hr'
      rw [hr] at hr'
      cases hr'
      refine fun i => ⟨fun h => ?_, fun _ => Filter.Eventually.of_forall fun y => by simp⟩
      have := (hq i).1
      rw [h] at this
      norm_num at this) r hr
  exact ⟨g, h1, h2⟩

/-- The lossless layer of index `2` has a propagating mode, as `C115_finding_gain_flips_eigenvalues` requires. -/
example : ∃ r : ℝ → LayerSolveResult (Fin 1), (∀ t : ℝ, ((4 : ℝ) : ℂ) + t * Complex.I ≠ 0 → eigensolveUniformIsotropic
      (2 * Real.pi) (0, 0) { u := (1, 0), v := (0, 1) } (((4 : ℝ) : ℂ) + t * Complex.I) (fun _ => (0, 0)) = .ok (r t)) ∧
    ∀ i, (r 0).eigenvalues i = 2 := by
  have hne : ∀ t : ℝ, ((4 : ℝ) : ℂ) + t * Complex.I ≠ 0 := by
    intro t ht
    have := congrArg Complex.re ht
    norm_num at this
  choose r hr using fun t : ℝ => unit_uniform (((4 : ℝ) : ℂ) + t * Complex.I) (hne t)
  exact ⟨r, fun t _ => (hr t).1, fun i => ((hr 0).2 i).2 (by norm_num)⟩

/-- The interface between indices `1` and `2` at normal incidence meets the hypotheses of `C115_finding_gain_inverts_reflection`;
the reflection coefficient of the magnetic field is `1 / 3`, so with vanishing gain in the substrate it tends to `3`. -/
example (eig : Matrix (Fin 1 ⊕ Fin 1) (Fin 1 ⊕ Fin 1) ℂ → (Fin 1 ⊕ Fin 1 → ℂ) × Matrix (Fin 1 ⊕ Fin 1) (Fin 1 ⊕ Fin 1) ℂ) :
    ∃ (c : Setup (Fin 1)) (S : ℝ → ScatteringMatrix (Fin 1)),
      (∀ t : ℝ, ComputedSMatrix eig c ([(1, 0), (((4 : ℝ) : ℂ) + t * Complex.I, 0)].map homogeneous) (S t)) ∧
      transverseWavevectors c.inPlaneWavevector c.lattice c.expansion = .ok (fun _ => (0, 0)) ∧
      ZWavenumbers c (fun _ => (0, 0)) 1 (fun _ => 1) ∧ ZWavenumbers c (fun _ => (0, 0)) ((4 : ℝ) : ℂ) (fun _ => 2) ∧
      Polarization.te.reflection 1 1 ((4 : ℝ) : ℂ) 2 = 1 / 3 := by
  have hpi := Real.pi_ne_zero
  let c : Setup (Fin 1) := { wavelength := 2 * Real.pi, inPlaneWavevector := (0, 0), lattice := { u := (1, 0), v := (0, 1) },
                             expansion := fun _ => (0, 0) }
  have hk : transverseWavevectors c.inPlaneWavevector c.lattice c.expansion = .ok fun _ => (0, 0) := by
    simp [c, transverseWavevectors, reciprocal, crossProduct]
  have hω : (2 * Real.pi / c.wavelength : ℝ) = 1 := by
    simp [c]
  have hz : ∀ ε q : ℂ, IsForwardRoot ε q → ZWavenumbers c (fun _ => (0, 0)) ε (fun _ => q) := by
    intro ε q h i
    rw [hω]
    simpa using h
  have h1 : ZWavenumbers c (fun _ => (0, 0)) 1 (fun _ => 1) := hz 1 1 ⟨by norm_num, by norm_num, by norm_num⟩
  have h4 : ZWavenumbers c (fun _ => (0, 0)) ((4 : ℝ) : ℂ) (fun _ => 2) :=
    hz _ 2 ⟨by norm_num, by norm_num, by norm_num⟩
  have hS : ∀ t : ℝ, ∃ S, ComputedSMatrix eig c ([(1, 0), (((4 : ℝ) : ℂ) + t * Complex.I, 0)].map homogeneous) S := by
    intro t
    have hre : (((4 : ℝ) : ℂ) + t * Complex.I).re = 4 := by simp
    have hne : ((4 : ℝ) : ℂ) + t * Complex.I ≠ 0 := fun h => by
      rw [h] at hre
      norm_num at hre
    have hq := selectEigenvaluesSign_forward (((4 : ℝ) : ℂ) + t * Complex.I)
    refine (C93_interface_succeeds_iff (by simpa [c] using hpi) hk one_ne_zero hne h1 (hz _ _ hq)).2 fun i => ?_
    generalize selectEigenvaluesSign (csqrt (((4 : ℝ) : ℂ) + t * Complex.I)) = s at hq
    have hs0 : s ≠ 0 := fun h => hne (by rw [← hq.1, h]; norm_num)
    refine ⟨one_ne_zero, hs0, fun h => ?_⟩
    rw [← hq.1] at h hre
    have h' : s * (s + 1) = 0 := by linear_combination h
    rcases mul_eq_zero.1 h' with h' | h'
    · exact hs0 h'
    · have : s = -1 := by linear_combination h'
      rw [this] at hre
      norm_num at hre
  choose S hS using hS
  refine ⟨c, S, hS, hk, h1, h4, ?_⟩
  simp only [Polarization.reflection]
  norm_num

end Fmmax
