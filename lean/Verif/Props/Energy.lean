import Verif.Props.Fields

/-! Property theorems C42 and C43: energy conservation in lossless stacks, passivity of stacks without gain.

`LosslessLayer`, `PassiveLayer` and `netFlux` are from `Verif/Spec/Maxwell.lean`. -/

set_option linter.unusedSectionVars false

namespace Fmmax

open Spec Matrix

variable {nx ny : ℕ} {ι : Type} [Fintype ι] [DecidableEq ι] {β : Type}
variable {eig : Matrix (ι ⊕ ι) (ι ⊕ ι) ℂ → (ι ⊕ ι → ℂ) × Matrix (ι ⊕ ι) (ι ⊕ ι) ℂ}

/-! ### Which layers are lossless or passive -/

theorem blocks_scalar_passive {a b c d : ℂ} (h : Passive !![a, b; c, d]) :
    Passive (Matrix.fromBlocks (a • (1 : Matrix ι ι ℂ)) (b • (1 : Matrix ι ι ℂ)) (c • (1 : Matrix ι ι ℂ)) (d • (1 : Matrix ι ι ℂ))) := by
  intro x
  obtain ⟨u, v, rfl⟩ : ∃ u v, x = Sum.elim u v := ⟨fun i => x (.inl i), fun i => x (.inr i), by funext i; rcases i <;> rfl⟩
  have e : lossForm (Matrix.fromBlocks (a • (1 : Matrix ι ι ℂ)) (b • (1 : Matrix ι ι ℂ)) (c • (1 : Matrix ι ι ℂ)) (d • (1 : Matrix ι ι ℂ))) (Sum.elim u v) =
      ∑ i, lossForm !![a, b; c, d] ![u i, v i] := by
    unfold lossForm
    rw [Matrix.fromBlocks_mulVec]
    simp only [Matrix.smul_mulVec, Matrix.one_mulVec, dotProduct, Fintype.sum_sum_type, Complex.im_sum, Pi.star_apply,
      Sum.elim_inl, Sum.elim_inr, Complex.add_im, Pi.add_apply, Pi.smul_apply, smul_eq_mul, ← Finset.sum_add_distrib]
    refine Finset.sum_congr rfl fun i _ => ?_
    simp [Matrix.mulVec, dotProduct, Fin.sum_univ_two]
  rw [e]
  exact Finset.sum_nonneg fun i _ => h _

theorem blocks_scalar_hermitian {a b c d : ℂ} (h : (!![a, b; c, d]).IsHermitian) :
    (Matrix.fromBlocks (a • (1 : Matrix ι ι ℂ)) (b • (1 : Matrix ι ι ℂ)) (c • (1 : Matrix ι ι ℂ)) (d • (1 : Matrix ι ι ℂ))).IsHermitian := by
  have ha : star a = a := h.apply 0 0
  have hd : star d = d := h.apply 1 1
  have hb : star b = c := h.apply 1 0
  have hc : star c = b := h.apply 0 1
  unfold Matrix.IsHermitian
  rw [Matrix.fromBlocks_conjTranspose]
  simp only [Matrix.conjTranspose_smul, Matrix.conjTranspose_one, ha, hb, hc, hd]

/-- The tensor acting on `(-Ey, Ex)` is as lossless as the one acting on `(Ex, Ey)`. -/
theorem swapped_hermitian {xx xy yx yy : ℂ} (h : (!![xx, xy; yx, yy]).IsHermitian) : (!![yy, -yx; -xy, xx]).IsHermitian := by
  have ha : star xx = xx := h.apply 0 0
  have hd : star yy = yy := h.apply 1 1
  have hb : star xy = yx := h.apply 1 0
  have hc : star yx = xy := h.apply 0 1
  ext i j
  fin_cases i <;> fin_cases j <;> simp_all [Matrix.conjTranspose_apply]

/-- The tensor acting on `(-Ey, Ex)` is as passive as the one acting on `(Ex, Ey)`. -/
theorem swapped_passive {xx xy yx yy : ℂ} (h : Passive !![xx, xy; yx, yy]) : Passive !![yy, -yx; -xy, xx] := by
  intro x
  have := h ![x 1, -x 0]
  have e : lossForm !![yy, -yx; -xy, xx] x = lossForm !![xx, xy; yx, yy] ![x 1, -x 0] := by
    unfold lossForm
    congr 1
    simp [Matrix.mulVec, dotProduct, Fin.sum_univ_two]
    ring
  rwa [e]

/-- A tensor field whose in-plane part is Hermitian and whose z component is real, at every grid point. -/
def HermitianTensor (t : TensorComponents nx ny) : Prop :=
  ∀ r s, (!![t.xx r s, t.xy r s; t.yx r s, t.yy r s]).IsHermitian ∧ (t.zz r s).im = 0

/-- A tensor field without gain at any grid point. -/
def PassiveTensor (t : TensorComponents nx ny) : Prop :=
  ∀ r s, Passive !![t.xx r s, t.xy r s; t.yx r s, t.yy r s] ∧ 0 ≤ (t.zz r s).im

/-- **C42** Uniform layers with real permittivity are lossless. -/
theorem C42_uniform_lossless {wavelength : ℝ} {inPlane : ℝ × ℝ} {l : LatticeVectors} {ε : ℂ} {G : ι → ℤ × ℤ}
    {r : LayerSolveResult ι} (h : eigensolveUniformIsotropic wavelength inPlane l ε G = .ok r) (hε : ε.im = 0) :
    LosslessLayer r := by
  obtain ⟨k, w, -, -, -, hr⟩ := eigensolveUniformIsotropic_ok_iff.1 h
  have he : star ε = ε := Complex.conj_eq_iff_im.2 hε
  refine ⟨_, uniform_solvedFor h, ?_, ?_, ?_, ?_⟩
  · unfold Matrix.IsHermitian
    rw [Matrix.conjTranspose_smul, Matrix.conjTranspose_one, he]
  · rw [hr]; exact Matrix.isHermitian_one
  · rw [hr]
    show (ε • (1 : Matrix ι ι ℂ)).IsHermitian
    unfold Matrix.IsHermitian
    rw [Matrix.conjTranspose_smul, Matrix.conjTranspose_one, he]
  · rw [hr]; exact Matrix.isHermitian_one

/-- **C43** Uniform layers with `Im ε ≥ 0` are passive. -/
theorem C43_uniform_passive {wavelength : ℝ} (hl : 0 < wavelength) {inPlane : ℝ × ℝ} {l : LatticeVectors} {ε : ℂ}
    {G : ι → ℤ × ℤ} {r : LayerSolveResult ι} (h : eigensolveUniformIsotropic wavelength inPlane l ε G = .ok r)
    (hε : 0 ≤ ε.im) : PassiveLayer r := by
  obtain ⟨k, w, -, -, -, hr⟩ := eigensolveUniformIsotropic_ok_iff.1 h
  refine ⟨by rw [hr]; exact hl, _, uniform_solvedFor h, passive_smul_one hε, ?_, ?_, ?_⟩
  · rw [hr]; exact passive_of_hermitian Matrix.isHermitian_one
  · rw [hr]; exact passive_smul_one hε
  · rw [hr]; exact passive_of_hermitian Matrix.isHermitian_one

/-- **C42** Patterned and uniform anisotropic magnetic layers with Hermitian tensors, solved in the FFT formulation, are
lossless. -/
theorem C42_anisotropic_lossless (he : IsEig eig) {wavelength : ℝ} {inPlane : ℝ × ℝ} {l : LatticeVectors}
    {ε μ : TensorComponents nx ny} {src : Option (Grid nx ny)} {G : ι → ℤ × ℤ} {r : LayerSolveResult ι}
    (h : eigensolveGeneralAnisotropicMedia eig wavelength inPlane l ε μ G .fft src = .ok r) (hε : HermitianTensor ε)
    (hμ : HermitianTensor μ) : LosslessLayer r := by
  unfold eigensolveGeneralAnisotropicMedia at h
  split_ifs at h with hn
  · obtain ⟨rfl, rfl⟩ := hn
    unfold eigensolveUniformAnisotropic at h
    obtain ⟨m, hm, h⟩ := bind_eq_ok.1 h
    obtain ⟨-, -, rfl⟩ := uniformAnisotropic_matrices_eq hm
    obtain ⟨hs, -, f2, f3, f4, -, -⟩ := numerical_solvedFor he h
    have real : ∀ {x : ℂ}, x.im = 0 → (x • (1 : Matrix ι ι ℂ)).IsHermitian := by
      intro x hx
      unfold Matrix.IsHermitian
      rw [Matrix.conjTranspose_smul, Matrix.conjTranspose_one]
      congr 1
      exact Complex.conj_eq_iff_im.2 hx
    refine ⟨_, hs, ?_, ?_, ?_, ?_⟩
    · exact blocks_scalar_hermitian (swapped_hermitian (hε 0 0).1)
    · rw [f2]; exact blocks_scalar_hermitian (hμ 0 0).1
    · rw [f3]; exact real (hε 0 0).2
    · rw [f4]; exact real (hμ 0 0).2
  · unfold eigensolvePatternedAnisotropic at h
    obtain ⟨m, hm, h⟩ := bind_eq_ok.1 h
    obtain ⟨e1, e2, e3, e4⟩ := anisotropic_fft_matrices_eq hm
    obtain ⟨hs, -, f2, f3, f4, -, -⟩ := numerical_solvedFor he h
    refine ⟨_, hs, ?_, ?_, ?_, ?_⟩
    · rw [e1]; exact convolution_blocks_hermitian (fun r s => swapped_hermitian (hε r s).1) G
    · rw [f2, e2]; exact convolution_blocks_hermitian (fun r s => (hμ r s).1) G
    · rw [f3, e3]; exact convolution_hermitian (fun r s => (hε r s).2) G
    · rw [f4, e4]; exact convolution_hermitian (fun r s => (hμ r s).2) G

/-- **C43** Anisotropic magnetic layers with tensors without gain, solved in the FFT formulation, are passive. -/
theorem C43_anisotropic_passive (he : IsEig eig) {wavelength : ℝ} (hl : 0 < wavelength) {inPlane : ℝ × ℝ}
    {l : LatticeVectors} {ε μ : TensorComponents nx ny} {src : Option (Grid nx ny)} {G : ι → ℤ × ℤ} {r : LayerSolveResult ι}
    (h : eigensolveGeneralAnisotropicMedia eig wavelength inPlane l ε μ G .fft src = .ok r) (hε : PassiveTensor ε)
    (hμ : PassiveTensor μ) : PassiveLayer r := by
  unfold eigensolveGeneralAnisotropicMedia at h
  split_ifs at h with hn
  · obtain ⟨rfl, rfl⟩ := hn
    unfold eigensolveUniformAnisotropic at h
    obtain ⟨m, hm, h⟩ := bind_eq_ok.1 h
    obtain ⟨-, -, rfl⟩ := uniformAnisotropic_matrices_eq hm
    obtain ⟨hs, f1, f2, f3, f4, -, -⟩ := numerical_solvedFor he h
    refine ⟨by rwa [f1], _, hs, ?_, ?_, ?_, ?_⟩
    · exact blocks_scalar_passive (swapped_passive (hε 0 0).1)
    · rw [f2]; exact blocks_scalar_passive (hμ 0 0).1
    · rw [f3]; exact passive_smul_one (hε 0 0).2
    · rw [f4]; exact passive_smul_one (hμ 0 0).2
  · unfold eigensolvePatternedAnisotropic at h
    obtain ⟨m, hm, h⟩ := bind_eq_ok.1 h
    obtain ⟨e1, e2, e3, e4⟩ := anisotropic_fft_matrices_eq hm
    obtain ⟨hs, f1, f2, f3, f4, -, -⟩ := numerical_solvedFor he h
    refine ⟨by rwa [f1], _, hs, ?_, ?_, ?_, ?_⟩
    · rw [e1]; exact convolution_blocks_passive (fun r s => swapped_passive (hε r s).1) G
    · rw [f2, e2]; exact convolution_blocks_passive (fun r s => (hμ r s).1) G
    · rw [f3, e3]; exact convolution_passive (fun r s => (hε r s).2) G
    · rw [f4, e4]; exact convolution_passive (fun r s => (hμ r s).2) G

theorem isotropic_blocks_hermitian {A : Matrix ι ι ℂ} (h : A.IsHermitian) : (Matrix.fromBlocks A 0 0 A).IsHermitian := by
  unfold Matrix.IsHermitian at *
  rw [Matrix.fromBlocks_conjTranspose, h]
  simp

theorem isotropic_blocks_passive {A : Matrix ι ι ℂ} (h : Passive A) : Passive (Matrix.fromBlocks A 0 0 A) := by
  intro x
  have e : lossForm (Matrix.fromBlocks A 0 0 A) x = lossForm A (fun i => x (.inl i)) + lossForm A (fun i => x (.inr i)) := by
    unfold lossForm
    obtain ⟨u, v, rfl⟩ : ∃ u v, x = Sum.elim u v := ⟨fun i => x (.inl i), fun i => x (.inr i), by funext i; rcases i <;> rfl⟩
    rw [Matrix.fromBlocks_mulVec]
    simp [dotProduct]
  rw [e]
  exact add_nonneg (h _) (h _)

/-- **C42** Layers returned by `eigensolve_isotropic_media` in the FFT formulation for a real permittivity are lossless. -/
theorem C42_isotropic_lossless (he : IsEig eig) {wavelength : ℝ} {inPlane : ℝ × ℝ} {l : LatticeVectors} {ε : Grid nx ny}
    {G : ι → ℤ × ℤ} {r : LayerSolveResult ι} (h : eigensolveIsotropicMedia eig wavelength inPlane l ε G .fft = .ok r)
    (hε : ∀ i j, (ε i j).im = 0) : LosslessLayer r := by
  unfold eigensolveIsotropicMedia at h
  split_ifs at h with hn
  · exact C42_uniform_lossless h (hε _ _)
  · unfold eigensolvePatternedIsotropic at h
    obtain ⟨m, hm, h⟩ := bind_eq_ok.1 h
    obtain ⟨e1, e2, e3, e4, -⟩ := fft_matrices_eq hm
    obtain ⟨hs, -, f2, f3, f4, -, -⟩ := numerical_solvedFor he h
    have hT := convolution_hermitian hε G
    refine ⟨_, hs, ?_, ?_, ?_, ?_⟩
    · rw [e2]; exact isotropic_blocks_hermitian hT
    · rw [f2, e3]; exact Matrix.isHermitian_one
    · rw [f3, e1]; exact hT
    · rw [f4, e4]; exact Matrix.isHermitian_one

/-- **C43** Layers returned by `eigensolve_isotropic_media` in the FFT formulation for a permittivity with non-negative
imaginary part are passive. -/
theorem C43_isotropic_passive (he : IsEig eig) {wavelength : ℝ} (hl : 0 < wavelength) {inPlane : ℝ × ℝ} {l : LatticeVectors}
    {ε : Grid nx ny} {G : ι → ℤ × ℤ} {r : LayerSolveResult ι}
    (h : eigensolveIsotropicMedia eig wavelength inPlane l ε G .fft = .ok r) (hε : ∀ i j, 0 ≤ (ε i j).im) : PassiveLayer r := by
  unfold eigensolveIsotropicMedia at h
  split_ifs at h with hn
  · exact C43_uniform_passive hl h (hε _ _)
  · unfold eigensolvePatternedIsotropic at h
    obtain ⟨m, hm, h⟩ := bind_eq_ok.1 h
    obtain ⟨e1, e2, e3, e4, -⟩ := fft_matrices_eq hm
    obtain ⟨hs, f1, f2, f3, f4, -, -⟩ := numerical_solvedFor he h
    have hT := convolution_passive hε G
    refine ⟨by rwa [f1], _, hs, ?_, ?_, ?_, ?_⟩
    · rw [e2]; exact isotropic_blocks_passive hT
    · rw [f2, e3]; exact passive_of_hermitian Matrix.isHermitian_one
    · rw [f3, e1]; exact hT
    · rw [f4, e4]; exact passive_of_hermitian Matrix.isHermitian_one

/-! ### The flux reported by the library -/

/-- The total flux reported at depth `z` of a layer of thickness `d` with forward amplitudes `a` at its start and backward
amplitudes `b` at its end: the sum over orders of both results of
`amplitude_poynting_flux(*colocate_amplitudes(a, b, z, ...))`. -/
noncomputable def reportedFlux (l : LayerSolveResult ι) (d : ℝ) (a b : Matrix (ι ⊕ ι) β ℂ) (z : ℝ) : Res (β → ℝ) := do
  let ab := colocateAmplitudes a b (fun _ => z) l d
  let s ← amplitudePoyntingFlux ab.1 ab.2 l
  .ok fun c => ∑ i, (s.1 i c + s.2 i c)

theorem reportedFlux_eq {l : LayerSolveResult ι} (hw : WellPosed l) (hq : ∀ i, l.eigenvalues i ≠ 0) (d : ℝ)
    (a b : Matrix (ι ⊕ ι) β ℂ) (z : ℝ) :
    reportedFlux l d a b z = .ok fun c => stateFlux { layer := l, thickness := d, a := a, b := b } c z := by
  unfold reportedFlux
  obtain ⟨s, hs⟩ := (C41_succeeds_iff l (colocateAmplitudes a b (fun _ => z) l d).1
    (colocateAmplitudes a b (fun _ => z) l d).2).1.2 ⟨hw, hq⟩
  obtain ⟨F, hF, h⟩ := C41_amplitude_flux (sf := s.1) (sb := s.2) hs
  have hF' : reportedFields l d a b z = .ok F := hF
  obtain ⟨-, -, rfl⟩ := reportedFields_eq_ok.1 hF'
  simp only [hs, bind, Except.bind]
  congr 1
  funext c
  refine Finset.sum_congr rfl fun i _ => ?_
  rw [h, tangentialE_fieldsOf, tangentialH_fieldsOf]

theorem getElem_of_geometry {layers : List (LayerSolveResult ι)} {ds : List ℝ} {st : List (LayerState ι β)}
    (hg : geometry st = layers.zip ds) (i : ℕ) (h : i < st.length) (h1 : i < layers.length) (h2 : i < ds.length) :
    st[i].layer = layers[i] ∧ st[i].thickness = ds[i] := by
  have h3 : (geometry st)[i]'(by simpa [geometry] using h) = (layers.zip ds)[i]'(by simp; omega) := by simp only [hg]
  simp only [geometry, List.getElem_map, List.getElem_zip, Prod.mk.injEq] at h3
  exact h3

/-- **C42** Energy conservation: in a stack of lossless layers, for the interior amplitudes computed from any incoming
amplitudes, the total flux of each excitation is the same at every depth of every layer. -/
theorem C42_energy_conservation {lam : ℝ} {layers : List (LayerSolveResult ι)} {ds : List ℝ}
    {ps : List (ScatteringMatrix ι × ScatteringMatrix ι)} (hr : Regular lam (layers.zip ds))
    (hL : ∀ l ∈ layers, LosslessLayer l) (h : stackSMatricesInterior layers ds = .ok ps) {a0 bN : Matrix (ι ⊕ ι) β ℂ}
    {xs : List (Matrix (ι ⊕ ι) β ℂ × Matrix (ι ⊕ ι) β ℂ)} (hx : stackAmplitudesInterior a0 bN ps = .ok xs) :
    xs.length = min layers.length ds.length ∧
    ∃ J : β → ℝ, ∀ i (h1 : i < layers.length) (h2 : i < ds.length) (h3 : i < xs.length) (z : ℝ),
      reportedFlux layers[i] ds[i] xs[i].1 xs[i].2 z = .ok J := by
  obtain ⟨st, first, last, hg, hc, hf, hl, rfl, rfl, hx'⟩ := C40_interior_amplitudes hr h a0 bN
  rw [hx'] at hx
  cases hx
  have hst : ∀ s ∈ st, s.layer ∈ layers ∧ ∀ i, s.layer.eigenvalues i ≠ 0 := by
    intro s hs
    have hm : (s.layer, s.thickness) ∈ layers.zip ds := by
      rw [← hg]
      exact List.mem_map_of_mem hs
    exact ⟨(List.of_mem_zip hm).1, (hr _ hm).2⟩
  have key := fun c => stack_flux_const c st hc fun s hs => hL _ (hst s hs).1
  choose J hJ using key
  refine ⟨by simpa [geometry] using congrArg List.length hg, J, fun i h1 h2 h3 z => ?_⟩
  simp only [List.length_map] at h3
  obtain ⟨e1, e2⟩ := getElem_of_geometry hg i h3 h1 h2
  have hmem : st[i] ∈ st := List.getElem_mem h3
  have hq := (hst _ hmem).2
  obtain ⟨E, hE, -⟩ := hL _ (hst _ hmem).1
  simp only [List.getElem_map]
  rw [← e1, ← e2, reportedFlux_eq hE.wellPosed hq]
  congr 1
  funext c
  exact hJ c _ hmem hq z

/-- **C43** Passivity: in a stack of layers without gain and with non-negative thicknesses, for the interior amplitudes computed
from any incoming amplitudes, the total flux does not increase along `+z`: not within a layer, and not from one layer to a
later one. -/
theorem C43_passivity {lam : ℝ} {layers : List (LayerSolveResult ι)} {ds : List ℝ}
    {ps : List (ScatteringMatrix ι × ScatteringMatrix ι)} (hr : Regular lam (layers.zip ds))
    (hL : ∀ l ∈ layers, PassiveLayer l) (hd : ∀ d ∈ ds, 0 ≤ d) (h : stackSMatricesInterior layers ds = .ok ps)
    {a0 bN : Matrix (ι ⊕ ι) β ℂ} {xs : List (Matrix (ι ⊕ ι) β ℂ × Matrix (ι ⊕ ι) β ℂ)}
    (hx : stackAmplitudesInterior a0 bN ps = .ok xs) :
    xs.length = min layers.length ds.length ∧ ∃ J : ℕ → ℝ → β → ℝ,
      (∀ i (h1 : i < layers.length) (h2 : i < ds.length) (h3 : i < xs.length) (z : ℝ),
        reportedFlux layers[i] ds[i] xs[i].1 xs[i].2 z = .ok (J i z)) ∧
      (∀ i c z z', i < layers.length → i < ds.length → z ≤ z' → J i z' c ≤ J i z c) ∧
      (∀ i j c z z', (hij : i < j) → j < layers.length → (hj : j < ds.length) → z ≤ ds[i] → 0 ≤ z' → J j z' c ≤ J i z c) := by
  obtain ⟨st, first, last, hg, hc, hf, hl, rfl, rfl, hx'⟩ := C40_interior_amplitudes hr h a0 bN
  rw [hx'] at hx
  cases hx
  have hlen : st.length = min layers.length ds.length := by
    have := congrArg List.length hg
    simpa [geometry] using this
  have hst : ∀ s ∈ st, s.layer ∈ layers ∧ s.thickness ∈ ds ∧ ∀ i, s.layer.eigenvalues i ≠ 0 := by
    intro s hs
    have hm : (s.layer, s.thickness) ∈ layers.zip ds := by
      rw [← hg]
      exact List.mem_map_of_mem hs
    exact ⟨(List.of_mem_zip hm).1, (List.of_mem_zip hm).2, (hr _ hm).2⟩
  refine ⟨by simpa using hlen, fun i z c => if hi : i < st.length then stateFlux st[i] c z else 0, ?_, ?_, ?_⟩
  · intro i h1 h2 h3 z
    simp only [List.length_map] at h3
    obtain ⟨e1, e2⟩ := getElem_of_geometry hg i h3 h1 h2
    have hmem : st[i] ∈ st := List.getElem_mem h3
    obtain ⟨-, E, hE, -⟩ := hL _ (hst _ hmem).1
    simp only [List.getElem_map]
    rw [← e1, ← e2, reportedFlux_eq hE.wellPosed (hst _ hmem).2.2]
    congr 1
    funext c
    rw [dif_pos h3]
  · intro i c z z' h1 h2 hz
    have h3 : i < st.length := by omega
    simp only [dif_pos h3]
    exact stateFlux_antitone (hL _ (hst _ (List.getElem_mem h3)).1) (hst _ (List.getElem_mem h3)).2.2 c hz
  · intro i j c z z' hij h1 h2 hz hz'
    have h3 : j < st.length := by omega
    have h4 : i < st.length := by omega
    have hp := stack_flux_antitone c hc (fun s hs => hL _ (hst s hs).1) (fun s hs => hd _ (hst s hs).2.1)
    rw [List.pairwise_iff_getElem] at hp
    simp only [dif_pos h3, dif_pos h4]
    refine (hp i j h4 h3 hij).2 z z' ?_ hz'
    rw [(getElem_of_geometry hg i h4 (by omega) (by omega)).2]
    exact hz

/-! ### Reflected and transmitted power -/

/-- The power of forward amplitudes alone: the sum over orders of the forward flux. -/
noncomputable def forwardPower (l : LayerSolveResult ι) (a : Matrix (ι ⊕ ι) β ℂ) : Res (β → ℝ) := do
  let s ← amplitudePoyntingFlux a 0 l
  .ok fun c => ∑ i, s.1 i c

theorem forwardPower_eq {l : LayerSolveResult ι} (hw : WellPosed l) (hq : ∀ i, l.eigenvalues i ≠ 0) (a : Matrix (ι ⊕ ι) β ℂ) :
    forwardPower l a = .ok fun c => netFlux (electricModes l * a) (l.eigenvectors * a) c := by
  unfold forwardPower amplitudePoyntingFlux
  simp only [poyntingFluxAMatrix_eq_ok.2 ⟨hw, hq, rfl⟩, bind, Except.bind]
  congr 1
  funext c
  refine Finset.sum_congr rfl fun i _ => ?_
  simp only [Matrix.of_apply, Matrix.mul_zero, Matrix.zero_apply]
  generalize (electricModes l * a) i c = x
  generalize (l.eigenvectors * a) i c = y
  simp [Complex.mul_re]
  ring

theorem netFlux_split {A : ModeMatrix ι} {f : Matrix (ι ⊕ ι) β ℂ} (h : A * f = Aᴴ * f) (g : Matrix (ι ⊕ ι) β ℂ) (c : β) :
    netFlux (A * (f - g)) (f + g) c = netFlux (A * f) f c - netFlux (A * g) g c := by
  have cross : ∑ i, (star ((A * g) i c) * f i c).re = ∑ i, (star ((A * f) i c) * g i c).re := by
    have e1 : ∑ i, star ((A * g) i c) * f i c = ∑ i, star (g i c) * (A * f) i c := by
      rw [h]
      simp only [Matrix.mul_apply, star_sum, Finset.sum_mul, Finset.mul_sum, Matrix.conjTranspose_apply, star_mul']
      rw [Finset.sum_comm]
      refine Finset.sum_congr rfl fun i _ => Finset.sum_congr rfl fun j _ => ?_
      ring
    have e2 := congrArg Complex.re e1
    rw [Complex.re_sum, Complex.re_sum] at e2
    rw [e2]
    exact Finset.sum_congr rfl fun i _ => re_star_mul_comm _ _
  unfold netFlux
  rw [Matrix.mul_sub]
  have e3 : ∀ i, (star ((A * f - A * g) i c) * (f + g) i c).re = (star ((A * f) i c) * f i c).re -
      (star ((A * g) i c) * g i c).re + ((star ((A * f) i c) * g i c).re - (star ((A * g) i c) * f i c).re) := by
    intro i
    simp [Complex.mul_re]
    ring
  simp only [e3, Finset.sum_add_distrib, Finset.sum_sub_distrib]
  rw [cross]
  ring

/-- In a uniform lossless layer, propagating forward amplitudes do not interfere with backward amplitudes. -/
theorem uniform_electricModes_hermitian {wavelength : ℝ} {inPlane : ℝ × ℝ} {l : LatticeVectors} {ε : ℂ} {G : ι → ℤ × ℤ}
    {r : LayerSolveResult ι} (h : eigensolveUniformIsotropic wavelength inPlane l ε G = .ok r) (hε : ε.im = 0)
    {f : Matrix (ι ⊕ ι) β ℂ} (hf : ∀ i c, (r.eigenvalues i).im ≠ 0 → f i c = 0) :
    electricModes r * f = (electricModes r)ᴴ * f := by
  obtain ⟨k, w, -, hw, hε0, hr⟩ := eigensolveUniformIsotropic_ok_iff.1 h
  have hη : r.zPermittivityMatrix⁻¹ = (ε⁻¹) • (1 : Matrix ι ι ℂ) := by
    rw [hr]
    exact Matrix.inv_eq_right_inv (by simp [smul_smul, hε0])
  have hM : r.transversePermeabilityMatrix = 1 := by rw [hr]
  have hφ : r.eigenvectors = 1 := by rw [hr]
  have hqs : ∀ i : ι, r.eigenvalues (.inl i) = r.eigenvalues (.inr i) := by intro i; rw [hr]; rfl
  have hεr : star ε = ε := Complex.conj_eq_iff_im.2 hε
  have hX : magneticToElectric r = Matrix.fromBlocks
      (diagonal fun i => (omega r : ℂ) ^ 2 - ((orderWavevector r i).2 : ℂ) * ε⁻¹ * ((orderWavevector r i).2 : ℂ))
      (diagonal fun i => ((orderWavevector r i).2 : ℂ) * ε⁻¹ * ((orderWavevector r i).1 : ℂ))
      (diagonal fun i => ((orderWavevector r i).1 : ℂ) * ε⁻¹ * ((orderWavevector r i).2 : ℂ))
      (diagonal fun i => (omega r : ℂ) ^ 2 - ((orderWavevector r i).1 : ℂ) * ε⁻¹ * ((orderWavevector r i).1 : ℂ)) := by
    unfold magneticToElectric
    simp only [hη, hM]
    ext i j
    rcases i with i | i <;> rcases j with j | j <;> by_cases hij : i = j <;>
      simp [hij, Matrix.mul_smul, Matrix.smul_mul]
    all_goals ring
  have hXH : (magneticToElectric r)ᴴ = magneticToElectric r := by
    rw [hX, Matrix.fromBlocks_conjTranspose]
    simp only [Matrix.diagonal_conjTranspose]
    have hc : ∀ x : ℝ, star (x : ℂ) = x := fun x => Complex.conj_ofReal x
    have hei : star ε⁻¹ = ε⁻¹ := by rw [star_inv₀, hεr]
    congr 1 <;>
    · congr 1
      funext i
      simp only [Pi.star_apply, star_sub, star_mul', star_pow, hc, hei]
      try ring
  have hcomm : ∀ w : ι ⊕ ι → ℂ, (∀ i : ι, w (.inl i) = w (.inr i)) →
      diagonal w * magneticToElectric r = magneticToElectric r * diagonal w := by
    intro w hw'
    rw [hX]
    ext i j
    rw [Matrix.diagonal_mul, Matrix.mul_diagonal]
    rcases i with i | i <;> rcases j with j | j <;> by_cases hij : i = j <;> simp [hij, hw', mul_comm]
  unfold electricModes
  rw [hφ, Matrix.mul_one, Matrix.conjTranspose_mul, hXH, Matrix.diagonal_conjTranspose,
    hcomm _ (by intro i; simp [hqs]), Matrix.mul_assoc, Matrix.mul_assoc]
  congr 1
  ext i c
  rw [Matrix.diagonal_mul, Matrix.diagonal_mul]
  by_cases hi : (r.eigenvalues i).im = 0
  · congr 1
    rw [Pi.star_apply, star_inv₀, star_mul']
    rw [show star (r.eigenvalues i) = r.eigenvalues i from Complex.conj_eq_iff_im.2 hi,
      show star ((omega r : ℝ) : ℂ) = (omega r : ℂ) from Complex.conj_ofReal _]
  · rw [hf i c hi, mul_zero, mul_zero]

/-- The flux at the start of the first and of the last layer when nothing is incident from the far side. -/
theorem boundary_flux {wavelength : ℝ} {inPlane : ℝ × ℝ} {lv : LatticeVectors} {ε : ℂ} {G : ι → ℤ × ℤ} (hε : ε.im = 0)
    {s : LayerState ι β} (h0 : eigensolveUniformIsotropic wavelength inPlane lv ε G = .ok s.layer)
    (ha : ∀ i c, (s.layer.eigenvalues i).im ≠ 0 → s.a i c = 0) (c : β) :
    stateFlux s c 0 = netFlux (electricModes s.layer * s.a) (s.layer.eigenvectors * s.a) c -
      netFlux (electricModes s.layer * propagateAmplitude s.b (fun _ => s.thickness) s.layer)
        (s.layer.eigenvectors * propagateAmplitude s.b (fun _ => s.thickness) s.layer) c := by
  obtain ⟨k, w, -, -, -, hr⟩ := eigensolveUniformIsotropic_ok_iff.1 h0
  have hφ : s.layer.eigenvectors = 1 := by rw [hr]
  have hp : propagator s.layer 0 = 1 := by
    unfold propagator
    simp
  unfold stateFlux electricAt magneticAt
  rw [hp, sub_zero, Matrix.one_mul, ← propagateAmplitude_const, hφ, Matrix.one_mul, Matrix.one_mul, Matrix.one_mul]
  exact netFlux_split (uniform_electricModes_hermitian h0 hε ha) _ c

/-- **C42** Reflected plus transmitted power equals incident power: the stack is lossless, the first layer is uniform, the
incident amplitudes are carried by propagating orders, and nothing is incident from the other side. -/
theorem C42_reflection_transmission {lam : ℝ} {l0 : LayerSolveResult ι} {ls : List (LayerSolveResult ι)} {d0 : ℝ} {ds : List ℝ}
    {S : ScatteringMatrix ι} (hr : Regular lam ((l0 :: ls).zip (d0 :: ds))) (hL : ∀ l ∈ l0 :: ls, LosslessLayer l)
    (hS : stackSMatrix (l0 :: ls) (d0 :: ds) = .ok S)
    {wavelength : ℝ} {inPlane : ℝ × ℝ} {lv : LatticeVectors} {ε : ℂ} {G : ι → ℤ × ℤ} (hε : ε.im = 0)
    (h0 : eigensolveUniformIsotropic wavelength inPlane lv ε G = .ok l0)
    (a0 : Matrix (ι ⊕ ι) β ℂ) (ha : ∀ i c, (l0.eigenvalues i).im ≠ 0 → a0 i c = 0) :
    ∃ I R T, forwardPower l0 a0 = .ok I ∧
      forwardPower l0 (propagateAmplitude (S.s21 * a0) (fun _ => d0) l0) = .ok R ∧
      forwardPower S.endLayer (S.s11 * a0) = .ok T ∧ ∀ c, R c + T c = I c := by
  have hspec := stackSMatrix_spec hr hS
  obtain ⟨st, first, last, hg, hc, hf, hl, rfl, hb⟩ := hspec.complete a0 (0 : Matrix (ι ⊕ ι) β ℂ)
  obtain ⟨e1, e2⟩ := hspec.sound st first last hg hc hf hl
  rw [hb, Matrix.mul_zero, add_zero] at e1 e2
  have hst : ∀ s ∈ st, s.layer ∈ l0 :: ls ∧ ∀ i, s.layer.eigenvalues i ≠ 0 := by
    intro s hs
    have hm : (s.layer, s.thickness) ∈ (l0 :: ls).zip (d0 :: ds) := by
      rw [← hg]
      exact List.mem_map_of_mem hs
    exact ⟨(List.of_mem_zip hm).1, (hr _ hm).2⟩
  have m1 : first ∈ st := List.mem_of_head? hf
  have m2 : last ∈ st := List.mem_of_getLast? hl
  have g1 : (first.layer, first.thickness) = (l0, d0) := by
    have : (geometry st).head? = some (first.layer, first.thickness) := by
      rw [geometry, List.head?_map, hf]; rfl
    rw [hg] at this
    simpa using this.symm
  have g2 : last.layer = S.endLayer := by
    have h2 : (geometry st).getLast? = some (last.layer, last.thickness) := by
      rw [geometry, List.getLast?_map, hl]; rfl
    rw [hg, hspec.finish] at h2
    simpa using (congrArg Prod.fst (Option.some.inj h2)).symm
  simp only [Prod.mk.injEq] at g1
  obtain ⟨g1, g1'⟩ := g1
  subst g1 g1'
  obtain ⟨E1, hE1, -⟩ := hL _ (hst _ m1).1
  obtain ⟨E2, hE2, -⟩ := hL _ (hst _ m2).1
  rw [← e1, ← e2, ← g2]
  refine ⟨_, _, _, forwardPower_eq hE1.wellPosed (hst _ m1).2 _, forwardPower_eq hE1.wellPosed (hst _ m1).2 _,
    forwardPower_eq hE2.wellPosed (hst _ m2).2 _, fun c => ?_⟩
  obtain ⟨J, hJ⟩ := stack_flux_const c st hc fun s hs => hL _ (hst s hs).1
  have j1 := hJ _ m1 (hst _ m1).2 0
  have j2 := hJ _ m2 (hst _ m2).2 0
  rw [boundary_flux hε h0 ha] at j1
  have hp : propagator last.layer 0 = 1 := by
    unfold propagator
    simp
  have j3 : stateFlux last c 0 = netFlux (electricModes last.layer * last.a) (last.layer.eigenvectors * last.a) c := by
    unfold stateFlux electricAt magneticAt
    rw [hb, hp, Matrix.mul_zero, sub_zero, add_zero, Matrix.one_mul]
  rw [j3] at j2
  linarith

/-- **C43** Without gain, reflected plus transmitted power does not exceed the incident power. -/
theorem C43_reflection_transmission {lam : ℝ} {l0 : LayerSolveResult ι} {ls : List (LayerSolveResult ι)} {d0 : ℝ} {ds : List ℝ}
    {S : ScatteringMatrix ι} (hr : Regular lam ((l0 :: ls).zip (d0 :: ds))) (hL : ∀ l ∈ l0 :: ls, PassiveLayer l)
    (hd : ∀ d ∈ d0 :: ds, 0 ≤ d) (hS : stackSMatrix (l0 :: ls) (d0 :: ds) = .ok S)
    {wavelength : ℝ} {inPlane : ℝ × ℝ} {lv : LatticeVectors} {ε : ℂ} {G : ι → ℤ × ℤ} (hε : ε.im = 0)
    (h0 : eigensolveUniformIsotropic wavelength inPlane lv ε G = .ok l0)
    (a0 : Matrix (ι ⊕ ι) β ℂ) (ha : ∀ i c, (l0.eigenvalues i).im ≠ 0 → a0 i c = 0) :
    ∃ I R T, forwardPower l0 a0 = .ok I ∧
      forwardPower l0 (propagateAmplitude (S.s21 * a0) (fun _ => d0) l0) = .ok R ∧
      forwardPower S.endLayer (S.s11 * a0) = .ok T ∧ ∀ c, R c + T c ≤ I c := by
  have hspec := stackSMatrix_spec hr hS
  obtain ⟨st, first, last, hg, hc, hf, hl, rfl, hb⟩ := hspec.complete a0 (0 : Matrix (ι ⊕ ι) β ℂ)
  obtain ⟨e1, e2⟩ := hspec.sound st first last hg hc hf hl
  rw [hb, Matrix.mul_zero, add_zero] at e1 e2
  have hst : ∀ s ∈ st, s.layer ∈ l0 :: ls ∧ s.thickness ∈ d0 :: ds ∧ ∀ i, s.layer.eigenvalues i ≠ 0 := by
    intro s hs
    have hm : (s.layer, s.thickness) ∈ (l0 :: ls).zip (d0 :: ds) := by
      rw [← hg]
      exact List.mem_map_of_mem hs
    exact ⟨(List.of_mem_zip hm).1, (List.of_mem_zip hm).2, (hr _ hm).2⟩
  have m1 : first ∈ st := List.mem_of_head? hf
  have m2 : last ∈ st := List.mem_of_getLast? hl
  have g1 : (first.layer, first.thickness) = (l0, d0) := by
    have : (geometry st).head? = some (first.layer, first.thickness) := by
      rw [geometry, List.head?_map, hf]; rfl
    rw [hg] at this
    simpa using this.symm
  have g2 : last.layer = S.endLayer := by
    have h2 : (geometry st).getLast? = some (last.layer, last.thickness) := by
      rw [geometry, List.getLast?_map, hl]; rfl
    rw [hg, hspec.finish] at h2
    simpa using (congrArg Prod.fst (Option.some.inj h2)).symm
  simp only [Prod.mk.injEq] at g1
  obtain ⟨g1, g1'⟩ := g1
  subst g1 g1'
  obtain ⟨-, E1, hE1, -⟩ := hL _ (hst _ m1).1
  obtain ⟨-, E2, hE2, -⟩ := hL _ (hst _ m2).1
  rw [← e1, ← e2, ← g2]
  refine ⟨_, _, _, forwardPower_eq hE1.wellPosed (hst _ m1).2.2 _, forwardPower_eq hE1.wellPosed (hst _ m1).2.2 _,
    forwardPower_eq hE2.wellPosed (hst _ m2).2.2 _, fun c => ?_⟩
  have hp := stack_flux_antitone c hc (fun s hs => hL _ (hst s hs).1) (fun s hs => hd _ (hst s hs).2.1)
  have hle : stateFlux last c 0 ≤ stateFlux first c 0 := by
    obtain ⟨s, st', rfl⟩ : ∃ s st', st = s :: st' := by
      cases st with
      | nil => simp at hf
      | cons s st' => exact ⟨s, st', rfl⟩
    simp only [List.head?_cons, Option.some.injEq] at hf
    subst hf
    rcases List.mem_cons.1 m2 with rfl | m3
    · exact le_rfl
    · exact ((List.pairwise_cons.1 hp).1 last m3).2 0 0 (hd _ (hst _ m1).2.1) le_rfl
  rw [boundary_flux hε h0 ha] at hle
  have hp : propagator last.layer 0 = 1 := by
    unfold propagator
    simp
  have j3 : stateFlux last c 0 = netFlux (electricModes last.layer * last.a) (last.layer.eigenvectors * last.a) c := by
    unfold stateFlux electricAt magneticAt
    rw [hb, hp, Matrix.mul_zero, sub_zero, add_zero, Matrix.one_mul]
  rw [j3] at hle
  linarith

/-! ### Examples -/

/-- The example layers with refractive index 1 and 2 are results of the eigensolve. -/
theorem exLayer_eigensolve {q : ℝ} (hq : 0 < q) :
    eigensolveUniformIsotropic (2 * Real.pi) (0, 0) unitLattice ((q : ℂ) ^ 2) (fun _ : Fin 1 => ((0, 0) : ℤ × ℤ)) =
      .ok (Examples.exLayer q) := by
  have hqc : (q : ℂ) ≠ 0 := by exact_mod_cast hq.ne'
  obtain ⟨r, hr⟩ := (C22_uniform_succeeds_iff (2 * Real.pi) (0, 0) unitLattice ((q : ℂ) ^ 2)
    (fun _ : Fin 1 => ((0, 0) : ℤ × ℤ))).2 ⟨by have := Real.pi_ne_zero; positivity, pow_ne_zero 2 hqc, by norm_num [unitLattice]⟩
  rw [hr]
  obtain ⟨k, w, hk, hw, -, e⟩ := eigensolveUniformIsotropic_ok_iff.1 hr
  have hk0 : ∀ i, k i = (0, 0) := by
    intro i
    have := (transverseWavevectors_layer (l := Examples.exLayer q)).1 hk
    rw [this.2, Examples.exLayer_orderWavevector]
  have hw1 : w = 1 := by
    obtain ⟨-, rfl⟩ := angularFrequency_eq_ok.1 hw
    exact div_self (by have := Real.pi_ne_zero; positivity)
  have hs : selectEigenvaluesSign (csqrt ((q : ℂ) ^ 2)) = q :=
    (C21_selected_root _ _).2 ⟨rfl, by simp, by simp [hq.le]⟩
  rw [e]
  congr 1
  unfold Examples.exLayer
  congr 1
  · funext i
    rcases i <;> simp [hk0, hw1, hs]
  all_goals (ext i j; by_cases hij : i = j <;> simp [hij])

example (a0 : Matrix (Fin 1 ⊕ Fin 1) (Fin 2) ℂ) : ∃ S I R T,
    stackSMatrix [Examples.exLayer 1, Examples.exLayer 2, Examples.exLayer 1] [Real.pi, Real.pi, Real.pi] = .ok S ∧
    forwardPower (Examples.exLayer 1) a0 = .ok I ∧
    forwardPower (Examples.exLayer 1) (propagateAmplitude (S.s21 * a0) (fun _ => Real.pi) (Examples.exLayer 1)) = .ok R ∧
    forwardPower S.endLayer (S.s11 * a0) = .ok T ∧ ∀ c, R c + T c = I c := by
  have e1 := exLayer_eigensolve one_pos
  have e2 := exLayer_eigensolve two_pos
  have l1 := C42_uniform_lossless e1 (by simp)
  have l2 := C42_uniform_lossless e2 (by rw [← Complex.ofReal_pow]; exact Complex.ofReal_im _)
  simp only [Complex.ofReal_one, Complex.ofReal_ofNat] at e1 e2 l1 l2
  have hreg : Regular (2 * Real.pi) ([Examples.exLayer 1, Examples.exLayer 2, Examples.exLayer 1].zip
      [Real.pi, Real.pi, Real.pi]) := Examples.exRegular [1, 2, 1] (by simp) [Real.pi, Real.pi, Real.pi]
  obtain ⟨I, R, T, h⟩ := C42_reflection_transmission hreg
    (by intro l hl; simp only [List.mem_cons, List.not_mem_nil, or_false] at hl; rcases hl with rfl | rfl | rfl <;> assumption)
    Examples.exStack3 (by simp) e1 a0 (by intro i c hi; simp [Examples.exLayer] at hi)
  exact ⟨_, I, R, T, Examples.exStack3, h⟩

theorem exLayers_lossless : ∀ l ∈ [Examples.exLayer 1, Examples.exLayer 2, Examples.exLayer 1], LosslessLayer l := by
  have e1 := exLayer_eigensolve one_pos
  have e2 := exLayer_eigensolve two_pos
  have l1 := C42_uniform_lossless e1 (by simp)
  have l2 := C42_uniform_lossless e2 (by rw [← Complex.ofReal_pow]; exact Complex.ofReal_im _)
  simp only [Complex.ofReal_one, Complex.ofReal_ofNat] at l1 l2
  intro l hl
  simp only [List.mem_cons, List.not_mem_nil, or_false] at hl
  rcases hl with rfl | rfl | rfl <;> assumption

theorem exLayers_passive : ∀ l ∈ [Examples.exLayer 1, Examples.exLayer 2, Examples.exLayer 1], PassiveLayer l := by
  intro l hl
  obtain ⟨E, hs, h1, h2, h3, h4⟩ := exLayers_lossless l hl
  refine ⟨?_, E, hs, passive_of_hermitian h1, passive_of_hermitian h2, passive_of_hermitian h3, passive_of_hermitian h4⟩
  have := Real.pi_pos
  simp only [List.mem_cons, List.not_mem_nil, or_false] at hl
  rcases hl with rfl | rfl | rfl <;> simp only [Examples.exLayer] <;> positivity

example (a0 bN : Matrix (Fin 1 ⊕ Fin 1) (Fin 2) ℂ) : ∃ xs : List (_ × _), xs.length = 3 ∧ ∃ J : Fin 2 → ℝ,
    ∀ i (h : i < 3) (h' : i < xs.length) z, reportedFlux [Examples.exLayer 1, Examples.exLayer 2, Examples.exLayer 1][i]
      Real.pi xs[i].1 xs[i].2 z = .ok J := by
  obtain ⟨ps, h⟩ := exInterior
  obtain ⟨st, -, -, hg, -, -, -, -, -, hx⟩ := C40_interior_amplitudes exInterior_regular h a0 bN
  obtain ⟨h1, J, hJ⟩ := C42_energy_conservation exInterior_regular exLayers_lossless h hx
  refine ⟨_, h1, J, fun i hi h' z => ?_⟩
  have e := hJ i hi hi h' z
  have : [Real.pi, Real.pi, Real.pi][i] = Real.pi := by
    rcases i with _ | _ | _ | i
    · rfl
    · rfl
    · rfl
    · omega
  rwa [this] at e

example (a0 bN : Matrix (Fin 1 ⊕ Fin 1) (Fin 2) ℂ) : ∃ ps xs,
    stackSMatricesInterior [Examples.exLayer 1, Examples.exLayer 2, Examples.exLayer 1] [Real.pi, Real.pi, Real.pi] = .ok ps ∧
    stackAmplitudesInterior a0 bN ps = .ok xs ∧ xs.length = 3 ∧
    (∀ l ∈ [Examples.exLayer 1, Examples.exLayer 2, Examples.exLayer 1], PassiveLayer l) := by
  obtain ⟨ps, h⟩ := exInterior
  obtain ⟨st, -, -, hg, -, -, -, -, -, hx⟩ := C40_interior_amplitudes exInterior_regular h a0 bN
  obtain ⟨h1, -⟩ := C43_passivity exInterior_regular exLayers_passive (by simp [Real.pi_nonneg]) h hx
  exact ⟨ps, _, h, hx, h1, exLayers_passive⟩

end Fmmax
