import Verif.Proofs.Smooth
import Verif.Props.Scattering
import Mathlib.Analysis.SpecialFunctions.ExpDeriv
import Mathlib.Analysis.Calculus.ContDiff.FTaylorSeries

/-!
C114: results of the library depend smoothly on parameters wherever they are finite.
-/

namespace Fmmax

open Matrix Spec Topology

variable {E : Type} [NormedAddCommGroup E] [NormedSpace ℝ E] {k : WithTop ℕ∞} {x : E}
variable {ι : Type} [Fintype ι] [DecidableEq ι]

/-- The loop of `stack_s_matrix` for smooth layers and thicknesses. -/
theorem dependsSmoothly_stackSMatrices {layers : List (E → LayerSolveResult ι)} {ds : List (E → ℝ)}
    (hl : ∀ L ∈ layers, SmoothLayer k x L) (hd : ∀ d ∈ ds, ContDiffAt ℝ k d x) :
    DependsSmoothly (SmoothList (SmoothScattering k x)) x
      fun y => stackSMatrices (layers.map fun L => L y) (ds.map fun d => d y) := by
  have hz : ∀ y, (layers.map fun L => L y).zip (ds.map fun d => d y) =
      ((layers.zip ds).map fun p y => (p.1 y, p.2 y)).map fun p => p y := by
    intro y
    rw [List.zip_map, List.map_map]
    rfl
  have hp : ∀ p ∈ (layers.zip ds).map fun p y => (p.1 y, p.2 y),
      SmoothLayer k x (fun y => (p y).1) ∧ ContDiffAt ℝ k (fun y => (p y).2) x := by
    intro p hp
    obtain ⟨⟨a, b⟩, hab, rfl⟩ := List.mem_map.1 hp
    exact ⟨hl a (List.of_mem_zip hab).1, hd b (List.of_mem_zip hab).2⟩
  generalize (layers.zip ds).map (fun p y => (p.1 y, p.2 y)) = ps at hz hp
  simp only [stackSMatrices, hz, List.length_map]
  by_cases hlen : layers.length = ds.length
  · simp only [hlen, ne_eq, not_true_eq_false, if_false]
    match ps, hp with
    | [], _ => exact fun v hv => by simp at hv
    | [p], hp =>
      have h0 := hp p (by simp)
      exact DependsSmoothly.pure (SmoothList.nil.cons (SmoothScattering.identity h0.1 h0.2))
    | p :: q :: ps, hp =>
      have h0 := hp p (by simp)
      have h1 := hp q (by simp)
      refine DependsSmoothly.bind (dependsSmoothly_pairSMatrix h0.1 h0.2 h1.1 h1.2) fun s hs => ?_
      refine (dependsSmoothly_appendLoop ps (fun r hr => hp r (by simp [hr])) hs).bind fun t ht => ?_
      exact DependsSmoothly.pure ((ht.cons hs).cons (SmoothScattering.identity h0.1 h0.2))
  · intro v hv
    simp [hlen] at hv

/-- **C114** Where `stack_s_matrix` is finite, it is finite for all nearby parameters, and the scattering matrix depends on the
parameters as smoothly as the layers and thicknesses do. -/
theorem C114_stack_s_matrix {layers : List (E → LayerSolveResult ι)} {ds : List (E → ℝ)}
    (hl : ∀ L ∈ layers, SmoothLayer k x L) (hd : ∀ d ∈ ds, ContDiffAt ℝ k d x) :
    DependsSmoothly (SmoothScattering k x) x
      fun y => stackSMatrix (layers.map fun L => L y) (ds.map fun d => d y) := by
  refine (dependsSmoothly_stackSMatrices hl hd).bind fun ss hss => ?_
  obtain ⟨gs, h, hP⟩ := hss
  simp only [h, List.getLast?_map]
  cases hg : gs.getLast? with
  | none => exact fun v hv => by simp at hv
  | some s => exact DependsSmoothly.pure (hP s (List.mem_of_getLast? hg))

/-- **C114** The same for `stack_s_matrix_scan`. -/
theorem C114_stack_s_matrix_scan {layers : List (E → LayerSolveResult ι)} {ds : List (E → ℝ)}
    (hl : ∀ L ∈ layers, SmoothLayer k x L) (hd : ∀ d ∈ ds, ContDiffAt ℝ k d x) :
    DependsSmoothly (SmoothScattering k x) x
      fun y => stackSMatrixScan (layers.map fun L => L y) (ds.map fun d => d y) := by
  simpa only [C32_scan_eq_loop] using C114_stack_s_matrix hl hd

/-- **C114** The matrices of `stack_s_matrices_interior`. -/
theorem C114_interior {layers : List (E → LayerSolveResult ι)} {ds : List (E → ℝ)}
    (hl : ∀ L ∈ layers, SmoothLayer k x L) (hd : ∀ d ∈ ds, ContDiffAt ℝ k d x) :
    DependsSmoothly
      (SmoothList fun p => SmoothScattering k x (fun y => (p y).1) ∧ SmoothScattering k x fun y => (p y).2) x
      fun y => stackSMatricesInterior (layers.map fun L => L y) (ds.map fun d => d y) := by
  refine (dependsSmoothly_stackSMatrices hl hd).bind fun ss hss => ?_
  have := dependsSmoothly_stackSMatrices (layers := layers.reverse) (ds := ds.reverse)
    (fun L hL => hl L (List.mem_reverse.1 hL)) (fun d h => hd d (List.mem_reverse.1 h))
  simp only [List.map_reverse] at this
  refine this.bind fun rev hrev => ?_
  refine DependsSmoothly.pure (SmoothList.zip hss (SmoothList.map _ ?_ hrev.reverse))
  exact fun s hs => ⟨⟨hs.blocks.s22, hs.blocks.s21, hs.blocks.s12, hs.blocks.s11⟩, hs.endLayer, hs.endThickness,
    hs.startLayer, hs.startThickness⟩

/-- **C114** `append_layer` and `prepend_layer`. -/
theorem C114_append_prepend {s : E → ScatteringMatrix ι} {L : E → LayerSolveResult ι} {d : E → ℝ}
    (hs : SmoothScattering k x s) (hL : SmoothLayer k x L) (hd : ContDiffAt ℝ k d x) :
    DependsSmoothly (SmoothScattering k x) x (fun y => appendLayer (s y) (L y) (d y)) ∧
      DependsSmoothly (SmoothScattering k x) x fun y => prependLayer (s y) (L y) (d y) :=
  ⟨dependsSmoothly_appendLayer hs hL hd, dependsSmoothly_prependLayer hs hL hd⟩

/-- **C114** `redheffer_star_product`. -/
theorem C114_star_product {a b : E → ScatteringMatrix ι} (ha : SmoothScattering k x a) (hb : SmoothScattering k x b) :
    DependsSmoothly (SmoothScattering k x) x fun y => redhefferStarProduct (a y) (b y) := by
  refine (dependsSmoothly_appendLayer ha hb.startLayer hb.startThickness).bind fun e he => ?_
  have h1 : SmoothMat k x fun y => (diag fun _ => 1 : ModeMatrix ι) - (e y).s12 * (b y).s21 :=
    (SmoothMat.const _).sub (he.blocks.s12.mul hb.blocks.s21)
  have h2 : SmoothMat k x fun y => (diag fun _ => 1 : ModeMatrix ι) - (b y).s21 * (e y).s12 :=
    (SmoothMat.const _).sub (hb.blocks.s21.mul he.blocks.s12)
  refine (dependsSmoothly_solve h1 he.blocks.s11).bind fun x11 hx11 => ?_
  refine (dependsSmoothly_solve h1 (he.blocks.s12.mul hb.blocks.s22)).bind fun x12 hx12 => ?_
  refine (dependsSmoothly_solve h2 (hb.blocks.s21.mul he.blocks.s11)).bind fun x21 hx21 => ?_
  refine (dependsSmoothly_solve h2 hb.blocks.s22).bind fun x22 hx22 => ?_
  exact DependsSmoothly.pure ⟨⟨hb.blocks.s11.mul hx11, hb.blocks.s12.add (hb.blocks.s11.mul hx12),
    he.blocks.s21.add (he.blocks.s22.mul hx21), he.blocks.s22.mul hx22⟩, ha.startLayer, ha.startThickness, hb.endLayer,
    hb.endThickness⟩

variable {β κ : Type}

/-- A pair of amplitude arrays with smooth entries. -/
def SmoothAmplitudes (k : WithTop ℕ∞) (x : E) (ab : E → Matrix (ι ⊕ ι) β ℂ × Matrix (ι ⊕ ι) β ℂ) : Prop :=
  SmoothMat k x (fun y => (ab y).1) ∧ SmoothMat k x fun y => (ab y).2

/-- **C114** `stack_amplitudes_interior`, for a list of scattering matrix pairs and incident amplitudes depending smoothly on
the parameters. -/
theorem C114_amplitudes_interior {a0 bN : E → Matrix (ι ⊕ ι) β ℂ} (ha : SmoothMat k x a0) (hb : SmoothMat k x bN)
    {ps : E → List (ScatteringMatrix ι × ScatteringMatrix ι)}
    (hps : SmoothList (fun p => SmoothScattering k x (fun y => (p y).1) ∧ SmoothScattering k x fun y => (p y).2) ps) :
    DependsSmoothly (SmoothList (SmoothAmplitudes k x)) x fun y => stackAmplitudesInterior (a0 y) (bN y) (ps y) := by
  obtain ⟨gs, h, hP⟩ := hps
  simp only [h]
  clear h
  induction gs with
  | nil => exact DependsSmoothly.pure SmoothList.nil
  | cons p gs ih =>
    obtain ⟨h1, h2⟩ := hP p (by simp)
    refine DependsSmoothly.bind (P := SmoothAmplitudes k x) ?_ fun ab hab => ?_
    · refine DependsSmoothly.bind (dependsSmoothly_solve
        (A := fun y => 1 - (p y).1.s12 * (p y).2.s21)
        (B := fun y => (p y).1.s11 * a0 y + (p y).1.s12 * (p y).2.s22 * bN y)
        ((SmoothMat.const 1).sub (h1.blocks.s12.mul h2.blocks.s21))
        ((h1.blocks.s11.mul ha).add ((h1.blocks.s12.mul h2.blocks.s22).mul hb))) fun ai hai => ?_
      exact DependsSmoothly.pure ⟨hai, (h2.blocks.s21.mul hai).add (h2.blocks.s22.mul hb)⟩
    · refine (ih fun q hq => hP q (by simp [hq])).bind fun t ht => ?_
      exact DependsSmoothly.pure (ht.cons hab)

/-- **C114** From layers, thicknesses and incident amplitudes to the amplitudes in every layer. -/
theorem C114_stack_amplitudes {layers : List (E → LayerSolveResult ι)} {ds : List (E → ℝ)}
    {a0 bN : E → Matrix (ι ⊕ ι) β ℂ} (hl : ∀ L ∈ layers, SmoothLayer k x L) (hd : ∀ d ∈ ds, ContDiffAt ℝ k d x)
    (ha : SmoothMat k x a0) (hb : SmoothMat k x bN) :
    DependsSmoothly (SmoothList (SmoothAmplitudes k x)) x
      fun y => stackSMatricesInterior (layers.map fun L => L y) (ds.map fun d => d y) >>= fun ps =>
        stackAmplitudesInterior (a0 y) (bN y) ps :=
  (C114_interior hl hd).bind fun _ hps => C114_amplitudes_interior ha hb hps

/-- **C114** `colocate_amplitudes`. -/
theorem C114_colocate {a b : E → Matrix (ι ⊕ ι) β ℂ} {z : E → β → ℝ} {L : E → LayerSolveResult ι} {d : E → ℝ}
    (ha : SmoothMat k x a) (hb : SmoothMat k x b) (hz : ∀ c, ContDiffAt ℝ k (fun y => z y c) x) (hL : SmoothLayer k x L)
    (hd : ContDiffAt ℝ k d x) : SmoothAmplitudes k x fun y => colocateAmplitudes (a y) (b y) (z y) (L y) (d y) :=
  ⟨fun i c => (ha i c).mul ((contDiffAt_const.mul (hL.eigenvalues i)).mul (contDiffAt_ofReal (hz c))).cexp,
    fun i c => (hb i c).mul
      ((contDiffAt_const.mul (hL.eigenvalues i)).mul (contDiffAt_ofReal (hd.sub (hz c)))).cexp⟩

theorem dependsSmoothly_poyntingFluxAMatrix {L : E → LayerSolveResult ι} (hL : SmoothLayer k x L) :
    DependsSmoothly (SmoothMat k x) x fun y => poyntingFluxAMatrix (L y) := by
  refine (dependsSmoothly_omegaScriptKMatrix hL).bind fun K hK => ?_
  refine (dependsSmoothly_angularFrequency hL.wavelength).bind fun w hw => ?_
  refine (dependsSmoothly_recip (q := fun y i => (w y : ℂ) * (L y).eigenvalues i)
    fun i => (contDiffAt_ofReal hw).mul (hL.eigenvalues i)).bind fun r hr => ?_
  exact DependsSmoothly.pure ((hK.mul hL.eigenvectors).mul (.diag hr))

/-- A pair of real arrays with smooth entries. -/
def SmoothFluxes (k : WithTop ℕ∞) (x : E) (s : E → Matrix (ι ⊕ ι) β ℝ × Matrix (ι ⊕ ι) β ℝ) : Prop :=
  ∀ i c, ContDiffAt ℝ k (fun y => (s y).1 i c) x ∧ ContDiffAt ℝ k (fun y => (s y).2 i c) x

/-- **C114** `amplitude_poynting_flux`. -/
theorem C114_poynting_flux {a b : E → Matrix (ι ⊕ ι) β ℂ} {L : E → LayerSolveResult ι} (ha : SmoothMat k x a)
    (hb : SmoothMat k x b) (hL : SmoothLayer k x L) :
    DependsSmoothly (SmoothFluxes k x) x fun y => amplitudePoyntingFlux (a y) (b y) (L y) := by
  refine (dependsSmoothly_poyntingFluxAMatrix hL).bind fun A hA => ?_
  refine DependsSmoothly.pure fun i c => ?_
  have h1 : ContDiffAt ℝ k (fun y => ((L y).eigenvectors * a y) i c) x := (hL.eigenvectors.mul ha) i c
  have h2 : ContDiffAt ℝ k (fun y => ((L y).eigenvectors * b y) i c) x := (hL.eigenvectors.mul hb) i c
  have h3 : ContDiffAt ℝ k (fun y => (A y * a y) i c) x := (hA.mul ha) i c
  have h4 : ContDiffAt ℝ k (fun y => (A y * b y) i c) x := (hA.mul hb) i c
  have s1 := contDiffAt_star h1
  have s2 := contDiffAt_star h2
  have s3 := contDiffAt_star h3
  have s4 := contDiffAt_star h4
  exact ⟨contDiffAt_re (contDiffAt_const.mul (((s3.mul h1).add (s1.mul h3)).add ((s2.mul h3).sub (s4.mul h1)))),
    contDiffAt_re (contDiffAt_const.mul (((s4.mul h2).add (s2.mul h4)).neg.add
      (contDiffAt_star ((s2.mul h3).sub (s4.mul h1)))))⟩

/-- **C114** `eigenmode_poynting_flux`. -/
theorem C114_eigenmode_flux {L : E → LayerSolveResult ι} (hL : SmoothLayer k x L) :
    DependsSmoothly (fun f : E → ι ⊕ ι → ℝ => ∀ i, ContDiffAt ℝ k (fun y => f y i) x) x
      fun y => eigenmodePoyntingFlux (L y) := by
  refine (dependsSmoothly_poyntingFluxAMatrix hL).bind fun A hA => ?_
  refine DependsSmoothly.pure fun j => ContDiffAt.sum fun i _ => contDiffAt_re (contDiffAt_const.mul ?_)
  exact ((contDiffAt_star (hA i j)).mul (hL.eigenvectors i j)).add
    ((contDiffAt_star (hL.eigenvectors i j)).mul (hA i j))

/-- **C114** `fields_from_wave_amplitudes`. -/
theorem C114_fields {a b : E → Matrix (ι ⊕ ι) β ℂ} {L : E → LayerSolveResult ι} (ha : SmoothMat k x a)
    (hb : SmoothMat k x b) (hL : SmoothLayer k x L) :
    DependsSmoothly (SmoothFields k x) x fun y => fieldsFromWaveAmplitudes (a y) (b y) (L y) := by
  refine DependsSmoothly.bind (P := SmoothMat k x) ?_ fun M hM => ?_
  · refine (dependsSmoothly_poyntingFluxAMatrix hL).bind fun A hA => ?_
    exact DependsSmoothly.pure (.fromBlocks hA hA.neg hL.eigenvectors hL.eigenvectors)
  have hF : SmoothMat k x fun y => M y * Matrix.fromRows (a y) (b y) := hM.mul (.fromRows ha hb)
  have hk := dependsSmoothly_transverseWavevectors (L x).expansion hL.inPlaneWavevector hL.latticeU hL.latticeV
  refine DependsSmoothly.bind (hk.congr fun y => by rw [hL.expansion y]) fun q hq => ?_
  have hx : SmoothVec k x fun y => kxOf (q y) := .kx hq
  have hy : SmoothVec k x fun y => kyOf (q y) := .ky hq
  refine DependsSmoothly.bind (dependsSmoothly_angularFrequency' hL.wavelength) fun w hw => ?_
  · have hi : ContDiffAt ℝ k (fun y => (Complex.I * (w y : ℂ))⁻¹) x :=
      contDiffAt_inv' (contDiffAt_const.mul (contDiffAt_ofReal hw.1))
        (mul_ne_zero Complex.I_ne_zero (Complex.ofReal_ne_zero.2 hw.2))
    refine DependsSmoothly.pure ⟨fun i c => hF (.inl (.inr i)) c, fun i c => (hF (.inl (.inl i)) c).neg, ?_,
      fun i c => hF (.inr (.inl i)) c, fun i c => hF (.inr (.inr i)) c, ?_⟩
    · intro i c
      simp only [Matrix.of_apply, div_eq_mul_inv]
      refine ContDiffAt.mul ?_ hi
      refine (hL.inverseZPermittivity.neg.mul (B := fun y => Matrix.of fun i c => _) fun i c => ?_) i c
      exact (((contDiffAt_const.mul (hx i)).mul (hF (.inr (.inr i)) c))).sub
        ((contDiffAt_const.mul (hy i)).mul (hF (.inr (.inl i)) c))
    · intro i c
      simp only [Matrix.of_apply, div_eq_mul_inv]
      refine ContDiffAt.mul ?_ hi
      refine (hL.inverseZPermeability.mul (B := fun y => Matrix.of fun i c => _) fun i c => ?_) i c
      exact (((contDiffAt_const.mul (hx i)).mul (hF (.inl (.inl i)) c).neg)).sub
        ((contDiffAt_const.mul (hy i)).mul (hF (.inl (.inr i)) c))

/-- **C114** `fields_on_coordinates`, also in the coordinates. -/
theorem C114_fields_on_coordinates {F : E → Fields (Matrix ι β ℂ)} {L : E → LayerSolveResult ι} {xy : E → κ → ℝ × ℝ}
    (hF : SmoothFields k x F) (hL : SmoothLayer k x L) (hxy : ∀ p, SmoothPair k x fun y => xy y p) :
    DependsSmoothly (fun g : E → Fields (Matrix κ β ℂ) × (κ → ℝ × ℝ) =>
      SmoothFields k x (fun y => (g y).1) ∧ ∀ p, SmoothPair k x fun y => (g y).2 p) x
      fun y => fieldsOnCoordinates (F y) (L y) (xy y) := by
  have hk := dependsSmoothly_transverseWavevectors (L x).expansion hL.inPlaneWavevector hL.latticeU hL.latticeV
  refine DependsSmoothly.bind (hk.congr fun y => by rw [hL.expansion y]) fun q hq => ?_
  have hx : SmoothVec k x fun y => kxOf (q y) := .kx hq
  have hy : SmoothVec k x fun y => kyOf (q y) := .ky hq
  have key : ∀ A : E → Matrix ι β ℂ, SmoothMat k x A → ∀ p c, ContDiffAt ℝ k (fun y =>
      ∑ i, A y i c * Complex.exp (Complex.I * (kxOf (q y) i * (xy y p).1 + kyOf (q y) i * (xy y p).2))) x := by
    intro A hA p c
    refine ContDiffAt.sum fun i _ => (hA i c).mul (contDiffAt_const.mul ?_).cexp
    exact ((hx i).mul (contDiffAt_ofReal (hxy p).1)).add ((hy i).mul (contDiffAt_ofReal (hxy p).2))
  exact DependsSmoothly.pure ⟨⟨key _ hF.ex, key _ hF.ey, key _ hF.ez, key _ hF.hx, key _ hF.hy, key _ hF.hz⟩, hxy⟩

/-! ### Sign-dependent quantities -/

theorem DependsSmoothly_congr_eventually {α : Type} {P : (E → α) → Prop} {f f' : E → Res α}
    (h : ∀ᶠ y in 𝓝 x, f y = f' y) (hf : DependsSmoothly P x f') : DependsSmoothly P x f := by
  intro v hv
  obtain ⟨g, hg, hP, he⟩ := hf v (h.self_of_nhds ▸ hv)
  refine ⟨g, hg, hP, ?_⟩
  filter_upwards [h, he] with y h1 h2
  rw [h1, h2]

/-- **C114** `directional_poynting_flux` sorts modes by the sign of their flux; it depends smoothly on the parameters as long as no
mode has zero flux. -/
theorem C114_directional_flux {a b : E → Matrix (ι ⊕ ι) β ℂ} {L : E → LayerSolveResult ι} (ha : SmoothMat k x a)
    (hb : SmoothMat k x b) (hL : SmoothLayer k x L)
    (h0 : ∀ f, eigenmodePoyntingFlux (L x) = .ok f → ∀ i, f i ≠ 0) :
    DependsSmoothly (SmoothFluxes k x) x fun y => directionalPoyntingFlux (a y) (b y) (L y) := by
  refine DependsSmoothly.bind
    (P := fun f : E → ι ⊕ ι → ℝ => (∀ i, ContDiffAt ℝ k (fun y => f y i) x) ∧ ∀ i, f x i ≠ 0) ?_ fun f hf => ?_
  · intro v hv
    obtain ⟨g, hg, hP, he⟩ := C114_eigenmode_flux hL v hv
    exact ⟨g, hg, ⟨hP, fun i => hg ▸ h0 v hv i⟩, he⟩
  have hsign : ∀ᶠ y in 𝓝 x, ∀ i, (0 < f y i) = (0 < f x i) := by
    refine Filter.eventually_all.2 fun i => ?_
    rcases lt_or_gt_of_ne (hf.2 i) with h | h
    · filter_upwards [(hf.1 i).continuousAt.eventually_lt continuousAt_const h] with y hy
      simp only [not_lt.2 hy.le, not_lt.2 h.le]
    · filter_upwards [continuousAt_const.eventually_lt (hf.1 i).continuousAt h] with y hy
      simp only [hy, h]
  have hmask : ∀ (p : ι ⊕ ι → Prop) {c : E → Matrix (ι ⊕ ι) β ℂ}, SmoothMat k x c →
      SmoothMat k x fun y => maskRows p (c y) := by
    intro p c hc i j
    by_cases hp : p i
    · simpa [maskRows, hp] using hc i j
    · simpa [maskRows, hp] using contDiffAt_const
  have hsub : ∀ {A : E → ModeMatrix ι} {c d : E → Matrix (ι ⊕ ι) β ℂ}, SmoothMat k x A →
      SmoothMat k x c → SmoothMat k x d → ∀ i j, ContDiffAt ℝ k
        (fun y => (poyntingFluxSubset (A y) (L y).eigenvectors (a y) (b y) (c y) (d y) i j).re) x := by
    intro A c d hA hc hd i j
    refine contDiffAt_re (contDiffAt_const.mul ?_)
    exact ((contDiffAt_star ((hA.mul (ha.sub hb)) i j)).mul ((hL.eigenvectors.mul (hc.add hd)) i j)).add
      ((contDiffAt_star ((hL.eigenvectors.mul (ha.add hb)) i j)).mul ((hA.mul (hc.sub hd)) i j))
  refine DependsSmoothly_congr_eventually (f' := fun y => poyntingFluxAMatrix (L y) >>= fun A => .ok
      (Matrix.of fun i c => (poyntingFluxSubset A (L y).eigenvectors (a y) (b y) (maskRows (fun i => 0 < f x i) (a y))
        (maskRows (fun i => ¬0 < f x i) (b y)) i c).re,
       Matrix.of fun i c => (poyntingFluxSubset A (L y).eigenvectors (a y) (b y) (maskRows (fun i => ¬0 < f x i) (a y))
        (maskRows (fun i => 0 < f x i) (b y)) i c).re)) ?_ ?_
  · filter_upwards [hsign] with y hy
    simp only [hy]
  · refine (dependsSmoothly_poyntingFluxAMatrix hL).bind fun A hA => ?_
    exact DependsSmoothly.pure fun i c => ⟨hsub hA (hmask _ ha) (hmask _ hb) i c,
      hsub hA (hmask _ ha) (hmask _ hb) i c⟩

/-! ### Consequences -/

/-- **C114** The parameters for which `stack_s_matrix` is finite form an open set, if the layers and thicknesses depend
continuously on the parameters. -/
theorem C114_finite_open {layers : List (E → LayerSolveResult ι)} {ds : List (E → ℝ)}
    (hl : ∀ x, ∀ L ∈ layers, SmoothLayer 0 x L) (hd : ∀ x, ∀ d ∈ ds, ContDiffAt ℝ 0 d x) :
    IsOpen {y | ∃ S, stackSMatrix (layers.map fun L => L y) (ds.map fun d => d y) = .ok S} := by
  refine isOpen_iff_mem_nhds.2 fun y => ?_
  rintro ⟨S, hS⟩
  obtain ⟨g, -, -, he⟩ := C114_stack_s_matrix (hl y) (hd y) S hS
  exact Filter.mem_of_superset he fun z hz => ⟨g z, hz⟩

theorem SmoothLayer.const (l : LayerSolveResult ι) : SmoothLayer k x fun _ => l :=
  ⟨contDiffAt_const, ⟨contDiffAt_const, contDiffAt_const⟩, ⟨contDiffAt_const, contDiffAt_const⟩,
    ⟨contDiffAt_const, contDiffAt_const⟩, fun _ => rfl, fun _ => contDiffAt_const, fun _ _ => contDiffAt_const,
    fun _ _ => contDiffAt_const, fun _ _ => contDiffAt_const, fun _ _ => contDiffAt_const, fun _ _ => contDiffAt_const,
    fun _ _ => contDiffAt_const⟩

/-- **C114** For given layers the scattering matrix is a real-analytic function of the vector of thicknesses, on an open set. -/
theorem C114_thicknesses (layers : List (LayerSolveResult ι)) {N : ℕ} (t : Fin N → ℝ) :
    DependsSmoothly (SmoothScattering ⊤ t) t fun t : Fin N → ℝ => stackSMatrix layers (List.ofFn t) := by
  have h := C114_stack_s_matrix (k := ⊤) (x := t) (layers := layers.map fun l _ => l)
    (ds := List.ofFn fun (i : Fin N) (t : Fin N → ℝ) => t i) ?_ ?_
  · have e1 : ∀ y : Fin N → ℝ, (layers.map fun l (_ : Fin N → ℝ) => l).map (fun L => L y) = layers := by
      intro y
      rw [List.map_map]
      exact List.map_id _
    have e2 : ∀ y : Fin N → ℝ, (List.ofFn fun (i : Fin N) (t : Fin N → ℝ) => t i).map (fun d => d y) = List.ofFn y := by
      intro y
      rw [List.map_ofFn]
      rfl
    simpa only [e1, e2] using h
  · intro L hL
    obtain ⟨l, -, rfl⟩ := List.mem_map.1 hL
    exact SmoothLayer.const l
  · intro d hd
    obtain ⟨i, rfl⟩ := List.mem_ofFn.1 hd
    exact contDiffAt_apply ℝ ℝ i t

/-- **C114** The derivative of the scattering matrix in the thickness of the last layer: the columns of `s12` and `s22` are
multiplied by `1j * q`, and `s11` and `s21` do not change. -/
theorem C114_end_thickness_derivative {layers : List (LayerSolveResult ι)} {ds : List ℝ} {d : ℝ}
    {S : ℝ → ScatteringMatrix ι} (h2 : 2 ≤ layers.length) (h : ∀ t, stackSMatrix layers (ds ++ [t]) = .ok (S t)) (i j) :
    HasDerivAt (fun t => (S t).s12 i j) ((S d).s12 i j * (Complex.I * (S d).endLayer.eigenvalues j)) d ∧
    HasDerivAt (fun t => (S t).s22 i j) ((S d).s22 i j * (Complex.I * (S d).endLayer.eigenvalues j)) d ∧
    HasDerivAt (fun t => (S t).s11 i j) 0 d ∧ HasDerivAt (fun t => (S t).s21 i j) 0 d := by
  have hS : ∀ t, S t = setEndLayerThickness (S d) t := by
    intro t
    have := C35_set_end_thickness_partial h2 (h d) t
    rw [h t] at this
    injection this
  have hd : (S d).endThickness = d := by
    have := congrArg ScatteringMatrix.endThickness (hS d)
    exact this
  have hp : HasDerivAt (fun t : ℝ => Complex.exp (Complex.I * (S d).endLayer.eigenvalues j * ((t - d : ℝ) : ℂ)))
      (Complex.I * (S d).endLayer.eigenvalues j) d := by
    have h1 : HasDerivAt (fun t : ℝ => ((t - d : ℝ) : ℂ)) 1 d := by
      simpa using ((hasDerivAt_id d).sub_const d).ofReal_comp
    have h3 := (h1.const_mul (Complex.I * (S d).endLayer.eigenvalues j)).cexp
    simpa using h3
  refine ⟨?_, ?_, ?_, ?_⟩
  · have : (fun t => (S t).s12 i j) = fun t => (S d).s12 i j *
        Complex.exp (Complex.I * (S d).endLayer.eigenvalues j * ((t - d : ℝ) : ℂ)) := by
      funext t
      rw [hS t]
      simp only [setEndLayerThickness, colScale, phase, Matrix.of_apply, hd]
    rw [this]
    exact hp.const_mul _
  · have : (fun t => (S t).s22 i j) = fun t => (S d).s22 i j *
        Complex.exp (Complex.I * (S d).endLayer.eigenvalues j * ((t - d : ℝ) : ℂ)) := by
      funext t
      rw [hS t]
      simp only [setEndLayerThickness, colScale, phase, Matrix.of_apply, hd]
    rw [this]
    exact hp.const_mul _
  · have : (fun t => (S t).s11 i j) = fun _ => (S d).s11 i j := by
      funext t
      rw [hS t]
      rfl
    rw [this]
    exact hasDerivAt_const _ _
  · have : (fun t => (S t).s21 i j) = fun _ => (S d).s21 i j := by
      funext t
      rw [hS t]
      rfl
    rw [this]
    exact hasDerivAt_const _ _

/-! ### Examples -/

/-- The example layer with its refractive index as the parameter. -/
theorem exLayer_smooth {q : ℂ} (hq : q ≠ 0) : SmoothLayer k q fun q : ℂ => Examples.exLayer q := by
  have hid : ContDiffAt ℝ k (fun q : ℂ => q) q := contDiffAt_id
  refine ⟨contDiffAt_const, ⟨contDiffAt_const, contDiffAt_const⟩, ⟨contDiffAt_const, contDiffAt_const⟩,
    ⟨contDiffAt_const, contDiffAt_const⟩, fun _ => rfl, fun _ => hid, fun _ _ => contDiffAt_const, fun i j => ?_,
    fun i j => ?_, fun _ _ => contDiffAt_const, fun _ _ => contDiffAt_const, fun _ _ => contDiffAt_const⟩
  · have : (fun q : ℂ => (Examples.exLayer q).zPermittivityMatrix i j) = fun q => q ^ 2 := by
      funext y
      simp [Examples.exLayer, Subsingleton.elim i j]
    rw [this]
    exact hid.pow 2
  · have : (fun q : ℂ => (Examples.exLayer q).inverseZPermittivityMatrix i j) = fun q => (q ^ 2)⁻¹ := by
      funext y
      simp [Examples.exLayer, Subsingleton.elim i j]
    rw [this]
    exact contDiffAt_inv' (hid.pow 2) (pow_ne_zero 2 hq)

/-- The scattering matrix of two layers is finite near index `2` of the second layer and thickness `π`, and analytic there. -/
example : ∃ g : ℂ → ScatteringMatrix (Fin 1), SmoothScattering ⊤ 2 g ∧ ∀ᶠ q in 𝓝 (2 : ℂ),
    stackSMatrix [Examples.exLayer 1, Examples.exLayer q] [Real.pi, Real.pi] = .ok (g q) := by
  obtain ⟨g, -, h1, h2⟩ := C114_stack_s_matrix (E := ℂ) (k := ⊤) (x := 2)
    (layers := [fun _ => Examples.exLayer 1, fun q => Examples.exLayer q]) (ds := [fun _ => Real.pi, fun _ => Real.pi])
    (by simpa using ⟨SmoothLayer.const _, exLayer_smooth two_ne_zero⟩) (by simp [contDiffAt_const]) Examples.exS2
    Examples.exStack2
  exact ⟨g, h1, h2⟩

/-- The modes of the example layer carry flux, as `C114_directional_flux` requires. -/
example : ∃ f, eigenmodePoyntingFlux (Examples.exLayer 2) = .ok f ∧ ∀ i, f i ≠ 0 := by
  have hw : angularFrequency (Examples.exLayer 2).wavelength = .ok 1 := by
    have := Real.pi_ne_zero
    simp [angularFrequency, Examples.exLayer]
  have hA : poyntingFluxAMatrix (Examples.exLayer 2) = .ok (1 * 1 * diag fun _ => 1 / (((1 : ℝ) : ℂ) * 2)) := by
    unfold poyntingFluxAMatrix
    refine bind_eq_ok.2 ⟨_, Examples.exLayer_omegaScriptK two_ne_zero, bind_eq_ok.2 ⟨_, hw, bind_eq_ok.2 ⟨_, ?_, rfl⟩⟩⟩
    exact if_pos fun i => by simp [Examples.exLayer]
  refine ⟨_, bind_eq_ok.2 ⟨_, hA, rfl⟩, fun j => ?_⟩
  rw [Finset.sum_eq_single j]
  · simp [Examples.exLayer, diag]
  · intro i _ hij
    simp [Examples.exLayer, diag, hij]
  · simp

/-- The hypothesis of `C114_end_thickness_derivative` holds for the example stack. -/
example : ∃ S : ℝ → ScatteringMatrix (Fin 1), ∀ t,
    stackSMatrix [Examples.exLayer 1, Examples.exLayer 2] ([Real.pi] ++ [t]) = .ok (S t) :=
  ⟨fun t => setEndLayerThickness Examples.exS2 t, fun t => C35_set_end_thickness_partial le_rfl Examples.exStack2 t⟩

end Fmmax
