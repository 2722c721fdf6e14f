import Verif.Proofs.SupercellEmission
import Verif.Props.Supercell
import Verif.Props.Superposition

/-! Property C98: sources in supercells and integration over the Brillouin zone. -/

set_option linter.unusedSectionVars false

namespace Fmmax

open Matrix Spec

variable {ι κ σ : Type} [Fintype ι] [DecidableEq ι] [Fintype κ] [DecidableEq κ] [Fintype σ] [DecidableEq σ] {m n : ℕ}
variable {eig : Matrix (ι ⊕ ι) (ι ⊕ ι) ℂ → (ι ⊕ ι → ℂ) × Matrix (ι ⊕ ι) (ι ⊕ ι) ℂ}
variable {eig' : Matrix (κ ⊕ κ) (κ ⊕ κ) ℂ → (κ ⊕ κ → ℂ) × Matrix (κ ⊕ κ) (κ ⊕ κ) ℂ}

/-- **C98** The Fourier coefficients of point and Gaussian sources, for the orders of one class of the supercell, are those for the primitive cell at the shifted
wavevector. -/
theorem C98_point_sources {p : ℤ × ℤ} {place : ι → κ} {c : Setup ι} {c' : Setup κ} (h : SupercellClass m n p place c c') {β : Type} (location : β → ℝ × ℝ) :
    (∀ D', diracDeltaSource location c'.inPlaneWavevector c'.lattice c'.expansion = .ok D' →
      diracDeltaSource location c.inPlaneWavevector c.lattice c.expansion = .ok (D'.submatrix place id)) ∧
    ∀ fwhm D', gaussianSource fwhm location c'.inPlaneWavevector c'.lattice c'.expansion = .ok D' →
      gaussianSource fwhm location c.inPlaneWavevector c.lattice c.expansion = .ok (D'.submatrix place id) := by
  constructor
  · intro D' hD
    unfold diracDeltaSource at hD ⊢
    obtain ⟨k', hk', hD⟩ := bind_eq_ok.1 hD
    rw [ok_inj] at hD
    refine bind_eq_ok.2 ⟨_, (h.wavevectors hk').2, ?_⟩
    rw [← hD]
    rfl
  · intro fwhm D' hD
    unfold gaussianSource at hD ⊢
    obtain ⟨k', hk', hD⟩ := bind_eq_ok.1 hD
    rw [ok_inj] at hD
    refine bind_eq_ok.2 ⟨_, (h.wavevectors hk').2, ?_⟩
    rw [← hD]
    rfl

/-- **C98** Let the orders of a calculation with a cell of `m × n` primitive cells be those of classes `t`.  Whenever the fields of currents inside the
structure are calculated with the supercell, those calculated with the primitive cell at the wavevector of each class, for the Fourier coefficients of the currents which
belong to the class, succeed too, in the same planes; and the fields are their sum, in every plane and at every point. -/
theorem C98_emission (he : IsEig eig) (he' : IsEig eig') {p : σ → ℤ × ℤ} {places : σ → ι → κ} {c : σ → Setup ι} {c' : Setup κ}
    (h : ∀ t, SupercellClass m n (p t) (places t) (c t) c') (hbij : Function.Bijective fun q : σ × ι => places q.1 q.2)
    {before after : List (StackLayer ι)} {before' after' : List (StackLayer κ)} (hb : ∀ t, List.Forall₂ (SupercellLayer m n (c t) c') before before')
    (ha : ∀ t, List.Forall₂ (SupercellLayer m n (c t) c') after after')
    (hlast : ∀ p ∈ before'.getLast?, ∀ r, p.solve eig' c' = .ok r → IsUnit r.eigenvectors.det)
    (hlast' : ∀ p ∈ after'.getLast?, ∀ r, p.solve eig' c' = .ok r → IsUnit r.eigenvectors.det) {γ : Type} {N : ℕ} {jx' jy' jz' : Matrix κ (Fin N) ℂ}
    {znum : List ℕ} {xy : γ → ℝ × ℝ} {gs' : List (Fields (γ → Fin N → ℂ))} {zs : List ℝ}
    (hE : ComputedEmission eig' c' before' after' jx' jy' jz' znum xy gs' zs) :
    ∃ gs : σ → List (Fields (γ → Fin N → ℂ)),
      (∀ t, ComputedEmission eig (c t) before after (jx'.submatrix (places t) id) (jy'.submatrix (places t) id) (jz'.submatrix (places t) id) znum xy (gs t) zs) ∧
      IsSumOfFields gs' gs := by
  obtain ⟨lb', la', sb', sa', ib', ia', source', amplitudes', e1, e2, e3, e4, e5, e6, e7, e8, e9⟩ := hE
  have ub := solved_independent e1 e3 hlast
  have ua := solved_independent e2 e4 hlast'
  have key := fun t => (h t).amplitudes he he' (hb t) (ha t) e1 e2 ub ua e3 e4 e5 e6 e7 e8
  choose lb la sb sa ib ia source amplitudes k1 k2 k3 k4 k5 k6 k7 k8 k9 k10 k11 k12 using key
  obtain ⟨g1, g2, g3, hloop⟩ := stackFields3d_eq_ok.1 e9
  obtain ⟨gs, q1, q2⟩ := stackFieldsLoop_classes (fun t => (h t).injective) hbij _ _ _ _ _ _ _ (fun t => requests_part (k9 t) (k10 t) _ znum) hloop
  refine ⟨gs, fun t => ⟨_, _, _, _, _, _, _, _, k1 t, k2 t, k3 t, k4 t, k5 t, k6 t, k7 t, k8 t, ?_⟩, q2⟩
  obtain ⟨n1, n2, n3⟩ := (k9 t).length
  rw [← k11 t, ← k12 t]
  exact stackFields3d_eq_ok.2 ⟨by rw [n1, n3], by rw [n1]; exact g2, by rw [n1]; exact g3, q1 t⟩

/-- Fields for scaled currents. -/
theorem computedEmission_scale {c : Setup ι} {before after : List (StackLayer ι)} {γ : Type} {N : ℕ} {jx jy jz : Matrix ι (Fin N) ℂ} {znum : List ℕ} {xy : γ → ℝ × ℝ} {gs zs}
    (h : ComputedEmission eig c before after jx jy jz znum xy gs zs) (r : ℂ) :
    ComputedEmission eig c before after (r • jx) (r • jy) (r • jz) znum xy (gs.map (Fields.map fun f p j => r * f p j)) zs := by
  obtain ⟨-, -, h3⟩ := C99_sources h h (r • (1 : Matrix (Fin N) (Fin N) ℂ)) 0
  have e : ∀ j : Matrix ι (Fin N) ℂ, j * (r • (1 : Matrix (Fin N) (Fin N) ℂ)) + j * (0 : Matrix (Fin N) (Fin N) ℂ) = r • j := by
    intro j
    simp
  have e2 : List.zipWith (combineFields (r • (1 : Matrix (Fin N) (Fin N) ℂ)) (0 : Matrix (Fin N) (Fin N) ℂ)) gs gs = gs.map (Fields.map fun f p j => r * f p j) := by
    rw [List.zipWith_self]
    refine List.map_congr_left fun F _ => ?_
    have key : ∀ f : γ → Fin N → ℂ, combine (r • (1 : Matrix (Fin N) (Fin N) ℂ)) (0 : Matrix (Fin N) (Fin N) ℂ) f f = fun p j => r * f p j := by
      intro f
      funext p j
      simp [combine, Matrix.one_apply, mul_comm]
    simp only [combineFields, Fields.map, key]
  rw [e, e, e, e2] at h3
  exact h3

/-- **C98** Averaging over the Brillouin zone isolates sources: let the fields of point sources at any locations, with any dipole moments, be calculated at all points of the
`m × n` grid of `brillouin_zone_in_plane_wavevector`, where the sources are repeated in every primitive cell with the phases of the grid point.  The average over the grid is the
field calculated with the cell of `m × n` primitive cells, in which the sources, of the same dipole moments, are repeated only in every supercell.  (Coefficients of
modulus one are sources with a strength proportional to the area of the cell, hence the factor.) -/
theorem C98_brillouin_average (he : IsEig eig) {eig' : Matrix _ _ ℂ → (_ → ℂ) × Matrix _ _ ℂ} (he' : IsEig eig') {c : Setup ι} (hc : Independent c.lattice.u c.lattice.v)
    {g : List (List (ℝ × ℝ))} (hg : brillouinZoneInPlaneWavevector [(m : ℤ), (n : ℤ)] c.lattice = .ok g) {k : Fin m → Fin n → ℝ × ℝ}
    (hk : ∀ (a : Fin m) (b : Fin n), ∃ row, g[(a : ℕ)]? = some row ∧ row[(b : ℕ)]? = some (k a b)) {a₀ : Fin m} {b₀ : Fin n} (ha : (a₀ : ℕ) = 0) (hb : (b₀ : ℕ) = 0)
    {before after : List (StackLayer ι)} {before' after' : List (StackLayer (ι × Fin m × Fin n))}
    (hbefore : ∀ a b, List.Forall₂ (SupercellLayer m n { c with inPlaneWavevector := k a b } (supercellSetup m n (k a₀ b₀) c)) before before')
    (hafter : ∀ a b, List.Forall₂ (SupercellLayer m n { c with inPlaneWavevector := k a b } (supercellSetup m n (k a₀ b₀) c)) after after')
    (hlast : ∀ p ∈ before'.getLast?, ∀ r, p.solve eig' (supercellSetup m n (k a₀ b₀) c) = .ok r → IsUnit r.eigenvectors.det)
    (hlast' : ∀ p ∈ after'.getLast?, ∀ r, p.solve eig' (supercellSetup m n (k a₀ b₀) c) = .ok r → IsUnit r.eigenvectors.det)
    {γ : Type} {N : ℕ} (location : Fin N → ℝ × ℝ) (px py pz : Fin N → ℂ) {D' : Matrix (ι × Fin m × Fin n) (Fin N) ℂ}
    (hD : diracDeltaSource location (k a₀ b₀) (supercellSetup m n (k a₀ b₀) c).lattice (supercellSetup m n (k a₀ b₀) c).expansion = .ok D')
    {znum : List ℕ} {xy : γ → ℝ × ℝ} {gs' : List (Fields (γ → Fin N → ℂ))} {zs : List ℝ}
    (hE : ComputedEmission eig' (supercellSetup m n (k a₀ b₀) c) before' after' ((1 / (m * n : ℂ)) • (D' * diagonal px)) ((1 / (m * n : ℂ)) • (D' * diagonal py))
      ((1 / (m * n : ℂ)) • (D' * diagonal pz)) znum xy gs' zs) :
    ∃ (D : Fin m × Fin n → Matrix ι (Fin N) ℂ) (gs : Fin m × Fin n → List (Fields (γ → Fin N → ℂ))),
      (∀ t, diracDeltaSource location (k t.1 t.2) c.lattice c.expansion = .ok (D t) ∧
        ComputedEmission eig { c with inPlaneWavevector := k t.1 t.2 } before after (D t * diagonal px) (D t * diagonal py) (D t * diagonal pz) znum xy (gs t) zs) ∧
      IsMeanOfFields gs' gs := by
  have hcl := fun t : Fin m × Fin n => grid_class c.lattice hc hg hk c rfl a₀ b₀ ha hb t.1 t.2
  have hbij : Function.Bijective fun q : (Fin m × Fin n) × ι => (q.2, q.1.1, q.1.2) := by
    refine ⟨?_, ?_⟩
    · rintro ⟨⟨a, b⟩, i⟩ ⟨⟨a', b'⟩, i'⟩ h
      simp only [Prod.mk.injEq] at h
      obtain ⟨rfl, rfl, rfl⟩ := h
      rfl
    · rintro ⟨i, a, b⟩
      exact ⟨((a, b), i), rfl⟩
  have hmn : (m * n : ℂ) ≠ 0 := by exact_mod_cast Nat.mul_ne_zero a₀.pos.ne' b₀.pos.ne'
  obtain ⟨gs, h1, h2, h3⟩ := C98_emission he he' hcl hbij (fun t => hbefore t.1 t.2) (fun t => hafter t.1 t.2) hlast hlast' hE
  refine ⟨fun t => D'.submatrix (fun i => (i, t.1, t.2)) id, fun t => (gs t).map (Fields.map fun f p j => (m * n : ℂ) * f p j), fun t => ⟨?_, ?_⟩, fun t => by simp [h2], ?_⟩
  · exact (C98_point_sources (hcl t) location).1 _ hD
  · have := computedEmission_scale (h1 t) (m * n : ℂ)
    have e : ∀ p : Fin N → ℂ, (m * n : ℂ) • (((1 / (m * n : ℂ)) • (D' * diagonal p)).submatrix (fun i => (i, t.1, t.2)) id) =
        D'.submatrix (fun i => (i, t.1, t.2)) id * diagonal p := by
      intro p
      ext i j
      simp only [Matrix.smul_apply, Matrix.submatrix_apply, smul_eq_mul, Matrix.mul_diagonal, id]
      rw [← mul_assoc, mul_one_div_cancel hmn, one_mul]
    rw [e, e, e] at this
    exact this
  · intro i F' hF
    obtain ⟨F, k1, k2⟩ := h3 i F' hF
    refine ⟨fun t => (F t).map fun f p j => (m * n : ℂ) * f p j, fun t => by rw [List.getElem?_map, k1]; rfl, ?_⟩
    rw [k2]
    have key : ∀ f : Fin m × Fin n → γ → Fin N → ℂ, ∑ t, f t = fun p j => (∑ t, fun p j => (m * n : ℂ) * f t p j) p j / (Fintype.card (Fin m × Fin n) : ℂ) := by
      intro f
      funext p j
      simp only [Finset.sum_apply, Fintype.card_prod, Fintype.card_fin, ← Finset.mul_sum]
      push_cast
      rw [mul_div_cancel_left₀ _ hmn]
    unfold sumFields Fields.map
    simp only [key fun t => (F t).ex, key fun t => (F t).ey, key fun t => (F t).ez, key fun t => (F t).hx, key fun t => (F t).hy, key fun t => (F t).hz]

namespace SupercellEmissionExample

open SupercellExample

/-- C98: two dipoles between absorbing half spaces, with a slab, calculated on a 2 × 2 grid of the Brillouin zone and with a cell of 2 × 2 primitive cells. -/
example : ∃ (eig : Matrix (Fin 1 ⊕ Fin 1) (Fin 1 ⊕ Fin 1) ℂ → _)
    (eig' : Matrix ((Fin 1 × Fin 2 × Fin 2) ⊕ (Fin 1 × Fin 2 × Fin 2)) ((Fin 1 × Fin 2 × Fin 2) ⊕ (Fin 1 × Fin 2 × Fin 2)) ℂ → _) (g : List (List (ℝ × ℝ)))
    (k : Fin 2 → Fin 2 → ℝ × ℝ) (before after : List (StackLayer (Fin 1))) (before' after' : List (StackLayer (Fin 1 × Fin 2 × Fin 2)))
    (D' : Matrix (Fin 1 × Fin 2 × Fin 2) (Fin 2) ℂ) (gs' : List (Fields (ℝ × ℝ → Fin 2 → ℂ))) (zs : List ℝ), IsEig eig ∧ IsEig eig' ∧
    Independent (point 0).lattice.u (point 0).lattice.v ∧ brillouinZoneInPlaneWavevector [2, 2] (point 0).lattice = .ok g ∧
    (∀ (a b : Fin 2), ∃ row, g[(a : ℕ)]? = some row ∧ row[(b : ℕ)]? = some (k a b)) ∧
    (∀ a b, List.Forall₂ (SupercellLayer 2 2 { point 0 with inPlaneWavevector := k a b } (supercellSetup 2 2 (k 0 0) (point 0))) before before') ∧
    (∀ a b, List.Forall₂ (SupercellLayer 2 2 { point 0 with inPlaneWavevector := k a b } (supercellSetup 2 2 (k 0 0) (point 0))) after after') ∧
    (∀ p ∈ before'.getLast?, ∀ r, p.solve eig' (supercellSetup 2 2 (k 0 0) (point 0)) = .ok r → IsUnit r.eigenvectors.det) ∧
    (∀ p ∈ after'.getLast?, ∀ r, p.solve eig' (supercellSetup 2 2 (k 0 0) (point 0)) = .ok r → IsUnit r.eigenvectors.det) ∧
    diracDeltaSource ![(0, 0), (0.1, 0.2)] (k 0 0) (supercellSetup 2 2 (k 0 0) (point 0)).lattice (supercellSetup 2 2 (k 0 0) (point 0)).expansion = .ok D' ∧
    ComputedEmission eig' (supercellSetup 2 2 (k 0 0) (point 0)) before' after' ((1 / (2 * 2 : ℂ)) • (D' * diagonal ![(1 : ℂ), 0])) ((1 / (2 * 2 : ℂ)) • (D' * diagonal ![(0 : ℂ), 1]))
      ((1 / (2 * 2 : ℂ)) • (D' * diagonal ![0, Complex.I])) [3, 2, 5] id gs' zs := by
  obtain ⟨eig, he⟩ := exists_isEig (Fin 1 ⊕ Fin 1)
  obtain ⟨eig', he'⟩ := exists_isEig ((Fin 1 × Fin 2 × Fin 2) ⊕ (Fin 1 × Fin 2 × Fin 2))
  have hi : Independent (point 0).lattice.u (point 0).lattice.v := by norm_num [Independent, point]
  obtain ⟨g, hg, hlen, hrows⟩ := C10_brillouin_grid (point 0).lattice hi 2 2 (by norm_num) (by norm_num)
  have hk : ∀ (a b : Fin 2), ∃ k row, g[(a : ℕ)]? = some row ∧ row[(b : ℕ)]? = some k := by
    intro a b
    have h1 : (a : ℕ) < g.length := by rw [hlen]; exact a.isLt
    have h2 : (b : ℕ) < (g[(a : ℕ)]).length := by rw [(hrows a _ (List.getElem?_eq_getElem h1)).1]; exact b.isLt
    exact ⟨_, _, List.getElem?_eq_getElem h1, List.getElem?_eq_getElem h2⟩
  choose k hk using hk
  set c' := supercellSetup 2 2 (k 0 0) (point 0) with hc'
  have hl : (0 : ℝ) < c'.wavelength := by simp only [hc', supercellSetup, point]; have := Real.pi_pos; positivity
  have hlat : Independent c'.lattice.u c'.lattice.v := by norm_num [hc', supercellSetup, point, Independent]
  obtain ⟨D', hD⟩ : ∃ D', diracDeltaSource (![(0, 0), (0.1, 0.2)] : Fin 2 → ℝ × ℝ) (k 0 0) c'.lattice c'.expansion = .ok D' := ⟨_, (diracDeltaSource_eq_ok (loc := (![(0, 0), (0.1, 0.2)] : Fin 2 → ℝ × ℝ)) (k₀ := k 0 0) (l := c'.lattice) (G := c'.expansion)).2 ⟨hlat, rfl⟩⟩
  obtain ⟨gs', zs, hE⟩ := C97_uniform_layers (eig := eig') (c := c') hl hlat (before := [(2 + Complex.I, 1)]) (after := [(3 + Complex.I, 2), (2 + Complex.I, 0)]) (by simp) (by simp)
    (by simp) ((1 / (2 * 2 : ℂ)) • (D' * diagonal ![(1 : ℂ), 0])) ((1 / (2 * 2 : ℂ)) • (D' * diagonal ![(0 : ℂ), 1])) ((1 / (2 * 2 : ℂ)) • (D' * diagonal ![0, Complex.I]))
    (znum := [3, 2, 5]) rfl id
  have hu : ∀ (ε : ℂ) (d : ℝ) r, StackLayer.solve eig' c' ⟨1, 1, .isotropic (Matrix.of fun _ _ => ε) .fft, d⟩ = .ok r → IsUnit r.eigenvectors.det := by
    intro ε d r hr
    rw [uniform_eigenvectors ⟨rfl, rfl, _, _, rfl⟩ hr]
    simp
  refine ⟨eig, eig', g, k, [(2 + Complex.I, 1)].map fun p => ⟨1, 1, .isotropic (Matrix.of fun _ _ => p.1) .fft, p.2⟩,
    [(3 + Complex.I, 2), (2 + Complex.I, 0)].map fun p => ⟨1, 1, .isotropic (Matrix.of fun _ _ => p.1) .fft, p.2⟩,
    [(2 + Complex.I, 1)].map fun p => ⟨1, 1, .isotropic (Matrix.of fun _ _ => p.1) .fft, p.2⟩,
    [(3 + Complex.I, 2), (2 + Complex.I, 0)].map fun p => ⟨1, 1, .isotropic (Matrix.of fun _ _ => p.1) .fft, p.2⟩, D', gs', zs, he, he', hi, hg, hk,
    fun a b => .cons (.uniformIsotropic _ _ _ _) .nil, fun a b => .cons (.uniformIsotropic _ _ _ _) (.cons (.uniformIsotropic _ _ _ _) .nil), ?_, ?_, hD, hE⟩
  · intro p hp r hr
    simp only [List.map_cons, List.map_nil, List.getLast?_singleton, Option.mem_def, Option.some.injEq] at hp
    subst hp
    exact hu _ _ _ hr
  · intro p hp r hr
    simp only [List.map_cons, List.map_nil, List.getLast?_cons_cons, List.getLast?_singleton, Option.mem_def, Option.some.injEq] at hp
    subst hp
    exact hu _ _ _ hr

/-- C98: the three classes of orders of the grating of the examples of C84 and C92 contain all its orders. -/
example : (∀ t : Fin 3, SupercellClass 3 1 (![(0, 0), (1, 0), (-1, 0)] t) ((![![0], ![1], ![2]] : Fin 3 → Fin 1 → Fin 3) t) (point (![0, 1, -1] t)) SymmetryExample.setup) ∧
    Function.Bijective (fun q : Fin 3 × Fin 1 => (![![0], ![1], ![2]] : Fin 3 → Fin 1 → Fin 3) q.1 q.2) := by
  refine ⟨fun t => ?_, ?_⟩
  · obtain ⟨h0, h1, h2⟩ := classes
    fin_cases t
    · exact h0
    · exact h1
    · exact h2
  · decide

end SupercellEmissionExample

end Fmmax
