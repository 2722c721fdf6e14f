import Verif.Proofs.SupercellMedia
import Verif.Props.Symmetry
import Verif.Props.Brillouin

/-! Property C92: supercells and points of the Brillouin zone. -/

set_option linter.unusedSectionVars false

namespace Fmmax

open Matrix Spec

variable {ι κ : Type} [Fintype ι] [DecidableEq ι] [Fintype κ] [DecidableEq κ] {m n : ℕ} {p : ℤ × ℤ} {place : ι → κ}
variable {eig : Matrix (ι ⊕ ι) (ι ⊕ ι) ℂ → (ι ⊕ ι → ℂ) × Matrix (ι ⊕ ι) (ι ⊕ ι) ℂ}
variable {eig' : Matrix (κ ⊕ κ) (κ ⊕ κ) ℂ → (κ ⊕ κ → ℂ) × Matrix (κ ⊕ κ) (κ ⊕ κ) ℂ}
variable {c : Setup ι} {c' : Setup κ} {layers : List (StackLayer ι)} {layers' : List (StackLayer κ)} {S' : ScatteringMatrix κ}

/-- **C92** A structure calculated with a cell of `m × n` primitive cells: the Fourier orders of the class `p` are not coupled to other orders, and
their scattering is that calculated with the primitive cell at the wavevector shifted by `p` reciprocal lattice vectors of the supercell, which
succeeds whenever the calculation with the supercell does.  The matrices compared map Fourier coefficients of incoming fields to those of
outgoing fields. -/
theorem C92_supercell (he : IsEig eig) (he' : IsEig eig') (h : SupercellClass m n p place c c') (hl : List.Forall₂ (SupercellLayer m n c c') layers layers')
    (hlast : ∀ p ∈ layers'.getLast?, ∀ r, p.solve eig' c' = .ok r → IsUnit r.eigenvectors.det) (hS : ComputedSMatrix eig' c' layers' S') :
    ∃ S, ComputedSMatrix eig c layers S ∧
      let φ := S.startLayer.eigenvectors
      let ψ := S.endLayer.eigenvectors
      let φ' := S'.startLayer.eigenvectors
      let ψ' := S'.endLayer.eigenvectors
      IsUnit φ.det ∧ IsUnit ψ.det ∧ IsUnit φ'.det ∧ IsUnit ψ'.det ∧
      IsBlock place (ψ * S.s11 * φ⁻¹) (ψ' * S'.s11 * φ'⁻¹) ∧ IsBlock place (ψ * S.s12 * ψ⁻¹) (ψ' * S'.s12 * ψ'⁻¹) ∧
      IsBlock place (φ * S.s21 * φ⁻¹) (φ' * S'.s21 * φ'⁻¹) ∧ IsBlock place (φ * S.s22 * ψ⁻¹) (φ' * S'.s22 * ψ'⁻¹) := by
  obtain ⟨S, hS1, u1, u2, m₀, m₁, hP⟩ := h.stack he he' hl hlast hS
  obtain ⟨k1, k2, k3, k4⟩ := hP.blocks u1 u2
  exact ⟨S, hS1, hP.start.eigenvectors.isUnit u1, hP.finish.eigenvectors.isUnit u2, u1, u2, placePart_double_iff _ k1, placePart_double_iff _ k2,
    placePart_double_iff _ k3, placePart_double_iff _ k4⟩

/-- **C92** Between uniform isotropic layers the amplitudes of the modes are Fourier coefficients: the scattering matrix calculated with the supercell is block
diagonal, and its blocks are the scattering matrices calculated with the primitive cell. -/
theorem C92_uniform_ends (he : IsEig eig) (he' : IsEig eig') (h : SupercellClass m n p place c c') (hl : List.Forall₂ (SupercellLayer m n c c') layers layers')
    (hfirst : ∀ p ∈ layers'.head?, p.Uniform) (hlast : ∀ p ∈ layers'.getLast?, p.Uniform) (hS : ComputedSMatrix eig' c' layers' S') :
    ∃ S, ComputedSMatrix eig c layers S ∧ IsBlock place S.s11 S'.s11 ∧ IsBlock place S.s12 S'.s12 ∧ IsBlock place S.s21 S'.s21 ∧
      IsBlock place S.s22 S'.s22 := by
  obtain ⟨S, hS1, -, -, -, -, k1, k2, k3, k4⟩ := C92_supercell he he' h hl (fun p hp r hr => by rw [uniform_eigenvectors (hlast p hp) hr]; simp) hS
  obtain ⟨⟨a', ha', sa'⟩, ⟨b', hb', sb'⟩⟩ := hS.ends
  obtain ⟨⟨a, ha, sa⟩, ⟨b, hb, sb⟩⟩ := hS1.ends
  have hsub : ∀ {q : StackLayer ι} {q' : StackLayer κ}, SupercellLayer m n c c' q q' → q'.Uniform → q.Uniform := by
    intro q q' h hq
    obtain ⟨h1, h2, ε0, f0, h3⟩ := hq
    cases h with
    | uniformIsotropic ε f f' d => exact ⟨rfl, rfl, _, _, rfl⟩
    | uniformAnisotropic ε μ f f' x x' d => simp at h3
    | isotropic hn hR ε f f' hf d => exact absurd ⟨Nat.eq_one_of_mul_eq_one_left h1, Nat.eq_one_of_mul_eq_one_left h2⟩ hn
    | anisotropic hn hR ε μ x f f' hf d => exact absurd ⟨Nat.eq_one_of_mul_eq_one_left h1, Nat.eq_one_of_mul_eq_one_left h2⟩ hn
  have hhead : a.Uniform := by
    cases hl with
    | nil => simp at ha
    | cons h1 h2 =>
      simp only [List.head?_cons, Option.mem_def, Option.some.injEq] at ha
      subst ha
      exact hsub h1 (hfirst _ (by simp))
  have hend : b.Uniform := by
    have : ∀ (l : List (StackLayer ι)) (l' : List (StackLayer κ)), List.Forall₂ (SupercellLayer m n c c') l l' → ∀ b ∈ l.getLast?, (∀ p ∈ l'.getLast?, p.Uniform) → b.Uniform := by
      intro l l' h
      induction h with
      | nil => simp
      | @cons x x' xs xs' hx hxs ih =>
        intro b hb hu
        cases hxs with
        | nil =>
          simp only [List.getLast?_singleton, Option.mem_def, Option.some.injEq] at hb
          subst hb
          exact hsub hx (hu _ (by simp))
        | cons h1 h2 =>
          rw [List.getLast?_cons_cons] at hb
          rw [List.getLast?_cons_cons] at hu
          exact ih b hb hu
    exact this _ _ hl b hb hlast
  have e1 := uniform_eigenvectors hhead sa
  have e2 := uniform_eigenvectors hend sb
  have e3 := uniform_eigenvectors (hfirst _ ha') sa'
  have e4 := uniform_eigenvectors (hlast _ hb') sb'
  simp only [e1, e2, e3, e4, inv_one, Matrix.mul_one, Matrix.one_mul] at k1 k2 k3 k4
  exact ⟨S, hS1, k1, k2, k3, k4⟩

/-- The calculation with a cell of `m × n` primitive cells at the in-plane wavevector `k`, with the orders of all classes. -/
noncomputable def Spec.supercellSetup (m n : ℕ) (k : ℝ × ℝ) (c : Setup ι) : Setup (ι × Fin m × Fin n) :=
  { wavelength := c.wavelength, inPlaneWavevector := k, lattice := { u := (m : ℝ) • c.lattice.u, v := (n : ℝ) • c.lattice.v },
    expansion := fun x => (m * (c.expansion x.1).1 + (x.2.1 : ℕ), n * (c.expansion x.1).2 + (x.2.2 : ℕ)) }

/-- A mode of the order which belongs to the class `(a, b)` in the supercell. -/
def Spec.inClass (a : Fin m) (b : Fin n) (s : ι ⊕ ι) : (ι × Fin m × Fin n) ⊕ (ι × Fin m × Fin n) := s.map (fun i => (i, a, b)) fun i => (i, a, b)

theorem dvd_fin_sub {n : ℕ} {a b : Fin n} {g : ℤ} (h : (n : ℤ) ∣ n * g + (a : ℕ) - (b : ℕ)) : a = b := by
  have h1 : (n : ℤ) ∣ (a : ℕ) - (b : ℕ) := by
    have := dvd_sub h (dvd_mul_right (n : ℤ) g)
    rwa [show (n : ℤ) * g + (a : ℕ) - (b : ℕ) - n * g = (a : ℕ) - (b : ℕ) by ring] at this
  have h2 := Int.eq_zero_of_abs_lt_dvd h1 (by
    have := a.isLt
    have := b.isLt
    rw [abs_lt]
    omega)
  ext
  omega

theorem grid_class (l : LatticeVectors) (h : Independent l.u l.v) {k : Fin m → Fin n → ℝ × ℝ} {g : List (List (ℝ × ℝ))}
    (hg : brillouinZoneInPlaneWavevector [(m : ℤ), (n : ℤ)] l = .ok g) (hk : ∀ (a : Fin m) (b : Fin n), ∃ row, g[(a : ℕ)]? = some row ∧ row[(b : ℕ)]? = some (k a b))
    (c : Setup ι) (hc : c.lattice = l) (a₀ : Fin m) (b₀ : Fin n) (ha : (a₀ : ℕ) = 0) (hb : (b₀ : ℕ) = 0) (a : Fin m) (b : Fin n) :
    SupercellClass m n ((a : ℕ), (b : ℕ)) (fun i => (i, a, b)) { c with inPlaneWavevector := k a b } (supercellSetup m n (k a₀ b₀) c) := by
  obtain ⟨g', hg', -, hrows⟩ := C10_brillouin_grid l h m n a.pos b.pos
  rw [hg, ok_inj] at hg'
  subst hg'
  have hm : (m : ℝ) ≠ 0 := by exact_mod_cast a.pos.ne'
  have hn : (n : ℝ) ≠ 0 := by exact_mod_cast b.pos.ne'
  have key : ∀ (a : Fin m) (b : Fin n), dot (k a b) l.u = 2 * Real.pi * (((a : ℕ) + 1 / 2) / m - 1 / 2) ∧
      dot (k a b) l.v = 2 * Real.pi * (((b : ℕ) + 1 / 2) / n - 1 / 2) := by
    intro a b
    obtain ⟨row, h1, h2⟩ := hk a b
    exact (hrows _ row h1).2 _ _ h2
  obtain ⟨k1, k2⟩ := key a b
  obtain ⟨k3, k4⟩ := key a₀ b₀
  rw [ha] at k3
  rw [hb] at k4
  refine ⟨rfl, rfl, rfl, fun i j hij => by simpa using hij, fun i => rfl, ?_, ?_, ?_⟩
  · rintro ⟨j, a', b'⟩ hx ⟨d1, d2⟩
    have e1 := dvd_fin_sub (a := a') (b := a) (g := (c.expansion j).1) d1
    have e2 := dvd_fin_sub (a := b') (b := b) (g := (c.expansion j).2) d2
    exact hx j (by rw [e1, e2])
  · simp only [supercellSetup, hc]
    rw [k1, k3]
    push_cast
    field_simp
    ring
  · simp only [supercellSetup, hc]
    rw [k2, k4]
    push_cast
    field_simp
    ring

/-- **C92** Sampling the Brillouin zone on an `m × n` grid (`brillouin_zone_in_plane_wavevector`) is the calculation with a cell of `m × n` primitive cells at
the first grid point, with the orders `(m G1 + a, n G2 + b)`: in each block of the scattering matrix, the entries between modes belonging to one grid
point are those calculated with the primitive cell at that grid point, and entries between modes of different grid points vanish. -/
theorem C92_brillouin_grid (he : IsEig eig) {eig' : Matrix _ _ ℂ → (_ → ℂ) × Matrix _ _ ℂ} (he' : IsEig eig') (hc : Independent c.lattice.u c.lattice.v)
    {g : List (List (ℝ × ℝ))} (hg : brillouinZoneInPlaneWavevector [(m : ℤ), (n : ℤ)] c.lattice = .ok g) {k : Fin m → Fin n → ℝ × ℝ}
    (hk : ∀ (a : Fin m) (b : Fin n), ∃ row, g[(a : ℕ)]? = some row ∧ row[(b : ℕ)]? = some (k a b)) {a₀ : Fin m} {b₀ : Fin n} (ha : (a₀ : ℕ) = 0) (hb : (b₀ : ℕ) = 0)
    {layers' : List (StackLayer (ι × Fin m × Fin n))}
    (hl : ∀ a b, List.Forall₂ (SupercellLayer m n { c with inPlaneWavevector := k a b } (supercellSetup m n (k a₀ b₀) c)) layers layers')
    (hfirst : ∀ p ∈ layers'.head?, p.Uniform) (hlast : ∀ p ∈ layers'.getLast?, p.Uniform) {S' : ScatteringMatrix (ι × Fin m × Fin n)}
    (hS : ComputedSMatrix eig' (supercellSetup m n (k a₀ b₀) c) layers' S') :
    ∃ S : Fin m → Fin n → ScatteringMatrix ι, (∀ a b, ComputedSMatrix eig { c with inPlaneWavevector := k a b } layers (S a b)) ∧
      ∀ a b a' b' s t,
        S'.s11 (inClass a b s) (inClass a' b' t) = (if a = a' ∧ b = b' then (S a b).s11 s t else 0) ∧
        S'.s12 (inClass a b s) (inClass a' b' t) = (if a = a' ∧ b = b' then (S a b).s12 s t else 0) ∧
        S'.s21 (inClass a b s) (inClass a' b' t) = (if a = a' ∧ b = b' then (S a b).s21 s t else 0) ∧
        S'.s22 (inClass a b s) (inClass a' b' t) = (if a = a' ∧ b = b' then (S a b).s22 s t else 0) := by
  have h := fun a b => C92_uniform_ends he he' (grid_class c.lattice hc hg hk c rfl a₀ b₀ ha hb a b) (hl a b) hfirst hlast hS
  choose S h1 h2 using h
  refine ⟨S, h1, fun a b a' b' s t => ?_⟩
  have key : ∀ {A : Fin m → Fin n → ModeMatrix ι} {A' : ModeMatrix (ι × Fin m × Fin n)}, (∀ a b, IsBlock (fun i => (i, a, b)) (A a b) A') →
      A' (inClass a b s) (inClass a' b' t) = if a = a' ∧ b = b' then A a b s t else 0 := by
    intro A A' hA
    split_ifs with hab
    · obtain ⟨rfl, rfl⟩ := hab
      exact (hA a b).1 s t
    · refine ((hA a b).2 (inClass a' b' t) (fun q hq => hab ?_) s).2
      unfold inClass at hq
      rcases q with q | q <;> rcases t with t | t <;> simp at hq
      · exact hq.2
      · exact hq.2
  exact ⟨key fun a b => (h2 a b).1, key fun a b => (h2 a b).2.1, key fun a b => (h2 a b).2.2.1, key fun a b => (h2 a b).2.2.2⟩

namespace SupercellExample

open SymmetryExample

/-- The grating of the examples of C84 repeats its first two values three times. -/
noncomputable def cell : Grid 2 1 := Matrix.of fun r _ => if (r : ℕ) % 2 = 0 then 1 + Complex.I else 3 + Complex.I

/-- One order of the grating with its true period, at the wavevector shifted by `p` reciprocal lattice vectors of the cell with three periods. -/
noncomputable def point (p : ℤ) : Setup (Fin 1) :=
  { wavelength := 2 * Real.pi, inPlaneWavevector := (2 * Real.pi * p, 0), lattice := ⟨(1 / 3, 0), (0, 1)⟩, expansion := ![(0, 0)] }

noncomputable def cellStack : List (StackLayer (Fin 1)) :=
  [⟨1, 1, .isotropic (Matrix.of fun _ _ => 2 + Complex.I) .fft, 0⟩, ⟨2, 1, .isotropic cell .fft, 1⟩,
    ⟨1, 1, .isotropic (Matrix.of fun _ _ => 2 + Complex.I) .fft, 0⟩]

theorem cell_tile : cell.pull (tile 3 1) = grating := by
  ext r s
  fin_cases r <;> simp [cell, grating, Grid.pull, tile]

theorem same_layers (p : ℤ) : List.Forall₂ (SupercellLayer 3 1 (point p) setup) cellStack stack := by
  refine .cons (.uniformIsotropic _ _ _ _) (.cons ?_ (.cons (.uniformIsotropic _ _ _ _) .nil))
  have := SupercellLayer.isotropic (m := 3) (n := 1) (c := point p) (c' := setup) (nx := 2) (ny := 1) (by norm_num)
    ⟨⟨0⟩, fun i => by fin_cases i; simp [point]⟩ cell .fft .fft trivial 1
  rw [cell_tile] at this
  exact this

theorem classes : SupercellClass 3 1 (0, 0) ![0] (point 0) setup ∧ SupercellClass 3 1 (1, 0) ![1] (point 1) setup ∧
    SupercellClass 3 1 (-1, 0) ![2] (point (-1)) setup := by
  refine ⟨⟨rfl, ?_, ?_, Function.injective_of_subsingleton _, ?_, ?_, ?_, ?_⟩, ⟨rfl, ?_, ?_, Function.injective_of_subsingleton _, ?_, ?_, ?_, ?_⟩,
    ⟨rfl, ?_, ?_, Function.injective_of_subsingleton _, ?_, ?_, ?_, ?_⟩⟩
  all_goals first
    | (intro i; fin_cases i; simp [setup, point]; done)
    | (intro x hx; have := hx 0; fin_cases x <;> simp [setup] at this ⊢)
    | (simp [setup, point, unitLattice, dot]; done)
    | (simp [setup, point, unitLattice, dot]; ring)

/-- C92: the order `0` and the orders `±1` of the grating described with three periods are not coupled, and are those of the grating described with one
period, at three points of the Brillouin zone. -/
example : ∃ eig' eig S' S₀ S₁, IsEig eig' ∧ IsEig eig ∧ ComputedSMatrix eig' setup stack S' ∧ ComputedSMatrix eig (point 0) cellStack S₀ ∧
    ComputedSMatrix eig (point 1) cellStack S₁ ∧ S'.s21 (.inl 1) (.inl 0) = 0 ∧ S'.s21 (.inl 0) (.inr 0) = S₀.s21 (.inl 0) (.inr 0) ∧
    S'.s21 (.inl 1) (.inr 1) = S₁.s21 (.inl 0) (.inr 0) := by
  obtain ⟨eig', he', S', hS'⟩ := computed
  obtain ⟨eig, he⟩ := exists_isEig (Fin 1 ⊕ Fin 1)
  obtain ⟨S₀, h0, -, -, k0, -⟩ := C92_uniform_ends he he' classes.1 (same_layers 0) uniform_ends.1 uniform_ends.2 hS'
  obtain ⟨S₁, h1, -, -, k1, -⟩ := C92_uniform_ends he he' classes.2.1 (same_layers 1) uniform_ends.1 uniform_ends.2 hS'
  refine ⟨eig', eig, S', S₀, S₁, he', he, hS', h0, h1, ?_, k0.1 (.inl 0) (.inr 0), k1.1 (.inl 0) (.inr 0)⟩
  refine (k0.2 (.inl 1) (fun a => ?_) (.inl 0)).1
  rcases a with a | a <;> fin_cases a <;> simp

/-- C92: two absorbing half spaces, four points of the Brillouin zone. -/
example : ∃ (eig : Matrix (Fin 1 ⊕ Fin 1) (Fin 1 ⊕ Fin 1) ℂ → _) (eig' : Matrix ((Fin 1 × Fin 2 × Fin 2) ⊕ (Fin 1 × Fin 2 × Fin 2)) ((Fin 1 × Fin 2 × Fin 2) ⊕ (Fin 1 × Fin 2 × Fin 2)) ℂ → _) (g : List (List (ℝ × ℝ))) (k : Fin 2 → Fin 2 → ℝ × ℝ) (layers : List (StackLayer (Fin 1))) (layers' : List (StackLayer (Fin 1 × Fin 2 × Fin 2)))
    (S' : ScatteringMatrix (Fin 1 × Fin 2 × Fin 2)), IsEig eig ∧ IsEig eig' ∧ Independent (point 0).lattice.u (point 0).lattice.v ∧
    brillouinZoneInPlaneWavevector [2, 2] (point 0).lattice = .ok g ∧ (∀ (a b : Fin 2), ∃ row, g[(a : ℕ)]? = some row ∧ row[(b : ℕ)]? = some (k a b)) ∧
    (∀ a b, List.Forall₂ (SupercellLayer 2 2 { point 0 with inPlaneWavevector := k a b } (supercellSetup 2 2 (k 0 0) (point 0))) layers layers') ∧
    (∀ p ∈ layers'.head?, p.Uniform) ∧ (∀ p ∈ layers'.getLast?, p.Uniform) ∧ layers.length = 2 ∧
    ComputedSMatrix eig' (supercellSetup 2 2 (k 0 0) (point 0)) layers' S' := by
  obtain ⟨eig, he⟩ := exists_isEig (Fin 1 ⊕ Fin 1)
  obtain ⟨eig', he'⟩ := exists_isEig ((Fin 1 × Fin 2 × Fin 2) ⊕ (Fin 1 × Fin 2 × Fin 2))
  have hi : Independent (point 0).lattice.u (point 0).lattice.v := by norm_num [Independent, point]
  obtain ⟨g, hg, hlen, hrows⟩ := C10_brillouin_grid (point 0).lattice hi 2 2 (by norm_num) (by norm_num)
  have hk : ∀ (a b : Fin 2), ∃ k row, g[(a : ℕ)]? = some row ∧ row[(b : ℕ)]? = some k := by
    intro a b
    have h1 : (a : ℕ) < g.length := by rw [hlen]; exact a.isLt
    have h2 : (b : ℕ) < (g[(a : ℕ)]).length := by rw [(hrows a _ (List.getElem?_eq_getElem h1)).1]; exact b.isLt
    exact ⟨_, _, List.getElem?_eq_getElem h1, List.getElem?_eq_getElem h2⟩
  choose k hk using hk
  set c' := supercellSetup 2 2 (k 0 0) (point 0) with hc'
  have hl : (0 : ℝ) < c'.wavelength := by simp only [hc', supercellSetup, point]; have := Real.pi_pos; positivity
  have hlat : c'.lattice.u.1 * c'.lattice.v.2 - c'.lattice.u.2 * c'.lattice.v.1 ≠ 0 := by norm_num [hc', supercellSetup, point]
  have hε1 : (2 + Complex.I : ℂ) ≠ 0 := by intro h; simpa using congrArg Complex.re h
  have hε2 : (3 + Complex.I : ℂ) ≠ 0 := by intro h; simpa using congrArg Complex.re h
  obtain ⟨u, hu⟩ := (C22_uniform_succeeds_iff c'.wavelength c'.inPlaneWavevector c'.lattice (2 + Complex.I) c'.expansion).2 ⟨hl.ne', hε1, hlat⟩
  obtain ⟨v, hv⟩ := (C22_uniform_succeeds_iff c'.wavelength c'.inPlaneWavevector c'.lattice (3 + Complex.I) c'.expansion).2 ⟨hl.ne', hε2, hlat⟩
  have hwu : u.wavelength = c'.wavelength := by
    obtain ⟨k, w, -, -, -, hr⟩ := eigensolveUniformIsotropic_ok_iff.1 hu
    rw [hr]
  have hwv : v.wavelength = c'.wavelength := by
    obtain ⟨k, w, -, -, -, hr⟩ := eigensolveUniformIsotropic_ok_iff.1 hv
    rw [hr]
  obtain ⟨S', -, hS', -⟩ := C81_absorbing_stack (layers := [u, v]) (ds := [0, 0]) (by simp) (by simp) (lam := c'.wavelength)
    (by simp [hwu, hwv]) (by simp [C81_uniform_absorbing hl hu (by simp), C81_uniform_absorbing hl hv (by simp)]) (by simp)
  refine ⟨eig, eig', g, k, [⟨1, 1, .isotropic (Matrix.of fun _ _ => 2 + Complex.I) .fft, 0⟩, ⟨1, 1, .isotropic (Matrix.of fun _ _ => 3 + Complex.I) .fft, 0⟩],
    [⟨1, 1, .isotropic (Matrix.of fun _ _ => 2 + Complex.I) .fft, 0⟩, ⟨1, 1, .isotropic (Matrix.of fun _ _ => 3 + Complex.I) .fft, 0⟩], S', he, he', hi, hg, hk,
    fun a b => .cons (.uniformIsotropic _ _ _ _) (.cons (.uniformIsotropic _ _ _ _) .nil), ?_, ?_, rfl, [u, v], .cons ?_ (.cons ?_ .nil), hS'⟩
  · intro p hp
    simp only [List.head?_cons, Option.mem_def, Option.some.injEq] at hp
    subst hp
    exact ⟨rfl, rfl, _, _, rfl⟩
  · intro p hp
    simp only [List.getLast?_cons_cons, List.getLast?_singleton, Option.mem_def, Option.some.injEq] at hp
    subst hp
    exact ⟨rfl, rfl, _, _, rfl⟩
  · simpa [StackLayer.solve, eigensolveIsotropicMedia] using hu
  · simpa [StackLayer.solve, eigensolveIsotropicMedia] using hv

end SupercellExample

end Fmmax
