import Verif.Proofs.Sources
import Verif.Proofs.SMatrix
import Verif.Spec.Source
import Verif.Props.Scattering
import Verif.Props.Brillouin
import Verif.Props.Fields3d

/-! Property theorems C47 to C50: amplitudes of fields, sources. -/

set_option linter.unusedSectionVars false

namespace Fmmax

open Spec Matrix

variable {ι : Type} [Fintype ι] [DecidableEq ι] {β κ : Type}

/-! ### C47, C48 -/

theorem amplitudesForFields_eq {l : LayerSolveResult ι} {shape cells : ℕ × ℕ} (h1 : cells.1 ≠ 0) (h2 : cells.2 ≠ 0)
    {ex ey hx hy : ℕ → ℕ → β → ℂ} {Ex Ey Hx Hy : Matrix ι β ℂ}
    (hex : processField l shape cells ex = .ok Ex) (hey : processField l shape cells ey = .ok Ey)
    (hhx : processField l shape cells hx = .ok Hx) (hhy : processField l shape cells hy = .ok Hy) {M}
    (hM : fieldConversionMatrix l = .ok M) (hu : IsUnit M.det) {a b : Matrix (ι ⊕ ι) β ℂ}
    (hab : M * Matrix.fromRows a b = Matrix.fromRows (Matrix.fromRows (-Ey) Ex) (Matrix.fromRows Hx Hy)) :
    amplitudesForFields (cells.1 * shape.1, cells.2 * shape.2) ex ey hx hy l cells = .ok (a, b) := by
  unfold amplitudesForFields
  rw [if_neg (by tauto), if_neg (by simp)]
  have e1 : cells.1 * shape.1 / cells.1 = shape.1 := Nat.mul_div_cancel_left _ (Nat.pos_of_ne_zero h1)
  have e2 : cells.2 * shape.2 / cells.2 = shape.2 := Nat.mul_div_cancel_left _ (Nat.pos_of_ne_zero h2)
  simp only [e1, e2]
  simp only [hex, hey, hhx, hhy, hM, bind, Except.bind]
  rw [(solve_eq_ok (X := Matrix.fromRows a b)).2 ⟨hu, hab⟩]
  rfl

theorem conversion_fields {l : LayerSolveResult ι} {a b : Matrix (ι ⊕ ι) β ℂ} {F M} (hM : fieldConversionMatrix l = .ok M)
    (hF : fieldsFromWaveAmplitudes a b l = .ok F) :
    M * Matrix.fromRows a b = Matrix.fromRows (Matrix.fromRows (-F.ey) F.ex) (Matrix.fromRows F.hx F.hy) := by
  obtain ⟨-, -, rfl⟩ := fieldConversionMatrix_eq_ok.1 hM
  obtain ⟨-, -, rfl⟩ := fieldsFromWaveAmplitudes_eq_ok.1 hF
  have e1 := tangentialE_fieldsOf l (electricModes l * (a - b)) (l.eigenvectors * (a + b))
  have e2 := tangentialH_fieldsOf l (electricModes l * (a - b)) (l.eigenvectors * (a + b))
  unfold tangentialE at e1
  unfold tangentialH at e2
  rw [e1, e2, Matrix.fromBlocks_mul_fromRows]
  congr 1
  · rw [Matrix.mul_sub, Matrix.neg_mul, sub_eq_add_neg]
  · rw [Matrix.mul_add]

/-- The mode-to-field matrix is invertible exactly when the magnetic mode profiles are a basis and `ω² M - 𝒦` is
invertible. -/
theorem C47_invertible_iff {l : LayerSolveResult ι} {M} (hM : fieldConversionMatrix l = .ok M) :
    IsUnit M.det ↔ IsUnit l.eigenvectors.det ∧ IsUnit (magneticToElectric l).det := by
  obtain ⟨hw, hq, rfl⟩ := fieldConversionMatrix_eq_ok.1 hM
  have e : Matrix.fromBlocks (electricModes l) (-electricModes l) l.eigenvectors l.eigenvectors =
      Matrix.fromBlocks (electricModes l) 0 0 l.eigenvectors * Matrix.fromBlocks 1 (-1) 1 1 := by
    rw [Matrix.fromBlocks_multiply]; simp
  have e2 : (Matrix.fromBlocks 1 (-1) 1 1 : Matrix ((ι ⊕ ι) ⊕ (ι ⊕ ι)) ((ι ⊕ ι) ⊕ (ι ⊕ ι)) ℂ) *
      ((1 / 2 : ℂ) • Matrix.fromBlocks 1 1 (-1) 1) = 1 := by
    have e3 : (2 : ℂ)⁻¹ • (1 : ModeMatrix ι) + (2 : ℂ)⁻¹ • 1 = 1 := by rw [← add_smul]; norm_num
    rw [Matrix.mul_smul, Matrix.fromBlocks_multiply, Matrix.fromBlocks_smul, ← Matrix.fromBlocks_one]
    simp [e3]
  have hu2 : IsUnit (Matrix.fromBlocks 1 (-1) 1 1 : Matrix ((ι ⊕ ι) ⊕ (ι ⊕ ι)) ((ι ⊕ ι) ⊕ (ι ⊕ ι)) ℂ).det :=
    Matrix.isUnit_det_of_right_inverse e2
  have hd : IsUnit (Matrix.diagonal fun i => ((omega l : ℂ) * l.eigenvalues i)⁻¹ : ModeMatrix ι).det := by
    rw [Matrix.det_diagonal, isUnit_iff_ne_zero, Finset.prod_ne_zero_iff]
    intro i _
    exact inv_ne_zero (mul_ne_zero (omega_ne_zero hw) (hq i))
  rw [e, Matrix.det_mul, Matrix.det_fromBlocks_zero₁₂, electricModes, Matrix.det_mul, Matrix.det_mul]
  simp only [IsUnit.mul_iff]
  tauto

/-- C47: amplitudes computed from the fields on a grid over one unit cell are the amplitudes the fields were computed
from. -/
theorem C47_round_trip {l : LayerSolveResult ι} {a b : Matrix (ι ⊕ ι) β ℂ} {F : Fields (Matrix ι β ℂ)} {shape : ℕ × ℕ} {g xy}
    (hG : Function.Injective l.expansion) (hφ : IsUnit l.eigenvectors.det) (hΩ : IsUnit (magneticToElectric l).det)
    (hF : fieldsFromWaveAmplitudes a b l = .ok F) (hg : fieldsOnGrid F l shape (1, 1) = .ok (g, xy))
    {ex ey hx hy : ℕ → ℕ → β → ℂ}
    (hex : ∀ p b, ex p.1 p.2 b = g.ex p b) (hey : ∀ p b, ey p.1 p.2 b = g.ey p b)
    (hhx : ∀ p b, hx p.1 p.2 b = g.hx p b) (hhy : ∀ p b, hy p.1 p.2 b = g.hy p b) :
    amplitudesForFields shape ex ey hx hy l (1, 1) = .ok (a, b) := by
  obtain ⟨hw, hq, hF'⟩ := fieldsFromWaveAmplitudes_eq_ok.1 hF
  have hres := fieldsOnGrid_resolves hg
  rw [fieldsOnGrid_eq hres hG hw.2.1, ok_inj] at hg
  have hM := (fieldConversionMatrix_eq_ok (l := l)).2 ⟨hw, hq, rfl⟩
  have process : ∀ (c : Matrix ι β ℂ) (f : ℕ → ℕ → β → ℂ), (∀ (p : Fin (1 * shape.1) × Fin (1 * shape.2)) b,
      f p.1 p.2 b = planeWaveSum l (fun i => c i b)
          (latticePoint l.primitiveLatticeVectors ((p.1 : ℕ) / (shape.1 : ℝ)) ((p.2 : ℕ) / (shape.2 : ℝ)))) →
      processField l shape (1, 1) f = .ok c := by
    intro c f hf
    refine processField_bloch (P := Unit) (L := fun _ => l) (fun _ => rfl) (fun _ => rfl) hG hres hw.2.1 one_ne_zero one_ne_zero
      ?_ (fun _ => c) f ?_ ()
    · intro p p'
      simp [dot]
    · intro i j b hi hj
      have := hf (⟨i, hi⟩, ⟨j, hj⟩) b
      simpa using this
  have key := amplitudesForFields_eq (l := l) (shape := shape) (cells := (1, 1)) one_ne_zero one_ne_zero
    (process F.ex ex fun p b => by rw [hex, ← congrArg (fun x => x.1.ex p b) hg]; rfl)
    (process F.ey ey fun p b => by rw [hey, ← congrArg (fun x => x.1.ey p b) hg]; rfl)
    (process F.hx hx fun p b => by rw [hhx, ← congrArg (fun x => x.1.hx p b) hg]; rfl)
    (process F.hy hy fun p b => by rw [hhy, ← congrArg (fun x => x.1.hy p b) hg]; rfl)
    hM ((C47_invertible_iff hM).2 ⟨hφ, hΩ⟩) (conversion_fields hM hF)
  simpa using key

/-- C47, other direction: the fields on the grid computed from the returned amplitudes are the given fields, for every given
field that is a Bloch wave within the expansion. -/
theorem C47_fields_reproduced {l : LayerSolveResult ι} {shape : ℕ × ℕ} (hG : Function.Injective l.expansion)
    {a b : Matrix (ι ⊕ ι) β ℂ} {ex ey hx hy : ℕ → ℕ → β → ℂ} (C : Fields (Matrix ι β ℂ)) {g xy}
    (hg : fieldsOnGrid C l shape (1, 1) = .ok (g, xy))
    (hex : ∀ p b, ex p.1 p.2 b = g.ex p b) (hey : ∀ p b, ey p.1 p.2 b = g.ey p b)
    (hhx : ∀ p b, hx p.1 p.2 b = g.hx p b) (hhy : ∀ p b, hy p.1 p.2 b = g.hy p b)
    (h : amplitudesForFields shape ex ey hx hy l (1, 1) = .ok (a, b)) :
    ∃ F g' xy', fieldsFromWaveAmplitudes a b l = .ok F ∧ fieldsOnGrid F l shape (1, 1) = .ok (g', xy') ∧
      g'.ex = g.ex ∧ g'.ey = g.ey ∧ g'.hx = g.hx ∧ g'.hy = g.hy := by
  have hres := fieldsOnGrid_resolves hg
  unfold amplitudesForFields at h
  rw [if_neg (by simp), if_neg (by simp [Nat.mod_one])] at h
  simp only [Nat.div_one, Prod.mk.eta, bind_eq_ok, ok_inj] at h
  obtain ⟨Ex, hEx, Ey, hEy, Hx, hHx, Hy, hHy, M, hM, X, hX, hab⟩ := h
  obtain ⟨hw, hq, hM'⟩ := fieldConversionMatrix_eq_ok.1 hM
  rw [fieldsOnGrid_eq hres hG hw.2.1, ok_inj] at hg
  have process : ∀ (c : Matrix ι β ℂ) (f : ℕ → ℕ → β → ℂ), (∀ (p : Fin (1 * shape.1) × Fin (1 * shape.2)) b,
      f p.1 p.2 b = planeWaveSum l (fun i => c i b)
          (latticePoint l.primitiveLatticeVectors ((p.1 : ℕ) / (shape.1 : ℝ)) ((p.2 : ℕ) / (shape.2 : ℝ)))) →
      processField l shape (1, 1) f = .ok c := by
    intro c f hf
    refine processField_bloch (P := Unit) (L := fun _ => l) (fun _ => rfl) (fun _ => rfl) hG hres hw.2.1 one_ne_zero one_ne_zero
      ?_ (fun _ => c) f ?_ ()
    · intro p p'
      simp [dot]
    · intro i j b hi hj
      have := hf (⟨i, hi⟩, ⟨j, hj⟩) b
      simpa using this
  rw [process C.ex ex fun p b => by rw [hex, ← congrArg (fun x => x.1.ex p b) hg]; rfl, ok_inj] at hEx
  rw [process C.ey ey fun p b => by rw [hey, ← congrArg (fun x => x.1.ey p b) hg]; rfl, ok_inj] at hEy
  rw [process C.hx hx fun p b => by rw [hhx, ← congrArg (fun x => x.1.hx p b) hg]; rfl, ok_inj] at hHx
  rw [process C.hy hy fun p b => by rw [hhy, ← congrArg (fun x => x.1.hy p b) hg]; rfl, ok_inj] at hHy
  subst hEx hEy hHx hHy
  have hX' : X = Matrix.fromRows a b := by
    simp only [Prod.mk.injEq] at hab
    ext (i | i) c
    · simp [← hab.1]
    · simp [← hab.2]
  subst hX'
  have hF := (fieldsFromWaveAmplitudes_eq_ok (l := l) (a := a) (b := b)).2 ⟨hw, hq, rfl⟩
  refine ⟨_, _, _, hF, fieldsOnGrid_eq hres hG hw.2.1, ?_⟩
  have e := (solve_eq_ok.1 hX).2
  rw [conversion_fields hM hF] at e
  obtain ⟨e1, e2⟩ := Matrix.fromRows_inj e
  obtain ⟨e3, e4⟩ := Matrix.fromRows_inj e1
  obtain ⟨e5, e6⟩ := Matrix.fromRows_inj e2
  rw [neg_inj] at e3
  simp only [Prod.mk.injEq] at hg
  rw [← hg.1]
  simp only [Fields.map, e3, e4, e5, e6, and_self]

/-- A metal-like layer with four orders on an oblique lattice and any in-plane wavevector, for the examples. -/
noncomputable def metalLayer (k : ℝ × ℝ) : LayerSolveResult (Fin 4) where
  wavelength := 1
  inPlaneWavevector := k
  primitiveLatticeVectors := { u := (1, 0), v := (1, 2) }
  expansion := exampleExpansion
  eigenvalues := fun _ => Complex.I
  eigenvectors := 1
  zPermittivityMatrix := -1
  inverseZPermittivityMatrix := -1
  zPermeabilityMatrix := 1
  inverseZPermeabilityMatrix := 1
  transversePermeabilityMatrix := 1

theorem metalLayer_wellPosed (k : ℝ × ℝ) : WellPosed (metalLayer k) := by
  refine ⟨one_ne_zero, by norm_num [cellArea, metalLayer], ?_⟩
  rw [metalLayer]
  simp [Matrix.det_neg]

theorem metalLayer_magneticToElectric (k : ℝ × ℝ) : IsUnit (magneticToElectric (metalLayer k)).det := by
  have hw : 0 < omega (metalLayer k) := by
    unfold omega metalLayer
    have := Real.pi_pos
    positivity
  set B : Matrix (Fin 4) (Fin 4 ⊕ Fin 4) ℂ := Matrix.fromCols
    (diagonal fun i => ((orderWavevector (metalLayer k) i).2 : ℂ)) (-diagonal fun i => ((orderWavevector (metalLayer k) i).1 : ℂ))
  have hB : magneticToElectric (metalLayer k) = ((omega (metalLayer k) ^ 2 : ℝ) : ℂ) • 1 + Bᴴ * B := by
    unfold magneticToElectric
    have h1 : (metalLayer k).zPermittivityMatrix⁻¹ = -1 := by
      rw [metalLayer]
      exact Matrix.inv_eq_right_inv (by simp)
    have h2 : (metalLayer k).transversePermeabilityMatrix = 1 := rfl
    have h3 : ∀ f : Fin 4 → ℝ, (diagonal fun i => (f i : ℂ) : Matrix (Fin 4) (Fin 4) ℂ)ᴴ = diagonal fun i => (f i : ℂ) := by
      intro f
      rw [Matrix.diagonal_conjTranspose]
      congr 1
      funext i
      simp
    simp only [h1, h2, B]
    rw [Matrix.conjTranspose_fromCols_eq_fromRows_conjTranspose, Matrix.fromRows_mul_fromCols, Matrix.conjTranspose_neg, h3, h3,
      sub_eq_add_neg, Matrix.fromBlocks_neg]
    push_cast
    simp only [Matrix.mul_neg, Matrix.mul_one, Matrix.neg_mul, neg_neg]
  apply isUnit_det_of_re_form_pos
  intro y hy
  rw [hB, Matrix.add_mulVec, dotProduct_add, Matrix.smul_mulVec, Matrix.one_mulVec, dotProduct_smul, Complex.add_re, smul_eq_mul,
    Complex.re_ofReal_mul]
  have e0 : ∀ {n : Type} [Fintype n] (z : n → ℂ), (star z ⬝ᵥ z).re = ∑ i, Complex.normSq (z i) := by
    intro n _ z
    rw [dotProduct, Complex.re_sum]
    refine Finset.sum_congr rfl fun i _ => ?_
    rw [Pi.star_apply, Complex.star_def, ← Complex.normSq_eq_conj_mul_self, Complex.ofReal_re]
  have e1 : 0 < (star y ⬝ᵥ y).re := by
    rw [e0]
    obtain ⟨i, hi⟩ := Function.ne_iff.1 hy
    exact Finset.sum_pos' (fun i _ => Complex.normSq_nonneg _) ⟨i, Finset.mem_univ _, Complex.normSq_pos.2 hi⟩
  have e2 : 0 ≤ (star y ⬝ᵥ (Bᴴ * B) *ᵥ y).re := by
    rw [← Matrix.mulVec_mulVec, Matrix.dotProduct_mulVec, ← Matrix.star_mulVec]
    rw [e0]
    exact Finset.sum_nonneg fun i _ => Complex.normSq_nonneg _
  positivity

example (a b : Matrix (Fin 4 ⊕ Fin 4) (Fin 2) ℂ) : ∃ F, ∃ ex ey hx hy : ℕ → ℕ → Fin 2 → ℂ,
    fieldsFromWaveAmplitudes a b (metalLayer (1, 2)) = .ok F ∧
    amplitudesForFields (3, 5) ex ey hx hy (metalLayer (1, 2)) (1, 1) = .ok (a, b) := by
  have hF := (fieldsFromWaveAmplitudes_eq_ok (l := metalLayer (1, 2)) (a := a) (b := b)).2
    ⟨metalLayer_wellPosed _, fun _ => Complex.I_ne_zero, rfl⟩
  obtain ⟨g, xy, h1, -⟩ := C44_grid_eq_coordinates (fieldsOf (metalLayer (1, 2)) (electricModes (metalLayer (1, 2)) * (a - b))
    ((metalLayer (1, 2)).eigenvectors * (a + b))) (cells := (1, 1)) exampleExpansion_injective (l := metalLayer (1, 2))
    (shape := (3, 5)) exampleExpansion_resolved (metalLayer_wellPosed _).2.1
  let f := fun (w : Fin (1 * 3) × Fin (1 * 5) → Fin 2 → ℂ) (i j : ℕ) (c : Fin 2) =>
    if h : i < 1 * 3 ∧ j < 1 * 5 then w (⟨i, h.1⟩, ⟨j, h.2⟩) c else 0
  have hf : ∀ (w : Fin (1 * 3) × Fin (1 * 5) → Fin 2 → ℂ) p c, f w p.1 p.2 c = w p c := by
    intro w p c
    simp only [f]
    rw [dif_pos ⟨p.1.2, p.2.2⟩]
  exact ⟨_, f g.ex, f g.ey, f g.hx, f g.hy, hF, C47_round_trip (l := metalLayer (1, 2)) (shape := (3, 5))
    exampleExpansion_injective (by rw [metalLayer, Matrix.det_one]; exact isUnit_one) (metalLayer_magneticToElectric _) hF h1
    (hf _) (hf _) (hf _) (hf _)⟩

theorem brillouin_orthogonal {lat : LatticeVectors} {b₁ b₂ : ℕ} {k k' : ℝ × ℝ} {p p' : Fin b₁ × Fin b₂}
    (hk : dot k lat.u = 2 * Real.pi * (((p.1 : ℕ) + 1 / 2 : ℝ) / b₁ - 1 / 2) ∧
      dot k lat.v = 2 * Real.pi * (((p.2 : ℕ) + 1 / 2 : ℝ) / b₂ - 1 / 2))
    (hk' : dot k' lat.u = 2 * Real.pi * (((p'.1 : ℕ) + 1 / 2 : ℝ) / b₁ - 1 / 2) ∧
      dot k' lat.v = 2 * Real.pi * (((p'.2 : ℕ) + 1 / 2 : ℝ) / b₂ - 1 / 2)) :
    ∑ c : Fin b₁ × Fin b₂, Complex.exp (Complex.I * (dot (k - k') (latticePoint lat (c.1 : ℕ) (c.2 : ℕ)) : ℝ)) =
      if p = p' then (b₁ * b₂ : ℂ) else 0 := by
  have e : ∀ c : Fin b₁ × Fin b₂, Complex.exp (Complex.I * (dot (k - k') (latticePoint lat (c.1 : ℕ) (c.2 : ℕ)) : ℝ)) =
      planeWave b₁ b₂ ((p.1 : ℕ) - (p'.1 : ℕ), (p.2 : ℕ) - (p'.2 : ℕ)) c.1 c.2 := by
    intro c
    have hd : dot (k - k') (latticePoint lat (c.1 : ℕ) (c.2 : ℕ)) =
        (c.1 : ℕ) * (dot k lat.u - dot k' lat.u) + (c.2 : ℕ) * (dot k lat.v - dot k' lat.v) := by
      simp only [dot, latticePoint, Prod.smul_fst, Prod.smul_snd, Prod.fst_add, Prod.snd_add, smul_eq_mul, Prod.fst_sub,
        Prod.snd_sub]
      ring
    rw [hd, hk.1, hk.2, hk'.1, hk'.2]
    unfold planeWave
    congr 1
    push_cast
    ring
  rw [Finset.sum_congr rfl fun c _ => e c, Fintype.sum_prod_type, sum_planeWave]
  have hdvd : ∀ {n : ℕ} (x y : Fin n), (n : ℤ) ∣ ((x : ℕ) : ℤ) - ((y : ℕ) : ℤ) ↔ x = y := by
    intro n x y
    constructor
    · intro h
      have h0 := Int.eq_zero_of_abs_lt_dvd h (by rw [abs_lt]; have := x.2; have := y.2; constructor <;> omega)
      exact Fin.ext (by omega)
    · rintro rfl; simp
  simp only [hdvd, Prod.ext_iff]

/-- C48: a field on a supercell that is the average of Bloch fields whose wavevectors sample the Brillouin zone is decomposed
without cross-talk: each component's amplitudes are recovered exactly. -/
theorem C48_bloch_components {b₁ b₂ : ℕ} (L : Fin b₁ × Fin b₂ → LayerSolveResult ι) {lat : LatticeVectors}
    {G : ι → ℤ × ℤ} {shape : ℕ × ℕ} {grid : List (List (ℝ × ℝ))}
    (hlat : ∀ p, (L p).primitiveLatticeVectors = lat) (hexp : ∀ p, (L p).expansion = G) (hG : Function.Injective G)
    (hgrid : brillouinZoneInPlaneWavevector [(b₁ : ℤ), (b₂ : ℤ)] lat = .ok grid)
    (hk : ∀ p : Fin b₁ × Fin b₂, (grid[(p.1 : ℕ)]?.bind fun row => row[(p.2 : ℕ)]?) = some (L p).inPlaneWavevector)
    (a b : Fin b₁ × Fin b₂ → Matrix (ι ⊕ ι) β ℂ) (F : Fin b₁ × Fin b₂ → Fields (Matrix ι β ℂ))
    (g : Fin b₁ × Fin b₂ → Fields (Fin (b₁ * shape.1) × Fin (b₂ * shape.2) → β → ℂ))
    (xy : Fin b₁ × Fin b₂ → Fin (b₁ * shape.1) × Fin (b₂ * shape.2) → ℝ × ℝ)
    (hF : ∀ p, fieldsFromWaveAmplitudes (a p) (b p) (L p) = .ok (F p))
    (hg : ∀ p, fieldsOnGrid (F p) (L p) shape (b₁, b₂) = .ok (g p, xy p))
    {ex ey hx hy : ℕ → ℕ → β → ℂ}
    (hex : ∀ r c, ex r.1 r.2 c = (∑ p, (g p).ex r c) / (b₁ * b₂)) (hey : ∀ r c, ey r.1 r.2 c = (∑ p, (g p).ey r c) / (b₁ * b₂))
    (hhx : ∀ r c, hx r.1 r.2 c = (∑ p, (g p).hx r c) / (b₁ * b₂)) (hhy : ∀ r c, hy r.1 r.2 c = (∑ p, (g p).hy r c) / (b₁ * b₂))
    (p : Fin b₁ × Fin b₂) (hφ : IsUnit (L p).eigenvectors.det) (hΩ : IsUnit (magneticToElectric (L p)).det) :
    amplitudesForFields (b₁ * shape.1, b₂ * shape.2) ex ey hx hy (L p) (b₁, b₂) = .ok (a p, b p) := by
  have hb1 : b₁ ≠ 0 := by have := p.1.2; omega
  have hb2 : b₂ ≠ 0 := by have := p.2.2; omega
  obtain ⟨hw, hq, -⟩ := fieldsFromWaveAmplitudes_eq_ok.1 (hF p)
  have hu : Independent lat.u lat.v := by
    have := hw.2.1
    unfold cellArea at this
    rwa [hlat] at this
  have hres : Resolves shape.1 shape.2 G := hexp p ▸ fieldsOnGrid_resolves (hg p)
  have hM := (fieldConversionMatrix_eq_ok (l := L p)).2 ⟨hw, hq, rfl⟩
  have hdot : ∀ p : Fin b₁ × Fin b₂, dot (L p).inPlaneWavevector lat.u = 2 * Real.pi * (((p.1 : ℕ) + 1 / 2 : ℝ) / b₁ - 1 / 2) ∧
      dot (L p).inPlaneWavevector lat.v = 2 * Real.pi * (((p.2 : ℕ) + 1 / 2 : ℝ) / b₂ - 1 / 2) := by
    intro p
    obtain ⟨row, k, h1, h2, h3, h4⟩ := brillouin_entry lat hu b₁ b₂ (by omega) (by omega) grid hgrid p.1.2 p.2.2
    have := hk p
    rw [h1, Option.bind_some, h2, Option.some_inj] at this
    rw [← this]
    exact ⟨h3, h4⟩
  have hg' : ∀ p, (F p).map (fun (c : Matrix ι β ℂ) (r : Fin (b₁ * shape.1) × Fin (b₂ * shape.2)) b =>
      planeWaveSum (L p) (fun i => c i b)
          (latticePoint lat ((r.1 : ℕ) / (shape.1 : ℝ)) ((r.2 : ℕ) / (shape.2 : ℝ)))) = g p := by
    intro p
    have h := hg p
    rw [fieldsOnGrid_eq (by rw [hexp]; exact hres) (by rw [hexp]; exact hG) (by unfold cellArea; rw [hlat]; exact hu), ok_inj,
      Prod.mk.injEq, hlat] at h
    exact h.1
  have process : ∀ (C : Fin b₁ × Fin b₂ → Matrix ι β ℂ) (f : ℕ → ℕ → β → ℂ),
      (∀ (r : Fin (b₁ * shape.1) × Fin (b₂ * shape.2)) b, f r.1 r.2 b = (∑ p, planeWaveSum (L p) (fun i => C p i b)
          (latticePoint lat ((r.1 : ℕ) / (shape.1 : ℝ)) ((r.2 : ℕ) / (shape.2 : ℝ)))) / (b₁ * b₂)) →
      processField (L p) shape (b₁, b₂) f = .ok (C p) := by
    intro C f hf
    refine processField_bloch hlat hexp hG hres hu hb1 hb2 (fun p p' => brillouin_orthogonal (hdot p) (hdot p')) C f ?_ p
    intro i j b hi hj
    rw [hf (⟨i, hi⟩, ⟨j, hj⟩) b]
    simp only
    ring
  exact amplitudesForFields_eq (cells := (b₁, b₂)) hb1 hb2
    (process (fun p => (F p).ex) ex fun r c => by rw [hex]; simp only [← hg']; rfl)
    (process (fun p => (F p).ey) ey fun r c => by rw [hey]; simp only [← hg']; rfl)
    (process (fun p => (F p).hx) hx fun r c => by rw [hhx]; simp only [← hg']; rfl)
    (process (fun p => (F p).hy) hy fun r c => by rw [hhy]; simp only [← hg']; rfl)
    hM ((C47_invertible_iff hM).2 ⟨hφ, hΩ⟩) (conversion_fields hM (hF p))

example : ∃ L : Fin 2 × Fin 3 → LayerSolveResult (Fin 4), ∀ a b : Fin 2 × Fin 3 → Matrix (Fin 4 ⊕ Fin 4) (Fin 1) ℂ,
    ∃ ex ey hx hy : ℕ → ℕ → Fin 1 → ℂ, ∀ p, amplitudesForFields (2 * 3, 3 * 5) ex ey hx hy (L p) (2, 3) = .ok (a p, b p) := by
  have hi : Independent ((1, 0) : ℝ × ℝ) (1, 2) := by norm_num [Independent]
  obtain ⟨grid, hgrid, -⟩ := C10_brillouin_grid { u := (1, 0), v := (1, 2) } hi 2 3 (by norm_num) (by norm_num)
  have hk : ∀ p : Fin 2 × Fin 3, ∃ k, (grid[(p.1 : ℕ)]?.bind fun row => row[(p.2 : ℕ)]?) = some k := by
    intro p
    obtain ⟨row, k, h1, h2, -⟩ := brillouin_entry { u := (1, 0), v := (1, 2) } hi 2 3 (by norm_num) (by norm_num) grid hgrid
      p.1.2 p.2.2
    exact ⟨k, by rw [h1, Option.bind_some, h2]⟩
  choose K hK using hk
  refine ⟨fun p => metalLayer (K p), fun a b => ?_⟩
  have hF : ∀ p, ∃ F, fieldsFromWaveAmplitudes (a p) (b p) (metalLayer (K p)) = .ok F := fun p =>
    ⟨_, fieldsFromWaveAmplitudes_eq_ok.2 ⟨metalLayer_wellPosed _, fun _ => Complex.I_ne_zero, rfl⟩⟩
  choose F hF using hF
  have hg : ∀ p, ∃ g xy, fieldsOnGrid (F p) (metalLayer (K p)) (3, 5) (2, 3) = .ok (g, xy) := fun p => by
    obtain ⟨g, xy, h1, -⟩ := C44_grid_eq_coordinates (F p) (cells := (2, 3)) exampleExpansion_injective
      (l := metalLayer (K p)) (shape := (3, 5)) exampleExpansion_resolved (metalLayer_wellPosed _).2.1
    exact ⟨g, xy, h1⟩
  choose g xy hg using hg
  let f := fun (w : Fin 2 × Fin 3 → Fin (2 * 3) × Fin (3 * 5) → Fin 1 → ℂ) (i j : ℕ) (c : Fin 1) =>
    if h : i < 2 * 3 ∧ j < 3 * 5 then (∑ p, w p (⟨i, h.1⟩, ⟨j, h.2⟩) c) / ((2 : ℕ) * (3 : ℕ)) else 0
  have hf : ∀ (w : Fin 2 × Fin 3 → Fin (2 * 3) × Fin (3 * 5) → Fin 1 → ℂ) r c,
      f w r.1 r.2 c = (∑ p, w p r c) / ((2 : ℕ) * (3 : ℕ)) := by
    intro w r c
    simp only [f]
    rw [dif_pos ⟨r.1.2, r.2.2⟩]
  exact ⟨f fun p => (g p).ex, f fun p => (g p).ey, f fun p => (g p).hx, f fun p => (g p).hy, fun p =>
    C48_bloch_components (shape := (3, 5)) (fun p => metalLayer (K p)) (fun _ => rfl) (fun _ => rfl) exampleExpansion_injective
      hgrid hK a b F g xy hF hg (hf _) (hf _) (hf _) (hf _) p (by rw [metalLayer, Matrix.det_one]; exact isUnit_one)
      (metalLayer_magneticToElectric _)⟩

/-- C48: grids that the Brillouin grid shape does not divide are rejected. -/
theorem C48_shape_rejected {l : LayerSolveResult ι} {N grid : ℕ × ℕ} (h1 : grid.1 ≠ 0) (h2 : grid.2 ≠ 0)
    (h : ¬ grid.1 ∣ N.1 ∨ ¬ grid.2 ∣ N.2) (ex ey hx hy : ℕ → ℕ → β → ℂ) :
    amplitudesForFields N ex ey hx hy l grid = .error .valueError := by
  unfold amplitudesForFields
  rw [if_neg (by tauto), if_pos]
  rwa [Nat.dvd_iff_mod_eq_zero, Nat.dvd_iff_mod_eq_zero] at h

/-! ### C49 -/

theorem polarizationTerms_eq_ok {jx jy jz : Matrix ι β ℂ} {l : LayerSolveResult ι} {X} :
    polarizationTerms jx jy jz l = .ok X ↔ cellArea l ≠ 0 ∧
      X = Matrix.fromRows (Matrix.fromRows
          (-(Matrix.of fun i c => ((orderWavevector l i).2 : ℂ) * (l.inverseZPermittivityMatrix * jz) i c))
          (Matrix.of fun i c => ((orderWavevector l i).1 : ℂ) * (l.inverseZPermittivityMatrix * jz) i c))
        (Matrix.fromRows jy (-jx)) := by
  unfold polarizationTerms
  simp only [bind_eq_ok, transverseWavevectors_layer, ok_inj]
  have e : ∀ v : ι → ℂ, rowScale v l.inverseZPermittivityMatrix * jz =
      Matrix.of fun i c => v i * (l.inverseZPermittivityMatrix * jz) i c := by
    intro v
    rw [rowScale_eq, Matrix.mul_assoc]
    ext i c
    rw [Matrix.diagonal_mul]
    rfl
  constructor
  · rintro ⟨_, ⟨h, rfl⟩, rfl⟩
    rw [e, e]
    exact ⟨h, rfl⟩
  · rintro ⟨h, rfl⟩
    refine ⟨_, ⟨h, rfl⟩, ?_⟩
    rw [e, e]
    rfl

theorem emissionMatrix_eq_ok {Sb Sa : ScatteringMatrix ι} {M} :
    emissionMatrix Sb Sa = .ok M ↔
      (WellPosed Sb.endLayer ∧ ∀ i, Sb.endLayer.eigenvalues i ≠ 0) ∧
      (WellPosed Sa.startLayer ∧ ∀ i, Sa.startLayer.eigenvalues i ≠ 0) ∧
      M = Matrix.fromBlocks
        (((omega Sa.startLayer : ℂ) • electricModes Sa.startLayer) * (1 - propagator Sa.startLayer Sa.startThickness * Sa.s21))
        (((omega Sb.endLayer : ℂ) • electricModes Sb.endLayer) * (1 - propagator Sb.endLayer Sb.endThickness * Sb.s12))
        (Sa.startLayer.eigenvectors * (1 + propagator Sa.startLayer Sa.startThickness * Sa.s21))
        (-Sb.endLayer.eigenvectors * (1 + propagator Sb.endLayer Sb.endThickness * Sb.s12)) := by
  have hE : ∀ {l : LayerSolveResult ι}, WellPosed l → (omega l : ℂ) • electricModes l =
      magneticToElectric l * l.eigenvectors * diagonal (fun i => (l.eigenvalues i)⁻¹) := by
    intro l hl
    unfold electricModes
    rw [diagonal_omega_inv, Matrix.mul_smul, smul_smul, mul_inv_cancel₀ (omega_ne_zero hl), one_smul]
  unfold emissionMatrix
  simp only [bind_eq_ok, omegaScriptK_ok_iff, recip_eq_ok, ok_inj, diag_eq, phase_eq]
  constructor
  · rintro ⟨_, ⟨hb, rfl⟩, _, ⟨ha, rfl⟩, _, ⟨qa, rfl⟩, _, ⟨qb, rfl⟩, rfl⟩
    refine ⟨⟨hb, qb⟩, ⟨ha, qa⟩, ?_⟩
    rw [hE ha, hE hb]
    rfl
  · rintro ⟨⟨hb, qb⟩, ⟨ha, qa⟩, rfl⟩
    refine ⟨_, ⟨hb, rfl⟩, _, ⟨ha, rfl⟩, _, ⟨qa, rfl⟩, _, ⟨qb, rfl⟩, ?_⟩
    rw [hE ha, hE hb]
    rfl

/-- The equation solved for the emitted amplitudes is the jump condition at the source. -/
theorem emission_jump_iff {Sb Sa : ScatteringMatrix ι} {jx jy jz : Matrix ι β ℂ} {s t : LayerState ι β} {M X}
    (hlam : Sb.endLayer.wavelength = Sa.startLayer.wavelength)
    (hM : emissionMatrix Sb Sa = .ok M) (hX : polarizationTerms jx jy jz Sb.endLayer = .ok X)
    (hs : s.layer = Sb.endLayer) (hsd : s.thickness = Sb.endThickness)
    (ht : t.layer = Sa.startLayer) (htd : t.thickness = Sa.startThickness)
    (hsa : s.a = Sb.s12 * s.b) (htb : t.b = Sa.s21 * t.a) :
    M * Matrix.fromRows t.a s.b = X ↔ SourceJump jx jy jz s t := by
  obtain ⟨⟨hb, qb⟩, ⟨ha, qa⟩, rfl⟩ := emissionMatrix_eq_ok.1 hM
  obtain ⟨-, rfl⟩ := polarizationTerms_eq_ok.1 hX
  have hw : omega Sa.startLayer = omega Sb.endLayer := by unfold omega; rw [hlam]
  have hw0 := omega_ne_zero hb
  have h1 : SourceJump jx jy jz s t ↔ ∀ i c,
      (t.layer.eigenvectors * (t.a + propagator t.layer t.thickness * t.b)) (.inl i) c -
        (s.layer.eigenvectors * (propagator s.layer s.thickness * s.a + s.b)) (.inl i) c = jy i c ∧
      (t.layer.eigenvectors * (t.a + propagator t.layer t.thickness * t.b)) (.inr i) c -
        (s.layer.eigenvectors * (propagator s.layer s.thickness * s.a + s.b)) (.inr i) c = -jx i c ∧
      (electricModes t.layer * (t.a - propagator t.layer t.thickness * t.b)) (.inr i) c -
        (electricModes s.layer * (propagator s.layer s.thickness * s.a - s.b)) (.inr i) c =
          (orderWavevector s.layer i).1 / omega s.layer * (s.layer.inverseZPermittivityMatrix * jz) i c ∧
      -((electricModes t.layer * (t.a - propagator t.layer t.thickness * t.b)) (.inl i) c -
        (electricModes s.layer * (propagator s.layer s.thickness * s.a - s.b)) (.inl i) c) =
          (orderWavevector s.layer i).2 / omega s.layer * (s.layer.inverseZPermittivityMatrix * jz) i c := by
    unfold SourceJump FieldsAt
    simp only [sub_self, sub_zero, propagator_zero, Matrix.one_mul]
    constructor
    · rintro ⟨e, h, e', h', ⟨-, -, rfl, rfl⟩, ⟨-, -, rfl, rfl⟩, hj⟩
      exact hj
    · intro hj
      exact ⟨_, _, _, _, ⟨hs ▸ hb, hs ▸ qb, rfl, rfl⟩, ⟨ht ▸ ha, ht ▸ qa, rfl, rfl⟩, hj⟩
  rw [h1, htb, hsa, ht, hs, htd, hsd]
  rw [Matrix.fromBlocks_mul_fromRows, Matrix.fromRows_inj.eq_iff]
  have top : ((omega Sa.startLayer : ℂ) • electricModes Sa.startLayer) *
        (1 - propagator Sa.startLayer Sa.startThickness * Sa.s21) * t.a +
      ((omega Sb.endLayer : ℂ) • electricModes Sb.endLayer) * (1 - propagator Sb.endLayer Sb.endThickness * Sb.s12) * s.b =
      (omega Sb.endLayer : ℂ) • (electricModes Sa.startLayer * (t.a - propagator Sa.startLayer Sa.startThickness * (Sa.s21 * t.a)) -
        electricModes Sb.endLayer * (propagator Sb.endLayer Sb.endThickness * (Sb.s12 * s.b) - s.b)) := by
    rw [hw]; mat_module
  have bottom : Sa.startLayer.eigenvectors * (1 + propagator Sa.startLayer Sa.startThickness * Sa.s21) * t.a +
      -Sb.endLayer.eigenvectors * (1 + propagator Sb.endLayer Sb.endThickness * Sb.s12) * s.b =
      Sa.startLayer.eigenvectors * (t.a + propagator Sa.startLayer Sa.startThickness * (Sa.s21 * t.a)) -
        Sb.endLayer.eigenvectors * (propagator Sb.endLayer Sb.endThickness * (Sb.s12 * s.b) + s.b) := by
    mat_module
  rw [top, bottom]
  generalize electricModes Sa.startLayer * (t.a - propagator Sa.startLayer Sa.startThickness * (Sa.s21 * t.a)) = E'
  generalize electricModes Sb.endLayer * (propagator Sb.endLayer Sb.endThickness * (Sb.s12 * s.b) - s.b) = E
  generalize Sa.startLayer.eigenvectors * (t.a + propagator Sa.startLayer Sa.startThickness * (Sa.s21 * t.a)) = H'
  generalize Sb.endLayer.eigenvectors * (propagator Sb.endLayer Sb.endThickness * (Sb.s12 * s.b) + s.b) = H
  generalize Sb.endLayer.inverseZPermittivityMatrix * jz = J
  simp only [← Matrix.ext_iff, Sum.forall, Matrix.smul_apply, Matrix.sub_apply, Matrix.fromRows_apply_inl,
    Matrix.fromRows_apply_inr, Matrix.neg_apply, Matrix.of_apply, smul_eq_mul]
  have q1 : ∀ x k y : ℂ, omega Sb.endLayer * x = k * y ↔ x = k / omega Sb.endLayer * y := by
    intro x k y
    field_simp
  have q2 : ∀ x k y : ℂ, omega Sb.endLayer * x = -(k * y) ↔ -x = k / omega Sb.endLayer * y := by
    intro x k y
    rw [← q1, mul_neg, neg_eq_iff_eq_neg]
  simp only [q1, q2]
  constructor
  · rintro ⟨⟨h1, h2⟩, h3, h4⟩ i c
    exact ⟨h3 i c, h4 i c, h2 i c, h1 i c⟩
  · intro h
    exact ⟨⟨fun i c => (h i c).2.2.2, fun i c => (h i c).2.2.1⟩, fun i c => (h i c).1, fun i c => (h i c).2.1⟩

/-- What is known about the boundary layers of an emission. -/
theorem Spec.IsEmission.boundary {Sb Sa : ScatteringMatrix ι} {before after : List (LayerSolveResult ι × ℝ)}
    (hSb : IsSMatrix Sb before) (hSa : IsSMatrix Sa after) {jx jy jz : Matrix ι β ℂ} {st st' : List (LayerState ι β)}
    {first s t last : LayerState ι β} (h : IsEmission before after jx jy jz st st' first s t last) :
    s.layer = Sb.endLayer ∧ s.thickness = Sb.endThickness ∧ t.layer = Sa.startLayer ∧ t.thickness = Sa.startThickness ∧
    s.a = Sb.s12 * s.b ∧ first.b = Sb.s22 * s.b ∧ last.a = Sa.s11 * t.a ∧ t.b = Sa.s21 * t.a := by
  obtain ⟨s', e1, e2, e3⟩ := geometry_getLast h.geometry_before hSb.finish
  obtain ⟨t', f1, f2, f3⟩ := geometry_head h.geometry_after hSa.start
  rw [h.last_before, Option.some_inj] at e1
  rw [h.head_after, Option.some_inj] at f1
  subst e1 f1
  obtain ⟨b1, b2⟩ := hSb.sound st first s h.geometry_before h.consistent_before h.head_before h.last_before
  obtain ⟨a1, a2⟩ := hSa.sound st' t last h.geometry_after h.consistent_after h.head_after h.last_after
  rw [h.no_incoming_before] at b1 b2
  rw [h.no_incoming_after] at a1 a2
  simp only [Matrix.mul_zero, zero_add, add_zero] at b1 b2 a1 a2
  exact ⟨e2, e3, f2, f3, b1, b2, a1, a2⟩

/-- States of both stacks without incoming waves and with any amplitudes towards the outside at the source. -/
theorem emission_states {Sb Sa : ScatteringMatrix ι} {before after : List (LayerSolveResult ι × ℝ)}
    (hSb : IsSMatrix Sb before) (hSa : IsSMatrix Sa after) {jx jy jz : Matrix ι β ℂ} {M X}
    (hlam : Sb.endLayer.wavelength = Sa.startLayer.wavelength)
    (hM : emissionMatrix Sb Sa = .ok M) (hX : polarizationTerms jx jy jz Sb.endLayer = .ok X)
    (a b : Matrix (ι ⊕ ι) β ℂ) (hab : M * Matrix.fromRows a b = X) :
    ∃ st st' first s t last, IsEmission before after jx jy jz st st' first s t last ∧ s.b = b ∧ t.a = a := by
  obtain ⟨st, first, s, h1, h2, h3, h4, h5, h6⟩ := hSb.complete 0 b
  obtain ⟨st', t, last, g1, g2, g3, g4, g5, g6⟩ := hSa.complete a 0
  obtain ⟨s', e1, e2, e3⟩ := geometry_getLast h1 hSb.finish
  obtain ⟨t', f1, f2, f3⟩ := geometry_head g1 hSa.start
  rw [h4, Option.some_inj] at e1
  rw [g3, Option.some_inj] at f1
  subst e1 f1
  obtain ⟨b1, b2⟩ := hSb.sound st first s h1 h2 h3 h4
  obtain ⟨a1, a2⟩ := hSa.sound st' t last g1 g2 g3 g4
  rw [h5] at b1 b2
  rw [g6] at a1 a2
  simp only [Matrix.mul_zero, zero_add, add_zero] at b1 b2 a1 a2
  refine ⟨st, st', first, s, t, last, ⟨h1, g1, h2, g2, h3, h4, g3, g4, h5, g6, ?_⟩, h6, g5⟩
  rw [← emission_jump_iff hlam hM hX e2 e3 f2 f3 b1 a2, h6, g5]
  exact hab

theorem amplitudesForSource_eq_ok {jx jy jz : Matrix ι β ℂ} {Sb Sa : ScatteringMatrix ι} {R : SourceAmplitudes ι β} :
    amplitudesForSource jx jy jz Sb Sa = .ok R ↔ ∃ X M, polarizationTerms jx jy jz Sb.endLayer = .ok X ∧
      emissionMatrix Sb Sa = .ok M ∧ IsUnit M.det ∧ M * Matrix.fromRows R.forwardAfterStart R.backwardBeforeEnd = X ∧
      R.backward0End = Sb.s22 * R.backwardBeforeEnd ∧ R.forwardBeforeStart = Sb.s12 * R.backwardBeforeEnd ∧
      R.backwardAfterEnd = Sa.s21 * R.forwardAfterStart ∧ R.forwardNStart = Sa.s11 * R.forwardAfterStart := by
  unfold amplitudesForSource
  simp only [bind_eq_ok, ok_inj, solve_eq_ok]
  constructor
  · rintro ⟨X, hX, M, hM, ab, ⟨hu, hab⟩, rfl⟩
    refine ⟨X, M, hX, hM, hu, ?_, rfl, rfl, rfl, rfl⟩
    rw [← hab]
    congr 1
    ext (i | i) c <;> rfl
  · rintro ⟨X, M, hX, hM, hu, hab, h1, h2, h3, h4⟩
    refine ⟨X, hX, M, hM, _, ⟨hu, hab⟩, ?_⟩
    obtain ⟨r1, r2, r3, r4, r5, r6⟩ := R
    simp only at h1 h2 h3 h4
    subst h1 h2 h3 h4
    rfl

/-- C49: the amplitudes returned for an internal source belong to fields that are continuous in both stacks, jump by the source
currents at the source plane, and have no incoming waves. -/
theorem C49_source_sound {Sb Sa : ScatteringMatrix ι} {before after : List (LayerSolveResult ι × ℝ)}
    (hSb : IsSMatrix Sb before) (hSa : IsSMatrix Sa after) (hlam : Sb.endLayer.wavelength = Sa.startLayer.wavelength)
    {jx jy jz : Matrix ι β ℂ} {R : SourceAmplitudes ι β} (h : amplitudesForSource jx jy jz Sb Sa = .ok R) :
    ∃ st st' first s t last, IsEmission before after jx jy jz st st' first s t last ∧
      first.b = R.backward0End ∧ s.a = R.forwardBeforeStart ∧ s.b = R.backwardBeforeEnd ∧
      t.a = R.forwardAfterStart ∧ t.b = R.backwardAfterEnd ∧ last.a = R.forwardNStart := by
  obtain ⟨X, M, hX, hM, hu, hab, r1, r2, r3, r4⟩ := amplitudesForSource_eq_ok.1 h
  obtain ⟨st, st', first, s, t, last, he, hb, ha⟩ := emission_states hSb hSa hlam hM hX _ _ hab
  obtain ⟨-, -, -, -, b1, b2, a1, a2⟩ := he.boundary hSb hSa
  refine ⟨st, st', first, s, t, last, he, ?_, ?_, hb, ha, ?_, ?_⟩
  · rw [b2, hb, r1]
  · rw [b1, hb, r2]
  · rw [a2, ha, r3]
  · rw [a1, ha, r4]

/-- C49: these are the only such fields. -/
theorem C49_source_unique {Sb Sa : ScatteringMatrix ι} {before after : List (LayerSolveResult ι × ℝ)}
    (hSb : IsSMatrix Sb before) (hSa : IsSMatrix Sa after) (hlam : Sb.endLayer.wavelength = Sa.startLayer.wavelength)
    {jx jy jz : Matrix ι β ℂ} {R : SourceAmplitudes ι β} (h : amplitudesForSource jx jy jz Sb Sa = .ok R)
    {st st' : List (LayerState ι β)} {first s t last : LayerState ι β}
    (he : IsEmission before after jx jy jz st st' first s t last) :
    first.b = R.backward0End ∧ s.a = R.forwardBeforeStart ∧ s.b = R.backwardBeforeEnd ∧
      t.a = R.forwardAfterStart ∧ t.b = R.backwardAfterEnd ∧ last.a = R.forwardNStart := by
  obtain ⟨X, M, hX, hM, hu, hab, r1, r2, r3, r4⟩ := amplitudesForSource_eq_ok.1 h
  obtain ⟨e1, e2, e3, e4, b1, b2, a1, a2⟩ := he.boundary hSb hSa
  have hj := (emission_jump_iff hlam hM hX e1 e2 e3 e4 b1 a2).2 he.jump
  have := (solve_eq_ok.2 ⟨hu, hj⟩).symm.trans (solve_eq_ok.2 ⟨hu, hab⟩)
  rw [ok_inj] at this
  obtain ⟨ha, hb⟩ := Matrix.fromRows_inj this
  refine ⟨?_, ?_, hb, ha, ?_, ?_⟩
  · rw [b2, hb, r1]
  · rw [b1, hb, r2]
  · rw [a2, ha, r3]
  · rw [a1, ha, r4]

/-- C49: amplitudes are returned exactly when fields at the source plane are finite and no fields exist without a source (no
mode is bound to the stack). -/
theorem C49_succeeds_iff {Sb Sa : ScatteringMatrix ι} {before after : List (LayerSolveResult ι × ℝ)}
    (hSb : IsSMatrix Sb before) (hSa : IsSMatrix Sa after) (hlam : Sb.endLayer.wavelength = Sa.startLayer.wavelength)
    (jx jy jz : Matrix ι β ℂ) :
    (∃ R, amplitudesForSource jx jy jz Sb Sa = .ok R) ↔
      (WellPosed Sb.endLayer ∧ ∀ i, Sb.endLayer.eigenvalues i ≠ 0) ∧
      (WellPosed Sa.startLayer ∧ ∀ i, Sa.startLayer.eigenvalues i ≠ 0) ∧
      ∀ (st st' : List (LayerState ι Unit)) (first s t last : LayerState ι Unit),
        IsEmission before after 0 0 0 st st' first s t last → s.b = 0 ∧ t.a = 0 := by
  constructor
  · rintro ⟨R, h⟩
    obtain ⟨X, M, hX, hM, hu, -⟩ := amplitudesForSource_eq_ok.1 h
    obtain ⟨hb, ha, -⟩ := emissionMatrix_eq_ok.1 hM
    refine ⟨hb, ha, ?_⟩
    intro st st' first s t last he
    obtain ⟨e1, e2, e3, e4, b1, b2, a1, a2⟩ := he.boundary hSb hSa
    have hX0 := (polarizationTerms_eq_ok (jx := (0 : Matrix ι Unit ℂ)) (jy := 0) (jz := 0)).2 ⟨hb.1.2.1, rfl⟩
    have hj := (emission_jump_iff hlam hM hX0 e1 e2 e3 e4 b1 a2).2 he.jump
    have h0 : M * Matrix.fromRows (0 : Matrix (ι ⊕ ι) Unit ℂ) (0 : Matrix (ι ⊕ ι) Unit ℂ) = 0 := by
      rw [Matrix.fromRows_zero, Matrix.mul_zero]
    have hz : Matrix.fromRows t.a s.b = Matrix.fromRows (0 : Matrix (ι ⊕ ι) Unit ℂ) (0 : Matrix (ι ⊕ ι) Unit ℂ) := by
      have := (solve_eq_ok.2 ⟨hu, hj⟩).symm.trans (solve_eq_ok.2 ⟨hu, h0.trans ?_⟩)
      · rwa [ok_inj] at this
      · ext ((i | i) | (i | i)) c <;> simp
    obtain ⟨ha, hb⟩ := Matrix.fromRows_inj hz
    exact ⟨hb, ha⟩
  · rintro ⟨hb, ha, hn⟩
    have hM := (emissionMatrix_eq_ok (Sb := Sb) (Sa := Sa)).2 ⟨hb, ha, rfl⟩
    have hX := (polarizationTerms_eq_ok (jx := jx) (jy := jy) (jz := jz)).2 ⟨hb.1.2.1, rfl⟩
    generalize hMM : Matrix.fromBlocks _ _ _ _ = M at hM
    have hu : IsUnit M.det := by
      rw [isUnit_iff_ne_zero]
      intro h0
      obtain ⟨v, hv, hv0⟩ := Matrix.exists_mulVec_eq_zero_iff.2 h0
      apply hv
      have hX0 := (polarizationTerms_eq_ok (jx := (0 : Matrix ι Unit ℂ)) (jy := 0) (jz := 0)).2 ⟨hb.1.2.1, rfl⟩
      obtain ⟨st, st', first, s, t, last, he, e1, e2⟩ := emission_states hSb hSa hlam hM hX0
        (Matrix.of fun i _ => v (.inl i)) (Matrix.of fun i _ => v (.inr i)) (by
          have hm : M * Matrix.fromRows (Matrix.of fun i (_ : Unit) => v (.inl i)) (Matrix.of fun i _ => v (.inr i)) =
              Matrix.of fun i _ => (M *ᵥ v) i := by
            ext i c
            rw [Matrix.mul_apply]
            simp only [Matrix.of_apply, Matrix.mulVec, dotProduct, Fintype.sum_sum_type, Matrix.fromRows_apply_inl,
              Matrix.fromRows_apply_inr]
          rw [hm, hv0]
          ext ((i | i) | (i | i)) c <;> simp)
      obtain ⟨z1, z2⟩ := hn st st' first s t last he
      rw [e1] at z1
      rw [e2] at z2
      funext i
      rcases i with i | i
      · exact congrFun (congrFun z2 i) ()
      · exact congrFun (congrFun z1 i) ()
    obtain ⟨Y, hY⟩ := solve_exists_iff (B := Matrix.fromRows (Matrix.fromRows
          (-(Matrix.of fun i c => ((orderWavevector Sb.endLayer i).2 : ℂ) * (Sb.endLayer.inverseZPermittivityMatrix * jz) i c))
          (Matrix.of fun i c => ((orderWavevector Sb.endLayer i).1 : ℂ) * (Sb.endLayer.inverseZPermittivityMatrix * jz) i c))
        (Matrix.fromRows jy (-jx))) |>.2 hu
    unfold amplitudesForSource
    exact ⟨_, bind_eq_ok.2 ⟨_, hX, bind_eq_ok.2 ⟨_, hM, bind_eq_ok.2 ⟨_, hY, rfl⟩⟩⟩⟩

/-- A source between air / glass and air / glass, where amplitudes exist for all currents. -/
theorem exampleSource (jx jy jz : Matrix (Fin 1) β ℂ) : ∃ R, amplitudesForSource jx jy jz Examples.exS2 Examples.exS2 = .ok R := by
  have w1 := Examples.exLayer_wellPosed (q := 1) one_ne_zero
  have w2 := Examples.exLayer_wellPosed (q := 2) two_ne_zero
  have hX := (polarizationTerms_eq_ok (jx := jx) (jy := jy) (jz := jz) (l := Examples.exS2.endLayer)).2 ⟨w2.2.1, rfl⟩
  have hM := (emissionMatrix_eq_ok (Sb := Examples.exS2) (Sa := Examples.exS2)).2
    ⟨⟨w2, fun _ => two_ne_zero⟩, ⟨w1, fun _ => one_ne_zero⟩, rfl⟩
  have hE : ∀ q : ℂ, electricModes (Examples.exLayer q) = q⁻¹ • 1 := by
    intro q
    rw [electricModes, Examples.exLayer_magneticToElectric, Examples.exLayer_omega]
    ext i j
    by_cases h : i = j <;> simp [h, Examples.exLayer]
  have hs : Examples.exS2.startLayer = Examples.exLayer 1 := rfl
  have he : Examples.exS2.endLayer = Examples.exLayer 2 := rfl
  have hst : Examples.exS2.startThickness = Real.pi := rfl
  have hen : Examples.exS2.endThickness = Real.pi := rfl
  have h12 : Examples.exS2.s12 = (-1 / 3 : ℂ) • 1 := rfl
  have h21 : Examples.exS2.s21 = (-1 / 3 : ℂ) • 1 := rfl
  have hv : ∀ q, (Examples.exLayer q).eigenvectors = 1 := fun q => rfl
  rw [hs, he, hst, hen, h12, h21, hE, hE, hv, hv, Examples.exLayer_propagator, Examples.exLayer_propagator, Examples.exLayer_omega,
    Examples.exLayer_omega, Examples.exp_pi_one, Examples.exp_pi_two] at hM
  have hu : IsUnit (Matrix.fromBlocks ((2 / 3 : ℂ) • 1) ((2 / 3 : ℂ) • 1) ((4 / 3 : ℂ) • 1) ((-2 / 3 : ℂ) • 1) :
      Matrix ((Fin 1 ⊕ Fin 1) ⊕ (Fin 1 ⊕ Fin 1)) ((Fin 1 ⊕ Fin 1) ⊕ (Fin 1 ⊕ Fin 1)) ℂ).det := by
    refine Matrix.isUnit_det_of_right_inverse (B := Matrix.fromBlocks ((1 / 2 : ℂ) • 1) ((1 / 2 : ℂ) • 1) ((1 : ℂ) • 1)
      ((-1 / 2 : ℂ) • 1)) ?_
    rw [Matrix.fromBlocks_multiply]
    have hm : ∀ x y z w : ℂ, (x • 1 : ModeMatrix (Fin 1)) * (y • 1) + (z • 1) * (w • 1) = (x * y + z * w) • 1 := by
      intro x y z w
      rw [Matrix.smul_mul, Matrix.one_mul, smul_smul, Matrix.smul_mul, Matrix.one_mul, smul_smul, add_smul]
    rw [hm, hm, hm, hm]
    norm_num [Matrix.fromBlocks_one]
  have e : ∀ c : ℂ, (1 : ModeMatrix (Fin 1)) + c • 1 = (1 + c) • 1 := fun c => by rw [add_smul, one_smul]
  have e' : ∀ c : ℂ, (1 : ModeMatrix (Fin 1)) - c • 1 = (1 - c) • 1 := fun c => by rw [sub_smul, one_smul]
  simp only [Matrix.smul_mul, Matrix.one_mul, Matrix.neg_mul, smul_smul, e, e', ← neg_smul] at hM
  norm_num at hM
  unfold amplitudesForSource
  refine ⟨_, bind_eq_ok.2 ⟨_, hX, bind_eq_ok.2 ⟨_, hM, bind_eq_ok.2 ⟨_, solve_of_isUnit _ ?_, rfl⟩⟩⟩⟩
  convert hu using 3
  norm_num

example (jx jy jz : Matrix (Fin 1) (Fin 2) ℂ) : ∃ R, amplitudesForSource jx jy jz Examples.exS2 Examples.exS2 = .ok R ∧
    ∃ st st' first s t last, IsEmission [(Examples.exLayer 1, Real.pi), (Examples.exLayer 2, Real.pi)]
      [(Examples.exLayer 1, Real.pi), (Examples.exLayer 2, Real.pi)] jx jy jz st st' first s t last ∧
      first.b = R.backward0End ∧ last.a = R.forwardNStart := by
  obtain ⟨R, hR⟩ := exampleSource jx jy jz
  have hS : IsSMatrix Examples.exS2 [(Examples.exLayer 1, Real.pi), (Examples.exLayer 2, Real.pi)] :=
    stackSMatrix_spec (lam := 2 * Real.pi) (Examples.exRegular [1, 2] (by simp) [Real.pi, Real.pi]) Examples.exStack2
  obtain ⟨st, st', first, s, t, last, h1, h2, -, -, -, -, h3⟩ := C49_source_sound hS hS rfl hR
  exact ⟨R, hR, st, st', first, s, t, last, h1, h2, h3⟩

/-! ### C50 -/

theorem transverseWavevectors_eq_ok {k₀ : ℝ × ℝ} {l : LatticeVectors} {G : ι → ℤ × ℤ} {k : ι → ℝ × ℝ} :
    transverseWavevectors k₀ l G = .ok k ↔ Independent l.u l.v ∧ k = fun i => k₀ + (2 * Real.pi) • orderVector l.u l.v (G i) := by
  unfold transverseWavevectors
  simp only [bind_eq_ok, reciprocal_eq_ok, ok_inj]
  have e : ∀ h : Independent l.u l.v, (fun i : ι => (k₀.1 + 2 * Real.pi * (((G i).1 : ℝ) * (l.v.2 / crossProduct l.u l.v) +
      ((G i).2 : ℝ) * (-l.u.2 / crossProduct l.u l.v)), k₀.2 + 2 * Real.pi * (((G i).1 : ℝ) * (-l.v.1 / crossProduct l.u l.v) +
      ((G i).2 : ℝ) * (l.u.1 / crossProduct l.u l.v)))) = fun i => k₀ + (2 * Real.pi) • orderVector l.u l.v (G i) := by
    intro h
    funext i
    unfold Independent at h
    simp only [orderVector, crossProduct]
    ext
    · simp only [Prod.fst_add, Prod.smul_fst, smul_eq_mul]; ring
    · simp only [Prod.snd_add, Prod.smul_snd, smul_eq_mul]; ring
  constructor
  · rintro ⟨_, ⟨h, rfl⟩, rfl⟩
    exact ⟨h, e h⟩
  · rintro ⟨h, rfl⟩
    exact ⟨_, ⟨h, rfl⟩, e h⟩

theorem norm_exp_I (x : ℝ) : ‖Complex.exp (-Complex.I * x)‖ = 1 := by
  rw [Complex.norm_exp]
  simp

theorem diracDeltaSource_eq_ok {loc : κ → ℝ × ℝ} {k₀ : ℝ × ℝ} {l : LatticeVectors} {G : ι → ℤ × ℤ} {c : Matrix ι κ ℂ} :
    diracDeltaSource loc k₀ l G = .ok c ↔ Independent l.u l.v ∧ c = Matrix.of fun i s =>
      Complex.exp (-Complex.I * (dot (k₀ + (2 * Real.pi) • orderVector l.u l.v (G i)) (loc s) : ℝ)) := by
  unfold diracDeltaSource
  simp only [bind_eq_ok, transverseWavevectors_eq_ok, ok_inj]
  have e : ∀ k : ι → ℝ × ℝ, (Matrix.of fun i s => Complex.exp (-Complex.I * (kxOf k i * ((loc s).1 : ℂ) + kyOf k i * ((loc s).2 : ℂ)))
      : Matrix ι κ ℂ) = Matrix.of fun i s => Complex.exp (-Complex.I * (dot (k i) (loc s) : ℝ)) := by
    intro k
    ext i s
    simp only [Matrix.of_apply, kxOf, kyOf, dot]
    push_cast
    rfl
  constructor
  · rintro ⟨_, ⟨h, rfl⟩, rfl⟩
    exact ⟨h, e _⟩
  · rintro ⟨h, rfl⟩
    exact ⟨_, ⟨h, rfl⟩, e _⟩

/-- C50: the coefficients of a point source have modulus one, and the plane wave sum they define is largest at the location of
the source. -/
theorem C50_dirac {loc : κ → ℝ × ℝ} {k₀ : ℝ × ℝ} {l : LatticeVectors} (G : ι → ℤ × ℤ) (h : Independent l.u l.v) :
    ∃ c, diracDeltaSource loc k₀ l G = .ok c ∧ (∀ i s, ‖c i s‖ = 1) ∧
      ∀ (s : κ) (r : ℝ × ℝ),
        ‖∑ i, c i s * Complex.exp (Complex.I * (dot (k₀ + (2 * Real.pi) • orderVector l.u l.v (G i)) r : ℝ))‖ ≤ Fintype.card ι ∧
        ∑ i, c i s * Complex.exp (Complex.I * (dot (k₀ + (2 * Real.pi) • orderVector l.u l.v (G i)) (loc s) : ℝ)) =
          Fintype.card ι := by
  refine ⟨_, diracDeltaSource_eq_ok.2 ⟨h, rfl⟩, fun i s => norm_exp_I _, fun s r => ⟨?_, ?_⟩⟩
  · refine (norm_sum_le _ _).trans ?_
    rw [← nsmul_one, ← Finset.card_univ]
    refine Finset.sum_le_card_nsmul _ _ _ fun i _ => ?_
    rw [Matrix.of_apply, norm_mul, norm_exp_I, one_mul, mul_comm, Complex.norm_exp_ofReal_mul_I]
  · rw [← Finset.card_univ, ← nsmul_one]
    refine Finset.sum_eq_card_nsmul fun i _ => ?_
    rw [Matrix.of_apply, ← Complex.exp_add]
    ring_nf
    exact Complex.exp_zero

/-- C50: moving a point source by a lattice vector multiplies its coefficients by the Bloch phase. -/
theorem C50_dirac_shift {loc loc' : κ → ℝ × ℝ} {k₀ : ℝ × ℝ} {l : LatticeVectors} {G : ι → ℤ × ℤ} {c c' : Matrix ι κ ℂ}
    {a b : κ → ℤ} (hloc : ∀ s, loc' s = loc s + latticePoint l (a s) (b s))
    (h : diracDeltaSource loc k₀ l G = .ok c) (h' : diracDeltaSource loc' k₀ l G = .ok c') (i : ι) (s : κ) :
    c' i s = Complex.exp (-Complex.I * (dot k₀ (latticePoint l (a s) (b s)) : ℝ)) * c i s := by
  obtain ⟨hi, rfl⟩ := diracDeltaSource_eq_ok.1 h
  obtain ⟨-, rfl⟩ := diracDeltaSource_eq_ok.1 h'
  rw [Matrix.of_apply, Matrix.of_apply, hloc, ← Complex.exp_add, Complex.exp_eq_exp_iff_exists_int]
  refine ⟨-((G i).1 * a s + (G i).2 * b s), ?_⟩
  obtain ⟨o1, o2⟩ := orderVector_dot hi (G i)
  have e : dot (k₀ + (2 * Real.pi) • orderVector l.u l.v (G i)) (loc s + latticePoint l (a s) (b s)) =
      dot k₀ (latticePoint l (a s) (b s)) + dot (k₀ + (2 * Real.pi) • orderVector l.u l.v (G i)) (loc s) +
        2 * Real.pi * (a s * dot (orderVector l.u l.v (G i)) l.u + b s * dot (orderVector l.u l.v (G i)) l.v) := by
    simp only [dot, latticePoint, Prod.smul_fst, Prod.smul_snd, Prod.fst_add, Prod.snd_add, smul_eq_mul]
    ring
  rw [e, o1, o2]
  push_cast
  ring

/-- C50: a Gaussian source is a point source whose coefficients are damped by the Fourier transform of the normalized Gaussian of
the given full width at half maximum. -/
theorem C50_gaussian {loc : κ → ℝ × ℝ} {k₀ : ℝ × ℝ} {l : LatticeVectors} (G : ι → ℤ × ℤ) (h : Independent l.u l.v) (fwhm : ℝ) :
    ∃ c d σ, gaussianSource fwhm loc k₀ l G = .ok c ∧ diracDeltaSource loc k₀ l G = .ok d ∧
      (fwhm ≠ 0 → Real.exp (-(fwhm / 2) ^ 2 / (2 * σ ^ 2)) = 1 / 2) ∧ (fwhm = 0 → σ = 0) ∧
      ∀ i s, c i s = d i s * (Real.exp (-(σ ^ 2 * length (k₀ + (2 * Real.pi) • orderVector l.u l.v (G i)) ^ 2) / 2) : ℝ) := by
  have hl : 0 < Real.log 2 := Real.log_pos one_lt_two
  have hk := (transverseWavevectors_eq_ok (k₀ := k₀) (l := l) (G := G)).2 ⟨h, rfl⟩
  unfold gaussianSource
  refine ⟨_, _, fwhm / (2 * Real.sqrt (2 * Real.log 2)), bind_eq_ok.2 ⟨_, hk, rfl⟩, bind_eq_ok.2 ⟨_, hk, rfl⟩, ?_, ?_, ?_⟩
  · intro hf
    have hs : Real.sqrt (2 * Real.log 2) ^ 2 = 2 * Real.log 2 := Real.sq_sqrt (by positivity)
    have e : -(fwhm / 2) ^ 2 / (2 * (fwhm / (2 * Real.sqrt (2 * Real.log 2))) ^ 2) = -Real.log 2 := by
      rw [div_pow fwhm (2 * _), mul_pow, hs]
      field_simp
    rw [e, Real.exp_neg, Real.exp_log two_pos]
    norm_num
  · rintro rfl; simp
  · intro i s
    simp only [Matrix.of_apply]
    congr 1
    rw [Spec.length, Real.sq_sqrt (by positivity)]
    simp only [kxOf, kyOf]
    push_cast
    congr 1
    ring

/-- C50: a Gaussian source of zero width is a point source. -/
theorem C50_gaussian_zero_width (loc : κ → ℝ × ℝ) (k₀ : ℝ × ℝ) (l : LatticeVectors) (G : ι → ℤ × ℤ) :
    gaussianSource 0 loc k₀ l G = diracDeltaSource loc k₀ l G := by
  unfold gaussianSource diracDeltaSource
  congr 1
  funext k
  refine congrArg Except.ok ?_
  ext i s
  simp

/-- C50: the coefficients of a Gaussian source are never larger than those of a point source, and smaller the wider the
source. -/
theorem C50_gaussian_smaller {loc : κ → ℝ × ℝ} {k₀ : ℝ × ℝ} {l : LatticeVectors} {G : ι → ℤ × ℤ} {f f' : ℝ} (h0 : 0 ≤ f)
    (hf : f ≤ f') {c c' : Matrix ι κ ℂ} (h : gaussianSource f loc k₀ l G = .ok c) (h' : gaussianSource f' loc k₀ l G = .ok c')
    (i : ι) (s : κ) : ‖c' i s‖ ≤ ‖c i s‖ ∧ ‖c i s‖ ≤ 1 := by
  have hl : 0 < Real.log 2 := Real.log_pos one_lt_two
  unfold gaussianSource at h h'
  simp only [bind_eq_ok, transverseWavevectors_eq_ok, ok_inj] at h h'
  obtain ⟨_, ⟨-, rfl⟩, rfl⟩ := h
  obtain ⟨_, ⟨-, rfl⟩, rfl⟩ := h'
  have key : ∀ (g x y : ℝ), ‖Complex.exp (-((g / (2 * Real.sqrt (2 * Real.log 2)) : ℝ) : ℂ) ^ 2 * ((x : ℂ) ^ 2 + (y : ℂ) ^ 2) / 2)‖ =
      Real.exp (-((g / (2 * Real.sqrt (2 * Real.log 2))) ^ 2) * (x ^ 2 + y ^ 2) / 2) := by
    intro g x y
    have e : (-((g / (2 * Real.sqrt (2 * Real.log 2)) : ℝ) : ℂ) ^ 2 * ((x : ℂ) ^ 2 + (y : ℂ) ^ 2) / 2) =
        ((-((g / (2 * Real.sqrt (2 * Real.log 2))) ^ 2) * (x ^ 2 + y ^ 2) / 2 : ℝ) : ℂ) := by push_cast; ring
    rw [e, Complex.norm_exp_ofReal]
  have unit : ∀ x y u v : ℝ, ‖Complex.exp (-Complex.I * ((x : ℂ) * u + (y : ℂ) * v))‖ = 1 := by
    intro x y u v
    have := norm_exp_I (x * u + y * v)
    push_cast at this
    exact this
  have hs : 0 < 2 * Real.sqrt (2 * Real.log 2) := by positivity
  simp only [Matrix.of_apply, norm_mul, kxOf, kyOf, unit, key, one_mul]
  constructor
  · rw [Real.exp_le_exp]
    have : (f / (2 * Real.sqrt (2 * Real.log 2))) ^ 2 ≤ (f' / (2 * Real.sqrt (2 * Real.log 2))) ^ 2 := by
      gcongr
    have := mul_le_mul_of_nonneg_right this (add_nonneg (sq_nonneg (k₀ + (2 * Real.pi) • orderVector l.u l.v (G i)).1)
      (sq_nonneg (k₀ + (2 * Real.pi) • orderVector l.u l.v (G i)).2))
    linarith
  · rw [Real.exp_le_one_iff]
    have := mul_nonneg (sq_nonneg (f / (2 * Real.sqrt (2 * Real.log 2))))
      (add_nonneg (sq_nonneg (k₀ + (2 * Real.pi) • orderVector l.u l.v (G i)).1)
      (sq_nonneg (k₀ + (2 * Real.pi) • orderVector l.u l.v (G i)).2))
    linarith

example : ∃ c d e : Matrix (Fin 4) (Fin 1) ℂ,
    diracDeltaSource (fun _ => (1 / 3, 1 / 5)) (1, 2) { u := (1, 0), v := (1, 2) } exampleExpansion = .ok c ∧
    diracDeltaSource (fun _ => (10 / 3, 21 / 5)) (1, 2) { u := (1, 0), v := (1, 2) } exampleExpansion = .ok d ∧
    gaussianSource 2 (fun _ => (1 / 3, 1 / 5)) (1, 2) { u := (1, 0), v := (1, 2) } exampleExpansion = .ok e ∧
    d 1 0 = Complex.exp (-Complex.I * (11 : ℝ)) * c 1 0 ∧ ‖e 1 0‖ ≤ 1 := by
  have hi : Independent ((1, 0) : ℝ × ℝ) (1, 2) := by norm_num [Independent]
  obtain ⟨c, hc, -⟩ := C50_dirac (κ := Fin 1) (loc := fun _ => (1 / 3, 1 / 5)) (k₀ := (1, 2)) (l := { u := (1, 0), v := (1, 2) })
    exampleExpansion hi
  obtain ⟨d, hd, -⟩ := C50_dirac (κ := Fin 1) (loc := fun _ => (10 / 3, 21 / 5)) (k₀ := (1, 2)) (l := { u := (1, 0), v := (1, 2) })
    exampleExpansion hi
  obtain ⟨e, -, -, he, -⟩ := C50_gaussian (κ := Fin 1) (loc := fun _ => (1 / 3, 1 / 5)) (k₀ := (1, 2))
    (l := { u := (1, 0), v := (1, 2) }) exampleExpansion hi 2
  refine ⟨c, d, e, hc, hd, he, ?_, (C50_gaussian_smaller two_pos.le le_rfl he he 1 0).2⟩
  rw [C50_dirac_shift (a := fun _ => 1) (b := fun _ => 2) (fun s => ?_) hc hd 1 0]
  · norm_num [dot, latticePoint]
  · ext <;> norm_num [latticePoint]

end Fmmax
