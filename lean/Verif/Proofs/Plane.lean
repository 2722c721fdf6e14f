import Verif.Spec.Plane
import Verif.Proofs.Fields
import Verif.Proofs.Fft

/-! Lemmas on fields in an xy plane. -/

set_option linter.unusedSectionVars false

namespace Fmmax

open Spec Matrix

variable {ι : Type} [Fintype ι] [DecidableEq ι] {β κ : Type}

theorem orderWavevector_dot {l : LayerSolveResult ι} (h : cellArea l ≠ 0) (i : ι) (s t : ℝ) :
    dot (orderWavevector l i) (latticePoint l.primitiveLatticeVectors s t) =
      dot l.inPlaneWavevector (latticePoint l.primitiveLatticeVectors s t) +
        2 * Real.pi * ((l.expansion i).1 * s + (l.expansion i).2 * t) := by
  unfold cellArea at h
  obtain ⟨D, hD⟩ : ∃ D, cellArea l = D := ⟨_, rfl⟩
  simp only [dot, latticePoint, orderWavevector, hD, Prod.smul_fst, Prod.smul_snd, Prod.fst_add, Prod.snd_add, smul_eq_mul]
  unfold cellArea at hD
  rw [hD] at h
  field_simp
  rw [← hD]
  ring

theorem planeWaveSum_latticePoint {l : LayerSolveResult ι} (h : cellArea l ≠ 0) (c : ι → ℂ) (s t : ℝ) :
    planeWaveSum l c (latticePoint l.primitiveLatticeVectors s t) =
      (∑ i, c i * Complex.exp (2 * Real.pi * Complex.I * ((l.expansion i).1 * s + (l.expansion i).2 * t))) *
        Complex.exp (Complex.I * (dot l.inPlaneWavevector (latticePoint l.primitiveLatticeVectors s t) : ℝ)) := by
  unfold planeWaveSum
  rw [Finset.sum_mul]
  refine Finset.sum_congr rfl fun i _ => ?_
  rw [orderWavevector_dot h, mul_assoc (c i), ← Complex.exp_add]
  congr 2
  push_cast
  ring

theorem planeWaveSum_shift {l : LayerSolveResult ι} (h : cellArea l ≠ 0) (c : ι → ℂ) (r : ℝ × ℝ) (a b : ℤ) :
    planeWaveSum l c (r + latticePoint l.primitiveLatticeVectors a b) =
      Complex.exp (Complex.I * (dot l.inPlaneWavevector (latticePoint l.primitiveLatticeVectors a b) : ℝ)) *
        planeWaveSum l c r := by
  unfold planeWaveSum
  rw [Finset.mul_sum]
  refine Finset.sum_congr rfl fun i _ => ?_
  rw [mul_left_comm, ← Complex.exp_add]
  congr 1
  rw [Complex.exp_eq_exp_iff_exists_int]
  refine ⟨(l.expansion i).1 * a + (l.expansion i).2 * b, ?_⟩
  have e : dot (orderWavevector l i) (r + latticePoint l.primitiveLatticeVectors a b) =
      dot (orderWavevector l i) r + dot (orderWavevector l i) (latticePoint l.primitiveLatticeVectors a b) := by
    simp only [dot, Prod.fst_add, Prod.snd_add]; ring
  rw [e, orderWavevector_dot h]
  push_cast
  ring

theorem planeWave_mod {nx ny : ℕ} (hx : nx ≠ 0) (hy : ny ≠ 0) (g : ℤ × ℤ) (r s : ℕ) :
    planeWave nx ny g (r % nx) (s % ny) = planeWave nx ny g r s := by
  have key : ∀ (n : ℕ), n ≠ 0 → ∀ (m : ℤ) (r : ℕ), Complex.exp (2 * Real.pi * Complex.I * (m * (r % n : ℕ) / n)) =
      Complex.exp (2 * Real.pi * Complex.I * (m * r / n)) := by
    intro n hn m r
    rw [Complex.exp_eq_exp_iff_exists_int]
    refine ⟨-(m * (r / n : ℕ)), ?_⟩
    have e : (r : ℂ) = (r % n : ℕ) + n * (r / n : ℕ) := by exact_mod_cast (Nat.mod_add_div r n).symm
    have hn' : (n : ℂ) ≠ 0 := by exact_mod_cast hn
    generalize (r % n : ℕ) = p at *
    generalize (r / n : ℕ) = q at *
    rw [e]
    push_cast
    field_simp
    ring
  unfold planeWave
  simp only [mul_add, Complex.exp_add]
  rw [key nx hx, key ny hy]

theorem fieldsOnCoordinates_eq_ok {F : Fields (Matrix ι β ℂ)} {l : LayerSolveResult ι} {xy : κ → ℝ × ℝ}
    {R : Fields (κ → β → ℂ) × (κ → ℝ × ℝ)} :
    fieldsOnCoordinates F l xy = .ok R ↔ cellArea l ≠ 0 ∧
      R = (F.map fun c p b => planeWaveSum l (fun i => c i b) (xy p), xy) := by
  unfold fieldsOnCoordinates
  simp only [bind_eq_ok, transverseWavevectors_layer, ok_inj]
  have e : ∀ (c : Matrix ι β ℂ) (p : κ) (b : β),
      ∑ i, c i b * Complex.exp (Complex.I * (kxOf (orderWavevector l) i * ((xy p).1 : ℂ) +
        kyOf (orderWavevector l) i * ((xy p).2 : ℂ))) = planeWaveSum l (fun i => c i b) (xy p) := by
    intro c p b
    unfold planeWaveSum kxOf kyOf dot
    push_cast
    rfl
  constructor
  · rintro ⟨_, ⟨h, rfl⟩, rfl⟩
    refine ⟨h, ?_⟩
    congr 1
    congr 1
    funext c p b
    exact e c p b
  · rintro ⟨h, rfl⟩
    refine ⟨_, ⟨h, rfl⟩, ?_⟩
    congr 1
    congr 1
    funext c p b
    exact e c p b

theorem unitCellCoordinates_eq (l : LatticeVectors) (shape cells : ℕ × ℕ) (i : Fin (cells.1 * shape.1))
    (j : Fin (cells.2 * shape.2)) : unitCellCoordinates l shape cells i j =
      latticePoint l ((i : ℕ) / (shape.1 : ℝ)) ((j : ℕ) / (shape.2 : ℝ)) := by
  ext <;> simp [unitCellCoordinates, latticePoint]

theorem Fields.mapM_eq_ok {α γ : Type} {f : α → Res γ} {F : Fields α} {R : Fields γ} :
    F.mapM f = .ok R ↔ f F.ex = .ok R.ex ∧ f F.ey = .ok R.ey ∧ f F.ez = .ok R.ez ∧ f F.hx = .ok R.hx ∧
      f F.hy = .ok R.hy ∧ f F.hz = .ok R.hz := by
  obtain ⟨x1, x2, x3, x4, x5, x6⟩ := F
  obtain ⟨y1, y2, y3, y4, y5, y6⟩ := R
  unfold Fields.mapM
  simp only [bind_eq_ok, ok_inj, Fields.mk.injEq]
  constructor
  · rintro ⟨_, h1, _, h2, _, h3, _, h4, _, h5, _, h6, rfl, rfl, rfl, rfl, rfl, rfl⟩
    exact ⟨h1, h2, h3, h4, h5, h6⟩
  · rintro ⟨h1, h2, h3, h4, h5, h6⟩
    exact ⟨_, h1, _, h2, _, h3, _, h4, _, h5, _, h6, rfl, rfl, rfl, rfl, rfl, rfl⟩

theorem Fields.mapM_of_ok {α γ : Type} {f : α → Res γ} {g : α → γ} (h : ∀ x, f x = .ok (g x)) (F : Fields α) :
    F.mapM f = .ok (F.map g) := Fields.mapM_eq_ok.2 ⟨h _, h _, h _, h _, h _, h _⟩

theorem ifftColumns_eq_ok {y : Matrix ι β ℂ} {G : ι → ℤ × ℤ} {nx ny : ℕ} (h : Resolves nx ny G)
    (hG : Function.Injective G) :
    ifftColumns y G nx ny = .ok fun b => fourierSeries G (fun i => y i b) nx ny := by
  unfold ifftColumns
  rw [(validateShape_ok_iff G).2 h]
  simp only [bind, Except.bind]
  exact allOk_eq_ok.2 fun b => ifft_eq _ h hG

theorem ifftColumns_resolves {y : Matrix ι β ℂ} {G : ι → ℤ × ℤ} {nx ny : ℕ} {R} (h : ifftColumns y G nx ny = .ok R) :
    Resolves nx ny G := by
  unfold ifftColumns at h
  obtain ⟨u, hu, -⟩ := bind_eq_ok.1 h
  exact (validateShape_ok_iff G).1 hu

theorem Spec.Resolves.shape_ne {G : ι → ℤ × ℤ} {nx ny : ℕ} (h : Resolves nx ny G) : nx ≠ 0 ∧ ny ≠ 0 := by
  obtain ⟨⟨i⟩, h⟩ := h
  have := h i
  constructor
  · have := abs_nonneg (G i).1; omega
  · have := abs_nonneg (G i).2; omega

theorem fieldsOnGrid_resolves {F : Fields (Matrix ι β ℂ)} {l : LayerSolveResult ι} {shape cells : ℕ × ℕ} {R}
    (h : fieldsOnGrid F l shape cells = .ok R) : Resolves shape.1 shape.2 l.expansion := by
  unfold fieldsOnGrid at h
  obtain ⟨g, hg, -⟩ := bind_eq_ok.1 h
  obtain ⟨f, hf, -⟩ := bind_eq_ok.1 (Fields.mapM_eq_ok.1 hg).1
  exact ifftColumns_resolves hf

theorem fieldsOnGrid_eq {F : Fields (Matrix ι β ℂ)} {l : LayerSolveResult ι} {shape cells : ℕ × ℕ}
    (h : Resolves shape.1 shape.2 l.expansion) (hG : Function.Injective l.expansion) (hc : cellArea l ≠ 0) :
    fieldsOnGrid F l shape cells = .ok
      (F.map fun c p b => planeWaveSum l (fun i => c i b)
          (latticePoint l.primitiveLatticeVectors ((p.1 : ℕ) / (shape.1 : ℝ)) ((p.2 : ℕ) / (shape.2 : ℝ))),
        fun p => latticePoint l.primitiveLatticeVectors ((p.1 : ℕ) / (shape.1 : ℝ)) ((p.2 : ℕ) / (shape.2 : ℝ))) := by
  unfold fieldsOnGrid
  obtain ⟨hx, hy⟩ := h.shape_ne
  simp only [ifftColumns_eq_ok h hG]
  refine bind_eq_ok.2 ⟨_, Fields.mapM_of_ok (fun y => rfl) F, ?_⟩
  simp only [unitCellCoordinates_eq]
  congr 2
  congr 1
  funext c p b
  rw [planeWaveSum_latticePoint hc]
  congr 1
  · unfold fourierSeries tileIndex
    simp only [Matrix.of_apply]
    refine Finset.sum_congr rfl fun i _ => ?_
    rw [planeWave_mod hx hy]
    unfold planeWave
    congr 3
    push_cast
    ring
  · unfold dot
    push_cast
    rfl

end Fmmax
