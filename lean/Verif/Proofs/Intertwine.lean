import Verif.Proofs.StackOps
import Verif.Proofs.Symmetry

/-! Matrices which act on a subspace and on a complement of it. -/

set_option linter.unusedSectionVars false

namespace Fmmax

open Matrix Spec

variable {ι κ : Type} [Fintype ι] [DecidableEq ι] [Fintype κ] [DecidableEq κ]
variable {a b c a' b' c' : Type} [Fintype a] [Fintype b] [Fintype c] [Fintype a'] [Fintype b'] [Fintype c'] [DecidableEq a] [DecidableEq b] [DecidableEq c]
  [DecidableEq a'] [DecidableEq b'] [DecidableEq c']

/-- A subspace with a projection onto it. -/
structure Part (a a' : Type) [Fintype a] [Fintype a'] [DecidableEq a] where
  into : Matrix a' a ℂ
  onto : Matrix a a' ℂ
  onto_into : onto * into = 1

/-- `X'` maps the part `e` to the part `f`, and there acts as `X`; it also maps the complements to each other. -/
def Part.Carries (e : Part b b') (f : Part a a') (X' : Matrix a' b' ℂ) (X : Matrix a b ℂ) : Prop :=
  X' * e.into = f.into * X ∧ f.onto * X' = X * e.onto

namespace Part

variable {e : Part a a'} {f : Part b b'} {g : Part c c'}

theorem Carries.mul {X' : Matrix c' b' ℂ} {X : Matrix c b ℂ} {Y' : Matrix b' a' ℂ} {Y : Matrix b a ℂ} (h : f.Carries g X' X) (k : e.Carries f Y' Y) :
    e.Carries g (X' * Y') (X * Y) := by
  refine ⟨?_, ?_⟩
  · rw [Matrix.mul_assoc, k.1, ← Matrix.mul_assoc, h.1, Matrix.mul_assoc]
  · rw [← Matrix.mul_assoc, h.2, Matrix.mul_assoc, k.2, Matrix.mul_assoc]

theorem Carries.add {X' Y' : Matrix b' a' ℂ} {X Y : Matrix b a ℂ} (h : e.Carries f X' X) (k : e.Carries f Y' Y) : e.Carries f (X' + Y') (X + Y) := by
  refine ⟨?_, ?_⟩
  · rw [Matrix.add_mul, h.1, k.1, Matrix.mul_add]
  · rw [Matrix.mul_add, h.2, k.2, Matrix.add_mul]

theorem Carries.neg {X' : Matrix b' a' ℂ} {X : Matrix b a ℂ} (h : e.Carries f X' X) : e.Carries f (-X') (-X) := by
  refine ⟨?_, ?_⟩
  · rw [Matrix.neg_mul, h.1, Matrix.mul_neg]
  · rw [Matrix.mul_neg, h.2, Matrix.neg_mul]

theorem Carries.sub {X' Y' : Matrix b' a' ℂ} {X Y : Matrix b a ℂ} (h : e.Carries f X' X) (k : e.Carries f Y' Y) : e.Carries f (X' - Y') (X - Y) := by
  rw [sub_eq_add_neg, sub_eq_add_neg]
  exact h.add k.neg

theorem Carries.smul {X' : Matrix b' a' ℂ} {X : Matrix b a ℂ} (h : e.Carries f X' X) (t : ℂ) : e.Carries f (t • X') (t • X) := by
  refine ⟨?_, ?_⟩
  · rw [Matrix.smul_mul, h.1, Matrix.mul_smul]
  · rw [Matrix.mul_smul, h.2, Matrix.smul_mul]

theorem carries_one (e : Part a a') : e.Carries e 1 1 := by
  refine ⟨?_, ?_⟩ <;> simp

theorem carries_zero (e : Part a a') (f : Part b b') : e.Carries f 0 0 := by
  refine ⟨?_, ?_⟩ <;> simp

/-- A regular matrix is regular on the part. -/
theorem Carries.isUnit {e f : Part a a'} {X' : Matrix a' a' ℂ} {X : Matrix a a ℂ} (h : e.Carries f X' X) (hX : IsUnit X'.det) : IsUnit X.det := by
  refine isUnit_det_of_right_inverse (B := e.onto * X'⁻¹ * f.into) ?_
  calc X * (e.onto * X'⁻¹ * f.into) = (X * e.onto) * X'⁻¹ * f.into := by mat_module
    _ = f.onto * (X' * X'⁻¹) * f.into := by rw [← h.2]; mat_module
    _ = 1 := by rw [mul_nonsing_inv _ hX, Matrix.mul_one, f.onto_into]

theorem Carries.inv {e f : Part a a'} {X' : Matrix a' a' ℂ} {X : Matrix a a ℂ} (h : e.Carries f X' X) (hX : IsUnit X'.det) (hx : IsUnit X.det) :
    f.Carries e X'⁻¹ X⁻¹ := by
  refine ⟨?_, ?_⟩
  · calc X'⁻¹ * f.into = X'⁻¹ * (f.into * X) * X⁻¹ := by rw [Matrix.mul_assoc, Matrix.mul_assoc, mul_nonsing_inv _ hx, Matrix.mul_one]
      _ = (X'⁻¹ * X') * e.into * X⁻¹ := by rw [← h.1]; mat_module
      _ = _ := by rw [nonsing_inv_mul _ hX, Matrix.one_mul]
  · calc e.onto * X'⁻¹ = X⁻¹ * (X * e.onto) * X'⁻¹ := by rw [← Matrix.mul_assoc, nonsing_inv_mul _ hx, Matrix.one_mul]
      _ = X⁻¹ * f.onto * (X' * X'⁻¹) := by rw [← h.2]; mat_module
      _ = _ := by rw [mul_nonsing_inv _ hX, Matrix.mul_one]

/-- The solution of a linear equation. -/
theorem Carries.solve {e f : Part a a'} {X' Z' : Matrix a' a' ℂ} {X : Matrix a a ℂ} {Y' : Matrix a' c' ℂ} {Y : Matrix a c ℂ} {W' : Matrix a' c' ℂ}
    (h : e.Carries f X' X) (k : g.Carries f Y' Y) (hX : IsUnit X'.det) (hW : X' * W' = Y') : g.Carries e W' (X⁻¹ * Y) := by
  have hx := h.isUnit hX
  have : W' = X'⁻¹ * Y' := by rw [← hW, ← Matrix.mul_assoc, nonsing_inv_mul _ hX, Matrix.one_mul]
  rw [this]
  exact (h.inv hX hx).mul k

/-- Entries of diagonal matrices which correspond. -/
theorem carries_diagonal {e : Part a a'} {d' : a' → ℂ} {d : a → ℂ} (h1 : ∀ i j, e.into i j ≠ 0 → d' i = d j) (h2 : ∀ i j, e.onto j i ≠ 0 → d' i = d j) :
    e.Carries e (diagonal d') (diagonal d) := by
  refine ⟨?_, ?_⟩
  · ext i j
    rw [diagonal_mul, mul_diagonal]
    by_cases h : e.into i j = 0
    · simp [h]
    · rw [h1 i j h, mul_comm]
  · ext j i
    rw [diagonal_mul, mul_diagonal]
    by_cases h : e.onto j i = 0
    · simp [h]
    · rw [h2 i j h, mul_comm]

/-- The part twice. -/
def double (e : Part ι κ) : Part (ι ⊕ ι) (κ ⊕ κ) :=
  { into := fromBlocks e.into 0 0 e.into, onto := fromBlocks e.onto 0 0 e.onto, onto_into := by simp [fromBlocks_multiply, e.onto_into] }

theorem carries_fromBlocks {e : Part ι κ} {A' B' C' D' : Matrix κ κ ℂ} {A B C D : Matrix ι ι ℂ} (hA : e.Carries e A' A) (hB : e.Carries e B' B)
    (hC : e.Carries e C' C) (hD : e.Carries e D' D) : e.double.Carries e.double (fromBlocks A' B' C' D') (fromBlocks A B C D) := by
  refine ⟨?_, ?_⟩
  · simp [double, fromBlocks_multiply, hA.1, hB.1, hC.1, hD.1]
  · simp [double, fromBlocks_multiply, hA.2, hB.2, hC.2, hD.2]

/-- The part of the modes belonging to a part of the Fourier orders. -/
noncomputable def modes (e : Part a a') {φ' : Matrix a' a' ℂ} {φ : Matrix a a ℂ} (h' : IsUnit φ'.det) (h : IsUnit φ.det) : Part a a' :=
  { into := φ'⁻¹ * e.into * φ, onto := φ⁻¹ * e.onto * φ'
    onto_into := by
      calc φ⁻¹ * e.onto * φ' * (φ'⁻¹ * e.into * φ) = φ⁻¹ * e.onto * (φ' * φ'⁻¹) * e.into * φ := by mat_module
        _ = φ⁻¹ * (e.onto * e.into) * φ := by rw [mul_nonsing_inv _ h']; mat_module
        _ = 1 := by rw [e.onto_into, Matrix.mul_one, nonsing_inv_mul _ h] }

theorem carries_modes (e : Part a a') {φ' : Matrix a' a' ℂ} {φ : Matrix a a ℂ} (h' : IsUnit φ'.det) (h : IsUnit φ.det) :
    (e.modes h' h).Carries e φ' φ := by
  refine ⟨?_, ?_⟩
  · simp only [modes]
    rw [← Matrix.mul_assoc, ← Matrix.mul_assoc, mul_nonsing_inv _ h', Matrix.one_mul]
  · simp only [modes]
    rw [← Matrix.mul_assoc, ← Matrix.mul_assoc, mul_nonsing_inv _ h, Matrix.one_mul]

end Part

/-- The modes of `l` are those modes of `l'` which belong to the part `e` of the Fourier orders; `m` is this part of the modes. -/
structure LayerPart (e : Part (ι ⊕ ι) (κ ⊕ κ)) (m : Part (ι ⊕ ι) (κ ⊕ κ)) (l' : LayerSolveResult κ) (l : LayerSolveResult ι) : Prop where
  wellPosed : WellPosed l' → WellPosed l
  electric : e.Carries e (magneticToElectric l') (magneticToElectric l)
  eigenvectors : m.Carries e l'.eigenvectors l.eigenvectors
  eigenvalues_into : ∀ i j, m.into i j ≠ 0 → l'.eigenvalues i = l.eigenvalues j
  eigenvalues_onto : ∀ i j, m.onto j i ≠ 0 → l'.eigenvalues i = l.eigenvalues j

namespace LayerPart

variable {e m n : Part (ι ⊕ ι) (κ ⊕ κ)} {l' n' : LayerSolveResult κ} {l nl : LayerSolveResult ι}

theorem diag (h : LayerPart e m l' l) (f : ℂ → ℂ) : m.Carries m (diagonal fun i => f (l'.eigenvalues i)) (diagonal fun i => f (l.eigenvalues i)) :=
  Part.carries_diagonal (fun i j hij => by rw [h.eigenvalues_into i j hij]) (fun i j hij => by rw [h.eigenvalues_onto i j hij])

theorem propagator (h : LayerPart e m l' l) (z : ℝ) : m.Carries m (Spec.propagator l' z) (Spec.propagator l z) :=
  h.diag fun q => Complex.exp (Complex.I * q * z)

theorem eigenvalues_ne (h : LayerPart e m l' l) (hq : ∀ i, l'.eigenvalues i ≠ 0) : ∀ j, l.eigenvalues j ≠ 0 := by
  intro j h0
  have : ∀ i, m.into i j = 0 := by
    intro i
    by_contra hT
    exact hq i (by rw [h.eigenvalues_into i j hT, h0])
  have h1 := congrFun (congrFun m.onto_into j) j
  rw [Matrix.mul_apply] at h1
  simp [this] at h1

theorem interface (hl : LayerPart e m l' l) (hn : LayerPart e n n' nl) {i11' i12' : ModeMatrix κ} (h : interfaceMatrices l' n' = .ok (i11', i12')) :
    ∃ i11 i12, interfaceMatrices l nl = .ok (i11, i12) ∧ n.Carries m i11' i11 ∧ n.Carries m i12' i12 := by
  rw [interfaceMatrices_ok_iff] at h
  obtain ⟨Ω, Ω', T1, T2, hΩ, hΩ', hr, hu, h1, h2, h3, h4⟩ := h
  rw [omegaScriptK_ok_iff] at hΩ hΩ'
  obtain ⟨w, rfl⟩ := hΩ
  obtain ⟨w', rfl⟩ := hΩ'
  have k1 := hl.electric.mul hl.eigenvectors
  have k2 := (hn.electric.mul hn.eigenvectors).mul (hn.diag fun q => q⁻¹)
  have k3 := hl.electric.mul hn.eigenvectors
  have c1 := k1.solve (Z' := 1) k2 hu h1
  have c2 := k1.solve (Z' := 1) k3 hu h2
  have hu' := k1.isUnit hu
  have q1 := (hl.diag fun q => q).mul c1
  refine ⟨_, _, interfaceMatrices_ok_iff.2 ⟨_, _, (magneticToElectric l * l.eigenvectors)⁻¹ * (magneticToElectric nl * nl.eigenvectors *
    diagonal fun i => (nl.eigenvalues i)⁻¹), (magneticToElectric l * l.eigenvectors)⁻¹ * (magneticToElectric l * nl.eigenvectors),
    omegaScriptK_ok_iff.2 ⟨hl.wellPosed w, rfl⟩, omegaScriptK_ok_iff.2 ⟨hn.wellPosed w', rfl⟩, hn.eigenvalues_ne hr, hu', ?_, ?_, rfl, rfl⟩, ?_, ?_⟩
  · rw [← Matrix.mul_assoc, mul_nonsing_inv _ hu', Matrix.one_mul]
  · rw [← Matrix.mul_assoc, mul_nonsing_inv _ hu', Matrix.one_mul]
  · simp only at h3
    rw [h3]
    exact (q1.add c2).smul _
  · simp only at h4
    rw [h4]
    exact (q1.neg.add c2).smul _

end LayerPart

/-- `S` is the part of `S'` belonging to a part of the Fourier orders. -/
structure SPart (e m₀ m : Part (ι ⊕ ι) (κ ⊕ κ)) (S' : ScatteringMatrix κ) (S : ScatteringMatrix ι) : Prop where
  start : LayerPart e m₀ S'.startLayer S.startLayer
  finish : LayerPart e m S'.endLayer S.endLayer
  startThickness : S'.startThickness = S.startThickness
  endThickness : S'.endThickness = S.endThickness
  s11 : m₀.Carries m S'.s11 S.s11
  s12 : m.Carries m S'.s12 S.s12
  s21 : m₀.Carries m₀ S'.s21 S.s21
  s22 : m.Carries m₀ S'.s22 S.s22

theorem identity_part {e m : Part (ι ⊕ ι) (κ ⊕ κ)} {l' : LayerSolveResult κ} {l : LayerSolveResult ι} (h : LayerPart e m l' l) (d : ℝ) :
    SPart e m m (identitySMatrix l' d) (identitySMatrix l d) := by
  refine ⟨h, h, rfl, rfl, ?_, Part.carries_zero _ _, Part.carries_zero _ _, ?_⟩
  · simpa [identitySMatrix] using m.carries_one
  · simpa [identitySMatrix] using m.carries_one

theorem appendLayer_part {e m₀ m n : Part (ι ⊕ ι) (κ ⊕ κ)} {S' S1' : ScatteringMatrix κ} {S : ScatteringMatrix ι} {n' : LayerSolveResult κ}
    {nl : LayerSolveResult ι} {d : ℝ} (h : SPart e m₀ m S' S) (hn : LayerPart e n n' nl) (hS : appendLayer S' n' d = .ok S1') :
    ∃ S1, appendLayer S nl d = .ok S1 ∧ SPart e m₀ n S1' S1 := by
  rw [appendLayer_ok_iff] at hS
  obtain ⟨hb, e1, e2, e3, e4⟩ := hS
  rw [extendSMatrix_ok_iff] at hb
  obtain ⟨i11', i12', hi, hu, h11, h12, h21, h22⟩ := hb
  obtain ⟨i11, i12, hi', k11, k12⟩ := h.finish.interface hn hi
  have P := h.finish.propagator S'.endThickness
  have P2 := hn.propagator d
  have K := k11.sub ((P.mul h.s12).mul k12)
  have hu' := K.isUnit hu
  have c11 := K.solve (Z' := 1) (P.mul h.s11) hu h11
  have c12 := K.solve (Z' := 1) ((((P.mul h.s12).mul k11).sub k12).mul P2) hu h12
  have c21 := ((h.s22.mul k12).mul c11).add h.s21
  have c22 := ((h.s22.mul k12).mul c12).add ((h.s22.mul k11).mul P2)
  rw [← h21] at c21
  rw [← h22] at c22
  refine ⟨{ s11 := _, s12 := _, s21 := _, s22 := _, startLayer := S.startLayer, startThickness := S.startThickness, endLayer := nl, endThickness := d }, ?_,
    ⟨by rw [e1]; exact h.start, by rw [e3]; exact hn, by rw [e2]; exact h.startThickness, e4, c11, c12, c21, c22⟩⟩
  rw [appendLayer_ok_iff]
  refine ⟨?_, rfl, rfl, rfl, rfl⟩
  rw [extendSMatrix_ok_iff]
  rw [h.endThickness] at hu' ⊢
  refine ⟨_, _, hi', hu', ?_, ?_, rfl, rfl⟩
  · simp only
    rw [← Matrix.mul_assoc, mul_nonsing_inv _ hu', Matrix.one_mul]
  · simp only
    rw [← Matrix.mul_assoc, mul_nonsing_inv _ hu', Matrix.one_mul]

theorem scanLoop_part {e : Part (ι ⊕ ι) (κ ⊕ κ)} {ms' : List (LayerSolveResult κ × ℝ)} {ms : List (LayerSolveResult ι × ℝ)}
    (hm : List.Forall₂ (fun p' p => (∃ m, LayerPart e m p'.1 p.1) ∧ p'.2 = p.2) ms' ms) :
    ∀ (S' S1' : ScatteringMatrix κ) (S : ScatteringMatrix ι) (m₀ m : Part (ι ⊕ ι) (κ ⊕ κ)), SPart e m₀ m S' S →
      scanLoop S' ms' = .ok S1' → ∃ S1 n, scanLoop S ms = .ok S1 ∧ SPart e m₀ n S1' S1 := by
  induction hm with
  | nil =>
    intro S' S1' S m₀ m h hS
    simp only [scanLoop, ok_inj] at hS ⊢
    subst hS
    exact ⟨S, m, rfl, h⟩
  | @cons p' p ms' ms hp _ ih =>
    intro S' S1' S m₀ m h hS
    obtain ⟨l', d'⟩ := p'
    obtain ⟨l, d⟩ := p
    obtain ⟨⟨n, hn⟩, hd⟩ := hp
    simp only at hd
    subst hd
    simp only [scanLoop, bind_eq_ok] at hS ⊢
    obtain ⟨S2', hS2', hS⟩ := hS
    obtain ⟨S2, hS2, h2⟩ := appendLayer_part h hn hS2'
    obtain ⟨S1, k, hS1, h1⟩ := ih S2' S1' S2 m₀ n h2 hS
    exact ⟨S1, k, ⟨S2, hS2, hS1⟩, h1⟩

end Fmmax
