import Verif.Spec.Superposition
import Verif.Proofs.SupercellEmission
import Verif.Props.Emission

/-! Property C99: superposition of incident waves and of sources. -/

set_option linter.unusedSectionVars false

namespace Fmmax

open Matrix Spec

variable {ι : Type} [Fintype ι] [DecidableEq ι] {N N' M : ℕ} {W : Matrix (Fin N) (Fin M) ℂ} {W' : Matrix (Fin N') (Fin M) ℂ}

theorem solve_combine {n : Type} [Fintype n] [DecidableEq n] {A : Matrix n n ℂ} {B X : Matrix n (Fin N) ℂ} {B' X' : Matrix n (Fin N') ℂ} (h : solve A B = .ok X)
    (h' : solve A B' = .ok X') : solve A (B * W + B' * W') = .ok (X * W + X' * W') := by
  rw [solve_eq_ok] at h h' ⊢
  refine ⟨h.1, ?_⟩
  rw [Matrix.mul_add, ← Matrix.mul_assoc, ← Matrix.mul_assoc, h.2, h'.2]

theorem amplitudesInterior_combine {b a : Blocks ι} {a0 bN : Matrix (ι ⊕ ι) (Fin N) ℂ} {a0' bN' : Matrix (ι ⊕ ι) (Fin N') ℂ} {x x'}
    (h : amplitudesInterior b a a0 bN = .ok x) (h' : amplitudesInterior b a a0' bN' = .ok x') :
    amplitudesInterior b a (a0 * W + a0' * W') (bN * W + bN' * W') = .ok (x.1 * W + x'.1 * W', x.2 * W + x'.2 * W') := by
  unfold amplitudesInterior at h h' ⊢
  obtain ⟨ai, h1, h⟩ := bind_eq_ok.1 h
  obtain ⟨ai', h1', h'⟩ := bind_eq_ok.1 h'
  rw [ok_inj] at h h'
  subst h h'
  refine bind_eq_ok.2 ⟨ai * W + ai' * W', ?_, ok_inj.2 ?_⟩
  · have := solve_combine (W := W) (W' := W') h1 h1'
    convert this using 1
    congr 1
    simp only [Matrix.add_mul, Matrix.mul_add, Matrix.mul_assoc]
    abel
  · congr 1
    simp only [Matrix.add_mul, Matrix.mul_add, Matrix.mul_assoc]
    abel

/-- **C99** The amplitudes inside a stack are linear in the incident amplitudes: if they are calculated for two arrays of incident waves, then they are calculated for any
combinations of the waves of both arrays, and are the combinations of the amplitudes. -/
theorem C99_incident_waves {ps : List (ScatteringMatrix ι × ScatteringMatrix ι)} {a0 bN : Matrix (ι ⊕ ι) (Fin N) ℂ} {a0' bN' : Matrix (ι ⊕ ι) (Fin N') ℂ} {xs xs'}
    (h : stackAmplitudesInterior a0 bN ps = .ok xs) (h' : stackAmplitudesInterior a0' bN' ps = .ok xs') (W : Matrix (Fin N) (Fin M) ℂ) (W' : Matrix (Fin N') (Fin M) ℂ) :
    xs.length = xs'.length ∧ stackAmplitudesInterior (a0 * W + a0' * W') (bN * W + bN' * W') ps =
      .ok (List.zipWith (fun x x' => (x.1 * W + x'.1 * W', x.2 * W + x'.2 * W')) xs xs') := by
  induction ps generalizing xs xs' with
  | nil =>
    rw [stackAmplitudesInterior, ok_inj] at h h'
    subst h h'
    exact ⟨rfl, rfl⟩
  | cons p ps ih =>
    simp only [stackAmplitudesInterior, bind_eq_ok, ok_inj] at h h' ⊢
    obtain ⟨x, h1, ys, h2, rfl⟩ := h
    obtain ⟨x', h1', ys', h2', rfl⟩ := h'
    obtain ⟨k1, k2⟩ := ih h2 h2'
    exact ⟨by simp [k1], _, amplitudesInterior_combine h1 h1', _, k2, rfl⟩

theorem polarizationTerms_combine {l : LayerSolveResult ι} {jx jy jz : Matrix ι (Fin N) ℂ} {jx' jy' jz' : Matrix ι (Fin N') ℂ} {P P'}
    (h : polarizationTerms jx jy jz l = .ok P) (h' : polarizationTerms jx' jy' jz' l = .ok P') :
    polarizationTerms (jx * W + jx' * W') (jy * W + jy' * W') (jz * W + jz' * W') l = .ok (P * W + P' * W') := by
  unfold polarizationTerms at h h' ⊢
  obtain ⟨k, hk, h⟩ := bind_eq_ok.1 h
  obtain ⟨k', hk', h'⟩ := bind_eq_ok.1 h'
  rw [hk, ok_inj] at hk'
  subst hk'
  rw [ok_inj] at h h'
  subst h h'
  refine bind_eq_ok.2 ⟨k, hk, ok_inj.2 ?_⟩
  simp only [Matrix.fromRows_mul, Matrix.neg_mul, Matrix.mul_add, Matrix.mul_assoc]
  ext ((i | i) | (i | i)) c <;> simp [Matrix.add_apply] <;> ring

theorem amplitudesForSource_combine {sb sa : ScatteringMatrix ι} {jx jy jz : Matrix ι (Fin N) ℂ} {jx' jy' jz' : Matrix ι (Fin N') ℂ} {R R'}
    (h : amplitudesForSource jx jy jz sb sa = .ok R) (h' : amplitudesForSource jx' jy' jz' sb sa = .ok R') :
    amplitudesForSource (jx * W + jx' * W') (jy * W + jy' * W') (jz * W + jz' * W') sb sa = .ok
      { backward0End := R.backward0End * W + R'.backward0End * W', forwardBeforeStart := R.forwardBeforeStart * W + R'.forwardBeforeStart * W',
        backwardBeforeEnd := R.backwardBeforeEnd * W + R'.backwardBeforeEnd * W', forwardAfterStart := R.forwardAfterStart * W + R'.forwardAfterStart * W',
        backwardAfterEnd := R.backwardAfterEnd * W + R'.backwardAfterEnd * W', forwardNStart := R.forwardNStart * W + R'.forwardNStart * W' } := by
  unfold amplitudesForSource at h h' ⊢
  simp only [bind_eq_ok, ok_inj] at h h' ⊢
  obtain ⟨P, h1, A, h2, ab, h3, rfl⟩ := h
  obtain ⟨P', h1', A', h2', ab', h3', rfl⟩ := h'
  rw [h2, ok_inj] at h2'
  subst h2'
  refine ⟨_, polarizationTerms_combine h1 h1', _, h2, _, solve_combine h3 h3', ?_⟩
  have e : ∀ f : ι ⊕ ι → (ι ⊕ ι) ⊕ (ι ⊕ ι), (Matrix.of fun i c => (ab * W + ab' * W') (f i) c : Matrix (ι ⊕ ι) (Fin M) ℂ) =
      (Matrix.of fun i c => ab (f i) c) * W + (Matrix.of fun i c => ab' (f i) c) * W' := fun f => rfl
  simp only [e, Matrix.mul_add, Matrix.mul_assoc]

theorem flatIndex_parts {m n : ℕ} (k : Fin m) (j : Fin n) : (flatIndex k j).divNat = k ∧ (flatIndex k j).modNat = j := by
  have hn : 0 < n := lt_of_le_of_lt (Nat.zero_le _) j.2
  constructor
  · ext
    simp only [flatIndex, Fin.divNat]
    rw [mul_comm, Nat.mul_add_div hn, Nat.div_eq_of_lt j.2, add_zero]
  · ext
    simp only [flatIndex, Fin.modNat]
    rw [mul_comm, Nat.mul_add_mod, Nat.mod_eq_of_lt j.2]

/-- The fields in one plane of a layer. -/
noncomputable def planeFields (l : LayerSolveResult ι) (d z : ℝ) (a b : Matrix (ι ⊕ ι) (Fin N) ℂ) : Fields (Matrix ι (Fin N) ℂ) :=
  fieldsOf l (electricModes l * (propagator l z * a - propagator l (d - z) * b)) (l.eigenvectors * (propagator l z * a + propagator l (d - z) * b))

theorem layerFields3d_planes {γ : Type} {a b : Matrix (ι ⊕ ι) (Fin N) ℂ} {l : LayerSolveResult ι} {d : ℝ} {znum : ℕ} {xy : γ → ℝ × ℝ} {R} :
    layerFields3d a b l d znum (coordinateSlice xy) = .ok R ↔ (WellPosed l ∧ ∀ i, l.eigenvalues i ≠ 0) ∧ R.2 = (xy, linspace d znum) ∧
      ∀ k : Fin znum, (R.1.map fun x p j => x p k j) =
        (planeFields l d (linspace d znum k) a b).map fun c p j => planeWaveSum l (fun i => c i j) (xy p) := by
  rw [layerFields3d_coordinates]
  simp only [fieldsFromWaveAmplitudes_eq_ok]
  set X := electricModes l * (propagateAmplitude (Matrix.of fun i (q : Fin (znum * N)) => a i q.modNat) (fun q => linspace d znum q.divNat) l -
    propagateAmplitude (Matrix.of fun i (q : Fin (znum * N)) => b i q.modNat) (fun q => d - linspace d znum q.divNat) l) with hX
  set Y := l.eigenvectors * (propagateAmplitude (Matrix.of fun i (q : Fin (znum * N)) => a i q.modNat) (fun q => linspace d znum q.divNat) l +
    propagateAmplitude (Matrix.of fun i (q : Fin (znum * N)) => b i q.modNat) (fun q => d - linspace d znum q.divNat) l) with hY
  have eX : ∀ k : Fin znum, (Matrix.of fun i j => X i (flatIndex k j) : Matrix (ι ⊕ ι) (Fin N) ℂ) =
      electricModes l * (propagator l (linspace d znum k) * a - propagator l (d - linspace d znum k) * b) := by
    intro k
    ext i j
    simp only [hX, Matrix.of_apply, Matrix.mul_apply (N := (_ - _))]
    refine Finset.sum_congr rfl fun s _ => ?_
    congr 1
    simp [propagateAmplitude, propagator, Matrix.diagonal_mul, mul_comm, flatIndex_parts]
  have eY : ∀ k : Fin znum, (Matrix.of fun i j => Y i (flatIndex k j) : Matrix (ι ⊕ ι) (Fin N) ℂ) =
      l.eigenvectors * (propagator l (linspace d znum k) * a + propagator l (d - linspace d znum k) * b) := by
    intro k
    ext i j
    simp only [hY, Matrix.of_apply, Matrix.mul_apply (N := (_ + _))]
    refine Finset.sum_congr rfl fun s _ => ?_
    congr 1
    simp [propagateAmplitude, propagator, Matrix.diagonal_mul, mul_comm, flatIndex_parts]
  have eF : ∀ k : Fin znum, (fieldsOf l X Y).map (fun c => (Matrix.of fun i j => c i (flatIndex k j) : Matrix ι (Fin N) ℂ)) =
      planeFields l d (linspace d znum k) a b := by
    intro k
    rw [planeFields, ← eX, ← eY]
    rfl
  constructor
  · rintro ⟨F, ⟨h1, h2, rfl⟩, -, rfl⟩
    refine ⟨⟨h1, h2⟩, rfl, fun k => ?_⟩
    rw [← eF]
    rfl
  · rintro ⟨⟨h1, h2⟩, h3, h4⟩
    refine ⟨_, ⟨h1, h2, rfl⟩, h1.2.1, ?_⟩
    obtain ⟨G, r⟩ := R
    simp only at h3 h4
    subst h3
    congr 1
    have h5 : ∀ k : Fin znum, _ := fun k => (h4 k).trans (congrArg _ (eF k).symm)
    ext p k j
    · exact congrFun (congrFun (congrArg Fields.ex (h5 k)) p) j
    · exact congrFun (congrFun (congrArg Fields.ey (h5 k)) p) j
    · exact congrFun (congrFun (congrArg Fields.ez (h5 k)) p) j
    · exact congrFun (congrFun (congrArg Fields.hx (h5 k)) p) j
    · exact congrFun (congrFun (congrArg Fields.hy (h5 k)) p) j
    · exact congrFun (congrFun (congrArg Fields.hz (h5 k)) p) j

theorem fieldsOf_combine (l : LayerSolveResult ι) (e h : Matrix (ι ⊕ ι) (Fin N) ℂ) (e' h' : Matrix (ι ⊕ ι) (Fin N') ℂ) :
    fieldsOf l (e * W + e' * W') (h * W + h' * W') =
      { ex := (fieldsOf l e h).ex * W + (fieldsOf l e' h').ex * W', ey := (fieldsOf l e h).ey * W + (fieldsOf l e' h').ey * W',
        ez := (fieldsOf l e h).ez * W + (fieldsOf l e' h').ez * W', hx := (fieldsOf l e h).hx * W + (fieldsOf l e' h').hx * W',
        hy := (fieldsOf l e h).hy * W + (fieldsOf l e' h').hy * W', hz := (fieldsOf l e h).hz * W + (fieldsOf l e' h').hz * W' } := by
  have key : ∀ (A : Matrix ι ι ℂ) (x y : ι → ℂ) (f g : ι → ι ⊕ ι) (r : ℂ) (u : Matrix (ι ⊕ ι) (Fin N) ℂ) (u' : Matrix (ι ⊕ ι) (Fin N') ℂ),
      (Matrix.of fun i c => (A * Matrix.of fun i c => x i * (u * W + u' * W') (f i) c - y i * (u * W + u' * W') (g i) c : Matrix ι (Fin M) ℂ) i c / r) =
        (Matrix.of fun i c => (A * Matrix.of fun i c => x i * u (f i) c - y i * u (g i) c : Matrix ι (Fin N) ℂ) i c / r) * W +
        (Matrix.of fun i c => (A * Matrix.of fun i c => x i * u' (f i) c - y i * u' (g i) c : Matrix ι (Fin N') ℂ) i c / r) * W' := by
    intro A x y f g r u u'
    have e1 : (Matrix.of fun i c => x i * (u * W + u' * W') (f i) c - y i * (u * W + u' * W') (g i) c : Matrix ι (Fin M) ℂ) =
        (Matrix.of fun i c => x i * u (f i) c - y i * u (g i) c) * W + (Matrix.of fun i c => x i * u' (f i) c - y i * u' (g i) c) * W' := by
      ext i c
      simp only [Matrix.of_apply, Matrix.add_apply, Matrix.mul_apply, sub_mul, Finset.sum_sub_distrib, Finset.mul_sum, mul_add, mul_assoc]
      ring
    rw [e1, Matrix.mul_add, ← Matrix.mul_assoc, ← Matrix.mul_assoc]
    ext i c
    simp only [Matrix.of_apply, Matrix.add_apply]
    rw [Matrix.mul_apply, Matrix.mul_apply, Matrix.mul_apply, Matrix.mul_apply, add_div, Finset.sum_div, Finset.sum_div]
    congr 1
    · exact Finset.sum_congr rfl fun s _ => by rw [Matrix.of_apply]; ring
    · exact Finset.sum_congr rfl fun s _ => by rw [Matrix.of_apply]; ring
  unfold fieldsOf
  refine Fields.ext ?_ ?_ ?_ ?_ ?_ ?_
  · rfl
  · ext i c
    simp only [Matrix.of_apply, Matrix.add_apply, Matrix.mul_apply, neg_mul, Finset.sum_neg_distrib]
    ring
  · exact key _ _ _ _ _ _ _ _
  · rfl
  · rfl
  · have := key l.inverseZPermeabilityMatrix (fun i => -(Complex.I * (orderWavevector l i).1)) (fun i => Complex.I * (orderWavevector l i).2) .inl .inr
      (Complex.I * omega l) e e'
    simp only [neg_mul] at this
    simp only [mul_neg]
    exact this

theorem planeFields_combine {γ : Type} (l : LayerSolveResult ι) (d z : ℝ) (a b : Matrix (ι ⊕ ι) (Fin N) ℂ) (a' b' : Matrix (ι ⊕ ι) (Fin N') ℂ) (xy : γ → ℝ × ℝ) :
    ((planeFields l d z (a * W + a' * W') (b * W + b' * W')).map fun c p j => planeWaveSum l (fun i => c i j) (xy p)) =
      combineFields W W' ((planeFields l d z a b).map fun c p j => planeWaveSum l (fun i => c i j) (xy p))
        ((planeFields l d z a' b').map fun c p j => planeWaveSum l (fun i => c i j) (xy p)) := by
  have key : ∀ (c : Matrix ι (Fin N) ℂ) (c' : Matrix ι (Fin N') ℂ), (fun (p : γ) j => planeWaveSum l (fun i => (c * W + c' * W') i j) (xy p)) =
      combine W W' (fun p j => planeWaveSum l (fun i => c i j) (xy p)) fun p j => planeWaveSum l (fun i => c' i j) (xy p) := by
    intro c c'
    funext p j
    unfold combine planeWaveSum
    simp only [Matrix.add_apply, Matrix.mul_apply, add_mul, Finset.sum_add_distrib, Finset.sum_mul]
    congr 1
    · rw [Finset.sum_comm]
      exact Finset.sum_congr rfl fun s _ => Finset.sum_congr rfl fun i _ => by ring
    · rw [Finset.sum_comm]
      exact Finset.sum_congr rfl fun s _ => Finset.sum_congr rfl fun i _ => by ring
  have e1 : planeFields l d z (a * W + a' * W') (b * W + b' * W') = fieldsOf l
      ((electricModes l * (propagator l z * a - propagator l (d - z) * b)) * W + (electricModes l * (propagator l z * a' - propagator l (d - z) * b')) * W')
      ((l.eigenvectors * (propagator l z * a + propagator l (d - z) * b)) * W + (l.eigenvectors * (propagator l z * a' + propagator l (d - z) * b')) * W') := by
    unfold planeFields
    congr 1
    · simp only [Matrix.mul_add, Matrix.mul_sub, Matrix.sub_mul, Matrix.mul_assoc]
      abel
    · simp only [Matrix.mul_add, Matrix.add_mul, Matrix.mul_assoc]
      abel
  rw [e1, fieldsOf_combine]
  unfold combineFields Fields.map planeFields
  simp only [key]

/-- The fields of a layer at all planes and points. -/
noncomputable def spaceFields {γ : Type} (l : LayerSolveResult ι) (d : ℝ) (znum : ℕ) (a b : Matrix (ι ⊕ ι) (Fin N) ℂ) (xy : γ → ℝ × ℝ) : Fields (γ → Fin znum → Fin N → ℂ) :=
  let F := fun k => planeFields l d (linspace d znum k) a b
  { ex := fun p k j => planeWaveSum l (fun i => (F k).ex i j) (xy p), ey := fun p k j => planeWaveSum l (fun i => (F k).ey i j) (xy p),
    ez := fun p k j => planeWaveSum l (fun i => (F k).ez i j) (xy p), hx := fun p k j => planeWaveSum l (fun i => (F k).hx i j) (xy p),
    hy := fun p k j => planeWaveSum l (fun i => (F k).hy i j) (xy p), hz := fun p k j => planeWaveSum l (fun i => (F k).hz i j) (xy p) }

theorem layerFields3d_combine {γ : Type} {a b : Matrix (ι ⊕ ι) (Fin N) ℂ} {a' b' : Matrix (ι ⊕ ι) (Fin N') ℂ} {l : LayerSolveResult ι} {d : ℝ} {znum : ℕ} {xy : γ → ℝ × ℝ}
    {R R'} (h : layerFields3d a b l d znum (coordinateSlice xy) = .ok R) (h' : layerFields3d a' b' l d znum (coordinateSlice xy) = .ok R') :
    R.2 = R'.2 ∧ ∃ G, layerFields3d (a * W + a' * W') (b * W + b' * W') l d znum (coordinateSlice xy) = .ok (G, R.2) ∧
      ∀ k : Fin znum, (G.map fun x p j => x p k j) = combineFields W W' (R.1.map fun x p j => x p k j) (R'.1.map fun x p j => x p k j) := by
  obtain ⟨h1, h2, h3⟩ := layerFields3d_planes.1 h
  obtain ⟨-, h2', h3'⟩ := layerFields3d_planes.1 h'
  refine ⟨h2.trans h2'.symm, spaceFields l d znum (a * W + a' * W') (b * W + b' * W') xy, layerFields3d_planes.2 ⟨h1, h2, fun k => rfl⟩, fun k => ?_⟩
  rw [h3, h3', ← planeFields_combine]
  rfl

theorem zipWith_ofFn {A B C : Type} (f : A → B → C) {n : ℕ} (x : Fin n → A) (y : Fin n → B) :
    List.zipWith f (List.ofFn x) (List.ofFn y) = List.ofFn fun i => f (x i) (y i) := by
  apply List.ext_getElem <;> simp

theorem stackFieldsLoop_combine {γ : Type} {xy : γ → ℝ × ℝ} {W : Matrix (Fin N) (Fin M) ℂ} {W' : Matrix (Fin N') (Fin M) ℂ} :
    ∀ (amps : List (Matrix (ι ⊕ ι) (Fin N) ℂ × Matrix (ι ⊕ ι) (Fin N) ℂ)) (amps' : List (Matrix (ι ⊕ ι) (Fin N') ℂ × Matrix (ι ⊕ ι) (Fin N') ℂ)) (ls : List (LayerSolveResult ι))
      (ds : List ℝ) (znum : List ℕ) (z0 : ℝ) (xy0 : Option (γ → ℝ × ℝ)) (R R'), amps.length = amps'.length →
      stackFieldsLoop (coordinateSlice xy) z0 xy0 (zipRequests amps ls ds znum) = .ok R →
      stackFieldsLoop (coordinateSlice xy) z0 xy0 (zipRequests amps' ls ds znum) = .ok R' →
      R.2 = R'.2 ∧ R.1.length = R'.1.length ∧ stackFieldsLoop (coordinateSlice xy) z0 xy0
        (zipRequests (List.zipWith (fun x x' => (x.1 * W + x'.1 * W', x.2 * W + x'.2 * W')) amps amps') ls ds znum) =
          .ok (List.zipWith (combineFields W W') R.1 R'.1, R.2) := by
  intro amps
  induction amps with
  | nil =>
    intro amps' ls ds znum z0 xy0 R R' hlen h h'
    rw [List.length_nil, eq_comm, List.length_eq_zero_iff] at hlen
    subst hlen
    simp only [zipRequests, stackFieldsLoop, ok_inj] at h h'
    subst h h'
    exact ⟨rfl, rfl, rfl⟩
  | cons x amps ih =>
    intro amps' ls ds znum z0 xy0 R R' hlen h h'
    obtain _ | ⟨x', amps'⟩ := amps'
    · simp at hlen
    rcases ls with _ | ⟨l, ls⟩ <;> rcases ds with _ | ⟨d, ds⟩ <;> rcases znum with _ | ⟨z, znum⟩
    all_goals try (simp only [zipRequests, stackFieldsLoop, ok_inj] at h h'; subst h h'; exact ⟨rfl, rfl, rfl⟩)
    simp only [zipRequests, stackFieldsLoop, bind_eq_ok, ok_inj] at h h'
    obtain ⟨⟨g, r⟩, h1, ⟨gs, zs, xy1⟩, h2, rfl⟩ := h
    obtain ⟨⟨g', r'⟩, h1', ⟨gs', zs', xy1'⟩, h2', rfl⟩ := h'
    obtain ⟨e1, G, k1, k2⟩ := layerFields3d_combine (W := W) (W' := W') h1 h1'
    simp only at e1
    subst e1
    obtain ⟨e2, e3, k3⟩ := ih _ _ _ _ _ _ _ _ (by simpa using hlen) h2 h2'
    simp only [Prod.mk.injEq] at e2
    obtain ⟨rfl, rfl⟩ := e2
    refine ⟨rfl, by simpa using e3, ?_⟩
    simp only [List.zipWith_cons_cons, zipRequests, stackFieldsLoop, bind_eq_ok, ok_inj]
    refine ⟨_, k1, _, k3, ?_⟩
    simp only [k2]
    rw [List.zipWith_append (by simp), zipWith_ofFn]

variable {eig : Matrix (ι ⊕ ι) (ι ⊕ ι) ℂ → (ι ⊕ ι → ℂ) × Matrix (ι ⊕ ι) (ι ⊕ ι) ℂ} {c : Setup ι} {before after : List (StackLayer ι)} {γ : Type}

theorem forall₂_unique {A B : Type} {f : A → Res B} {as : List A} {bs bs' : List B} (h : List.Forall₂ (fun a b => f a = .ok b) as bs)
    (h' : List.Forall₂ (fun a b => f a = .ok b) as bs') : bs = bs' := by
  induction h generalizing bs' with
  | nil => cases h'; rfl
  | cons h1 _ ih =>
    obtain _ | ⟨k1, k2⟩ := h'
    rw [h1, ok_inj] at k1
    rw [k1, ih k2]

/-- **C99** The fields of sources are linear in the currents: if the fields of two arrays of sources between the same layers are calculated, in the same planes and at the
same points, then the fields of any combinations of sources of both arrays are calculated too, and they are the combinations of the fields. -/
theorem C99_sources {jx jy jz : Matrix ι (Fin N) ℂ} {jx' jy' jz' : Matrix ι (Fin N') ℂ} {znum : List ℕ} {xy : γ → ℝ × ℝ} {gs gs' zs zs'}
    (h : ComputedEmission eig c before after jx jy jz znum xy gs zs) (h' : ComputedEmission eig c before after jx' jy' jz' znum xy gs' zs')
    (W : Matrix (Fin N) (Fin M) ℂ) (W' : Matrix (Fin N') (Fin M) ℂ) :
    zs = zs' ∧ gs.length = gs'.length ∧
      ComputedEmission eig c before after (jx * W + jx' * W') (jy * W + jy' * W') (jz * W + jz' * W') znum xy (List.zipWith (combineFields W W') gs gs') zs := by
  obtain ⟨lb, la, sb, sa, ib, ia, source, amps, e1, e2, e3, e4, e5, e6, e7, e8, e9⟩ := h
  obtain ⟨lb', la', sb', sa', ib', ia', source', amps', e1', e2', e3', e4', e5', e6', e7', e8', e9'⟩ := h'
  obtain rfl := forall₂_unique e1 e1'
  obtain rfl := forall₂_unique e2 e2'
  obtain rfl := ok_inj.1 (e3.symm.trans e3')
  obtain rfl := ok_inj.1 (e4.symm.trans e4')
  obtain rfl := ok_inj.1 (e5.symm.trans e5')
  obtain rfl := ok_inj.1 (e6.symm.trans e6')
  simp only [stackAmplitudesInteriorWithSource, bind_eq_ok, ok_inj] at e8 e8'
  obtain ⟨x, hx, y, hy, rfl⟩ := e8
  obtain ⟨x', hx', y', hy', rfl⟩ := e8'
  obtain ⟨l1, k1⟩ := C99_incident_waves hx hx' W W'
  obtain ⟨l2, k2⟩ := C99_incident_waves hy hy' W W'
  obtain ⟨a1, a2, a3, a4⟩ := stackFields3d_eq_ok.1 e9
  obtain ⟨a1', a2', a3', a4'⟩ := stackFields3d_eq_ok.1 e9'
  have hlen : (x ++ y).length = (x' ++ y').length := by simp [l1, l2]
  obtain ⟨q1, q2, q3⟩ := stackFieldsLoop_combine (W := W) (W' := W') _ _ _ _ _ _ _ _ _ hlen a4 a4'
  simp only [Prod.mk.injEq] at q1
  refine ⟨q1.1, q2, _, _, _, _, _, _, _, List.zipWith (fun x x' => (x.1 * W + x'.1 * W', x.2 * W + x'.2 * W')) (x ++ y) (x' ++ y'), e1, e2, e3, e4, e5, e6, amplitudesForSource_combine e7 e7', ?_, ?_⟩
  · simp only [stackAmplitudesInteriorWithSource, bind_eq_ok, ok_inj]
    refine ⟨_, by simpa using k1, _, by simpa using k2, ?_⟩
    rw [List.zipWith_append l1]
  · exact stackFields3d_eq_ok.2 ⟨by simpa [l1, l2] using a1, by simpa [l1, l2] using a2, by simpa [l1, l2] using a3, q3⟩

/-- C99: dipoles along `x` and `z` between absorbing media are combined to tilted dipoles. -/
example (jx jz : Matrix (Fin 2) (Fin 1) ℂ) : ∃ (eig : Matrix (Fin 2 ⊕ Fin 2) (Fin 2 ⊕ Fin 2) ℂ → _) (c : Setup (Fin 2)) (before after : List (StackLayer (Fin 2))) (gs gs' : List (Fields (ℝ × ℝ → Fin 1 → ℂ))) (zs : List ℝ),
    ComputedEmission eig c before after jx 0 0 [2, 3] id gs zs ∧ ComputedEmission eig c before after 0 0 jz [2, 3] id gs' zs ∧
    ComputedEmission eig c before after (jx * !![(1 : ℂ), 2]) 0 (jz * !![(1 : ℂ), -2]) [2, 3] id (List.zipWith (combineFields !![1, 2] !![1, -2]) gs gs') zs := by
  have hl : (0 : ℝ) < 2 * Real.pi := by have := Real.pi_pos; positivity
  obtain ⟨eig, he⟩ := exists_isEig (Fin 2 ⊕ Fin 2)
  have h := fun jx jy jz : Matrix (Fin 2) (Fin 1) ℂ => C97_uniform_layers (eig := eig)
    (c := { wavelength := 2 * Real.pi, inPlaneWavevector := (0, 0), lattice := unitLattice, expansion := ![(0, 0), (1, 0)] }) hl (by norm_num [Independent, unitLattice])
    (before := [(2 + Complex.I, 1)]) (after := [(3 + Complex.I, 2)]) (by simp) (by simp) (by simp) jx jy jz (znum := [2, 3]) rfl (id : ℝ × ℝ → ℝ × ℝ)
  obtain ⟨gs, zs, h1⟩ := h jx 0 0
  obtain ⟨gs', zs', h2⟩ := h 0 0 jz
  obtain ⟨rfl, -, h3⟩ := C99_sources h1 h2 !![1, 2] !![1, -2]
  simp only [Matrix.zero_mul, add_zero, zero_add] at h3
  exact ⟨eig, _, _, _, gs, gs', zs, h1, h2, h3⟩

/-- C99: incident waves from both sides of a slab. -/
example : ∃ (ps : List (ScatteringMatrix (Fin 2) × ScatteringMatrix (Fin 2))), ps.length = 3 ∧ ∀ (a0 bN : Matrix (Fin 2 ⊕ Fin 2) (Fin 4) ℂ),
    ∃ xs, stackAmplitudesInterior a0 bN ps = .ok xs := by
  obtain ⟨u, v, h1, h2, h3, h4⟩ := EmissionExample.halfSpaces
  obtain ⟨S, ps, -, k2, k3, -⟩ := C81_absorbing_stack (layers := [u, v, u]) (ds := [0, 1, 0]) (lam := 2 * Real.pi) (by simp) rfl (by simp [h3, h4]) (by simp [h1, h2]) (by simp)
  refine ⟨ps, by simpa using k3, fun a0 bN => ?_⟩
  have hr : Regular (2 * Real.pi) ([u, v, u].zip [0, 1, 0]) := by
    intro p hp
    simp only [List.zip_cons_cons, List.zip_nil_left, List.mem_cons, List.not_mem_nil, or_false] at hp
    rcases hp with rfl | rfl | rfl
    · exact ⟨h3, h1.modes.2⟩
    · exact ⟨h4, h2.modes.2⟩
    · exact ⟨h3, h1.modes.2⟩
  obtain ⟨st, _, _, -, -, -, -, -, -, hx⟩ := C40_interior_amplitudes hr k2 a0 bN
  exact ⟨_, hx⟩

end Fmmax
