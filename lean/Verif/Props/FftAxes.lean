import Verif.Model.FftAxes
import Verif.Props.Fourier
import Verif.Props.Shapes

/-! Property theorems C90: `fft` and `ifft` along chosen axes of arrays with batch dimensions.

`Resolves` is from `Verif/Spec/Fourier.lean`; `fft`, `ifft` (of one array) are the functions of C15 – C19. -/

namespace Fmmax

open Spec Matrix

variable {n : ℕ}

/-- The array with two axes that remains of `x` when the axes before and after them are fixed at `i` and `j`. -/
def plane (x : NDArray ℂ) (nx ny : ℕ) (i j : List ℕ) : Matrix (Fin nx) (Fin ny) ℂ :=
  Matrix.of fun r q => x.get (i ++ (r : ℕ) :: (q : ℕ) :: j)

/-- The vector that remains of `y` when the axes before and after one axis are fixed at `i` and `j`. -/
def line (y : NDArray ℂ) (n : ℕ) (i j : List ℕ) : Fin n → ℂ := fun k => y.get (i ++ (k : ℕ) :: j)

/-- `d` names axis `a` of an array with `ndim` axes, counted from the start or (negative) from the end. -/
def NamesAxis (d : ℤ) (a ndim : ℕ) : Prop := d = a ∨ d = (a : ℤ) - ndim

theorem namesAxis_abs {d : ℤ} {a ndim : ℕ} (h : NamesAxis d a ndim) (ha : a < ndim) :
    -(ndim : ℤ) ≤ d ∧ d < ndim ∧ (if d < 0 then d + (ndim : ℤ) else d) = a := by
  rcases h with rfl | rfl
  · refine ⟨by omega, by omega, ?_⟩
    rw [if_neg (by omega)]
  · refine ⟨by omega, by omega, ?_⟩
    rw [if_pos (by omega)]; ring

theorem absoluteAxes_two {d e : ℤ} {a b ndim : ℕ} (hd : NamesAxis d a ndim) (he : NamesAxis e b ndim) (ha : a < ndim)
    (hb : b < ndim) (hab : a ≠ b) : absoluteAxes [d, e] ndim = .ok [(a : ℤ), (b : ℤ)] := by
  obtain ⟨h1, h2, h3⟩ := namesAxis_abs hd ha
  obtain ⟨h4, h5, h6⟩ := namesAxis_abs he hb
  refine (C68_absolute_axes _ _ _).2 ⟨?_, ?_, ?_⟩
  · intro x hx
    simp only [List.mem_cons, List.not_mem_nil, or_false] at hx
    rcases hx with rfl | rfl
    · exact ⟨h1, h2⟩
    · exact ⟨h4, h5⟩
  · simp [h3, h6]
  · simpa using hab

theorem absoluteAxes_single {d : ℤ} {a ndim : ℕ} (hd : NamesAxis d a ndim) (ha : a < ndim) :
    absoluteAxes [d] ndim = .ok [(a : ℤ)] := by
  obtain ⟨h1, h2, h3⟩ := namesAxis_abs hd ha
  refine (C68_absolute_axes _ _ _).2 ⟨?_, ?_, by simp⟩
  · intro x hx
    simp only [List.mem_cons, List.not_mem_nil, or_false] at hx
    subst hx
    exact ⟨h1, h2⟩
  · simp [h3]

theorem getD_first (s t : List ℕ) (a b : ℕ) : (s ++ a :: b :: t).getD s.length 0 = a := by simp [List.getD]

theorem getD_second (s t : List ℕ) (a b : ℕ) : (s ++ a :: b :: t).getD (s.length + 1) 0 = b := by
  simp [List.getD]

theorem set_pair (i j : List ℕ) (a b p q : ℕ) :
    ((i ++ a :: b :: j).set i.length p).set (i.length + 1) q = i ++ p :: q :: j := by
  simp [List.set_append]

theorem fft2Forward_plane {x : NDArray ℂ} {s t : List ℕ} {nx ny : ℕ} (hx : x.shape = s ++ nx :: ny :: t) {i j : List ℕ}
    (hi : i.length = s.length) (p : Fin nx) (q : Fin ny) :
    (x.fft2Forward s.length (s.length + 1)).get (i ++ (p : ℕ) :: (q : ℕ) :: j) = fft2Forward (plane x nx ny i j) p q := by
  unfold NDArray.fft2Forward
  have e1 : x.shape.getD s.length 0 = nx := by rw [hx, getD_first]
  have e2 : x.shape.getD (s.length + 1) 0 = ny := by rw [hx, getD_second]
  simp only
  generalize x.shape.getD s.length 0 = m1 at e1 ⊢
  generalize x.shape.getD (s.length + 1) 0 = m2 at e2 ⊢
  subst e1 e2
  rw [← hi]
  simp only [getD_first, getD_second, set_pair]
  rfl

theorem ifft2Forward_plane {x : NDArray ℂ} {s t : List ℕ} {nx ny : ℕ} (hx : x.shape = s ++ nx :: ny :: t) {i j : List ℕ}
    (hi : i.length = s.length) (p : Fin nx) (q : Fin ny) :
    (x.ifft2Forward s.length (s.length + 1)).get (i ++ (p : ℕ) :: (q : ℕ) :: j) = ifft2Forward (plane x nx ny i j) p q := by
  unfold NDArray.ifft2Forward
  have e1 : x.shape.getD s.length 0 = nx := by rw [hx, getD_first]
  have e2 : x.shape.getD (s.length + 1) 0 = ny := by rw [hx, getD_second]
  simp only
  generalize x.shape.getD s.length 0 = m1 at e1 ⊢
  generalize x.shape.getD (s.length + 1) 0 = m2 at e2 ⊢
  subst e1 e2
  rw [← hi]
  simp only [getD_first, getD_second, set_pair]
  rfl

/-- **C90** `fft` along two adjacent axes, named in increasing sequence from the start or from the end, transforms every
plane of the array separately; the Fourier axis takes the place of the two axes. -/
theorem C90_fft_axes {x : NDArray ℂ} {s t : List ℕ} {nx ny : ℕ} (hx : x.shape = s ++ nx :: ny :: t) (G : Fin n → ℤ × ℤ)
    (h : Resolves nx ny G) {axes : ℤ × ℤ} (h1 : NamesAxis axes.1 s.length x.shape.length)
    (h2 : NamesAxis axes.2 (s.length + 1) x.shape.length) :
    ∃ y, fftAxes x G axes = .ok y ∧ y.shape = s ++ n :: t ∧
      ∀ i j : List ℕ, i.length = s.length → fft (plane x nx ny i j) G = .ok (line y n i j) := by
  have hlen : x.shape.length = s.length + (t.length + 2) := by rw [hx]; simp
  have e1 : x.shape.getD s.length 0 = nx := by rw [hx, getD_first]
  have e2 : x.shape.getD (s.length + 1) 0 = ny := by rw [hx, getD_second]
  obtain ⟨c, hc, hc'⟩ := allOk_exists (f := fun k => pyIndex2 nx ny (G k)) h.index
  have hg : ∃ y, (x.fft2Forward s.length (s.length + 1)).gatherPair s.length t.length G = .ok y ∧ y.shape = s ++ n :: t ∧
      ∀ i j : List ℕ, i.length = s.length → ∀ k : Fin n, y.get (i ++ (k : ℕ) :: j) =
        (x.fft2Forward s.length (s.length + 1)).get (i ++ ((c k).1 : ℕ) :: ((c k).2 : ℕ) :: j) := by
    unfold NDArray.gatherPair
    rw [if_neg (by simp only [NDArray.fft2Forward, hlen]; omega)]
    have es : (x.fft2Forward s.length (s.length + 1)).shape = x.shape := rfl
    rw [es]
    generalize x.shape.getD s.length 0 = m1 at e1 ⊢
    generalize x.shape.getD (s.length + 1) 0 = m2 at e2 ⊢
    subst e1 e2
    refine ⟨_, bind_eq_ok.2 ⟨c, hc, rfl⟩, ?_, ?_⟩
    · simp [hx]
    · intro i j hi k
      have ek : (i ++ (k : ℕ) :: j).getD s.length 0 = k := by rw [← hi]; simp [List.getD]
      have hk : (i ++ (k : ℕ) :: j).getD s.length 0 < n := by rw [ek]; exact k.2
      have ek' : (⟨(i ++ (k : ℕ) :: j).getD s.length 0, hk⟩ : Fin n) = k := Fin.ext ek
      simp only
      rw [dif_pos hk, ek', ← hi]
      simp
  obtain ⟨y, hy, hs, hv⟩ := hg
  refine ⟨y, ?_, hs, ?_⟩
  · unfold fftAxes
    refine bind_eq_ok.2 ⟨_, absoluteAxes_two h1 h2 (by omega) (by omega) (by omega), ?_⟩
    simp only [Int.toNat_natCast, e1]
    rw [e2]
    refine bind_eq_ok.2 ⟨(), (validateShape_ok_iff G).2 h, ?_⟩
    rw [show (x.shape.take s.length).length = s.length by simp [hx],
      show (x.shape.drop (s.length + 1 + 1)).length = t.length by simp [hx]; omega]
    exact hy
  · intro i j hi
    unfold fft
    refine bind_eq_ok.2 ⟨(), (validateShape_ok_iff G).2 h, bind_eq_ok.2 ⟨c, hc, ?_⟩⟩
    congr 1
    funext k
    rw [line, hv i j hi k, fft2Forward_plane hx hi]

/-- **C90** `ifft` along an axis, named from the start or from the end, transforms every vector along that axis separately;
two axes of the requested lengths take the place of the Fourier axis. -/
theorem C90_ifft_axis {y : NDArray ℂ} {s t : List ℕ} (hy : y.shape = s ++ n :: t) (G : Fin n → ℤ × ℤ)
    (hG : Function.Injective G) {shape : ℕ × ℕ} (h : Resolves shape.1 shape.2 G) {axis : ℤ}
    (h1 : NamesAxis axis s.length y.shape.length) :
    ∃ x, ifftAxis y G shape axis = .ok x ∧ x.shape = s ++ shape.1 :: shape.2 :: t ∧
      ∀ i j : List ℕ, i.length = s.length → ifft (line y n i j) G shape.1 shape.2 = .ok (plane x shape.1 shape.2 i j) := by
  have hlen : y.shape.length = s.length + (t.length + 1) := by rw [hy]; simp
  obtain ⟨c, hc, hc'⟩ := allOk_exists (f := fun k => pyIndex2 shape.1 shape.2 (G k)) h.index
  have hinj := h.cell_injective hG hc'
  have hs : ∃ x, y.scatterPair s.length shape G = .ok x ∧ x.shape = s ++ shape.1 :: shape.2 :: t ∧
      ∀ i j : List ℕ, i.length = s.length →
        scatter2 shape.1 shape.2 G (line y n i j) =
          .ok (plane x shape.1 shape.2 i j) := by
    unfold NDArray.scatterPair
    refine ⟨_, bind_eq_ok.2 ⟨c, hc, rfl⟩, ?_, ?_⟩
    · simp [hy]
    · intro i j hi
      unfold scatter2
      refine bind_eq_ok.2 ⟨c, hc, ?_⟩
      congr 1
      ext p q
      unfold plane
      simp only [Matrix.of_apply]
      rw [← hi, getD_first, getD_second]
      by_cases hk : ∃ k, c k = (p, q)
      · obtain ⟨k, hk'⟩ := id hk
        have hk2 : ∃ k, ((c k).1 : ℕ) = p ∧ ((c k).2 : ℕ) = q := ⟨k, by rw [hk'], by rw [hk']⟩
        rw [dif_pos hk, dif_pos hk2]
        have e : hk2.choose = hk.choose := by
          apply hinj
          rw [hk.choose_spec]
          exact Prod.ext (Fin.ext hk2.choose_spec.1) (Fin.ext hk2.choose_spec.2)
        rw [e, line]
        congr 1
        simp
      · have hk2 : ¬∃ k, ((c k).1 : ℕ) = p ∧ ((c k).2 : ℕ) = q := by
          rintro ⟨k, a1, a2⟩
          exact hk ⟨k, Prod.ext (Fin.ext a1) (Fin.ext a2)⟩
        rw [dif_neg hk, dif_neg hk2]
  obtain ⟨x, hx, hxs, hv⟩ := hs
  refine ⟨x.ifft2Forward s.length (s.length + 1), ?_, hxs, ?_⟩
  · unfold ifftAxis
    refine bind_eq_ok.2 ⟨_, absoluteAxes_single h1 (by omega), ?_⟩
    simp only [Int.toNat_natCast]
    rw [if_neg (by simp [hy, List.getD])]
    refine bind_eq_ok.2 ⟨(), (validateShape_ok_iff G).2 h, ?_⟩
    rw [show (y.shape.take s.length).length = s.length by simp [hy]]
    exact bind_eq_ok.2 ⟨x, hx, rfl⟩
  · intro i j hi
    unfold ifft
    refine bind_eq_ok.2 ⟨(), (validateShape_ok_iff G).2 h, bind_eq_ok.2 ⟨_, hv i j hi, ?_⟩⟩
    congr 1
    ext p q
    exact (ifft2Forward_plane hxs hi p q).symm

/-- **C90** Round trip: `ifft` along an axis followed by `fft` along the two new axes returns the array. -/
theorem C90_round_trip {y : NDArray ℂ} {s t : List ℕ} (hy : y.shape = s ++ n :: t) (G : Fin n → ℤ × ℤ)
    (hG : Function.Injective G) {shape : ℕ × ℕ} (h : Resolves shape.1 shape.2 G) {axis : ℤ} {axes : ℤ × ℤ}
    (h1 : NamesAxis axis s.length y.shape.length) (h2 : NamesAxis axes.1 s.length (y.shape.length + 1))
    (h3 : NamesAxis axes.2 (s.length + 1) (y.shape.length + 1)) :
    ∃ x z, ifftAxis y G shape axis = .ok x ∧ fftAxes x G axes = .ok z ∧ z.shape = y.shape ∧
      ∀ (i j : List ℕ) (k : Fin n), i.length = s.length → z.get (i ++ (k : ℕ) :: j) = y.get (i ++ (k : ℕ) :: j) := by
  obtain ⟨x, hx, hxs, hv⟩ := C90_ifft_axis hy G hG h h1
  have hlen : x.shape.length = y.shape.length + 1 := by rw [hxs, hy]; simp; omega
  obtain ⟨z, hz, hzs, hw⟩ := C90_fft_axes hxs G h (axes := axes) (by rwa [hlen]) (by rwa [hlen])
  refine ⟨x, z, hx, hz, by rw [hzs, hy], fun i j k hi => ?_⟩
  obtain ⟨x', hx', hf⟩ := C15_round_trip G hG h (line y n i j)
  have : x' = plane x shape.1 shape.2 i j := by
    have := hx'.symm.trans (hv i j hi)
    exact Except.ok.inj this
  subst this
  have := (hw i j hi).symm.trans hf
  exact congrFun (Except.ok.inj this) k

/-- **C90** Arrays whose planes do not resolve the expansion are rejected. -/
theorem C90_shape_rejected {x : NDArray ℂ} {a b : ℕ} (G : Fin n → ℤ × ℤ)
    (h : ¬Resolves (x.shape.getD a 0) (x.shape.getD b 0) G) {axes : ℤ × ℤ} (ha : a < x.shape.length)
    (hb : b < x.shape.length) (hab : a ≠ b) (h1 : NamesAxis axes.1 a x.shape.length)
    (h2 : NamesAxis axes.2 b x.shape.length) : fftAxes x G axes = .error .valueError := by
  unfold fftAxes
  rw [absoluteAxes_two h1 h2 ha hb hab]
  simp only [bind, Except.bind, Int.toNat_natCast]
  have := (C19_shape_validation G (Matrix.of fun (_ : Fin (x.shape.getD a 0)) (_ : Fin (x.shape.getD b 0)) => 0)
    (fun _ => 0)).1.2 h
  unfold fft at this
  cases hv : validateShapeForExpansion (x.shape.getD a 0, x.shape.getD b 0) G with
  | error e =>
    rw [hv] at this
    simpa [bind, Except.bind] using this
  | ok u => exact absurd ((validateShape_ok_iff G).1 hv) h

/-- **C90 (finding)** Axes named in decreasing sequence are not transformed: the number of indices exceeds the rank. -/
theorem C90_finding_reversed_axes {x : NDArray ℂ} {a b : ℕ} (G : Fin n → ℤ × ℤ)
    (h : Resolves (x.shape.getD a 0) (x.shape.getD b 0) G) {axes : ℤ × ℤ} (ha : a < x.shape.length) (hab : b < a)
    (h1 : NamesAxis axes.1 a x.shape.length) (h2 : NamesAxis axes.2 b x.shape.length) :
    fftAxes x G axes = .error .indexError := by
  unfold fftAxes
  rw [absoluteAxes_two h1 h2 ha (by omega) (by omega)]
  simp only [bind, Except.bind, Int.toNat_natCast]
  rw [(validateShape_ok_iff G).2 h]
  simp only
  unfold NDArray.gatherPair
  rw [if_pos]
  simp only [NDArray.fft2Forward, List.length_take, List.length_drop]
  omega

/-- **C90 (finding)** Axes that are not adjacent: the second of the two axes is transformed but remains in the result, where
the axis next to the first one, which is not transformed, is replaced by the Fourier axis.  (The hypothesis on its length `m`
is that it can be indexed with the orders; otherwise the model has an IndexError where jax clamps the index.) -/
theorem C90_finding_separated_axes {x : NDArray ℂ} {s u t : List ℕ} {nx m ny : ℕ}
    (hx : x.shape = s ++ nx :: m :: (u ++ ny :: t)) (G : Fin n → ℤ × ℤ) (h : Resolves nx ny G) (hm : Resolves nx m G)
    {axes : ℤ × ℤ} (h1 : NamesAxis axes.1 s.length x.shape.length)
    (h2 : NamesAxis axes.2 (s.length + 2 + u.length) x.shape.length) :
    ∃ y, fftAxes x G axes = .ok y ∧ y.shape = s ++ n :: (u ++ ny :: t) := by
  have hlen : x.shape.length = s.length + (u.length + t.length + 3) := by rw [hx]; simp; omega
  have e1 : x.shape.getD s.length 0 = nx := by rw [hx, getD_first]
  have e2 : x.shape.getD (s.length + 2 + u.length) 0 = ny := by
    rw [hx, List.getD, List.getElem?_append_right (by omega), show s.length + 2 + u.length - s.length = u.length + 2 by omega]
    simp
  have e3 : x.shape.getD (s.length + 1) 0 = m := by rw [hx, getD_second]
  obtain ⟨c, hc, -⟩ := allOk_exists (f := fun k => pyIndex2 nx m (G k)) hm.index
  unfold fftAxes
  rw [absoluteAxes_two h1 h2 (by omega) (by omega) (by omega)]
  simp only [bind, Except.bind, Int.toNat_natCast]
  rw [e1, e2, (validateShape_ok_iff G).2 h]
  simp only
  unfold NDArray.gatherPair
  have el : (x.shape.take s.length).length = s.length := by simp [hx]
  have et : (x.shape.drop (s.length + 2 + u.length + 1)).length = t.length := by
    rw [List.length_drop, hlen]; omega
  rw [el, et]
  have es : (x.fft2Forward s.length (s.length + 2 + u.length)).shape = x.shape := rfl
  rw [es, if_neg (by omega), e1, e3]
  refine ⟨_, bind_eq_ok.2 ⟨c, hc, rfl⟩, ?_⟩
  simp [hx]

/-! ### Examples -/

/-- An array with a batch axis before and one after the two axes that are transformed. -/
def batchOfPlanes : NDArray ℂ := { shape := [2, 3, 5, 4], get := fun idx => (ravelIndex [2, 3, 5, 4] idx : ℂ) }

example : ∃ y, fftAxes batchOfPlanes exampleExpansion (-3, -2) = .ok y ∧ y.shape = [2, 4, 4] ∧
    ∀ i j : List ℕ, i.length = 1 → fft (plane batchOfPlanes 3 5 i j) exampleExpansion = .ok (line y 4 i j) :=
  C90_fft_axes (s := [2]) (t := [4]) rfl exampleExpansion exampleExpansion_resolved (Or.inr rfl) (Or.inr rfl)

example : ∃ x z, ifftAxis { shape := [4, 2], get := fun idx => (ravelIndex [4, 2] idx : ℂ) } exampleExpansion (3, 5) (-2) = .ok x ∧
    fftAxes x exampleExpansion (0, 1) = .ok z ∧ z.shape = [4, 2] ∧
    ∀ (i j : List ℕ) (k : Fin 4), i.length = 0 → z.get (i ++ (k : ℕ) :: j) = (ravelIndex [4, 2] (i ++ (k : ℕ) :: j) : ℂ) :=
  C90_round_trip (s := []) (t := [2]) rfl exampleExpansion exampleExpansion_injective (shape := (3, 5))
    exampleExpansion_resolved (Or.inr rfl) (Or.inl rfl) (Or.inl rfl)

example : fftAxes batchOfPlanes (fun _ : Fin 1 => (1, 1)) (2, 1) = .error .indexError :=
  C90_finding_reversed_axes (a := 2) (b := 1) _ ⟨⟨0⟩, fun _ => by simp [batchOfPlanes]⟩ (by simp [batchOfPlanes]) (by norm_num)
    (Or.inl rfl) (Or.inl rfl)

example : ∃ y, fftAxes batchOfPlanes (fun _ : Fin 1 => (1, 1)) (1, 3) = .ok y ∧ y.shape = [2, 1, 4] :=
  C90_finding_separated_axes (s := [2]) (u := []) (t := []) (nx := 3) (m := 5) (ny := 4) rfl _ ⟨⟨0⟩, fun _ => by simp⟩
    ⟨⟨0⟩, fun _ => by simp⟩ (Or.inl rfl) (Or.inl rfl)

end Fmmax
