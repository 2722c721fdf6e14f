import Verif.Model.Pytree
import Verif.Proofs.Basic
import Mathlib.Tactic.LinearCombination
import Mathlib.Data.Int.ModEq

/-! Property theorem C71: hashing and flattening. -/

namespace Fmmax

/-- An array of integer dtype: every element is an integer, and there are as many as the shape says. -/
def IsIntArray (a : NpArray) : Prop :=
  (∃ n, a.dtype = .int n) ∧ (∀ x ∈ a.data, ∃ z, x = .int z) ∧ a.data.length = a.shape.prod

theorem data_eq_of_eq {a b : NpArray} (ha : IsIntArray a) (hb : IsIntArray b) (h : hashableArrayEq a b = true) :
    a.shape = b.shape ∧ a.dtype = b.dtype ∧ a.data = b.data := by
  unfold hashableArrayEq at h
  rw [Bool.and_eq_true, Bool.and_eq_true] at h
  obtain ⟨h1, h2, h3⟩ := h
  have e1 : a.shape = b.shape := by simpa using h1
  have e2 : a.dtype = b.dtype := by simpa using h2
  refine ⟨e1, e2, ?_⟩
  have hl : a.data.length = b.data.length := by rw [ha.2.2, hb.2.2, e1]
  refine List.ext_getElem hl fun i hi hi' => ?_
  rw [List.all_eq_true] at h3
  have h4 := h3 (a.data[i], b.data[i]) (by
    rw [List.mem_iff_getElem]
    exact ⟨i, by simp; omega, by simp⟩)
  obtain ⟨x, hx⟩ := ha.2.1 a.data[i] (List.getElem_mem _)
  obtain ⟨y, hy⟩ := hb.2.1 b.data[i] (List.getElem_mem _)
  rw [hx, hy] at h4 ⊢
  simpa [Scalar.eq] using h4

/-- C71: integer arrays that compare equal have equal hashes, whatever the hash function on tuples. -/
theorem C71_hash {H : Type} (hash : List ℕ × DType × List ℕ → H) {a b : NpArray} (ha : IsIntArray a) (hb : IsIntArray b)
    (h : hashableArrayEq a b = true) : hashableArrayHash hash a = hashableArrayHash hash b := by
  obtain ⟨h1, h2, h3⟩ := data_eq_of_eq ha hb h
  unfold hashableArrayHash NpArray.tobytes
  rw [h1, h2, h3]

theorem hashableArrayEq_refl {a : NpArray} (ha : IsIntArray a) : hashableArrayEq a a = true := by
  unfold hashableArrayEq
  rw [Bool.and_eq_true, Bool.and_eq_true]
  refine ⟨beq_self_eq_true _, beq_self_eq_true _, ?_⟩
  rw [List.all_eq_true]
  intro p hp
  obtain ⟨i, hi, rfl⟩ := List.mem_iff_getElem.1 hp
  have hi' : i < a.data.length := by simpa using hi
  obtain ⟨x, hx⟩ := ha.2.1 a.data[i] (List.getElem_mem hi')
  simp [hx, Scalar.eq]

/-- C71: on integer arrays equality is an equivalence relation; it is equality of shape, dtype and elements. -/
theorem C71_equivalence {a b c : NpArray} (ha : IsIntArray a) (hb : IsIntArray b) :
    hashableArrayEq a a = true ∧ (hashableArrayEq a b = true → hashableArrayEq b a = true) ∧
    (hashableArrayEq a b = true → hashableArrayEq b c = true → hashableArrayEq a c = true) ∧
    (hashableArrayEq a b = true ↔ a = b) := by
  have key : ∀ {a b : NpArray}, IsIntArray a → IsIntArray b → hashableArrayEq a b = true → a = b := by
    intro a b ha hb h
    obtain ⟨h1, h2, h3⟩ := data_eq_of_eq ha hb h
    cases a; cases b
    simp_all
  refine ⟨hashableArrayEq_refl ha, fun h => ?_, fun h g => ?_, fun h => key ha hb h, ?_⟩
  · rw [key ha hb h]; exact hashableArrayEq_refl hb
  · rw [key ha hb h]; exact g
  · rintro rfl; exact hashableArrayEq_refl ha

/-- The elements of an integer array fit in the number of bytes of the dtype, as signed integers. -/
def FitsDType (a : NpArray) : Prop :=
  ∀ n, a.dtype = .int n → ∀ z : ℤ, Scalar.int z ∈ a.data → -(256 ^ n) ≤ 2 * z ∧ 2 * z < 256 ^ n

theorem emod_pow_eq_of_digits {z w : ℤ} (n : ℕ) (h : ∀ i < n, (z / 256 ^ i) % 256 = (w / 256 ^ i) % 256) :
    z % 256 ^ n = w % 256 ^ n := by
  induction n with
  | zero => simp
  | succ n ih =>
    have e : ∀ x : ℤ, x % 256 ^ (n + 1) = 256 ^ n * ((x / 256 ^ n) % 256) + x % 256 ^ n := by
      intro x
      have h1 := Int.emod_add_mul_ediv x (256 ^ n)
      have h2 := Int.emod_add_mul_ediv (x / 256 ^ n) 256
      have h3 : x / 256 ^ n / 256 = x / 256 ^ (n + 1) := by
        rw [Int.ediv_ediv_of_nonneg (by positivity), pow_succ]
      have h4 := Int.emod_add_mul_ediv x (256 ^ (n + 1))
      rw [← h3] at h4
      rw [pow_succ] at h4 ⊢
      linear_combination h4 - h1 - (256 ^ n) * h2
    rw [e, e, ih fun i hi => h i (by omega), h n (by omega)]

theorem scalar_bytes_injective {n : ℕ} {z w : ℤ} (hz : -(256 ^ n) ≤ 2 * z ∧ 2 * z < 256 ^ n) (hw : -(256 ^ n) ≤ 2 * w ∧ 2 * w < 256 ^ n)
    (h : Scalar.bytes (.int n) (.int z) = Scalar.bytes (.int n) (.int w)) : z = w := by
  have hd : ∀ i < n, (z / 256 ^ i) % 256 = (w / 256 ^ i) % 256 := by
    intro i hi
    have h1 := List.map_inj_left.1 h i (List.mem_range.2 hi)
    have := Int.emod_nonneg (z / 256 ^ i) (by norm_num : (256 : ℤ) ≠ 0)
    have := Int.emod_nonneg (w / 256 ^ i) (by norm_num : (256 : ℤ) ≠ 0)
    omega
  have hm := emod_pow_eq_of_digits n hd
  have hdvd : (256 : ℤ) ^ n ∣ z - w := Int.ModEq.dvd (Int.ModEq.symm hm)
  have hab : |z - w| < 256 ^ n := by
    rw [abs_lt]; constructor <;> linarith [hz.1, hz.2, hw.1, hw.2]
  have := Int.eq_zero_of_abs_lt_dvd hdvd hab
  linarith

theorem flatMap_bytes_injective {n : ℕ} : ∀ {l m : List Scalar}, l.length = m.length →
    (∀ x ∈ l, ∃ z : ℤ, x = .int z ∧ -(256 ^ n) ≤ 2 * z ∧ 2 * z < 256 ^ n) →
    (∀ x ∈ m, ∃ z : ℤ, x = .int z ∧ -(256 ^ n) ≤ 2 * z ∧ 2 * z < 256 ^ n) →
    l.flatMap (Scalar.bytes (.int n)) = m.flatMap (Scalar.bytes (.int n)) → l = m := by
  intro l
  induction l with
  | nil => intro m hl _ _ _; exact (List.length_eq_zero_iff.1 hl.symm).symm
  | cons x l ih =>
    intro m hl h1 h2 h
    cases m with
    | nil => simp at hl
    | cons y m =>
      obtain ⟨z, rfl, hz⟩ := h1 x (by simp)
      obtain ⟨w, rfl, hw⟩ := h2 y (by simp)
      rw [List.flatMap_cons, List.flatMap_cons] at h
      obtain ⟨h3, h4⟩ := List.append_inj h (by simp [Scalar.bytes])
      rw [scalar_bytes_injective hz hw h3, ih (by simpa using hl) (fun x hx => h1 x (by simp [hx])) (fun x hx => h2 x (by simp [hx])) h4]

/-- C71: the tuple that is hashed determines an integer array. Arrays have the same tuple exactly if they compare equal, so that different
expansions get the same hash only by a collision of the hash function on tuples. -/
theorem C71_hash_key {a b : NpArray} (ha : IsIntArray a) (hb : IsIntArray b) (ha' : FitsDType a) (hb' : FitsDType b) :
    (hashableArrayHash id a = hashableArrayHash id b ↔ hashableArrayEq a b = true) ∧
    (a ≠ b → ∀ {H : Type} (hash : List ℕ × DType × List ℕ → H), Function.Injective hash →
      hashableArrayHash hash a ≠ hashableArrayHash hash b) := by
  have key : hashableArrayHash id a = hashableArrayHash id b → a = b := by
    intro h
    unfold hashableArrayHash NpArray.tobytes at h
    simp only [id, Prod.mk.injEq] at h
    obtain ⟨h1, h2, h3⟩ := h
    obtain ⟨⟨n, hn⟩, ha1, ha2⟩ := ha
    obtain ⟨-, hb1, hb2⟩ := hb
    have hn' : b.dtype = .int n := by rw [← h2, hn]
    rw [hn, hn'] at h3
    have h4 : a.data = b.data := by
      refine flatMap_bytes_injective (n := n) (by rw [ha2, hb2, h1]) (fun x hx => ?_) (fun x hx => ?_) h3
      · obtain ⟨z, rfl⟩ := ha1 x hx
        exact ⟨z, rfl, ha' n hn z hx⟩
      · obtain ⟨z, rfl⟩ := hb1 x hx
        exact ⟨z, rfl, hb' n hn' z hx⟩
    cases a; cases b
    simp_all
  refine ⟨⟨fun h => ?_, fun h => C71_hash id ha hb h⟩, fun hne H hash hinj h => hne (key (hinj h))⟩
  rw [key h]
  exact hashableArrayEq_refl hb

example : ∃ a b : NpArray, IsIntArray a ∧ IsIntArray b ∧ FitsDType a ∧ FitsDType b ∧ a ≠ b := by
  refine ⟨⟨[1, 2], .int 1, [.int 127, .int (-128)]⟩, ⟨[1, 2], .int 1, [.int 0, .int (-1)]⟩, ⟨⟨1, rfl⟩, by simp, by simp⟩,
    ⟨⟨1, rfl⟩, by simp, by simp⟩, ?_, ?_, by simp⟩
  · rintro n hn z hz
    obtain rfl : 1 = n := by simpa using hn
    simp at hz
    omega
  · rintro n hn z hz
    obtain rfl : 1 = n := by simpa using hn
    simp at hz
    omega

/-- C71, side finding: for floating point coefficients arrays comparing equal may have different hashes (`0.0` and `-0.0`), and an
array with NaN does not equal itself. -/
theorem C71_finding_float :
    (∃ a b : NpArray, hashableArrayEq a b = true ∧ hashableArrayHash id a ≠ hashableArrayHash id b) ∧
    ∃ a : NpArray, hashableArrayEq a a = false := by
  refine ⟨⟨⟨[1], .float64, [.float 0#64]⟩, ⟨[1], .float64, [.float (BitVec.ofNat 64 (2 ^ 63))]⟩, by decide, ?_⟩,
    ⟨[1], .float64, [.float (BitVec.allOnes 64)]⟩, by decide⟩
  decide

theorem lookup_zip_map {Value : Type} (x : Instance Value) (l : List String) {name : String} (h : name ∈ l) (unset : Value) :
    ((l.zip (l.map x)).lookup name).getD unset = x name := by
  induction l with
  | nil => simp at h
  | cons a l ih =>
    simp only [List.map_cons, List.zip_cons_cons, List.lookup_cons]
    by_cases hn : name = a
    · subst hn; simp
    · rw [show (name == a) = false by simpa using hn]
      exact ih (by simpa [hn] using h)

theorem roundTrip_of_eq {Value : Type} {r : Registration} (h : r.flattened = r.fields) (x : Instance Value) (unset : Value) :
    ∃ y, r.roundTrip x unset = .ok y ∧ ∀ name ∈ r.fields, y name = x name := by
  unfold Registration.roundTrip construct Registration.flatten
  rw [h, if_neg (by simp)]
  exact ⟨_, rfl, fun name hn => lookup_zip_map x _ hn unset⟩

/-- C71: flattening and unflattening an instance of a registered class gives back all attributes. -/
theorem C71_round_trip {Value : Type} (x : Instance Value) (unset : Value) :
    ∀ r ∈ [latticeVectorsRegistration, expansionRegistration, pmlParamsRegistration, layerSolveResultRegistration,
      scatteringMatrixRegistration],
    ∃ y, r.roundTrip x unset = .ok y ∧ ∀ name ∈ r.fields, y name = x name := by
  intro r hr
  refine roundTrip_of_eq ?_ x unset
  simp only [List.mem_cons, List.not_mem_nil, or_false] at hr
  rcases hr with rfl | rfl | rfl | rfl | rfl <;> rfl

/-- C71: the members of the enumerations are recovered from their values, and other values are rejected. -/
theorem C71_enum : ∀ e ∈ [truncationEnum, formulationEnum],
    (∀ m ∈ e.members, e.ofValue m.2 = .ok m.1) ∧
    ∀ value, (∀ m ∈ e.members, m.2 ≠ value) → e.ofValue value = .error .valueError := by
  intro e he
  constructor
  · simp only [List.mem_cons, List.not_mem_nil, or_false] at he
    rcases he with rfl | rfl <;> decide
  · intro value h
    unfold PyEnum.ofValue
    have : e.members.find? (fun m => m.2 == value) = none := by
      rw [List.find?_eq_none]
      intro m hm
      simpa using h m hm
    rw [this]

example : ∃ a b : NpArray, IsIntArray a ∧ IsIntArray b ∧ a.shape = [2, 2] ∧ hashableArrayEq a b = false := by
  refine ⟨⟨[2, 2], .int 8, [.int 0, .int 0, .int 1, .int (-1)]⟩, ⟨[2, 2], .int 8, [.int 0, .int 0, .int 1, .int 1]⟩, ?_, ?_, rfl, by decide⟩
  · exact ⟨⟨8, rfl⟩, by simp, by simp⟩
  · exact ⟨⟨8, rfl⟩, by simp, by simp⟩

end Fmmax
