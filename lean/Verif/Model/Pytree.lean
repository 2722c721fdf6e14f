import Verif.Model.Basic
import Mathlib.Data.BitVec

/-!
Registration of the classes with jax: flattening, unflattening, and the hashable wrapper of numpy arrays.
-/

namespace Fmmax

/-- The dtypes needed to state the behaviour of `_HashableArray`: signed integers of a number of bytes, and double precision. -/
inductive DType
  | int (bytes : ℕ)
  | float64
  deriving DecidableEq

/-- An element of a numpy array: an integer, or the bits of a double. -/
inductive Scalar
  | int (z : ℤ)
  | float (bits : BitVec 64)
  deriving DecidableEq

/-- A double is NaN: the exponent bits are ones and the mantissa is not zero. -/
def isNan (b : BitVec 64) : Bool := (b.extractLsb 62 52 == BitVec.allOnes 11) && !(b.extractLsb 51 0 == 0#52)

/-- A double is `0.0` or `-0.0`. -/
def isZero (b : BitVec 64) : Bool := b.extractLsb 62 0 == 0#63

/-- `x == y` for array elements: by value, so `0.0 == -0.0`, and NaN differs from itself. -/
def Scalar.eq : Scalar → Scalar → Bool
  | .int a, .int b => a == b
  | .float a, .float b => !isNan a && !isNan b && (a == b || (isZero a && isZero b))
  | _, _ => false

/-- The bytes of an element in memory: little endian, two's complement. -/
def Scalar.bytes : DType → Scalar → List ℕ
  | .int n, .int z => (List.range n).map fun i => ((z / 256 ^ i) % 256).toNat
  | .float64, .float b => (List.range 8).map fun i => b.toNat / 256 ^ i % 256
  | _, _ => []

/-- A numpy array in C order. -/
structure NpArray where
  shape : List ℕ
  dtype : DType
  data : List Scalar

/-- `arr.tobytes()`. -/
def NpArray.tobytes (a : NpArray) : List ℕ := a.data.flatMap (Scalar.bytes a.dtype)

/-- basis.py 439-440 `_HashableArray.__hash__`, for the given hash function on tuples. -/
def hashableArrayHash {H : Type} (hash : List ℕ × DType × List ℕ → H) (a : NpArray) : H :=
  hash (a.shape, a.dtype, a.tobytes)

/-- basis.py 442-449 `_HashableArray.__eq__`. -/
def hashableArrayEq (a b : NpArray) : Bool :=
  a.shape == b.shape && (a.dtype == b.dtype && (a.data.zip b.data).all fun p => p.1.eq p.2)

/-- An instance of a dataclass, as the values of its attributes. -/
abbrev Instance (Value : Type) := String → Value

/-- Unflattening `Class(*children)`: the children are bound to the fields in the order of their declaration; a wrong number raises
TypeError.  (`__post_init__` only checks shapes.) -/
def construct {Value : Type} (fields : List String) (children : List Value) (unset : Value) : Res (Instance Value) :=
  if fields.length ≠ children.length then .error .typeError
  else .ok fun name => ((fields.zip children).lookup name).getD unset

/-- A registration with jax: the declared fields, and the attributes put into the tuple by the flattening function. -/
structure Registration where
  fields : List String
  flattened : List String

/-- Flattening: the tuple of attributes. -/
def Registration.flatten {Value : Type} (r : Registration) (x : Instance Value) : List Value := r.flattened.map x

/-- Flatten, then unflatten. -/
def Registration.roundTrip {Value : Type} (r : Registration) (x : Instance Value) (unset : Value) : Res (Instance Value) :=
  construct r.fields (r.flatten x) unset

/-- basis.py 34-35, 406-410. -/
def latticeVectorsRegistration : Registration := ⟨["u", "v"], ["u", "v"]⟩

/-- basis.py 65, 420-436; the attribute is wrapped and unwrapped. -/
def expansionRegistration : Registration := ⟨["basis_coefficients"], ["basis_coefficients"]⟩

/-- pml.py 25-29, 154-158. -/
def pmlParamsRegistration : Registration :=
  ⟨["num_x", "num_y", "a_max", "p", "sigma_max"], ["num_x", "num_y", "a_max", "p", "sigma_max"]⟩

/-- fmm.py 254-265, 1138-1158. -/
def layerSolveResultRegistration : Registration :=
  ⟨["wavelength", "in_plane_wavevector", "primitive_lattice_vectors", "expansion", "eigenvalues", "eigenvectors",
    "z_permittivity_matrix", "inverse_z_permittivity_matrix", "z_permeability_matrix", "inverse_z_permeability_matrix",
    "transverse_permeability_matrix", "tangent_vector_field"],
   ["wavelength", "in_plane_wavevector", "primitive_lattice_vectors", "expansion", "eigenvalues", "eigenvectors",
    "z_permittivity_matrix", "inverse_z_permittivity_matrix", "z_permeability_matrix", "inverse_z_permeability_matrix",
    "transverse_permeability_matrix", "tangent_vector_field"]⟩

/-- scattering.py 59-69, 576-592. -/
def scatteringMatrixRegistration : Registration :=
  ⟨["s11", "s12", "s21", "s22", "start_layer_solve_result", "start_layer_thickness", "end_layer_solve_result",
    "end_layer_thickness"],
   ["s11", "s12", "s21", "s22", "start_layer_solve_result", "start_layer_thickness", "end_layer_solve_result",
    "end_layer_thickness"]⟩

/-- An enumeration as its members with their values. -/
structure PyEnum where
  members : List (String × String)

/-- `Class(value)`: the first member with the value, or ValueError. -/
def PyEnum.ofValue (e : PyEnum) (value : String) : Res String :=
  match e.members.find? fun m => m.2 == value with
  | some m => .ok m.1
  | none => .error .valueError

/-- basis.py 78-83. -/
def truncationEnum : PyEnum := ⟨[("CIRCULAR", "circular"), ("PARALLELOGRAMIC", "parallelogramic")]⟩

/-- fmm.py 26-38, vector.py 638-646. -/
def formulationEnum : PyEnum :=
  ⟨[("FFT", "fft"), ("JONES_DIRECT", "jones_direct"), ("JONES", "jones"), ("NORMAL", "normal"), ("POL", "pol"),
    ("JONES_DIRECT_FOURIER", "jones_direct_fourier"), ("JONES_FOURIER", "jones_fourier"),
    ("NORMAL_FOURIER", "normal_fourier"), ("POL_FOURIER", "pol_fourier")]⟩

end Fmmax
