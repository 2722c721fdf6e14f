import Verif.Model.BatchScan
import Verif.Spec.BatchSolve

/-! Layers stacked along a new leading axis. -/

namespace Fmmax

variable {α : Type} {n : ℕ}

/-- `a` is `jnp.stack(as, axis=0)`, for arrays of equal shapes. -/
structure StackOf (a : NDArray α) (as : List (NDArray α)) : Prop where
  shape : ∀ x ∈ as, a.shape = as.length :: x.shape
  get : ∀ j (h : j < as.length) i, a.get (j :: i) = as[j].get i

/-- Every array of `l` is the stack of the arrays of the layers; the layers have the same expansion. -/
structure LayersStacked (l : BatchLayer n) (layers : List (BatchLayer n)) : Prop where
  wavelength : StackOf l.wavelength (layers.map (·.wavelength))
  inPlaneWavevector : StackOf l.inPlaneWavevector (layers.map (·.inPlaneWavevector))
  u : StackOf l.u (layers.map (·.u))
  v : StackOf l.v (layers.map (·.v))
  expansion : ∀ x ∈ layers, x.expansion = l.expansion
  eigenvalues : StackOf l.eigenvalues (layers.map (·.eigenvalues))
  eigenvectors : StackOf l.eigenvectors (layers.map (·.eigenvectors))
  zPermittivity : StackOf l.zPermittivity (layers.map (·.zPermittivity))
  inverseZPermittivity : StackOf l.inverseZPermittivity (layers.map (·.inverseZPermittivity))
  zPermeability : StackOf l.zPermeability (layers.map (·.zPermeability))
  inverseZPermeability : StackOf l.inverseZPermeability (layers.map (·.inverseZPermeability))
  transversePermeability : StackOf l.transversePermeability (layers.map (·.transversePermeability))
  tangent : ∀ x ∈ layers, l.tangentNdim = x.tangentNdim.map (· + 1)

/-- `jnp.broadcast_to(x, (m,) + x.shape[1:])`, for arrays whose leading axis has length one or `m`. -/
def NDArray.repeatFirst (m : ℕ) (a : NDArray α) : NDArray α :=
  { shape := m :: a.shape.tail, get := fun i => match i with
      | [] => a.get []
      | j :: i => a.get ((if a.shape.headD 1 = 1 then 0 else j) :: i) }

/-- The layers whose arrays have a leading axis of length `m`, repeated where it has length one:
`tree_map(lambda x: jnp.broadcast_to(x, (m,) + x.shape[1:]), l)`. -/
def BatchLayer.repeatFirst (m : ℕ) (l : BatchLayer n) : BatchLayer n :=
  { wavelength := l.wavelength.repeatFirst m, inPlaneWavevector := l.inPlaneWavevector.repeatFirst m, u := l.u.repeatFirst m,
    v := l.v.repeatFirst m, expansion := l.expansion, eigenvalues := l.eigenvalues.repeatFirst m,
    eigenvectors := l.eigenvectors.repeatFirst m, zPermittivity := l.zPermittivity.repeatFirst m,
    inverseZPermittivity := l.inverseZPermittivity.repeatFirst m, zPermeability := l.zPermeability.repeatFirst m,
    inverseZPermeability := l.inverseZPermeability.repeatFirst m, transversePermeability := l.transversePermeability.repeatFirst m,
    tangentNdim := l.tangentNdim }

/-- The values of a one-dimensional array. -/
def listOf (d : NDArray α) (m : ℕ) : List α := (List.range m).map fun j => d.get [j]

end Fmmax
