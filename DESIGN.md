# Formal model of fmmax: design

Source under study: `/repo/src/fmmax` (python/jax), read as text.  Model and proofs: Lean 4 + Mathlib in
`/verif/lean`, modules under `Verif/`:

* `Verif/Model/*`  – transcription of the python functions, each definition citing the lines it models.
* `Verif/Spec/*`   – small specifications that do not mention the model's algorithms (what "continuous across an
  interface", "dual lattice", "numpy broadcastable" ... mean).
* `Verif/Proofs/*` – helper lemmas.
* `Verif/Props/*`  – the property theorems (named `C01_...` etc.) with non-vacuity `example`s beside them.

## Modelling conventions (apply everywhere)

1. **Arithmetic is exact.** Arrays of floats/complex are functions into ℝ/ℂ. Rounding, overflow, jit and dtype
   promotion are not modelled. Integers (Fourier orders, shapes, axes) are ℤ/ℕ.
2. **Errors are values.** Functions that may raise, or that would produce `inf`/`nan`, return
   `Except Err _`. `Err.nonFinite` is the value for a singular `solve`, a division by zero etc.; a theorem about an
   `.ok` result is never true because Lean totalises `x / 0 = 0` or a singular inverse.
3. **Linear solves and `eig`.** `solve A B` returns the unique `X` with `A X = B` if `A` is invertible, else
   `nonFinite` (LAPACK is trusted). `jnp.linalg.eig` is abstracted: theorems quantify over every `(w, V)` with
   `A V = V diag(w)`.
4. **Batch dimensions.** Functions that are pointwise in leading batch dimensions are modelled for one batch
   element; functions whose content *is* batch/shape/axis handling (`batch_compatible_shapes`, `absolute_axes`,
   `unflatten_flux`, `_layer_fields_3d` flattening, batched `reciprocal`, ...) are modelled on shapes / nd-arrays. That the
   eigensolves, scattering matrices, amplitudes, fluxes and fields are pointwise in batch dimensions is C96 and C105 – C111, proved
   for the versions with batch axes in `Model/BatchSolve`, `BatchStack`, `BatchFields`, `BatchFields3d`, `BatchSources`, `BatchThickness`, `BatchScan`, `FluxBatch` (the Fourier matrices of
   patterned layers are taken per batch element there; in the uniform isotropic eigensolve divisions by zero are excluded by
   hypothesis; thicknesses are scalars except in C91 and C109 (scattering matrices); the amplitude axes of all amplitudes of a call have one length).
5. **Block vectors.** A `2N` axis (first N, last N: `jnp.split(…, 2)`, `jnp.block`, `jnp.concatenate`) is indexed by
   `ι ⊕ ι` with `ι = Fin N`.
6. `argsort` is modelled by *any* permutation that sorts the keys; theorems hold for each.
7. **nd-arrays** (`Model/NDArray`, `Model/Shapes`, `Model/Farfield`) are a shape and a function from multi-indices.
   `jnp.nan` as a marker for missing data is `none`.
8. **Indexing** follows numpy: negative indices wrap once (`pyIndex`), anything else is `IndexError`.  (jax clamps instead of
   raising; the theorems show that the indices used are in bounds, so that the difference is not observable.)
9. **Enumerations and options** (`Formulation`, `Truncation`, ...) are inductive types; unknown values cannot be
   written, except where the conversion from a value is itself the subject (C71).

## Trusted base

Lean's kernel, Mathlib's definitions, and the axioms `propext`, `Classical.choice`, `Quot.sound`.  No axioms are added; no
`sorry`, `native_decide`, `bv_decide`.  `#print axioms` was run on every property theorem (`Cnn_*`): each depends on
`[propext, Classical.choice, Quot.sound]`, except `C67_finding_zero_dimension`, `C71_enum` and `C82_finding_broadcast_rejected`
(`[propext, Quot.sound]`), `C71_finding_float` (`[propext]`) and `C76_finding_unchecked` (none).

What has to be believed beyond the kernel is that the model transcribes the code.  Each definition of `Verif/Model` cites the
lines it models and says where it is simplified.  Library behaviour that is built into the model, rather than proved:

* `jnp.fft.fft2/ifft2` (`fft2Forward`, `ifft2Forward`): the defining sums, with the normalisation requested in the code.
* `jnp.linalg.solve`, `jnp.linalg.inv`: exact; a singular matrix is an error value.
* `jnp.linalg.eig` (`IsEig`): `A V = V diag(w)`, and `V` invertible whenever `A` is diagonalisable.
* `jax.image.resize(method="linear")` (`resizeWeight`): triangle kernel, weights normalised over the inputs.
* `jax.grad` of a real function (`deriv`), `jax.value_and_grad/jacrev` of a real function of complex inputs (`jaxGrad`,
  `∂f/∂x − i ∂f/∂y`).
* `jnp.pad`, `onp.gradient`, `jnp.roll`, `jnp.meshgrid`, `onp.arange`, `linspace`, `onp.around` (ties to even).
* numpy broadcasting (`broadcastShapes`), reshape and transpose in C order.
* python: tuple comparison is lexicographic, `min`/`max` of an empty sequence raise ValueError, dataclass construction.

## What is modelled

| file | modelled | model |
|---|---|---|
| basis.py | `reciprocal` (single and batched), `generate_expansion` with both truncations, `unit_cell_coordinates`, `plane_wave_in_plane_wavevector`, `brillouin_zone_in_plane_wavevector`, `transverse_wavevectors` (single and batched), `_HashableArray`, pytree registrations, constructors | Lattice, Basis, Pytree, Validation |
| fft.py | all functions; `fft`, `ifft` also with batch dimensions and chosen axes | Fft, FftAxes |
| fmm_matrices.py | all functions | Matrices, Fmm |
| fmm.py | eigensolve entry points and their four implementations (also with batch dimensions), named formulations, Fourier matrices, sign selection, shape validation, `LayerSolveResult.__post_init__` | Fmm, Layer, VectorFormulation, Shapes, Validation, BatchSolve |
| scattering.py | all functions, also with batch dimensions; `solve` without the 64-bit switch; arrays of thicknesses; `jax.lax.scan` as a loop that checks leading axes and the shapes of the carry, without dtypes | Scattering, BatchSolve, BatchStack, BatchThickness, BatchScan |
| fields.py | amplitude propagation, colocation, all flux functions, fields from amplitudes, fields on grid/coordinates, interior amplitudes, 3D fields on a grid and at coordinates, automatic grid, all also with batch dimensions (the automatic grid for one lattice); broadcasting of distances | Fields, Fields3d, Thickness, BatchFields, BatchFields3d, BatchAmplitudes |
| sources.py | all functions; `amplitudes_for_fields`, `amplitudes_for_source` and the functions it calls, point and Gaussian sources also with batch dimensions | Sources, SourceShapes, BatchSources, BatchAmplitudes |
| beams.py | all functions; the solver callback is an arbitrary function | Beams |
| pml.py | all functions | Pml |
| farfield.py | angles, solid angle, `unflatten*`, integrated flux and `farfield_profile` with their batch dimensions | Angles, Farfield, FluxBatch |
| utils.py | shapes and axes, `interpolate_permittivity`, `_eig_bwd` | Shapes, Utils, Basic |
| vector.py | gradients, normalisations, losses, Newton iteration, tangent field of one array and of a batch, the named schemes | Vector, VectorBatch |

Not modelled: floating point, dtypes and `force_x64_solve`; jit, vmap, sharding and the host callback around `eig`; logging and
docstrings; batch dimensions of functions that act pointwise on them (see convention 4); reading of environment variables.

## Findings

Places where the code does not do what the property (or its own documentation) says.  Those marked with a theorem are
proved on the model; the rest were noticed while transcribing.

| property | finding | theorem |
|---|---|---|
| C02 | `reciprocal` is wrong for every batch of more than one lattice: for two it divides by the wrong cross products, for batch shape `(m, 1)` the result has batch shape `(m, m)`, larger batches raise | `C02_false_for_every_batch`, `C02_false_for_batch_of_two`, `C02_false_for_larger_batch`, `C02_finding_outer_batch` |
| C06, C07 | circular truncation with an odd count on very elongated cells is cut off by the candidate range | `C06_false_for_odd_circular`, `C07_false_for_thin_cells` |
| C08 | ties are rounded to even, so that e.g. 4 requested terms on a square lattice give 1 and 16 give 25 | in the statement of C08 |
| C11 | the Brillouin shape check compares tuples lexicographically: `(2, 0)` divides by zero, `(2, -1)` gives an empty grid | `C11_false_for_lexicographic_check` |
| C17 | at the minimum shape, order differences alias: entries of the convolution matrix are still Fourier coefficients, of aliased orders | `C17_differences_alias_at_minimum_shape` |
| C21 | "positive imaginary part" in the comment: it may be zero | `C21_imaginary_part_may_vanish` |
| C24 | anisotropic vector formulation with a varying tangent field does not reproduce a uniform medium (1 becomes 1/2 in the example); a zero of the tangent field at a single grid point makes the layer unsolvable although `denom_safe` provides for it | `C24_varying_tangent_not_exact`, `C24_finding_zero_tangent` |
| C25 | reported `ez` uses the convolution matrix of `1/ε`, not the inverse of that of `ε` as in the eigenproblem | `C25_finding_reported_ez` |
| C28 | `xx`, `yy` that cannot be broadcast raise TypeError before the ValueError check | `C28_false_value_error` |
| C35 | `set_end_layer_thickness` of a single-layer stack adds phase | `C35_false_for_single_layer` |
| C42, C43 | in a vector formulation with a tangent field that varies over the cell the permittivity matrix `ε - Δ P` is not Hermitian (`Δ` and `P` do not commute): a layer of real permittivity can create energy (flux along `+z` increases with depth). With a constant tangent field energy is conserved | `C42_finding_vector_formulation`, `C42_vector_lossless`, `C42_vector_anisotropic_lossless`, `C43_vector_passive` |
| C45 | a layer with a single grid point is sampled at its start only | `C45_finding_single_gridpoint` |
| C51 | with exponent `p = 0` the interior is stretched too (`0 ** 0 = 1`) | `C51_finding_zero_exponent` |
| C54 | empty axes are not rejected; the width check is lexicographic | `C54_finding_empty_axis` |
| C58 | `normalize_jones` of a complex field is not of unit magnitude | `C58_finding_complex_field` |
| C61 | the tangent field of a 1D grating is `(sin a, cos a)` for gradient angle `a`, perpendicular only on the axes (vector.py 246); the phase of a complex contrast (absorbing or metallic gratings, fmm.py 896 passes the complex permittivity) is taken for a part of the angle, so that a grating with imaginary contrast along an axis gets a field parallel to the gradient | `C61_false_diagonal`, `C61_phase`, `C61_false_complex_contrast` |
| C94 | consequence of C61: for gratings whose lines differ in absorption only, every named vector scheme applies each factorization rule to the wrong field component (vector.py 246, fmm.py 896) | `C94_finding_absorption`, `C94_false_absorption` |
| C94 | with a single Fourier order the filtered gradient vanishes and every named vector scheme takes the second axis for the tangent (vector.py 246 with angle 0), whatever the pattern; lines along the first axis get the rules exchanged | `C94_finding_single_order`, `C94_false_single_order` |
| C95 | consequence of C25: absorption computed from the reported `ez` of a patterned layer is not the lost power (fields.py 335, `inverse_z_permittivity_matrix`) | `C95_finding_reported_ez` |
| C64 | the order of the two Brillouin axes is ignored | `C64_finding_axis_order` |
| C66 | missing orders are given wavevector zero before upsampling: flux bleeds to small angles | `C66_finding_missing_orders` |
| C67 | zero-length dimensions are treated more strictly than in numpy | `C67_finding_zero_dimension` |
| C71 | equality of hashable float arrays differs from value equality for ±0.0 and NaN | `C71_finding_float` |
| C72 | solid angles of cells at the rim of the grid are halved or quartered | `C72_solid_angle` |
| C76 | checks of `LayerSolveResult` are weaker than documented (one-component wavevectors, non-square eigenvectors, larger wavelength batch pass); numpy lattice vectors are not checked | `C76_finding_weak_checks`, `C76_finding_unchecked` |
| C78 | the solid angle needs all adjacent cells but one: propagating orders next to a missing order (the rim of a circular expansion) have `nan` profile | `C78_finding_missing_neighbour` |
| C79 | along z the spacing is always larger than requested (both ends of a layer are gridpoints, up to 2.5 times), and layers of at most half the spacing have no gridpoints | `C79_z_spacing`, `C79_finding_thin_layer` |
| C80 | lattice batches are not broadcast: other than one lattice or one per array raise; a column of arrays and a row of lattices are paired one by one | `C80_false_for_partial_broadcast`, `C80_raises_otherwise`, `C80_finding_silent_pairing` |
| C81 | `stack_s_matrix` passes through all leading parts: it fails if one of them has a resonance (a surface wave of the first interface) although the whole stack has none | `C81_finding_surface_wave` |
| C82 | `brillouin_grid_axes` are called batch axes but negative ones are counted from the end of the fields (`(-2, -1)` raises IndexError); fields that can be broadcast to the batch are rejected if their rank is too small | `C82_finding_negative_axes`, `C82_finding_broadcast_rejected` |
| C90 | `fft` raises IndexError for axes named in decreasing sequence; for axes that are not adjacent it removes the axis next to the first instead of the second one | `C90_finding_reversed_axes`, `C90_finding_separated_axes` |
| C91 | a batch of as many thicknesses as there are modes is taken for thicknesses of the modes in scattering matrices, and for thicknesses of the amplitude columns in `propagate_amplitude`; no shape of a batch of thicknesses can be used for both | `C91_finding_thickness_per_mode`, `C91_distance_per_amplitude`, `C91_finding_no_common_shape` |
| C100 | the tangent field of a supercell with an even number of cells is not that of the single cell: the field is optimised on twice the minimal grid of the expansion, which has an even number of points per cell for the single cell and an odd number per cell for the supercell (vector.py 319-332), although the docstring of `compute_tangent_field` names supercells of 2x2 cells | `C100_false_even` |
| C101 | the docstring of `compute_tangent_field` says that the resolution of the array has no effect: central differences of a coarser grid along one axis change the ratio of the gradient components and the field with it, and the final scaling takes the largest sample, not the maximum of the field | `C101_false_ratio`, `C101_false_magnitude` |
| C104 | consequence of C61: turning a grating and its lattice by `α` turns its tangent field by `-α`, so that calculations with vector formulations depend on the coordinates; patterns with two gradient directions turn as they should | `C104_finding_gratings` |
| C104 | Jones vectors are elliptical with the same handedness everywhere, so that a field which is its own mirror image gets a Jones field which is not (vector.py `normalize_jones`) | `C104_finding_jones_mirror` |
| C106 | amplitudes whose batch shapes differ but can be broadcast together pass `_validate_amplitudes_shape` and are accepted by the fluxes; `fields_from_wave_amplitudes` raises TypeError for them (concatenation) | `C106_finding_fields_of_unequal_shapes` |
| C107 | `stack_fields_3d` raises TypeError if the batch shapes of the layers with their amplitudes differ between layers | `C107_finding_unequal_shapes` |
| C108 | `amplitudes_for_source` raises TypeError if only layers of one part that do not touch the source have an additional batch axis | `C108_finding_unequal_shapes` |
| C110 | the result of one eigensolve for a batch of layers with one lattice, the use `stack_s_matrix_scan` is documented for, is rejected with ValueError: the lattice vectors (and wavelength and wavevector, if not given per layer) have a leading axis of length one, so that `x[1:]` is empty; after broadcasting all arrays along the leading axis it works | `C110_finding_one_lattice`, `C110_calculation` |
| C111 | with more wavelengths than fluxes `integrated_flux` sums over the wavelengths: the weights are a gradient of the sum of all integrals, so every element of the common batch that shares an entry of the flux contributes to it; for bounds that select all angles the result is a multiple of the total flux | `C111_finding_wavelengths_summed`, `C111_total` |
| C112 | `stack_s_matrix` can be finite for a stack and fail for the reversed stack: absorbing glass, vacuum, metal with ε = -2 at `kx = √2 ω`; the reversed loop starts with the interface metal/vacuum, which carries a surface wave; a layer with one gridpoint along z is sampled at its start in both directions | `C112_finding_direction`, `C112_finding_single_gridpoint` |
| C115 | `_select_eigenvalues_sign` makes eigenvalues of propagating modes of lossless layers discontinuous in the permittivity: with gain tending to zero they tend to the opposite numbers, so that the modes run backwards and the reflection coefficient of an interface with a lossless substrate jumps to its inverse (from 1/3 to 3 between indices 1 and 2) | C115_finding_gain_flips_eigenvalues, C115_finding_gain_inverts_reflection |
| C118 | `_eig_bwd` drops the couplings between modes with equal eigenvalues: it replaces `1/δ` by `δ/(δ²+ε)`, which is 0 for `δ = 0`, also for losses which depend on the modes through physical quantities only, where the limit `δ → 0` is finite and not 0.  Degenerate modes are the rule (polarisations at normal incidence on symmetric patterns, uniform anisotropic layers).  The gradient then also depends on the eigenvectors the solver happened to return. | `C118_finding_degenerate_modes`, `C118_finding_choice_of_eigenvectors` |
| C109 | An array of thicknesses whose last axis has twice the number of terms as its length is accepted and broadcast against the axis of modes: each mode propagates through a thickness of its own. | `C109_finding_mode_axis` |
| C121 | Modes are chosen to decay also in media with gain (`_select_eigenvalues_sign`).  When all layers including the first and the last one have gain instead of absorption, the scattering matrix is the complex conjugate of the one for absorption: all magnitudes agree, nothing is amplified. | `C121_finding_gain` |
| C121 | Vector formulations are not symmetric under time reversal for gratings whose lines differ both in the real and the imaginary part of the permittivity: the tangent direction depends on the phase of the contrast (as in C94), and effective permittivities of the conjugate grating are not the conjugate ones. | `C121_finding_gratings` |
| C122 | in absorbing media the power of vertical currents computed from the reported fields on the two sides of the source is not the flux that leaves it (1/4 against 0 in the example): a property of the sheet of current, not an error of the code | `C122_finding_vertical_absorbing` |

Noticed, not proved: for lattice vectors with batch dimensions `jnp.linalg.norm(u)` in `stack_fields_3d_auto_grid` is the norm over all batch entries, so the
automatic grid has more points than the spacing asks for, and `int(jnp.round(t / spacing))` raises for arrays of thicknesses; `field /= phase` in
`amplitudes_for_fields` modifies numpy arrays of the caller in place;
`jnp.linalg.solve` of the pinned jax reads a right-hand side of one rank less as vectors, so the matrix solves of
`_extend_s_matrix` and `_pair_s_matrix` fail or mix axes for layers whose batch ranks differ by one (only `fd_diag` is expanded;
C96 assumes equal ranks);
`unflatten` of complex data loses imaginary parts (`jnp.full(nan)` is real); the anisotropic vector formulation solves with a rotation that is singular where the
tangent field vanishes; a constant array gives a singular Newton system (the NaN is discarded by `jnp.where`);
`redheffer_star_product` does not pass on
`force_x64_solve`; `polarization_terms` derives the leading dimensions from `jx.ndim - 3` and takes `η` of the layer before
the source only; the eigendecomposition gradient is exact only for gauge-invariant losses and unbroadened denominators.
The default `vector_field_source` of `eigensolve_general_anisotropic_media` is `(permittivity_xx + permittivity_yy) / 2`, so a pattern in the
permeability alone gets the tangent field of a constant array; duality (C103) with vector formulations needs the source to be passed.
The smoothness loss of the tangent field takes forward differences along the lattice vectors, so on oblique lattices it depends on the choice of
lattice vectors; C104 covers motions of the lattice, not other bases of the same lattice.

## Mutation testing

`seeded/LOG.jsonl` has a line for each wrong program tried: the definition edited, the edit, the claim it breaks, the theorems
that failed to build, the property theorems that depend on those, and the theorems tightened as a result.
A property theorem counts as lost if its proof depends on a theorem that failed, often a lemma which describes the edited definition;
that no other proof exists is not shown.  For edits of a single token chosen at random only the first failure is recorded.

## Plan per property

| id | model | proof plan |
|---|---|---|
| C01 | `reciprocal` on ℝ² pairs with zero-cross check | `field_simp`/`ring`; error branch excluded by the check |
| C02 | numpy broadcasting of `(B,2)/(B,)` | **expected false** for B=2 (witness) and error otherwise; `_partial` for B=1 |
| C03–C09 | `generate_expansion` with candidate range, mask / box, sort by norm | list reasoning; positivity of the norm off the origin; monotone square roots; C06, C07 **expected false** for extreme cells (witness + `_partial` under aspect bound/even count) |
| C10, C11 | grid from `arange`, tuple comparison | explicit values; C11 **expected false** (`(2,0)`, `(2,-1)`) |
| C12 | `transverse_wavevectors` | duality + `exp (2πi n) = 1` |
| C13, C65 | `plane_wave_in_plane_wavevector`, `arcsin`/`angle` | trig, `Complex.arg` |
| C14 | `unit_cell_coordinates` | index arithmetic |
| C15–C20 | 2D DFT with python negative indices, gather/scatter | orthogonality of roots of unity; quadratic form for positivity |
| C21 | principal `csqrt` and sign flip | case analysis on `arg` |
| C22–C24, C26 | Fourier matrices, K and script-K blocks | block matrix algebra |
| C25 | mode fields as functions of `z` | `HasDerivAt` + eigen equation |
| C27 | `isclose` threshold | pointwise algebra |
| C28, C67, C68 | shapes as lists | induction on shapes |
| C29–C38 | layers as records of mode matrices; `_extend_s_matrix` step; stacks as lists | interface conditions as specification; induction on the stack; equality of S-matrices from soundness + completeness |
| C39–C41 | amplitudes as column matrices | algebra |
| C42, C43 | quadratic form Re(eᴴh), derivative along z; FFT formulation and vector formulations with constant tangent field | Maxwell (C25) + continuity |
| C44–C46 | inverse DFT, `linspace`, flatten/reshape indices | reindexing |
| C47, C48 | DFT + phases on a supercell | C15 and geometric sums |
| C49 | emission matrix, polarisation terms | linear algebra from C29 |
| C50 | phase and Gaussian factors | `exp` laws |
| C51–C54 | PML functions on grids | case analysis on index ranges |
| C55, C56 | 3×3 rotations | `ring` with `sin²+cos²=1`, linear-algebra |
| C57–C61 | tangent field utilities, optimiser abstracted as an arbitrary function of its inputs | pointwise algebra; C61 **expected false** off-axis (witness + `_partial`) |
| C62–C64, C66, C72 | `unflatten` index map, nd-array transposes, resize as linear operator | injectivity by div/mod; sums over bijections |
| C69 | csqrt interpolation | half-plane convexity |
| C70 | `_eig_bwd` formula | matrix calculus done algebraically (adjoint identity) |
| C77, C78 | the functions on nd-arrays with explicit broadcasting | broadcasting lemmas in `Proofs/NDArray`; C12, C62, C64, C65, C72 per batch element |
| C79 | rounding to the nearest number of points | uniqueness of the nearest number; C45 |
| C80 | row-major reshape of batch axes | ravel/unravel are inverse; C75 for the witness |
| C81 | resonances = kernels of the matrices solved with | energy balance: net outward flux of absorbing layers is positive |
| C82 | shapes of fields, inferred grid | C67, C68 |
| C83 | numpy broadcasting | C77 and elementwise operations on broadcast arrays |
| C84–C88 | whole computation from patterns to S-matrix; `Spec/Symmetry`: a change of description acts on lattice, wavevector, samples, tensors and order labels | eigenproblems of the two descriptions are conjugate (`Covariance`, `Media`); S-matrices agree in field coordinates because both solve the same interface conditions (`LayerMap`); special cases by choice of the change |
| C89 | `Spec/Reciprocity`: reversed setup, transposed layers, the Lorentz form | the eigenproblem of the reversed calculation is the transpose; modes with different q are orthogonal in the pairing; the form is constant within layers and continuous across interfaces |
| C90 | `fftAxes`, `ifftAxis` on nd-arrays: `absolute_axes`, transform along two axes, gather and scatter with leading and trailing slices | the plane at fixed outer indices is the matrix of C15 – C19; list algebra on indices; **false** for axes that are reversed or not adjacent |
| C91 | `layerPhases`, `propagateAmplitudeBatch` on nd-arrays | broadcasting of shapes and indices; rank of the common shape for the finding |
| C92 | nothing new: C12, C17, C20 – C25, C30 applied to two index sets | pairs of an injection and a projection which all matrices of the calculation respect; Fourier coefficients of repeated patterns; selection of independent columns for the modes of the primitive cell |
| C93 | nothing new: uniform eigensolve, C29, C30, C81 | columns and rows that single out a polarisation of an order in every layer; waves on a line are embedded in and projected out of the amplitudes of the stack |
| C94 | `VectorFormulation`: named schemes as the functions called by the eigensolves | projector of C27 on columns of one direction; tangent field of gratings from C61, zero gradient for a single order; uniqueness from the two directions |
| C95 | spec: local absorption on the grid, tensors of a layer on a grid, z components belonging to the convolution matrices | Poynting's theorem (C42, C43) integrated over depth; quadratic forms of convolution matrices are means over the grid; fluxes agree at interfaces |
| C96 | fmm.py eigensolves and `stack_s_matrix` on arrays with batch axes: an nd-array over the batch axes whose elements are matrices or non-finite | shapes broadcast to a common one form a preorder; every operation with broadcasting acts on elements; `__post_init__` accepts by C76 |
| C97 | nothing new: C49, C81 | a resonance of the joined stack is a state of both parts whose jump at the source vanishes; absorbing stacks by the energy balance of C81 |
| C98 | `Spec/SupercellEmission`: the whole computation from patterns and currents to fields | as C92, with amplitudes and fields of the classes added up; the Fourier coefficients of a point source restricted to a class are those in the primitive cell |
| C99 | nothing new | linearity of every solve; the results for the combination are exhibited and checked |
| C100 | nothing new: C61, C74 | the loss of the supercell is invariant under translation by cells, so its unique minimiser has orders of the single cell only, where it is the loss of the single cell; **false** for even numbers: the minimiser for `cos x + cos y` in closed form |
| C101 | nothing new: C74 | gradient enters through its normalised band-limited samples; closed form for `cos x + cos y` refutes independence of the resolution |
| C102 | nothing new: sources, interior amplitudes | the Lorentz form of the two fields is constant in each part and jumps by the reaction at each source (Lorentz form of C89); outgoing waves at both ends have no Lorentz form |
| C103 | nothing new | the turned electric profiles are the magnetic profiles of the dual layer; continuity of the fields determines the scattering matrix (C31), so dual fields give dual matrices; anisotropic absorbing layers (C81) provide magnetic examples |
| C104 | nothing new: C61, C74, C84 | the loss is invariant under unitary transformations of the field and translations, and its minimiser is unique if the gradient has two directions; formulations enter the Maxwell operators through tangent fields up to a phase |
| C105 | the rest of scattering.py on arrays with batch axes | as C96; batch shapes are least upper bounds in the preorder of broadcasting |
| C106 | fields.py on arrays with batch axes: amplitudes, fluxes, fields | as C96; the shapes before and after a layer together contain all layers |
| C107 | `_layer_fields_3d`, `_stack_fields_3d` on arrays with batch axes | C105, C106 and induction over the layers; one batch shape by C106 |
| C108 | `amplitudes_for_source` on arrays with batch axes | shapes of the blocks of the emission matrix; C105 – C107 for the amplitudes and fields |
| C109 | scattering matrices with arrays of thicknesses | as C96; ranks of the blocks for the `solve` calls; shapes by the least common broadcast |
| C110 | `stack_s_matrix_scan` on arrays with a leading axis | slices; validation of slices; shapes of the carry by C105; *expected false* for the result of one batched eigensolve |
| C111 | `integrated_flux` on arrays | array by array to one element, as C78; the weights as derivatives of a sum of linear forms; *expected false* for more wavelengths than fluxes |
| C112 | stacks turned upside down | reversed consistent amplitudes are consistent (C40), uniqueness of the scattering matrix (C30), columns of `layerFields3d` at `d - z`; sources: the rows of the emission matrix for the reversed stack are those of the emission matrix up to sign; *expected false*: success of `stack_s_matrix` in both directions or none |
| C113 | amplitudes for fields with batch dimensions | elements of broadcast arrays, averages over the Brillouin grid of the supercell transform (C82, C83), automatic grid reduces to C107 |
| C114 | smooth dependence on parameters | predicate `DependsSmoothly` closed under bind; entries of products, determinants and adjugates; induction over layers |
| C115 | uniform layers | the forward root is the principal root of `w` or `1j` times that of `-w`; *expected false*: continuity at lossless propagating modes |
| C116 | gratings | general lemma for calculations whose orders are part of the orders of another one (as for C92); Fourier coefficients of patterns with equal columns; mirror symmetry (C88) for the polarisations |
| C117 | smooth dependence on materials | scattering matrices as functions of the operators `φ q φ⁻¹`, which do not depend on the eigenvectors; smooth square roots of matrices with spectrum in a half plane (inverse function theorem for squaring) |
| C118 | gradients of the eigendecomposition | the rule in the basis of eigenvectors; derivative of the square root of a matrix by differentiating `X² = A`; *expected false*: the gradient is the derivative |
| C119 | other eigensolvers | a calculation is its own supercell of one cell, for which C92 and C98 admit another eigensolver |
| C120 | thick and thin layers | the recursion with a small propagator is a perturbation of the recursion started anew behind the layer; errors of order `exp(-2γd)` propagate through further layers |
| C121 | time reversal | conjugating Maxwell's equations of all layers; conjugate modes are modes of the conjugate layer, with the sign of real eigenvalues reversed by the choice of the root |
| C122 | power emitted by sources | the jump of the fields at the source (C49) in the Poynting flux; flux constant or decreasing on both sides (C42, C43); in absorbing layers through the vertical displacement; absorbed powers by C95 on both sides |
| C71 | `_HashableArray`, pytree registrations | congruence; the bytes of an integer determine it (digits in base 256, signed range); floats: −0.0 counterexample |

Where a row says *expected false*, the deliverable is a theorem refuting the property for the code as written, plus
the `_partial` theorem giving the conditions under which it holds.
