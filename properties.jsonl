{"id": "C01", "title": "Reciprocal lattice is dual to the real-space lattice", "statement": "For linearly independent lattice vectors u, v, LatticeVectors(u, v).reciprocal returns vectors u', v' with u'.u = 1, u'.v = 0, v'.u = 0, v'.v = 1; taking the reciprocal twice returns the original vectors.", "quantifier": "all pairs of linearly independent real 2-vectors", "why_tests_cant": "an algebraic identity over a continuum of lattices; tests use square and rectangular cells", "anchors": ["src/fmmax/basis.py:reciprocal", "src/fmmax/basis.py:_cross_product", "src/fmmax/basis.py:LatticeVectors.reciprocal"]}
{"id": "C02", "title": "Reciprocal of batched lattice vectors acts per batch element", "statement": "LatticeVectors carrying a leading batch dimension have, at each batch index, the reciprocal of the lattice vectors at that index.", "quantifier": "all batch sizes and all lattice vectors in the batch", "why_tests_cant": "a broadcasting mistake is invisible for batch size 1 and for batches of equal cells", "anchors": ["src/fmmax/basis.py:reciprocal"]}
{"id": "C03", "title": "Zeroth order is first in every generated expansion", "statement": "generate_expansion, for either truncation and any request of at least one term, returns a non-empty expansion whose first row is (0, 0).", "quantifier": "all linearly independent lattice vectors, all requested term counts >= 1, both truncations, any order in which argsort breaks ties", "why_tests_cant": "depends on an unstable sort over real magnitudes; only sampled lattices are tested", "anchors": ["src/fmmax/basis.py:generate_expansion", "src/fmmax/basis.py:_basis_coefficients_circular", "src/fmmax/basis.py:_basis_coefficients_parallelogramic"]}
{"id": "C04", "title": "Generated expansions contain no order twice", "statement": "No Fourier order appears twice in an expansion returned by generate_expansion.", "quantifier": "all lattice vectors, term counts, truncations", "why_tests_cant": "duplicate orders would make the eigenproblem singular for particular lattices only", "anchors": ["src/fmmax/basis.py:generate_expansion"]}
{"id": "C05", "title": "Generated expansions are sorted by wavevector magnitude", "statement": "The orders of an expansion returned by generate_expansion have non-decreasing reciprocal-vector magnitude.", "quantifier": "all lattice vectors, term counts, truncations", "why_tests_cant": "quantifies over real lattices", "anchors": ["src/fmmax/basis.py:generate_expansion"]}
{"id": "C06", "title": "Generated expansions are symmetric under negation", "statement": "If (m, n) is in an expansion returned by generate_expansion then so is (-m, -n) (the docstring: 'to maintain a symmetric expansion').", "quantifier": "all lattice vectors, term counts, truncations", "why_tests_cant": "fails only for odd counts on strongly anisotropic cells, which tests never sample", "anchors": ["src/fmmax/basis.py:generate_expansion", "src/fmmax/basis.py:_basis_coefficients_circular"]}
{"id": "C07", "title": "Circular truncation keeps exactly the vectors inside the circle", "statement": "With circular truncation, an integer pair is in the expansion if and only if its reciprocal vector has magnitude smaller than sqrt(N |u' x v'| / pi), where N is the requested number of terms.", "quantifier": "all lattice vectors and all requested counts, all integer pairs", "why_tests_cant": "an infinite set of integer pairs for every real lattice", "anchors": ["src/fmmax/basis.py:_basis_coefficients_circular"]}
{"id": "C08", "title": "Parallelogramic truncation is a full centred box of about the requested size", "statement": "With parallelogramic truncation the expansion is a permutation of the box |m| <= nu, |n| <= nv, where the un-rounded box satisfies (2nu+1)(2nv+1) = N with nu |u'| = nv |v'|, and each side is the nearest integer to it (the even one when two are equally near).", "quantifier": "all lattice vectors and requested counts >= 1", "why_tests_cant": "real-valued quadratic and rounding; tests sample two lattices", "anchors": ["src/fmmax/basis.py:_basis_coefficients_parallelogramic"]}
{"id": "C09", "title": "Requesting more terms never yields fewer", "statement": "For a fixed lattice and truncation, num_terms of the generated expansion is non-decreasing in approximate_num_terms; for either truncation the set of orders itself only grows.", "quantifier": "all lattices, all pairs of counts N <= N'", "why_tests_cant": "tests check a finite range of counts on two lattices", "anchors": ["src/fmmax/basis.py:generate_expansion"]}
{"id": "C10", "title": "Brillouin-zone grid is a centred regular sampling of the first zone", "statement": "brillouin_zone_in_plane_wavevector((nx, ny), lattice) returns nx x ny wavevectors 2 pi (s_i u' + t_j v') with s_i = (i + 1/2)/nx - 1/2, t_j = (j + 1/2)/ny - 1/2: strictly inside the zone, symmetric under inversion, and no two equivalent modulo the reciprocal lattice.", "quantifier": "all positive grid shapes and all lattices", "why_tests_cant": "holds for every grid shape and lattice", "anchors": ["src/fmmax/basis.py:brillouin_zone_in_plane_wavevector"]}
{"id": "C11", "title": "Non-positive Brillouin grid shapes are rejected", "statement": "brillouin_zone_in_plane_wavevector raises ValueError whenever either entry of brillouin_grid_shape is smaller than one.", "quantifier": "all integer pairs", "why_tests_cant": "validity is decided by a tuple comparison; tests list a few invalid shapes", "anchors": ["src/fmmax/basis.py:brillouin_zone_in_plane_wavevector"]}
{"id": "C12", "title": "Transverse wavevectors are the Bloch orders of the in-plane wavevector", "statement": "transverse_wavevectors returns k0 + G for every order G of the expansion; the (0,0) order is k0 itself, and every returned wavevector produces the same phase factor as k0 under translation by any lattice vector.", "quantifier": "all lattices, in-plane wavevectors, expansions and all lattice translations", "why_tests_cant": "infinitely many translations and orders", "anchors": ["src/fmmax/basis.py:transverse_wavevectors"]}
{"id": "C13", "title": "Plane-wave wavevectors and far-field angles are inverse", "statement": "For polar angle in (0, pi/2] and azimuth in (-pi, pi], the far-field angles computed from plane_wave_in_plane_wavevector in vacuum are the same polar and azimuthal angles; in any medium the wavevector has magnitude omega sin(theta) sqrt(Re eps).", "quantifier": "all wavelengths, angles, permittivities", "why_tests_cant": "continuum of angles incl. branch boundaries", "anchors": ["src/fmmax/basis.py:plane_wave_in_plane_wavevector", "src/fmmax/farfield.py:angles_from_unflattened_transverse_wavevectors"]}
{"id": "C14", "title": "Unit-cell coordinates tile the plane by lattice translations", "statement": "unit_cell_coordinates returns x,y such that moving one full cell along either grid axis changes (x, y) by exactly the corresponding lattice vector, starting at the origin, with the documented grid shape.", "quantifier": "all grid shapes, numbers of cells and lattices", "why_tests_cant": "all sizes", "anchors": ["src/fmmax/basis.py:unit_cell_coordinates"]}
{"id": "C15", "title": "Fourier round trip", "statement": "For every expansion with distinct orders and every grid shape accepted by validation, fft(ifft(y)) = y.", "quantifier": "all expansions, shapes, coefficient arrays", "why_tests_cant": "all sizes; negative-index wrap-around and aliasing corner cases at the minimum shape", "anchors": ["src/fmmax/fft.py:fft", "src/fmmax/fft.py:ifft", "src/fmmax/fft.py:_validate_shape_for_expansion"]}
{"id": "C16", "title": "ifft evaluates the Fourier series", "statement": "ifft(y) at grid point (r, s) equals the sum over orders of y_j exp(2 pi i (m_j r / nx + n_j s / ny)); no scatter index is out of bounds or hits the same cell twice.", "quantifier": "all expansions with distinct orders, accepted shapes, coefficient arrays", "why_tests_cant": "all sizes", "anchors": ["src/fmmax/fft.py:ifft"]}
{"id": "C17", "title": "Convolution matrix entries are the Fourier coefficients at order differences", "statement": "fourier_convolution_matrix(x)[i, j] equals the Fourier coefficient of x at order G_i - G_j, and the gather indices are always in bounds for accepted shapes.", "quantifier": "all arrays, shapes and expansions", "why_tests_cant": "in-boundness is an extremal property over expansions", "anchors": ["src/fmmax/fft.py:fourier_convolution_matrix", "src/fmmax/fft.py:_standard_toeplitz_indices"]}
{"id": "C18", "title": "Convolution theorem", "statement": "fourier_convolution_matrix(x) @ y equals fft(x * ifft(y)): multiplication by x in real space, restricted to the expansion.", "quantifier": "all arrays x, coefficient arrays y, expansions with distinct orders, accepted shapes", "why_tests_cant": "identity over all arrays and sizes", "anchors": ["src/fmmax/fft.py:fourier_convolution_matrix", "src/fmmax/fft.py:fft", "src/fmmax/fft.py:ifft"]}
{"id": "C19", "title": "Grid-shape validation accepts exactly the alias-free shapes", "statement": "fft, ifft and fourier_convolution_matrix raise ValueError exactly when the grid is smaller than 2 max|m| + 1 along an axis; for accepted shapes distinct orders never alias.", "quantifier": "all expansions and shapes", "why_tests_cant": "exactness is a two-sided claim over all sizes", "anchors": ["src/fmmax/fft.py:_validate_shape_for_expansion", "src/fmmax/fft.py:min_array_shape_for_expansion"]}
{"id": "C20", "title": "Convolution matrices inherit structure from the material", "statement": "The convolution matrix of a constant array c is c times the identity; of conj(x) it is the conjugate transpose; of an array with positive real part it has positive real quadratic form and hence is invertible (so the eigensolve setup never divides by a singular matrix for such media).", "quantifier": "all arrays and expansions", "why_tests_cant": "spectral property for every array", "anchors": ["src/fmmax/fft.py:fourier_convolution_matrix", "src/fmmax/fmm_matrices.py:transverse_permittivity_vector", "src/fmmax/fmm_matrices.py:script_k_matrix_patterned"]}
{"id": "C21", "title": "Eigenvalue branch selection", "statement": "Every eigenvalue q returned by an eigensolve satisfies q^2 = the computed squared eigenvalue, Im q >= 0, and Re q >= 0 when Im q = 0; so forward modes never grow along +z and evanescent modes decay.", "quantifier": "all complex squared eigenvalues", "why_tests_cant": "branch cut of the complex square root", "anchors": ["src/fmmax/fmm.py:_select_eigenvalues_sign", "src/fmmax/fmm.py:_eigensolve_uniform_isotropic_media", "src/fmmax/fmm.py:_numerical_eigensolve"]}
{"id": "C22", "title": "Analytic uniform solution solves the general eigenproblem", "statement": "For a uniform isotropic layer the eigenvalues and eigenvectors returned analytically satisfy the eigenvalue equation that the numerical path would build for the same layer.", "quantifier": "all wavelengths, wavevectors, lattices, expansions, non-zero permittivities", "why_tests_cant": "tests compare floats for a few layers", "anchors": ["src/fmmax/fmm.py:_eigensolve_uniform_isotropic_media", "src/fmmax/fmm.py:_numerical_eigensolve", "src/fmmax/fmm_matrices.py:script_k_matrix_patterned", "src/fmmax/fmm_matrices.py:k_matrix_patterned"]}
{"id": "C23", "title": "A constant pattern behaves as a uniform layer in every formulation", "statement": "If the permittivity array is constant, the Fourier matrices of the patterned eigensolve equal those of the uniform eigensolve with that permittivity, for the FFT formulation and for vector formulations with any tangent field.", "quantifier": "all non-zero constants, grid shapes, expansions, tangent fields", "why_tests_cant": "all tangent fields incl. custom callables", "anchors": ["src/fmmax/fmm.py:fourier_matrices_patterned_isotropic_media", "src/fmmax/fmm_matrices.py:transverse_permittivity_vector", "src/fmmax/fmm_matrices.py:transverse_permittivity_fft"]}
{"id": "C24", "title": "Anisotropic solver restricted to scalar media agrees with the isotropic solver", "statement": "With permittivity tensor eps*1 and unit permeability, the anisotropic eigensolves (uniform, and patterned FFT) build the same matrices as the isotropic ones; with the vector formulation and a constant unit tangent field they reproduce the constant tensor exactly.", "quantifier": "all permittivity arrays, expansions", "why_tests_cant": "all arrays", "anchors": ["src/fmmax/fmm.py:eigensolve_anisotropic_media", "src/fmmax/fmm_matrices.py:transverse_permittivity_fft_anisotropic", "src/fmmax/fmm_matrices.py:transverse_permittivity_vector_anisotropic"]}
{"id": "C25", "title": "Fields inside a layer satisfy Maxwell's equations", "statement": "For a layer whose eigenpairs satisfy the solver's eigenvalue equation, the transverse fields obtained from propagated wave amplitudes satisfy, at every z, the truncated Maxwell equations relating dE/dz to H and dH/dz to E, with z-components from the z-permittivity and z-permeability matrices.", "quantifier": "all layers, amplitudes and z", "why_tests_cant": "differential equation at every z", "anchors": ["src/fmmax/fields.py:fields_from_wave_amplitudes", "src/fmmax/fields.py:colocate_amplitudes", "src/fmmax/fmm.py:_numerical_eigensolve", "src/fmmax/fmm_matrices.py:omega_script_k_matrix_patterned"]}
{"id": "C26", "title": "Curl-divergence identity of the k matrices", "statement": "For every z-permittivity and z-permeability matrix and wavevectors, k_matrix @ script_k_matrix = 0 and script_k_matrix @ k_matrix = 0.", "quantifier": "all matrices and wavevectors", "why_tests_cant": "all sizes", "anchors": ["src/fmmax/fmm_matrices.py:script_k_matrix_patterned", "src/fmmax/fmm_matrices.py:k_matrix_patterned"]}
{"id": "C27", "title": "Tangent terms form an orthogonal projector", "statement": "Wherever the tangent field is not negligible the terms (Pxx, Pxy, Pyx, Pyy) form a Hermitian rank-one projector that does not depend on the length or phase of the tangent vector; where it is negligible no division by zero occurs.", "quantifier": "all complex tangent vectors", "why_tests_cant": "threshold behaviour of isclose", "anchors": ["src/fmmax/fmm_matrices.py:_tangent_terms"]}
{"id": "C28", "title": "Inputs are validated and ranks aligned before the eigensolve", "statement": "The isotropic and anisotropic eigensolve entry points raise ValueError exactly when the shapes of wavelength, wavevector and permittivities are not batch-compatible (or the wavevector is not length 2, or permittivities differ in shape); on success all arguments are given equal batch rank with unchanged elements.", "quantifier": "all shapes", "why_tests_cant": "unbounded shapes", "anchors": ["src/fmmax/fmm.py:_validate_and_broadcast", "src/fmmax/utils.py:batch_compatible_shapes", "src/fmmax/utils.py:atleast_nd"]}
{"id": "C29", "title": "Scattering matrix is sound for every stack", "statement": "Whenever wave amplitudes in all layers make tangential E and H continuous across every interface, the outgoing amplitudes of the stack equal the S-matrix returned by stack_s_matrix applied to the incoming amplitudes.", "quantifier": "all stacks of any length, all layer modes, thicknesses, amplitudes", "why_tests_cant": "induction over stacks of unbounded length", "anchors": ["src/fmmax/scattering.py:stack_s_matrix", "src/fmmax/scattering.py:_extend_s_matrix", "src/fmmax/scattering.py:_pair_s_matrix"]}
{"id": "C30", "title": "Scattering matrix is complete for every stack", "statement": "For any incoming amplitudes there exist interior amplitudes satisfying all continuity conditions whose outgoing parts are those given by the S-matrix, and they are unique.", "quantifier": "all stacks, all incoming amplitudes", "why_tests_cant": "existence and uniqueness", "anchors": ["src/fmmax/scattering.py:stack_s_matrix"]}
{"id": "C31", "title": "Appending and prepending layers equals solving the larger stack", "statement": "append_layer(stack_s_matrix(layers), l) equals stack_s_matrix(layers + [l]) and prepend_layer(stack_s_matrix(layers), l) equals stack_s_matrix([l] + layers), so any order of building a stack gives the same S-matrix.", "quantifier": "all stacks and all build orders", "why_tests_cant": "arbitrary interleavings of append and prepend", "anchors": ["src/fmmax/scattering.py:append_layer", "src/fmmax/scattering.py:prepend_layer"]}
{"id": "C32", "title": "Scan and loop give the same scattering matrix", "statement": "stack_s_matrix_scan returns the same S-matrix as stack_s_matrix for every stack, including a single layer, and both reject mismatched lengths.", "quantifier": "all stacks", "why_tests_cant": "any length", "anchors": ["src/fmmax/scattering.py:stack_s_matrix_scan", "src/fmmax/scattering.py:stack_s_matrix"]}
{"id": "C33", "title": "Interior scattering matrices describe the substacks", "statement": "stack_s_matrices_interior returns one pair per layer, whose i-th 'before' matrix is that of the substack 0..i and whose i-th 'after' matrix is that of the substack i..N.", "quantifier": "all stacks and all i", "why_tests_cant": "any length", "anchors": ["src/fmmax/scattering.py:stack_s_matrices_interior"]}
{"id": "C34", "title": "Star product concatenates stacks", "statement": "redheffer_star_product(S(A), S(B)) equals the S-matrix of the concatenated stack A + B; hence it is associative.", "quantifier": "all stacks A, B", "why_tests_cant": "any length", "anchors": ["src/fmmax/scattering.py:redheffer_star_product"]}
{"id": "C35", "title": "Changing end or start thickness equals rebuilding the stack", "statement": "set_end_layer_thickness / set_start_layer_thickness return the S-matrix stack_s_matrix would return with the last / first thickness replaced.", "quantifier": "all stacks, thicknesses", "why_tests_cant": "any stack", "anchors": ["src/fmmax/scattering.py:set_end_layer_thickness", "src/fmmax/scattering.py:set_start_layer_thickness"]}
{"id": "C36", "title": "Trivial stacks", "statement": "A single layer has the identity S-matrix; a stack of identical layers has zero reflection and transmits exactly the accumulated phase exp(i q (sum of thicknesses)).", "quantifier": "all layers, any number of repetitions and thicknesses", "why_tests_cant": "any length", "anchors": ["src/fmmax/scattering.py:stack_s_matrix"]}
{"id": "C37", "title": "Splitting a layer leaves the stack unchanged", "statement": "Replacing a layer of thickness d by two layers of the same material with thicknesses d1 + d2 = d anywhere inside a stack does not change the external scattering behaviour.", "quantifier": "all stacks, positions and splits", "why_tests_cant": "any position and split", "anchors": ["src/fmmax/scattering.py:stack_s_matrix"]}
{"id": "C38", "title": "Physics is independent of eigenmode ordering and normalisation", "statement": "Permuting or rescaling the eigenmodes of interior layers leaves the S-matrix between the outer layers unchanged; doing so for an outer layer transforms the amplitudes correspondingly.", "quantifier": "all permutations, nonzero scalings and stacks", "why_tests_cant": "all permutations", "anchors": ["src/fmmax/scattering.py:stack_s_matrix", "src/fmmax/scattering.py:append_layer"]}
{"id": "C39", "title": "Amplitude propagation is a group action that never amplifies", "statement": "Propagating amplitudes by d1 then d2 equals propagating by d1 + d2, propagating by 0 is the identity; with Im q >= 0 a non-negative distance never increases any mode's magnitude.", "quantifier": "all amplitudes, distances, layers", "why_tests_cant": "continuum", "anchors": ["src/fmmax/fields.py:propagate_amplitude", "src/fmmax/fields.py:colocate_amplitudes"]}
{"id": "C40", "title": "Interior amplitudes satisfy all interface conditions", "statement": "The amplitudes returned by stack_amplitudes_interior for the matrices of stack_s_matrices_interior reproduce the given incoming amplitudes and make tangential E and H continuous at every interface.", "quantifier": "all stacks and incoming amplitudes", "why_tests_cant": "any length", "anchors": ["src/fmmax/fields.py:stack_amplitudes_interior", "src/fmmax/fields.py:amplitudes_interior", "src/fmmax/scattering.py:stack_s_matrices_interior"]}
{"id": "C41", "title": "Power accounting is consistent", "statement": "Forward plus backward flux of amplitude_poynting_flux, and of directional_poynting_flux, both equal the net flux Re(conj(E) H) of the total field order by order; eigenmode_poynting_flux equals the summed amplitude flux of a one-hot amplitude.", "quantifier": "all layers and amplitudes", "why_tests_cant": "algebraic identity over all amplitudes", "anchors": ["src/fmmax/fields.py:amplitude_poynting_flux", "src/fmmax/fields.py:directional_poynting_flux", "src/fmmax/fields.py:eigenmode_poynting_flux"]}
{"id": "C42", "title": "Energy is conserved in lossless structures", "statement": "For layers with Hermitian permittivity and permeability (e.g. FFT formulation with real permittivity) the total flux is the same at every z of every layer of the stack, so reflected plus transmitted power equals incident power.", "quantifier": "all lossless stacks, amplitudes and z", "why_tests_cant": "any stack, any z", "anchors": ["src/fmmax/fields.py:amplitude_poynting_flux", "src/fmmax/scattering.py:stack_s_matrix", "src/fmmax/fmm_matrices.py:transverse_permittivity_fft"]}
{"id": "C43", "title": "Passive structures never create energy", "statement": "For layers whose permittivity and permeability have non-negative loss, the net flux is non-increasing along +z throughout the stack.", "quantifier": "all passive stacks, amplitudes and z", "why_tests_cant": "any stack, any z", "anchors": ["src/fmmax/fields.py:amplitude_poynting_flux", "src/fmmax/scattering.py:stack_s_matrix"]}
{"id": "C44", "title": "Fields on the grid agree with fields at coordinates and are Bloch periodic", "statement": "fields_on_grid returns at every grid point the value fields_on_coordinates returns at that point's coordinates, and shifting by one unit cell multiplies the field by exp(i k0 . R).", "quantifier": "all layers, shapes, numbers of cells", "why_tests_cant": "all sizes", "anchors": ["src/fmmax/fields.py:fields_on_grid", "src/fmmax/fields.py:fields_on_coordinates"]}
{"id": "C45", "title": "Stack field z-coordinates are monotone and match layer boundaries", "statement": "The z returned by stack_fields_3d is non-decreasing, has one entry per requested gridpoint, and each layer's entries run from the summed thickness of the preceding layers to that plus its own thickness.", "quantifier": "all thickness sequences >= 0 and gridpoint counts", "why_tests_cant": "any number of layers", "anchors": ["src/fmmax/fields.py:_stack_fields_3d", "src/fmmax/fields.py:_layer_fields_3d"]}
{"id": "C46", "title": "Batch flattening in 3D field computation is lossless", "statement": "The element of the returned 3D field at (x, y, z_k, amplitude n) is the field computed from amplitude column n propagated to z_k: flattening and unflattening of the z and amplitude axes never mixes columns.", "quantifier": "all numbers of z points and amplitudes", "why_tests_cant": "index arithmetic for all sizes", "anchors": ["src/fmmax/fields.py:_layer_fields_3d"]}
{"id": "C47", "title": "amplitudes_for_fields inverts field computation", "statement": "Computing amplitudes from fields evaluated on a grid from given forward and backward amplitudes returns the same amplitudes (single unit cell), whenever the mode-to-field matrix is invertible.", "quantifier": "all layers, shapes accepted, amplitudes", "why_tests_cant": "all sizes", "anchors": ["src/fmmax/sources.py:amplitudes_for_fields", "src/fmmax/fields.py:fields_on_grid", "src/fmmax/fields.py:fields_from_wave_amplitudes"]}
{"id": "C48", "title": "Supercell fields decompose into Brillouin-zone amplitudes", "statement": "For a field on a supercell that is the average over a Brillouin grid of Bloch fields, amplitudes_for_fields recovers every Bloch component without cross-talk.", "quantifier": "all Brillouin grid shapes, lattices, coefficient sets", "why_tests_cant": "orthogonality for all grid sizes", "anchors": ["src/fmmax/sources.py:amplitudes_for_fields", "src/fmmax/basis.py:brillouin_zone_in_plane_wavevector"]}
{"id": "C49", "title": "Internal sources produce the prescribed field jump", "statement": "The amplitudes returned by amplitudes_for_source satisfy the jump conditions of the source currents at the source plane, with no incoming waves from outside, and are consistent with both scattering matrices.", "quantifier": "all stacks before/after, all currents", "why_tests_cant": "any stack", "anchors": ["src/fmmax/sources.py:amplitudes_for_source", "src/fmmax/sources.py:emission_matrix", "src/fmmax/sources.py:polarization_terms"]}
{"id": "C50", "title": "Point and Gaussian sources", "statement": "dirac_delta_source coefficients are unit modulus and shift by the Bloch phase when the location is moved by a lattice vector; gaussian_source with zero width equals dirac_delta_source and is never larger in magnitude.", "quantifier": "all locations, lattices, expansions", "why_tests_cant": "all lattice translations", "anchors": ["src/fmmax/sources.py:dirac_delta_source", "src/fmmax/sources.py:gaussian_source"]}
{"id": "C51", "title": "PML leaves the interior unchanged", "statement": "With exponent p > 0, outside the PML region apply_uniaxial_pml returns exactly the given permittivity (isotropic) and unit permeability; inside it the permittivity is extended from the nearest interior point.", "quantifier": "all permittivity arrays, shapes, widths", "why_tests_cant": "all sizes", "anchors": ["src/fmmax/pml.py:apply_uniaxial_pml", "src/fmmax/pml.py:_crop_and_edge_pad_pml_region", "src/fmmax/pml.py:_normalized_distance_into_pml"]}
{"id": "C52", "title": "PML is impedance matched and free of singularities", "statement": "Everywhere, permittivity tensor = cropped permittivity times permeability tensor, off-diagonals vanish, eps_xx eps_yy = eps^2, and for non-negative strength parameters no division by zero occurs.", "quantifier": "all arrays, widths, parameters", "why_tests_cant": "all sizes and parameters", "anchors": ["src/fmmax/pml.py:apply_uniaxial_pml"]}
{"id": "C53", "title": "PML distance profile", "statement": "The normalised distance is 0 in the interior, 1 at the outermost cells, mirror symmetric, monotone, and within [0, 1].", "quantifier": "all shapes and widths with 2w < n", "why_tests_cant": "all sizes", "anchors": ["src/fmmax/pml.py:_normalized_distance_into_pml"]}
{"id": "C54", "title": "PML widths are validated", "statement": "apply_uniaxial_pml succeeds exactly when twice the PML width is smaller than the array along both axes, and raises ValueError otherwise.", "quantifier": "all shapes and widths", "why_tests_cant": "tuple comparison is lexicographic", "anchors": ["src/fmmax/pml.py:_crop_and_edge_pad_pml_region"]}
{"id": "C55", "title": "Beam rotation matrix is a proper rotation with the documented axis", "statement": "rotation_matrix is orthogonal with determinant 1, maps the z axis to (sin t cos p, sin t sin p, cos t) for every polarization angle, and varying polarization composes as rotation about that axis.", "quantifier": "all angles", "why_tests_cant": "continuum", "anchors": ["src/fmmax/beams.py:rotation_matrix"]}
{"id": "C56", "title": "Shifted rotated fields preserve field geometry", "statement": "shifted_rotated_fields preserves pointwise norms and the angle between E and H, evaluates field_fn at the un-rotated relative position, and is the identity for zero angles and origin.", "quantifier": "all field functions, coordinates, angles, origins", "why_tests_cant": "all functions", "anchors": ["src/fmmax/beams.py:shifted_rotated_fields"]}
{"id": "C57", "title": "Field normalisations have the documented magnitude", "statement": "normalize returns a field of maximum magnitude one unless the input is negligible; normalize_elementwise returns magnitude one wherever the input is not negligible; neither divides by zero; all are idempotent.", "quantifier": "all complex vector fields on all grids", "why_tests_cant": "threshold behaviour and max over all sizes", "anchors": ["src/fmmax/vector.py:normalize", "src/fmmax/vector.py:normalize_elementwise", "src/fmmax/vector.py:_field_magnitude"]}
{"id": "C58", "title": "Jones normalisation yields unit Jones vectors", "statement": "normalize_jones of a real vector field returns unit-magnitude Jones vectors everywhere, linearly polarised along the field where the field has maximal magnitude and circularly polarised where it vanishes.", "quantifier": "all real vector fields", "why_tests_cant": "all fields", "anchors": ["src/fmmax/vector.py:normalize_jones"]}
{"id": "C59", "title": "Tangent-field gradient is the lattice gradient and is scale free", "statement": "compute_gradient returns the vector whose components along the (area-normalised) lattice directions are the periodic central differences; it vanishes on constants, is linear, translation equivariant and unchanged when the unit cell is uniformly scaled.", "quantifier": "all arrays, shapes, lattices, scalings", "why_tests_cant": "all sizes", "anchors": ["src/fmmax/vector.py:compute_gradient", "src/fmmax/vector.py:_transform_gradient"]}
{"id": "C60", "title": "Tangent field is independent of unit-cell scale, permittivity offset and contrast", "statement": "compute_tangent_field is unchanged when the lattice is uniformly scaled, when a constant is added to the array, and when the array is multiplied by a positive constant (outside the negligible-contrast threshold).", "quantifier": "all arrays, lattices, scalings", "why_tests_cant": "documented invariance for all inputs", "anchors": ["src/fmmax/vector.py:compute_tangent_field", "src/fmmax/vector.py:_compute_tangent_field_no_batch"]}
{"id": "C61", "title": "For 1D patterns the tangent field is perpendicular to the gradient", "statement": "If the pattern's gradient has a single direction everywhere, the returned tangent field is perpendicular to that direction.", "quantifier": "all gradient directions", "why_tests_cant": "tests only use axis-aligned gratings", "anchors": ["src/fmmax/vector.py:_compute_tangent_field_no_batch", "src/fmmax/vector.py:_is_1d_field"]}
{"id": "C62", "title": "Unflattening is a lossless rearrangement", "statement": "unflatten writes every (Brillouin point, order) value to its own cell, inside the output shape, and marks every other cell nan; so each flat value appears exactly once.", "quantifier": "all expansions with distinct orders, all Brillouin grid shapes", "why_tests_cant": "injectivity for all sizes", "anchors": ["src/fmmax/farfield.py:unflatten"]}
{"id": "C63", "title": "Unflattened wavevectors form one regular grid", "statement": "Unflattening the transverse wavevectors of a Brillouin grid yields values k(I, J) that are affine in (I, J) with steps 2 pi u'/nx and 2 pi v'/ny, so neighbouring cells are neighbouring wavevectors.", "quantifier": "all lattices, expansions and Brillouin shapes", "why_tests_cant": "all sizes", "anchors": ["src/fmmax/farfield.py:unflatten_transverse_wavevectors", "src/fmmax/basis.py:brillouin_zone_in_plane_wavevector", "src/fmmax/basis.py:transverse_wavevectors"]}
{"id": "C64", "title": "unflatten_flux keeps polarization and sources aligned", "statement": "For every array rank and position of the Brillouin axes (given in increasing order), unflatten_flux places flux[..., pol*num_terms + t, s] at [..., kx, ky, pol, s].", "quantifier": "all ranks, axes positions, sizes", "why_tests_cant": "all ranks and axis positions", "anchors": ["src/fmmax/farfield.py:unflatten_flux"]}
{"id": "C65", "title": "Far-field polar angles are well defined", "statement": "Polar angles lie in [0, pi/2]; evanescent orders get pi/2; for propagating orders omega sin(polar) (cos az, sin az) reproduces the transverse wavevector.", "quantifier": "all wavevectors and wavelengths", "why_tests_cant": "continuum", "anchors": ["src/fmmax/farfield.py:angles_from_unflattened_transverse_wavevectors"]}
{"id": "C66", "title": "Integrating over all angles gives the total flux", "statement": "integrated_flux with an angle_bounds_fn that selects everything equals the plain sum of the flux, for every upsampling factor; the reduction to weights obtained by differentiation is exact; and integration is additive over disjoint angular regions.", "quantifier": "all flux arrays, expansions, Brillouin grids, upsample factors, bounds functions", "why_tests_cant": "all sizes and factors", "anchors": ["src/fmmax/farfield.py:integrated_flux", "src/fmmax/farfield.py:_integrated_flux_weights", "src/fmmax/farfield.py:_integrated_flux_upsampled"]}
{"id": "C67", "title": "Batch compatibility is exactly broadcastability", "statement": "batch_compatible_shapes returns True if and only if the shapes (with positive dimensions) can be broadcast together under numpy rules.", "quantifier": "all finite collections of shapes", "why_tests_cant": "all ranks and collections", "anchors": ["src/fmmax/utils.py:batch_compatible_shapes"]}
{"id": "C68", "title": "absolute_axes normalises or rejects", "statement": "absolute_axes returns, exactly when all axes are within [-ndim, ndim) and refer to distinct axes, the equivalent non-negative axes; otherwise it raises ValueError; it is idempotent.", "quantifier": "all axis tuples and ranks", "why_tests_cant": "all ranks", "anchors": ["src/fmmax/utils.py:absolute_axes"]}
{"id": "C69", "title": "Permittivity interpolation avoids zero crossings", "statement": "interpolate_permittivity returns the void and solid permittivities at density 0 and 1, and for any nonzero permittivities and density in [0, 1] never returns zero.", "quantifier": "all nonzero complex permittivities, densities in [0,1]", "why_tests_cant": "branch cut and convexity over a continuum", "anchors": ["src/fmmax/utils.py:interpolate_permittivity"]}
{"id": "C70", "title": "Eigendecomposition gradients", "statement": "The backward rule of eig is finite for degenerate eigenvalues, and with zero broadening and distinct eigenvalues it is the exact adjoint of the derivative of the eigenvalues and norm-preserving eigenvectors.", "quantifier": "all diagonalisable matrices and cotangents", "why_tests_cant": "all matrices and sizes", "anchors": ["src/fmmax/utils.py:_eig_bwd", "src/fmmax/utils.py:eig"]}
{"id": "C71", "title": "Expansion objects hash consistently", "statement": "Two integer-valued expansions that compare equal as jit static metadata have equal hashes, different expansions are hashed from different keys, equality is an equivalence relation, and flattening then unflattening any registered object returns an equal object.", "quantifier": "all coefficient arrays", "why_tests_cant": "all arrays", "anchors": ["src/fmmax/basis.py:_HashableArray", "src/fmmax/basis.py:unflatten_expansion", "src/fmmax/pml.py:PMLParams"]}
{"id": "C72", "title": "Solid-angle cells", "statement": "For a regular grid of transverse wavevectors, the solid angle of every interior propagating cell is the exact cell area (in units of the free-space wavevector) divided by cos(polar).", "quantifier": "all regular grids", "why_tests_cant": "all sizes", "anchors": ["src/fmmax/farfield.py:solid_angle_from_unflattened_transverse_wavevectors"]}
{"id": "C73", "title": "Reoriented beams remain solutions of Maxwell's equations", "statement": "If the field function passed to shifted_rotated_fields solves the time-harmonic Maxwell equations in a homogeneous medium, so do the returned fields, for every origin and all rotation angles.", "quantifier": "all field functions, origins, angles", "why_tests_cant": "continuum of fields", "anchors": ["src/fmmax/beams.py:shifted_rotated_fields"]}
{"id": "C74", "title": "Newton step reaches the exact minimiser of the tangent-field loss", "statement": "One Newton step of the tangent field computation, from any starting field, reaches the unique global minimiser of the field loss; further steps and other starting points give the same field; the step is solvable whenever a penalty weight is positive.", "quantifier": "all expansions, lattices, target fields, weights and starting points", "why_tests_cant": "a continuum of fields and all sizes", "anchors": ["src/fmmax/vector.py:compute_tangent_field", "src/fmmax/vector.py:field_loss_value_jac_and_hessian", "src/fmmax/vector.py:_field_loss"]}
{"id": "C75", "title": "Every named vector field scheme returns a finite field", "statement": "For every array, every expansion with distinct orders resolved by the grid and every non-degenerate lattice, each scheme in VECTOR_FIELD_SCHEMES returns a finite field.", "quantifier": "all arrays, shapes, expansions and lattices", "why_tests_cant": "all arrays", "anchors": ["src/fmmax/vector.py:VECTOR_FIELD_SCHEMES", "src/fmmax/vector.py:compute_tangent_field"]}
{"id": "C76", "title": "Constructors validate shapes", "statement": "LatticeVectors (jax arrays), Expansion and LayerSolveResult are constructed exactly if the shapes of their attributes have the documented ranks and agree axis by axis up to broadcasting, and amplitudes are accepted exactly if they have two trailing axes with one entry for each mode and are mutually broadcastable; in all other cases ValueError is raised.", "quantifier": "all tuples of shapes", "why_tests_cant": "all ranks and sizes", "anchors": ["src/fmmax/basis.py:LatticeVectors.__post_init__", "src/fmmax/basis.py:Expansion.__post_init__", "src/fmmax/fmm.py:LayerSolveResult.__post_init__", "src/fmmax/fields.py:_validate_amplitudes_shape"]}
{"id": "C77", "title": "Transverse wavevectors with batch dimensions", "statement": "For in-plane wavevectors with any batch shape and a single lattice given with any number of leading unit axes, transverse_wavevectors has the batch shape followed by (num_terms, 2), and each entry exceeds the in-plane wavevector of its own batch element by the order's reciprocal lattice vector.", "quantifier": "all batch shapes, lattices, expansions", "why_tests_cant": "all ranks and sizes", "anchors": ["src/fmmax/basis.py:transverse_wavevectors"]}
{"id": "C78", "title": "Far-field profile", "statement": "farfield_profile returns, for every batch element and wherever the Brillouin axes are placed, the angles of each order's plane wave and the flux divided by the solid angle, with nan in cells without an order and for evanescent orders; on a Brillouin grid the profile of a propagating order away from missing orders is flux * nx * ny * |u x v| * cos(polar) / wavelength^2, divided by the cell fraction at the rim of the grid.", "quantifier": "all ranks, batch shapes, axes, lattices, expansions, wavelengths", "why_tests_cant": "all ranks and sizes, continuum of values", "anchors": ["src/fmmax/farfield.py:farfield_profile", "src/fmmax/farfield.py:angles_from_unflattened_transverse_wavevectors", "src/fmmax/farfield.py:solid_angle_from_unflattened_transverse_wavevectors"]}
{"id": "C79", "title": "Automatic real-space grid", "statement": "For a positive spacing, stack_fields_3d_auto_grid returns exactly what stack_fields_3d returns for the nearest numbers of gridpoints along each lattice vector and in each layer; the in-plane spacing is the requested one up to a factor 1 +- 1/(2 n), and within a layer with m >= 2 points the spacing is between (m - 1/2)/(m - 1) and (m + 1/2)/(m - 1) times the requested one.", "quantifier": "all stacks, thicknesses, lattices, spacings", "why_tests_cant": "continuum of dimensions", "anchors": ["src/fmmax/fields.py:stack_fields_3d_auto_grid"]}
{"id": "C80", "title": "Tangent fields are computed per batch element", "statement": "compute_tangent_field, for arrays with any batch shape and lattice vectors whose batch shape can be broadcast to it, returns for each batch element the tangent field of that element's array with that element's lattice.", "quantifier": "all batch shapes, arrays, lattices, expansions, weights", "why_tests_cant": "all ranks and sizes", "anchors": ["src/fmmax/vector.py:compute_tangent_field"]}
{"id": "C81", "title": "Scattering matrices exist exactly without resonances", "statement": "For layers with finite independent modes at one wavelength, stack_s_matrix succeeds if and only if no leading part of the stack has a resonance, i.e. a source-free field with outgoing waves only; append_layer, prepend_layer and redheffer_star_product likewise. In particular every stack whose layers absorb (or whose first layer absorbs and the others are passive with outgoing modes) has a scattering matrix, and every way of assembling it succeeds.", "quantifier": "all stacks, thicknesses, numbers of layers, expansions", "why_tests_cant": "a continuum of stacks; singularity cannot be sampled", "anchors": ["src/fmmax/scattering.py:stack_s_matrix", "src/fmmax/scattering.py:_extend_s_matrix", "src/fmmax/scattering.py:prepend_layer", "src/fmmax/scattering.py:redheffer_star_product"]}
{"id": "C82", "title": "Supercell shapes of amplitudes_for_fields", "statement": "amplitudes_for_fields accepts fields exactly if all have the same shape, their batch axes can be broadcast with those of the layer, and their grid is divided evenly by the Brillouin grid, which is the batch shape of the layer along the given axes (negative axes counted from the end of the fields); otherwise it raises ValueError or IndexError.", "quantifier": "all shapes, ranks, axes", "why_tests_cant": "all ranks and sizes", "anchors": ["src/fmmax/sources.py:amplitudes_for_fields"]}
{"id": "C83", "title": "Point and Gaussian sources with batch dimensions", "statement": "For in-plane wavevectors with any batch shape, dirac_delta_source and gaussian_source have shape batch + (num_terms, num_sources) and give for every batch element the coefficients for its own in-plane wavevector, source location and width; locations not of shape (num_sources, 2) or wavevectors not of two components raise ValueError.", "quantifier": "all batch shapes, locations, widths, lattices, expansions", "why_tests_cant": "all ranks and sizes", "anchors": ["src/fmmax/sources.py:dirac_delta_source", "src/fmmax/sources.py:gaussian_source"]}
{"id": "C84", "title": "The result does not depend on how a structure is described", "statement": "If two sets of inputs describe the same periodic structure, differing by any combination of a common scaling of lengths, a rotation or reflection, the choice of lattice vectors (also of a larger cell) and origin, the sequence of the Fourier orders and the Brillouin zone, then stack_s_matrix succeeds for both or for none, and the matrices mapping Fourier coefficients of incoming fields to those of outgoing fields agree up to the transformation of Fourier coefficients; between uniform layers the scattering matrices are conjugate by it.", "quantifier": "all stacks, isotropic or anisotropic layers, expansions, grids, numbers of layers", "why_tests_cant": "a continuum of structures and transformations", "anchors": ["src/fmmax/scattering.py:stack_s_matrix", "src/fmmax/fmm.py:eigensolve_isotropic_media", "src/fmmax/fmm.py:eigensolve_general_anisotropic_media", "src/fmmax/fft.py:fourier_convolution_matrix"]}
{"id": "C85", "title": "Translations give phase factors", "statement": "Moving all patterned layers sideways by tau (in lattice vectors; for sampled arrays: rolling them by tau times their shape) multiplies the amplitude scattered from order G to order G' by exp(-2 pi i (G' - G).tau); magnitudes of all amplitudes and amplitudes within one order do not change.", "quantifier": "all stacks between uniform layers, translations, expansions", "why_tests_cant": "a continuum of structures", "anchors": ["src/fmmax/scattering.py:stack_s_matrix", "src/fmmax/fmm.py:eigensolve_isotropic_media"]}
{"id": "C86", "title": "Scale invariance and rotations", "statement": "Dividing all lengths (wavelength, lattice vectors, thicknesses) by a positive number and multiplying the in-plane wavevector by it does not change the scattering matrix; rotating or reflecting lattice, wavevector and material tensors rotates or reflects the two field components of every order (FFT formulation, uniform outer layers).", "quantifier": "all stacks, scalings, orthogonal matrices", "why_tests_cant": "a continuum of structures and transformations", "anchors": ["src/fmmax/scattering.py:stack_s_matrix", "src/fmmax/fmm_matrices.py:omega_script_k_matrix_patterned"]}
{"id": "C87", "title": "Labels of orders, supercells and the sequence of lattice vectors", "statement": "Listing the orders in another sequence and counting them from another order (with the in-plane wavevector moved by the reciprocal lattice vector) permutes the scattering matrix; an m x n supercell with orders (m G1, n G2) and exchanging the lattice vectors, array axes and order components leave it unchanged (FFT formulation, uniform outer layers).", "quantifier": "all stacks, permutations, orders, supercell sizes", "why_tests_cant": "all sizes; a continuum of structures", "anchors": ["src/fmmax/scattering.py:stack_s_matrix", "src/fmmax/basis.py:transverse_wavevectors", "src/fmmax/fft.py:fourier_convolution_matrix"]}
{"id": "C88", "title": "Symmetric structures have symmetric scattering matrices", "statement": "If a transformation maps a structure to itself, the scattering matrix commutes with the transformation of Fourier coefficients: with a two-fold axis the amplitude from G to G' equals that from -G to -G' at normal incidence (up to the phase of the axis position); with a mirror plane the amplitudes between even and odd fields vanish.", "quantifier": "all symmetric stacks, expansions, grids", "why_tests_cant": "a continuum of structures", "anchors": ["src/fmmax/scattering.py:stack_s_matrix", "src/fmmax/fmm.py:eigensolve_isotropic_media"]}
{"id": "C89", "title": "Lorentz reciprocity", "statement": "For every stack with a scattering matrix, the calculation with reversed in-plane wavevector, reversed orders and transposed material tensors has one as well, and the two are transposes of each other with respect to the pairing of the modes of the outer layers: reflection is transposed and transmission is exchanged with transmission in the opposite direction; the cell average of E' x H - E x H' is the same at all depths. In particular the zeroth-order polarisation conversion at normal incidence is symmetric for isotropic layers. (FFT formulation, uniform layers, vector formulation with a constant tangent field.)", "quantifier": "all stacks, thicknesses, expansions, excitations", "why_tests_cant": "a continuum of structures; tests check single structures", "anchors": ["src/fmmax/scattering.py:stack_s_matrix", "src/fmmax/fmm.py:eigensolve_isotropic_media", "src/fmmax/fmm.py:eigensolve_general_anisotropic_media"]}
{"id": "C90", "title": "Transforms along chosen axes", "statement": "fft along two adjacent axes named in increasing sequence (from the start or from the end) transforms every plane of an array of any rank separately, the Fourier axis taking the place of the two axes; ifft along an axis is its inverse, also for arrays of any rank. Axes whose lengths do not resolve the expansion raise ValueError. Axes named in decreasing sequence raise IndexError, and for axes that are not adjacent the axis next to the first is indexed instead of the second.", "quantifier": "all ranks, shapes, axes, expansions", "why_tests_cant": "all ranks and sizes", "anchors": ["src/fmmax/fft.py:fft", "src/fmmax/fft.py:ifft", "src/fmmax/utils.py:absolute_axes"]}
{"id": "C91", "title": "Thicknesses given as arrays", "statement": "One thickness for all batch elements is used for all of them. A batch of thicknesses has to be given as (..., 1) to functions computing scattering matrices and as (..., 1, 1) to functions propagating amplitudes, in order that every batch element is propagated by its own thickness; (2 num_terms,) and (num_amplitudes,) are taken for thicknesses of the modes or of the amplitude columns. No shape has the same meaning in both.", "quantifier": "all batch shapes, numbers of modes and amplitudes", "why_tests_cant": "all ranks and sizes", "anchors": ["src/fmmax/scattering.py:_extend_s_matrix", "src/fmmax/scattering.py:set_end_layer_thickness", "src/fmmax/fields.py:propagate_amplitude"]}
{"id": "C92", "title": "Supercells and points of the Brillouin zone", "statement": "In a calculation with a cell of m x n primitive cells, Fourier orders which differ by other than multiples of (m, n) are not coupled, and the scattering of the orders (m G1 + a, n G2 + b) is that calculated with the primitive cell and orders G at the in-plane wavevector shifted by (a, b) reciprocal lattice vectors of the supercell, which succeeds if the calculation with the supercell does. Calculations at the wavevectors of brillouin_zone_in_plane_wavevector((m, n), lattice) are therefore one calculation with the m x n supercell: its scattering matrix is block diagonal with the matrices of the grid points as blocks.", "quantifier": "all stacks (isotropic, anisotropic, FFT and vector formulations with repeated tangent field), expansions, grids, cell sizes", "why_tests_cant": "all sizes; a continuum of structures", "anchors": ["src/fmmax/scattering.py:stack_s_matrix", "src/fmmax/basis.py:brillouin_zone_in_plane_wavevector", "src/fmmax/basis.py:transverse_wavevectors", "src/fmmax/fft.py:fourier_convolution_matrix"]}
{"id": "C93", "title": "Plane waves in homogeneous layers: Fresnel and Airy", "statement": "For a stack of uniform isotropic layers computed through eigensolve_isotropic_media and stack_s_matrix, each Fourier order and each of its two polarisations (tangential magnetic field parallel or perpendicular to the in-plane wavevector) is scattered by itself, as by a transmission line with the impedances omega/q and q/(eps omega) and the lengths of the layers: for all incoming amplitudes there is exactly one set of waves with continuous tangential fields, and the scattering matrix yields its outgoing amplitudes. For two layers the blocks of the scattering matrix act by Fresnel's coefficients, for three by Airy's formulas, with the phases of the passage through the layers; the denominators do not vanish. The matrix of an interface is obtained exactly if no order has q = 0 on either side and eps2 q1 + eps1 q2 is not zero (no surface wave); that of a stack exactly if no leading part of it has a resonance. Beyond the critical angle reflection is total, and TM waves are not reflected exactly at Brewster's angle.", "quantifier": "all numbers of layers, complex permittivities, thicknesses, wavelengths, wavevectors, lattices and expansions", "why_tests_cant": "a continuum of media and angles; arbitrarily many layers", "anchors": ["src/fmmax/scattering.py:stack_s_matrix", "src/fmmax/scattering.py:_extend_s_matrix", "src/fmmax/fmm.py:_eigensolve_uniform_isotropic_media"]}
{"id": "C94", "title": "Factorization rules in vector formulations", "statement": "If the tangent field of a vector formulation is the same at all points, the permittivity matrix of an isotropic layer follows the factorization rules: the component of the electric field along the tangent is convolved with the Fourier coefficients of the permittivity, for the component across it the convolution with the coefficients of the reciprocal permittivity is inverted; the rules determine the matrix. For gratings with lines along an axis of a rectangular cell, profile c + exp(i phi) g with real g visible to the expansion, every named scheme applies the rules for lines turned by phi: the right ones for real contrast, each to the wrong component for lines differing in absorption only. With a single order every named scheme applies the rules for lines along the second axis, whatever the pattern. Modes of a grating in the classical mount then solve the scalar equations of the two polarisations; with a single order they are those of a birefringent medium with arithmetic and harmonic mean permittivity.", "quantifier": "all permittivity profiles, grids, expansions, lattices, schemes", "why_tests_cant": "a continuum of profiles; tests compare single spectra", "anchors": ["src/fmmax/fmm_matrices.py:transverse_permittivity_vector", "src/fmmax/fmm.py:fourier_matrices_patterned_isotropic_media", "src/fmmax/vector.py:_compute_tangent_field_no_batch"]}
{"id": "C95", "title": "Absorbed power is absorbed where the material absorbs", "statement": "The flux reported at two depths of a layer differs by omega times the integral over depth of the cell average of Im(E* eps E) + Im(H* mu H), with the fields of fields_on_grid on the grid of the permittivity (FFT formulation; any resolving grid for uniform layers). Over a stack the losses of the layers add up: between lossless uniform layers incident power = outgoing power + sum of the absorbed powers, for any propagating amplitudes incident from both sides. The z components have to be the ones belonging to the convolution matrices of eps_zz and mu_zz; in uniform layers these are the reported ones. With the reported ez of patterned layers the balance fails.", "quantifier": "all stacks, isotropic and anisotropic layers, amplitudes, depths, expansions, grids", "why_tests_cant": "a continuum of structures, depths and excitations", "anchors": ["src/fmmax/fields.py:amplitude_poynting_flux", "src/fmmax/fields.py:fields_from_wave_amplitudes", "src/fmmax/fields.py:fields_on_grid", "src/fmmax/fields.py:stack_amplitudes_interior", "src/fmmax/scattering.py:stack_s_matrices_interior"]}
{"id": "C96", "title": "Batched calculations are the calculations of their elements", "statement": "For a wavelength, in-plane wavevectors and permittivities whose batch shapes can be broadcast to a common shape, and one lattice, eigensolve_isotropic_media, eigensolve_anisotropic_media and eigensolve_general_anisotropic_media succeed, the result has the common batch shape, and its element at every batch index is the result for the elements of the arguments at that index. The same holds for stack_s_matrix of layers of equal batch rank: its element at a batch index is the scattering matrix of the elements of the layers.", "quantifier": "all batch shapes and ranks, numbers of layers, materials, formulations, expansions", "why_tests_cant": "unbounded shapes; tests fix one or two batch shapes", "anchors": ["src/fmmax/fmm.py:eigensolve_isotropic_media", "src/fmmax/fmm.py:eigensolve_general_anisotropic_media", "src/fmmax/fmm.py:_validate_and_broadcast", "src/fmmax/fmm.py:_numerical_eigensolve", "src/fmmax/scattering.py:stack_s_matrix", "src/fmmax/scattering.py:_pair_s_matrix"]}
{"id": "C97", "title": "Sources between two parts of a stack", "statement": "For scattering matrices of two stacks computed by stack_s_matrix (or built by the other entry points), amplitudes_for_source succeeds if and only if the joined stack has no resonance: no nonzero waves with continuous tangential fields and without incoming waves. If all layers absorb (uniform, or patterned in the FFT formulation, with Im eps > 0) and the thicknesses are not negative, scattering matrices, interior matrices, source amplitudes, amplitudes in all layers and three dimensional fields are obtained for every source. If the joined stack has a surface wave at the interface of the source, no source has amplitudes.", "quantifier": "all stacks, numbers of layers, thicknesses, sources, expansions", "why_tests_cant": "a continuum of structures; failure occurs on a set of measure zero", "anchors": ["src/fmmax/sources.py:amplitudes_for_source", "src/fmmax/sources.py:emission_matrix", "src/fmmax/sources.py:polarization_terms", "src/fmmax/fields.py:stack_amplitudes_interior_with_source", "src/fmmax/fields.py:stack_fields_3d", "src/fmmax/scattering.py:stack_s_matrix"]}
{"id": "C98", "title": "Brillouin zone integration yields the emission of a single source", "statement": "The mean over the wavevectors of brillouin_zone_in_plane_wavevector((m, n), lattice) of the fields of point sources (or Gaussian sources) in a primitive cell is the field in a calculation with the supercell of m x n cells in which the sources occur once per supercell, at all points of all layers: the sources in the other cells cancel. In general the fields of any source in the supercell are the sum of the fields in the calculations with the primitive cell at the points of the Brillouin zone, each with the part of the Fourier coefficients of the source that belongs to it; the calculations with the primitive cell succeed if the one with the supercell does.", "quantifier": "all stacks (isotropic, anisotropic, FFT and vector formulations with repeated tangent field), positions and polarisations of sources, grids, expansions", "why_tests_cant": "all sizes; a continuum of structures; tests check one structure and grid", "anchors": ["src/fmmax/basis.py:brillouin_zone_in_plane_wavevector", "src/fmmax/sources.py:dirac_delta_source", "src/fmmax/sources.py:gaussian_source", "src/fmmax/sources.py:amplitudes_for_source", "src/fmmax/fields.py:stack_amplitudes_interior_with_source", "src/fmmax/fields.py:stack_fields_3d_on_coordinates"]}
{"id": "C99", "title": "Superposition", "statement": "Amplitudes in all layers depend linearly on incident amplitudes, and amplitudes and three dimensional fields depend linearly on the currents of a source: for calculations with sources (jx, jy, jz) and (jx', jy', jz') of any numbers of columns, the calculation with columns j W + j' W' succeeds and its fields at all points are the same combinations of the fields.", "quantifier": "all stacks, sources, numbers of sources and of combinations, grid shapes", "why_tests_cant": "a continuum of structures and sources", "anchors": ["src/fmmax/sources.py:amplitudes_for_source", "src/fmmax/fields.py:stack_amplitudes_interior", "src/fmmax/fields.py:stack_amplitudes_interior_with_source", "src/fmmax/fields.py:stack_fields_3d"]}
{"id": "C100", "title": "Tangent fields of supercells", "statement": "The tangent field computed for a pattern repeated in the m x n cells of a supercell is that of the single cell, repeated, for every method and the same weights, if the expansion has m n times as many orders, among them exactly those of the single cell at their places, and m and n are odd (parallelogramic expansions generated with m^2 times as many terms are of this kind), as long as the band-limited gradient exceeds the threshold 1e-8 somewhere. For even numbers of cells it is in general not: the grids on which the field is optimised do not correspond.", "quantifier": "all patterns, grids, lattices, weights, methods, cell numbers, expansions", "why_tests_cant": "all sizes; a continuum of patterns and weights", "anchors": ["src/fmmax/vector.py:_compute_tangent_field_no_batch", "src/fmmax/vector.py:_filter_and_adjust_resolution", "src/fmmax/vector.py:_field_loss_value_jac_and_hessian", "src/fmmax/basis.py:generate_expansion"]}
{"id": "C101", "title": "Resolution of the tangent field", "statement": "The tangent field depends on the array only through the Fourier coefficients of its computed gradient for the orders of the expansion, up to a common positive factor: arrays of possibly different resolutions for which these are proportional have tangent fields which differ by one positive factor at the points the grids have in common. It is not independent of the resolution, as the docstring says: sampling the same pattern more finely along one axis changes the ratio of the field at different points, and sampling it more finely along both changes its size.", "quantifier": "all arrays, grids, lattices, weights, expansions", "why_tests_cant": "all sizes; a continuum of patterns and weights", "anchors": ["src/fmmax/vector.py:compute_tangent_field", "src/fmmax/vector.py:_compute_tangent_field_no_batch", "src/fmmax/vector.py:normalize", "src/fmmax/vector.py:compute_gradient"]}
{"id": "C102", "title": "Reciprocity of emission", "statement": "Currents J placed between two layers of a structure, and currents J' placed between two other layers (or the same two) in the calculation with reversed in-plane wavevector, reversed orders and transposed tensors: the fields of J' act on J as the fields of J act on J' (integral of J . E'), the fields being those of stack_amplitudes_interior_with_source at the end of the layer before the source; for sources between the same two layers both have to be in the plane or both normal to it. For point sources: the field of a dipole reported at the place of another one, projected on its moment, is unchanged if the two dipoles are exchanged. For uniform absorbing layers both calculations succeed.", "quantifier": "all stacks (FFT, or vector formulations with constant tangent field), positions, moments, numbers of sources, expansions, incidence", "why_tests_cant": "a continuum of structures and positions; tests check single structures", "anchors": ["src/fmmax/sources.py:amplitudes_for_source", "src/fmmax/sources.py:dirac_delta_source", "src/fmmax/fields.py:stack_amplitudes_interior_with_source", "src/fmmax/fields.py:fields_from_wave_amplitudes"]}
{"id": "C103", "title": "Electromagnetic duality", "statement": "Exchanging permittivity and permeability in all layers of a stack, E' = H and H' = -E (all six reported components) are fields of the new layers, the flux in every order is the same with the polarisations exchanged, and the scattering matrix is the old one with reflections of opposite sign, after the change of modes at the two ends; both calculations succeed together. Between vacuum layers the change of modes is the same on both sides and its square is -1. Stacks with eps = mu in all layers therefore commute or anticommute with it; if such a stack is also unchanged by a rotation of the lattice by 90 degrees (any symmetry with an antisymmetric part), it has no specular reflection at normal incidence.", "quantifier": "all stacks: uniform layers, isotropic layers in the FFT formulation, anisotropic layers in any formulation; thicknesses, expansions, incidence", "why_tests_cant": "a continuum of structures; no test uses magnetic media in stacks", "anchors": ["src/fmmax/fmm.py:eigensolve_general_anisotropic_media", "src/fmmax/fmm.py:eigensolve_isotropic_media", "src/fmmax/scattering.py:stack_s_matrix", "src/fmmax/fields.py:fields_from_wave_amplitudes", "src/fmmax/fields.py:amplitude_poynting_flux"]}
{"id": "C104", "title": "Tangent fields in other coordinates", "statement": "Moving the array moves the tangent field, for every method (shifts which are also shifts of the grid on which the field is optimised), and turning or mirroring the lattice turns or mirrors it: up to a sign for the methods without Jones vectors, and up to one phase factor for rotations of Jones fields. Stacks with layers in the named vector formulations therefore have the translation and rotation symmetries known from the FFT formulation: moved patterns give phase factors, turned or mirrored structures turn or mirror the two field components of every order. This needs a gradient with clearly different directions at two points: for gratings (one direction everywhere) the field turns against the lattice. Jones fields do not have the mirror symmetry of the pattern.", "quantifier": "all arrays, grids, lattices, weights, expansions, shifts, orthogonal matrices, stacks", "why_tests_cant": "a continuum of patterns and angles; tests compare magnitudes for single patterns", "anchors": ["src/fmmax/vector.py:compute_tangent_field", "src/fmmax/vector.py:normalize_jones", "src/fmmax/vector.py:_compute_tangent_field_no_batch", "src/fmmax/fmm.py:eigensolve_isotropic_media", "src/fmmax/scattering.py:stack_s_matrix"]}
{"id": "C105", "title": "Interior scattering matrices with batch dimensions", "statement": "stack_s_matrices_interior, prepend_layer, redheffer_star_product, set_end_layer_thickness and set_start_layer_thickness of layers (scattering matrices) whose batch shapes have one rank and can be broadcast to a common shape succeed, and the result at every batch index is that of the elements at this index. The scattering matrices before and after a layer have exactly the batch shape to which the layers they contain are broadcast together.", "quantifier": "all batch shapes and ranks, numbers of layers, thicknesses, materials, expansions", "why_tests_cant": "unbounded shapes; tests fix one or two batch shapes", "anchors": ["src/fmmax/scattering.py:stack_s_matrices_interior", "src/fmmax/scattering.py:prepend_layer", "src/fmmax/scattering.py:redheffer_star_product", "src/fmmax/scattering.py:set_end_layer_thickness", "src/fmmax/scattering.py:set_start_layer_thickness", "src/fmmax/scattering.py:_stack_s_matrices"]}
{"id": "C106", "title": "Amplitudes, fluxes and fields with batch dimensions", "statement": "For a stack with batch dimensions, stack_amplitudes_interior succeeds; the amplitudes of all layers have one batch shape, that to which all layers and the outer amplitudes are broadcast together, and at every batch index they are those of the elements; likewise stack_amplitudes_interior_with_source, amplitude_poynting_flux, directional_poynting_flux, eigenmode_poynting_flux, fields_from_wave_amplitudes, fields_on_grid and fields_on_coordinates (whose assertions on shapes hold). fields_from_wave_amplitudes raises for two amplitudes whose batch shapes differ, although they pass its check.", "quantifier": "all batch shapes and ranks, numbers of layers, amplitudes, grids, coordinates", "why_tests_cant": "unbounded shapes; tests fix one or two batch shapes", "anchors": ["src/fmmax/fields.py:stack_amplitudes_interior", "src/fmmax/fields.py:stack_amplitudes_interior_with_source", "src/fmmax/fields.py:amplitude_poynting_flux", "src/fmmax/fields.py:directional_poynting_flux", "src/fmmax/fields.py:eigenmode_poynting_flux", "src/fmmax/fields.py:fields_from_wave_amplitudes", "src/fmmax/fields.py:fields_on_grid", "src/fmmax/fields.py:fields_on_coordinates"]}
{"id": "C107", "title": "Fields in three dimensions with batch dimensions", "statement": "From wavelengths, wavevectors, permittivities and outer amplitudes with batch dimensions, the calculation of the fields of a stack in three dimensions (eigensolves, interior scattering matrices, amplitudes, stack_fields_3d or stack_fields_3d_on_coordinates) succeeds; all slices along z have the batch shape to which layers and outer amplitudes are broadcast together, and fields and coordinates at every batch index are those computed from the elements of all arguments. stack_fields_3d raises if the batch shapes of the layers with their amplitudes differ from layer to layer.", "quantifier": "all batch shapes and ranks, numbers of layers, numbers of points along z, amplitudes, grids, coordinates", "why_tests_cant": "unbounded shapes; tests fix one or two batch shapes", "anchors": ["src/fmmax/fields.py:layer_fields_3d", "src/fmmax/fields.py:layer_fields_3d_on_coordinates", "src/fmmax/fields.py:stack_fields_3d", "src/fmmax/fields.py:stack_fields_3d_on_coordinates", "src/fmmax/fields.py:_layer_fields_3d", "src/fmmax/fields.py:_stack_fields_3d"]}
{"id": "C108", "title": "Sources inside a stack with batch dimensions", "statement": "For sources between two parts of a stack, all with batch dimensions, amplitudes_for_source succeeds if the layers of the first part and the first layer of the second are broadcast together to the same shape as the layers of the second part and the last layer of the first; the six amplitudes have the batch shape to which these layers and the sources are broadcast together and are at every batch index those of the elements, and so are the amplitudes in all layers and the emitted fields in three dimensions. If the two shapes differ it raises, although all shapes can be broadcast together. Sources whose components have different batch shapes are rejected.", "quantifier": "all batch shapes and ranks, numbers of layers and sources, thicknesses, grids, coordinates", "why_tests_cant": "unbounded shapes; tests fix one or two batch shapes", "anchors": ["src/fmmax/sources.py:amplitudes_for_source", "src/fmmax/sources.py:polarization_terms", "src/fmmax/sources.py:emission_matrix", "src/fmmax/fields.py:stack_amplitudes_interior_with_source", "src/fmmax/fields.py:stack_fields_3d", "src/fmmax/fields.py:stack_fields_3d_on_coordinates"]}
{"id": "C109", "title": "Stacks with arrays of thicknesses", "statement": "For layers of one batch rank and thicknesses that are scalars or arrays with a last axis of length one, all broadcasting together, stack_s_matrix, stack_s_matrices_interior, append_layer, prepend_layer, set_end_layer_thickness and set_start_layer_thickness succeed and give at every batch index the scattering matrix of the layers and thicknesses at that index; the thicknesses may have more batch axes than the layers. The blocks s11 and s21 have the batch axes of the layers and of all thicknesses but the last, s12 and s22 those of the layers and of all thicknesses but the first. Arrays of thicknesses whose last axis has another length than one or the number of modes are rejected. Those whose last axis has the length of the axis of modes are no batch: each mode gets a thickness of its own.", "quantifier": "all batch shapes, numbers of layers, thickness arrays", "why_tests_cant": "unbounded shapes; tests use scalar thicknesses or one shape", "anchors": ["src/fmmax/scattering.py:stack_s_matrix", "src/fmmax/scattering.py:stack_s_matrices_interior", "src/fmmax/scattering.py:append_layer", "src/fmmax/scattering.py:prepend_layer", "src/fmmax/scattering.py:set_end_layer_thickness", "src/fmmax/scattering.py:set_start_layer_thickness", "src/fmmax/scattering.py:_extend_s_matrix"]}
{"id": "C110", "title": "Scattering matrices by a scan, with batch dimensions", "statement": "For layers stacked along a new leading axis of every array and as many thicknesses, stack_s_matrix_scan succeeds, its blocks have the batch shape of the layers, and at every batch index it gives the scattering matrix of the layers and thicknesses at this index, as stack_s_matrix does. The result of one eigensolve for the permittivities of all layers in the leading axis, with one lattice, is rejected with ValueError for two or more layers; after all its arrays are broadcast along the leading axis the scan gives at every batch index the scattering matrix of the layers solved one by one. Thicknesses that are not one-dimensional, layers without batch axes and mismatched lengths are rejected.", "quantifier": "all batch shapes, numbers of layers, permittivities, thicknesses", "why_tests_cant": "unbounded shapes and numbers of layers; the test stacks layers without batch axes", "anchors": ["src/fmmax/scattering.py:stack_s_matrix_scan", "src/fmmax/fmm.py:eigensolve_isotropic_media", "src/fmmax/fmm.py:_validate_and_broadcast"]}
{"id": "C111", "title": "Integrated flux with batch dimensions", "statement": "For a flux with batch axes before, between and after the two axes of the Brillouin grid, and wavelengths and in-plane wavevectors that can be broadcast to its batch, integrated_flux returns an array with the batch dimensions of the flux, and every batch element is the integral of that element of the flux with its wavelength and wavevectors. For batch-compatible arguments in general every entry is the sum of the integrals of all elements of the common batch that use the entry of the flux: with several wavelengths and one flux the result is summed over the wavelengths without notice, and for bounds that select all angles it is a multiple of the total flux. An upsampling factor of zero is rejected.", "quantifier": "all batch shapes, positions of the Brillouin axes, lattices, expansions, bounds, upsampling factors", "why_tests_cant": "unbounded shapes; tests use one shape without further batch axes", "anchors": ["src/fmmax/farfield.py:integrated_flux", "src/fmmax/farfield.py:_integrated_flux_weights", "src/fmmax/farfield.py:_integrated_flux_upsampled"]}
{"id": "C112", "title": "Stacks turned upside down", "statement": "The scattering matrix of a stack with layers and thicknesses in reversed order is that of the stack with the two sides exchanged (s11 with s22, s12 with s21), so that a stack which reads the same from both sides reflects and transmits equally from both sides. stack_s_matrices_interior of the reversed stack succeeds exactly if it does for the stack, and the amplitudes inside for exchanged incoming amplitudes are those of the stack in reversed order with forward and backward exchanged. The fields in three dimensions are the mirror image of those of the stack (Ex, Ey and Hz change sign against Ez, Hx, Hy), at z replaced by the total thickness minus z, unless a layer is sampled at a single point (its start in both directions), and powers change sign and direction. A source inside the reversed stack with reversed in-plane currents and the same vertical current emits what the source inside the stack emits, with sides and directions exchanged, also inside the layers; with vertical currents the layers next to the source must agree. stack_s_matrix itself can be finite for a stack and fail for the reversed stack.", "quantifier": "all stacks, layers, thicknesses, amplitudes, points, numbers of points along z", "why_tests_cant": "a continuum of stacks; tests compare a few stacks", "anchors": ["src/fmmax/scattering.py:stack_s_matrix", "src/fmmax/scattering.py:stack_s_matrices_interior", "src/fmmax/fields.py:stack_amplitudes_interior", "src/fmmax/fields.py:fields_from_wave_amplitudes", "src/fmmax/fields.py:stack_fields_3d", "src/fmmax/fields.py:stack_fields_3d_on_coordinates", "src/fmmax/fields.py:amplitude_poynting_flux", "src/fmmax/fields.py:directional_poynting_flux"]}
{"id": "C113", "title": "Amplitudes for fields with batch dimensions", "statement": "amplitudes_for_fields of field arrays with batch dimensions, for a layer with batch dimensions on a Brillouin grid (or without), succeeds if the shapes are compatible and raises otherwise, and the amplitudes at every batch index are those computed from the fields and the layer at this index. For a layer solved on a Brillouin grid, fields computed from amplitudes on the supercell and averaged over the grid give back the amplitudes, at every point of the grid. stack_fields_3d_auto_grid with batch dimensions is stack_fields_3d on the grid of which the numbers of points are the rounded ratios of lengths and spacing.", "quantifier": "all batch shapes, Brillouin grids, field arrays, layers, expansions, spacings", "why_tests_cant": "unbounded shapes; tests fix one or two shapes", "anchors": ["src/fmmax/sources.py:amplitudes_for_fields", "src/fmmax/fields.py:stack_fields_3d_auto_grid"]}
{"id": "C114", "title": "Smooth dependence on parameters", "statement": "Where the scattering matrix of a stack is finite, it is finite for all parameters nearby, and its entries are as often differentiable (or analytic) in the parameters as eigenvalues, eigenvectors, Fourier matrices, wavelength, wavevector, lattice vectors and thicknesses are; likewise interior scattering matrices, amplitudes inside, the star product, fluxes, fields in the Fourier basis and at coordinates. For given layers the scattering matrix is an analytic function of the thicknesses; differentiating it in the last thickness multiplies the columns of s12 and s22 by 1j times the eigenvalues and leaves s11 and s21 fixed. directional_poynting_flux depends smoothly on the parameters as long as no mode has zero flux.", "quantifier": "all stacks, numbers of layers, expansions, normed spaces of parameters, orders of differentiability", "why_tests_cant": "a statement about limits; gradients are tested for single parameters of single structures", "anchors": ["src/fmmax/scattering.py:stack_s_matrix", "src/fmmax/scattering.py:stack_s_matrix_scan", "src/fmmax/scattering.py:stack_s_matrices_interior", "src/fmmax/scattering.py:append_layer", "src/fmmax/scattering.py:prepend_layer", "src/fmmax/scattering.py:redheffer_star_product", "src/fmmax/fields.py:stack_amplitudes_interior", "src/fmmax/fields.py:colocate_amplitudes", "src/fmmax/fields.py:amplitude_poynting_flux", "src/fmmax/fields.py:directional_poynting_flux", "src/fmmax/fields.py:eigenmode_poynting_flux", "src/fmmax/fields.py:fields_from_wave_amplitudes", "src/fmmax/fields.py:fields_on_coordinates"]}
{"id": "C115", "title": "Uniform layers depend smoothly on materials", "statement": "eigensolve_isotropic_media of uniform layers and the scattering matrix of stacks of them are as smooth in wavelength, in-plane wavevector, lattice vectors, permittivities and thicknesses as these are in the parameters, where no eigenvalue vanishes and permittivities nearby have no negative imaginary part if an eigenvalue is real. The last condition is needed: with vanishing gain in a lossless layer the eigenvalues of propagating modes tend to the opposite of the eigenvalues without gain, and the reflection coefficient of an interface with such a substrate tends to the inverse of the one without gain.", "quantifier": "all expansions, lattices, incidence, permittivities, numbers of layers, orders of differentiability", "why_tests_cant": "a statement about limits; tests use single permittivities", "anchors": ["src/fmmax/fmm.py:_eigensolve_uniform_isotropic_media", "src/fmmax/fmm.py:_select_eigenvalues_sign", "src/fmmax/scattering.py:stack_s_matrix"]}
{"id": "C116", "title": "Gratings: rows of orders, length of the grooves, classical mount", "statement": "For stacks whose layers do not depend on the second lattice coordinate (isotropic, anisotropic, FFT or vector formulation with such a tangent field; any number of columns in each layer's array, more than the expansion requires), Fourier orders with different second index are not coupled, and the scattering of the orders with second index h is that calculated with single-column arrays and the orders (g, 0) at the in-plane wavevector shifted by h times the second reciprocal lattice vector, which succeeds if the full calculation does. With such orders the length of the second lattice vector is irrelevant. On rectangular lattices orders without wavevector component along the grooves are scattered without conversion of polarisation. Layers in the named vector formulations with grating profiles belong to this class.", "quantifier": "all stacks of gratings, expansions, grids, lattices, wavevectors", "why_tests_cant": "all sizes; a continuum of structures", "anchors": ["src/fmmax/scattering.py:stack_s_matrix", "src/fmmax/fft.py:fourier_convolution_matrix", "src/fmmax/fmm.py:eigensolve_isotropic_media", "src/fmmax/fmm.py:eigensolve_general_anisotropic_media", "src/fmmax/basis.py:transverse_wavevectors"]}
{"id": "C117", "title": "Smooth dependence on materials, although eigenvectors may jump", "statement": "Scattering matrices of stacks and the fields inside them depend smoothly (k times differentiably, or analytically) on permittivities, permeabilities, wavelength, in-plane wavevector, lattice vectors and thicknesses whenever the Fourier matrices of the layers do, for whatever eigenvectors, normalisation and order the eigensolver returns at each parameter, even discontinuous ones and through degeneracies: at every parameter where the calculation succeeds, the modes decay and eigenvectors are independent there is a smooth function which gives the computed result at all nearby parameters at which the eigenvectors are independent. The first and last layers have smooth modes, e.g. uniform ones. For absorbing materials in the FFT formulation the condition on decay is automatic.", "quantifier": "all stacks, eigensolvers, parameter spaces, orders of differentiability", "why_tests_cant": "smoothness at every point for arbitrary discontinuous eigensolvers", "anchors": ["src/fmmax/scattering.py:stack_s_matrix", "src/fmmax/fmm.py:eigensolve_isotropic_media", "src/fmmax/fmm.py:_select_eigenvalues_sign", "src/fmmax/fields.py:fields_from_wave_amplitudes"]}
{"id": "C118", "title": "Gradients through the eigendecomposition", "statement": "For a loss which depends on the modes of a layer only through the matrix X = V diag(q) V^-1 by which waves propagate (all physical losses), the backward rule of eig gives the gradient whose pairing with a perturbation weights the coupling of each pair of modes by d^2/(d^2+eps), d the difference of the eigenvalues, relative to the true derivative: the error is the sum over pairs of modes with relative weight eps/(d^2+eps), and couplings of modes with equal eigenvalues, which contribute to the true derivative, are dropped. So the gradient is not the derivative when modes are degenerate, and depends on which eigenvectors of the degenerate modes the eigensolver returned.", "quantifier": "all matrices with independent eigenvectors, losses, perturbations, eps", "why_tests_cant": "derivatives for all matrices and losses", "anchors": ["src/fmmax/utils.py:_eig_bwd", "src/fmmax/utils.py:eig"]}
{"id": "C119", "title": "Independence of the eigensolver's choices", "statement": "Replacing the eigensolver by any other which returns eigenvalues with eigenvectors, independent when possible, in whatever order, normalisation and choice within degenerate eigenspaces: scattering matrices of stacks of isotropic, anisotropic, uniform and patterned layers can be calculated with one if they can with the other, and scatter tangential fields alike; between uniform isotropic layers they are equal; the fields of currents inside the stack, and of waves incident through uniform layers, are equal at all points.", "quantifier": "all pairs of eigensolvers, stacks, sources, incident waves, sampling points", "why_tests_cant": "quantifies over all eigensolvers and stacks", "anchors": ["src/fmmax/scattering.py:stack_s_matrix", "src/fmmax/fmm.py:_numerical_eigensolve", "src/fmmax/utils.py:eig", "src/fmmax/sources.py:amplitudes_for_source", "src/fmmax/fields.py:stack_fields_3d_on_coordinates"]}
{"id": "C120", "title": "Thick and thin layers", "statement": "When an interior layer whose modes all decay is made thick, the scattering matrix of the stack can be calculated for all sufficiently large thicknesses d, transmission vanishes like the decay of the slowest mode, exp(-g d), and reflection from either side tends to that of the part of the stack on that side, with an error of order exp(-2 g d): layers hidden behind a thick decaying layer have no effect, and nothing overflows. Between absorbing layers this holds without assumption on existence. An interior layer of zero thickness has no effect, and the scattering matrix tends to that of the stack without the layer as its thickness tends to zero.", "quantifier": "all stacks, layers, thicknesses", "why_tests_cant": "limits and bounds for all thicknesses", "anchors": ["src/fmmax/scattering.py:stack_s_matrix", "src/fmmax/scattering.py:_extend_s_matrix", "src/fmmax/scattering.py:append_layer"]}
{"id": "C121", "title": "Time reversal", "statement": "Replacing all materials by their complex conjugates (absorption by gain) and reversing the in-plane wavevector and the orders, the complex conjugates of the electric fields and the negative conjugates of the magnetic fields of any excitation are the fields of an excitation of the new stack, at all depths of all layers. The two scattering matrices are related accordingly: waves which propagate without decay exchange their roles as incoming and outgoing waves, decaying ones do not. With uniform first and last layers in which all waves propagate, the new scattering matrix is the inverse of the conjugate one, from outgoing to incoming waves, so that no incident waves are absorbed completely if the calculation for the stack with gain succeeds. If all modes of all layers decay, the calculation for the conjugate stack succeeds and gives the complex conjugate scattering matrix.", "quantifier": "all stacks of uniform layers, layers in the FFT formulation and isotropic layers in vector formulations whose tangent field is conjugate up to a phase factor (schemes POL and NORMAL for patterns whose gradient has two directions, all schemes for gratings with real or imaginary contrast; not for gratings with other contrasts), thicknesses, wavevectors, expansions, eigensolvers", "why_tests_cant": "holds for all stacks and excitations", "anchors": ["src/fmmax/fmm.py:eigensolve_isotropic_media", "src/fmmax/fmm.py:eigensolve_general_anisotropic_media", "src/fmmax/fmm.py:_select_eigenvalues_sign", "src/fmmax/scattering.py:stack_s_matrix"]}
{"id": "C122", "title": "Power emitted by sources", "statement": "Across a source inside a stack the total Poynting flux grows by the power which the currents deliver, -Re of the sum over orders of conj(J) E with E the mean of the reported fields on both sides. In lossless structures the powers of the waves radiated to the two sides add up to it; without gain they add up to at most the delivered power, and if forward waves in the outer layers do not carry energy backward, radiated and delivered powers are non-negative. For a uniform layer with real permittivity and without orders at grazing the calculation succeeds for all currents and all of this holds. In any layers, absorbing ones too, the flux grows by the work of the in-plane currents plus that of the vertical currents acting through the inverse z-permittivity on the vertical displacement, and the statements on radiated powers hold with this delivered power; in a uniform medium with complex permittivity eps this is the work of the vertical currents on the vertical field with the factor eps/conj(eps). The delivered power is the sum of the powers that leave the outer ends of the first and the last layer and of the power absorbed in all layers, the integral of the local absorption of the fields computed from the interior amplitudes; absorbed powers are non-negative without gain and zero in lossless layers.", "quantifier": "all stacks before and after the source, thicknesses, currents; the balance in terms of the vertical field, for vertical currents, where the layers next to the source agree and their inverse z-permittivity matrix is Hermitian or a multiple of the identity", "why_tests_cant": "an energy balance for all structures and currents", "anchors": ["src/fmmax/sources.py:amplitudes_for_source", "src/fmmax/sources.py:emission_matrix", "src/fmmax/sources.py:polarization_terms", "src/fmmax/fields.py:amplitude_poynting_flux"]}
