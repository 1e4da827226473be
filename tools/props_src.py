# Source of properties.jsonl: one tuple per property
# (id, title, statement, quantifier, why_tests_cant, anchors)
P = []
def p(*a): P.append(a)
G='jrystal/_src/grid.py'; U='jrystal/_src/utils.py'; PW='jrystal/_src/pw.py'; O='jrystal/_src/occupation.py'
BK='jrystal/_src/braket.py'; EN='jrystal/_src/energy.py'; PO='jrystal/_src/potential.py'; HA='jrystal/_src/hamiltonian.py'
XC='jrystal/_src/xc.py'; OU='jrystal/calc/opt_utils.py'

p('C01','FFT size rounding is the least admissible size',
 'proper_grid_size / fft_factor return, for every requested axis size n <= 2048, the smallest supported FFT size that is >= n (documented as the smallest number of the form 2^a 3^b 5^c 7^d 11^e 13^f with e,f in {0,1}); the result is a fixed point, the map is monotone, and a ValueError is raised exactly when n > 2048.',
 'every integer n (and every scalar or vector of axis sizes)',
 'the claim is about a least element for all integers; a test samples a handful of sizes and cannot show there is no smaller admissible size or that the table has no gap',
 [f'{U}:fft_factor',f'{G}:proper_grid_size','jrystal/_src/const.py:CUFFT_FACTORS'])
p('C02','Real and reciprocal grids are dual',
 'For every non-singular cell, the vectors returned by g_vectors and r_vectors on the same grid satisfy G_k . r_j = 2 pi sum_i k_i j_i / n_i modulo 2 pi (so exp(iG.r) is the DFT kernel), G at index 0 is zero, and cell_vectors times reciprocal_vectors transposed is 2 pi times the identity.',
 'every invertible 3x3 cell, every triple of positive grid sizes, every pair of grid indices',
 'the phase identity must hold at every index pair including the wrapped negative frequencies and Nyquist index, for odd and even sizes, and for skew cells',
 [f'{G}:g_vectors',f'{G}:r_vectors',f'{G}:_vector_grid','jrystal/_src/crystal.py:Crystal.reciprocal_vectors'])
p('C03','Spherical mask is exactly the kinetic-energy cutoff set',
 'spherical_mask marks index k if and only if |G_k|^2/2 <= cutoff_energy; it is monotone in the cutoff, contains G=0 exactly when the cutoff is non-negative, and contains the index of -G whenever it contains G and -G is on the grid.',
 'every cell, every grid size, every cutoff, every index',
 'boundary equality, negative cutoffs and the Nyquist plane are measure-zero cases a random test does not hit',
 [f'{G}:spherical_mask'])
p('C04','Cubic mask makes densities alias-free',
 'cubic_mask keeps exactly the signed frequencies f with -ceil(Gmax/2) <= f <= floor(Gmax/2), Gmax=(n-1)//2, on each axis, and the difference of two kept frequencies never exceeds Gmax in modulus, so |psi|^2 of any wave function supported on the mask is represented on the FFT grid without aliasing.',
 'every triple of grid sizes, every pair of kept indices',
 'the slice bounds use negative python indices and behave differently for sizes 1 and 2; only a proof over all sizes rules out an off-by-one',
 [f'{G}:cubic_mask'])
p('C05','Half-frequency padding inverts cropping and agrees with the cubic mask',
 'half_frequency_shape(sizes) is the per-axis number of indices kept by cubic_mask, and the padding routine places entry t of a half-frequency tensor at the grid index carrying the same signed frequency, zero elsewhere, so its support is the cubic mask and no two entries collide.',
 'every triple of grid sizes and every tensor of the half-frequency shape',
 'index bookkeeping over two blocks per axis for every size parity',
 [f'{G}:half_frequency_shape',f'{G}:_half_frequency_pad_to',f'{G}:_half_frequency_ranges',f'{G}:cubic_mask'])
p('C06','Estimated maximum cutoff is tight',
 'estimate_max_cutoff_energy(cell, mask) is the largest kinetic energy |G|^2/2 over the masked indices (0 for an empty mask), so spherical_mask with that cutoff contains the mask and with any smaller non-negative cutoff does not.',
 'every cell, every mask',
 'maximum over an arbitrary mask multiplied by zeros; the empty mask and the G=0 only mask are the delicate cases',
 [f'{G}:estimate_max_cutoff_energy',f'{G}:spherical_mask'])
p('C07','Cell vectors can be recovered from their grids',
 'r2cell_vectors(r_vectors(A, sizes)) = A and g2cell_vectors(g_vectors(A, sizes)) = A, hence g2r_vector_grid and r2g_vector_grid without an explicit cell convert between the two grids of the same crystal.',
 'every invertible cell A and every grid with all sizes >= 2',
 'tests with cubic (symmetric) cells cannot distinguish A from its transpose',
 [f'{G}:g2cell_vectors',f'{G}:r2cell_vectors',f'{G}:g2r_vector_grid',f'{G}:r2g_vector_grid'])
p('C08','Monkhorst-Pack mesh is complete and inversion symmetric',
 'k_vectors returns n1 n2 n3 distinct points, in fractional coordinates strictly inside (-1/2,1/2)^3, closed under k -> -k, containing Gamma exactly when all three sizes are odd, and summing to zero.',
 'every triple of positive mesh sizes and every invertible cell',
 'universally quantified over mesh sizes; the even/odd Gamma property is the classical trap',
 [f'{G}:k_vectors'])
p('C09','Translation vectors are lattice vectors, contain the origin, and are symmetric',
 'translation_vectors returns n^3 distinct integer combinations of the cell vectors with n = ceil(cutoff/|a1+a2+a3|^2), contains the zero vector when n >= 1, and for every T in the list -T is also in the list.',
 'every cell and cutoff',
 'the symmetric claim depends on the parity of a ceil of a real quotient',
 [f'{G}:translation_vectors'])
p('C10','Compact and full coefficient layouts are equivalent',
 'expand_coefficient places the g-th compact coefficient at the g-th (row-major) True position of the mask and zero elsewhere, for every band, k point and spin; inner products are preserved; squeeze_coefficient inverts it.',
 'every mask, every compact coefficient array',
 'the placement is a bijection between a variable-size index set and mask positions',
 [f'{U}:expand_coefficient',f'{U}:squeeze_coefficient'])
p('C11','Planewave coefficients and wave functions are orthonormal for all parameters',
 'For every parameter dictionary, pw.coeff returns bands that are orthonormal at each spin and k point and vanish outside the frequency mask; the wave functions wave_grid(coeff, vol) are orthonormal under the cell inner product (vol/N) sum conj(psi_i) psi_j.',
 'all parameter values, masks, grids, volumes > 0',
 'orthonormality is a continuous constraint for all parameters and all sizes',
 [f'{PW}:coeff',f'{PW}:wave_grid','jrystal/_src/unitary_module.py:unitary_matrix'])
p('C12','wave_grid samples the plane-wave expansion',
 'wave_grid(coeff, vol) at grid index j equals vol^(-1/2) sum_G coeff_G exp(i G.r_j) with G from g_vectors and r_j from r_vectors of the same cell.',
 'every coefficient array, invertible cell, grid size and index',
 'the normalisation and sign conventions of the inverse FFT must match the grids at every wrapped index',
 [f'{PW}:wave_grid',f'{G}:g_vectors',f'{G}:r_vectors'])
p('C13','Electron density is non-negative and integrates to the electron number',
 'For every parameter value and non-negative occupation, density_grid is >= 0 at every grid point and its cell integral per spin equals the sum of the occupations of that spin; density_grid and wave_to_density agree.',
 'all parameters, occupations, grids, volumes > 0',
 'particle conservation must hold for every parameter the optimiser can reach',
 [f'{PW}:density_grid',f'{U}:wave_to_density'])
p('C14','Reciprocal density carries the electron number at G=0 and is Hermitian',
 'density_grid_reciprocal at G=0 equals (N/vol) times the number of electrons of the spin, and its value at -G is the complex conjugate of its value at G for every grid index.',
 'all parameters, occupations, grids, indices',
 'the Hermitian symmetry must hold at every wrapped index, including Nyquist planes',
 [f'{PW}:density_grid_reciprocal',f'{U}:wave_to_density_reciprocal'])
p('C15','Real-space and reciprocal-space inner products agree (Parseval)',
 'reciprocal_braket(fft f, fft g, vol) equals the real part of the cell inner product (vol/N) sum conj(f) g for all grids, equals real_braket(f,g,vol) for real f, and expectation in mode real on ifft data equals the reciprocal convention; ifftn3d inverts fftn3d.',
 'every pair of arrays on every 3D grid',
 'normalisation factors 1/N vs 1/N^2 only show for general data and all sizes; leading axes change the element count used as normaliser',
 [f'{BK}:reciprocal_braket',f'{BK}:real_braket',f'{BK}:expectation','jrystal/_src/spmd/fft.py:fftn3d'])
p('C16','Energies depend only on the occupied subspace',
 'Multiplying bands by phases, or mixing bands with equal occupation by a unitary matrix, leaves density_grid, kinetic, hartree, external and total energy unchanged.',
 'all coefficient arrays, all unitary mixing matrices',
 'gauge invariance over a continuous group',
 [f'{PW}:density_grid',f'{EN}:kinetic',f'{EN}:total_energy'])
p('C17','Occupation projector returns the nearest admissible occupation',
 'For x in [0,1]^n and every real target s with 0 <= s <= n, the projector used by simplex_projector returns y with 0 <= y_i <= 1 and sum y = s, and y minimises the Euclidean distance to x among all such vectors.',
 'every n >= 1, every x in [0,1]^n, every s in [0,n]',
 'the algorithm selects a breakpoint with argmax over data-dependent divisions, including a division by zero in its last entry; the extreme targets s=0 and s=n are exactly where the argmax is empty',
 [f'{O}:proj'])
p('C18','Simplex-projector occupations conserve electrons per spin',
 'simplex_projector returns non-negative occupations, at most 1/num_k per spin (2/num_k summed when spin restricted), whose total is num_electrons, with spin-up minus spin-down total equal to spin, for every parameter value.',
 'every parameter array, every number of electrons, bands, k points and spin of matching parity that fits in the bands',
 'the optimiser explores all parameter values; the boundary cases (no down electrons, completely filled bands) are reachable configurations',
 [f'{O}:simplex_projector',f'{O}:proj'])
p('C19','Uniform and gamma occupations conserve electrons per spin',
 'occupation.uniform and occupation.gamma return arrays with entries in {0,1/num_k} (resp. {0,1}) per spin, total num_electrons, spin polarisation spin; the uniform one is equal at all k points and the gamma one vanishes away from the first k point.',
 'every num_k >= 1, num_electrons, spin, num_bands',
 'floor divisions and python slices with out-of-range or negative stops; parity and band-count errors are silent',
 [f'{O}:uniform',f'{O}:gamma'])
p('C20','Idempotent occupations are admissible for all parameters',
 'occupation.idempotent returns, for every parameter dictionary produced by idempotent_param_init, values in [0, 1/num_k] per spin ([0,2/num_k] when restricted) with total num_electrons.',
 'all parameter values, sizes, spins',
 'the bound is a property of every matrix with orthonormal columns',
 [f'{O}:idempotent',f'{O}:idempotent_param_init'])
p('C21','Occupation method selection is consistent end to end',
 'For each supported method name, occupation.param_init followed by occupation.occupation with the arguments used by the ground-state drivers gives an array with the documented number of spin channels whose total is num_electrons; any other method name raises ValueError in both.',
 'every method string, electron number, spin, band count computed by the driver, both spin_restricted settings',
 'the property couples two dispatch functions and the driver arithmetic num_bands = ceil(ne/2)+empty_bands',
 [f'{O}:param_init',f'{O}:occupation','jrystal/calc/calc_ground_state_energy_all_electrons.py:calc','jrystal/calc/calc_ground_state_energy_normcons.py:calc'])
p('C22','Smearing entropy is symmetric, concave and largest at half filling',
 'entropy.fermi_dirac is invariant under o -> o_max - o, is concave in the occupations, is maximal when every occupation is o_max/2, and is independent of the order of bands and k points; o_max is (3-num_spin)/num_k.',
 'all occupation arrays with entries in [0,o_max], every eps > 0',
 'inequalities over a continuous domain',
 ['jrystal/_src/entropy.py:fermi_dirac'])
p('C23','Hartree energy is a positive quadratic form that ignores the average density',
 'energy.hartree equals (2 pi vol/N^2) sum_{G != 0} |n(G)|^2/|G|^2, is >= 0, vanishes exactly when the total density has no G != 0 component, scales quadratically, depends only on the sum over spins, is unchanged by adding a constant density, and doubles with kohn_sham=True.',
 'every spin-resolved density array, invertible cell, grid',
 'positivity and the zero set are statements about all densities',
 [f'{EN}:hartree',f'{PO}:hartree_reciprocal'])
p('C24','External energy is linear and lattice periodic',
 'energy.external is linear in the density and in the nuclear charges, unchanged when any atom is moved by a lattice vector or atoms are permuted, unchanged when all atoms are translated by a grid vector together with the density, and independent of the G=0 component.',
 'all densities, atoms, charges, lattice vectors, grids',
 'periodicity must hold for all integer translations and all atoms',
 [f'{EN}:external',f'{PO}:external_reciprocal'])
p('C25','Kinetic energy is non-negative and consistent between the two implementations',
 'energy.kinetic is >= 0 for non-negative occupations, linear in occupation, vanishes only if every occupied coefficient sits at k+G=0, equals the occupation-weighted diagonal of braket.expectation with the kinetic operator, and for orthonormal coefficients inside a spherical mask at Gamma is at most cutoff_energy times the electron number.',
 'all coefficients, k points, occupations, grids',
 'inequalities and an identity for all inputs',
 [f'{EN}:kinetic','jrystal/_src/kinetic.py:kinetic_operator',f'{BK}:expectation'])
p('C26','Total energy is the sum of its parts',
 'total_energy equals the sum of the four components returned with split=True, which equal kinetic, external, hartree and xc_energy evaluated on density_grid / density_grid_reciprocal of the same coefficients; omitting occupation is the same as passing ones; it is invariant under a simultaneous lattice translation of any atom.',
 'all inputs',
 'composition of several modules with different density routines',
 [f'{EN}:total_energy',f'{EN}:xc_energy'])
p('C27','Spin-polarised exchange reduces correctly',
 'xc_energy for a spin-polarised density with equal spin densities equals the unpolarised xc_energy of the summed density, and for an exchange functional the polarised value obeys the exact spin scaling E_x[n_up,n_dn] = (E_x[2 n_up]+E_x[2 n_dn])/2.',
 'every pair of spin densities and every exchange functional',
 'the scaling relation is an identity for arbitrary densities; tests use unpolarised systems',
 [f'{XC}:_lda',f'{XC}:_gga',f'{EN}:xc_energy'])
p('C28','Density-gradient invariants are admissible',
 'sigma_r_fn returns sigma_upup >= 0, sigma_dndn >= 0 and |sigma_updn|^2 <= sigma_upup sigma_dndn at every grid point, and the unpolarised sigma of n_up+n_dn equals sigma_upup+2 sigma_updn+sigma_dndn; a constant density gives zero.',
 'every density array, cell and grid',
 'pointwise inequalities for all densities',
 [f'{XC}:sigma_r_fn'])
p('C29','Ewald energy has the symmetries of a point-charge lattice',
 'ewald_coulomb_repulsion is unchanged by a rigid translation of all atoms, by permuting atoms together with their charges, and by inverting all positions through the origin, is quadratic under scaling of all charges, and adding an atom of zero charge does not change it.',
 'all positions, charges, cells, eta > 0, translation lists',
 'symmetry groups over continuous data',
 ['jrystal/_src/ewald.py:ewald_coulomb_repulsion'])
p('C30','Hartree potential and Hartree energy are consistent and the potential is real',
 'The real-space Hartree potential (ifftn of hartree_reciprocal) of a real density is real, averages to zero over the cell, and (1/2)(vol/N) sum n V_KS equals the Hartree energy.',
 'every real density, cell, grid',
 'reality depends on |G|^2 = |-G|^2 at every index including Nyquist planes of skew cells',
 [f'{PO}:hartree_reciprocal',f'{PO}:hartree',f'{PO}:effective',f'{EN}:hartree'])
p('C31','Hamiltonian matrix is Hermitian and has the advertised elements',
 'hamiltonian_matrix returns for each spin and k point the Hermitian matrix <c_i|T_k + V_eff|c_j> in the given bands, its diagonal sums to hamiltonian_matrix_trace of the same bands, and for orthonormal bands the trace is invariant under unitary mixing.',
 'all coefficients, densities, k points',
 'the implementation goes through two nested reverse-mode derivatives of a real function of complex variables; correctness for all coefficients is an algebraic identity',
 [f'{HA}:hamiltonian_matrix',f'{HA}:hamiltonian_matrix_trace','jrystal/_src/hessian.py:complex_hessian'])
p('C32','complex_hessian returns the Hermitian form',
 'For f(u) = (1/2) Re(u^dagger M u), complex_hessian(f, x) returns the Hermitian part (M+M^dagger)/2 at every evaluation point x.',
 'every dimension, every matrix M, every x',
 'depends on the conjugation convention of two chained vector-Jacobian products',
 ['jrystal/_src/hessian.py:complex_hessian'])
p('C33','Expectation values: diagonal, Hermitian and spin-resolved',
 'expectation(..., diagonal=True) is the diagonal of expectation(..., diagonal=False); with ket=None and a real operator the matrix is Hermitian with real diagonal; a spin-resolved potential [spin,x,y,z] acts on the matching spin channel of the wave functions.',
 'all wave functions, potentials, modes',
 'the meaning of the fourth operator axis only shows when the number of k points equals the number of spins or is larger than one',
 [f'{BK}:expectation',f'{HA}:hamiltonian_matrix_trace',f'{PO}:effective'])
p('C34','Nonlocal pseudopotential realises the D matrix',
 'The nonlocal Hamiltonian built from potential_nonlocal_psi_reciprocal and hamiltonian_nonlocal equals (1/vol) sum_ij D_ij <c_a|beta_i><beta_j|c_b>, is Hermitian, and the nonlocal energy is the occupation-weighted trace.',
 'every real symmetric D matrix, every projector array, every coefficient array',
 'correctness for indefinite, unsorted or non-diagonal D matrices; shipped pseudopotentials exercise only a few',
 ['jrystal/pseudopotential/nloc.py:potential_nonlocal_psi_reciprocal','jrystal/pseudopotential/nloc.py:hamiltonian_nonlocal','jrystal/pseudopotential/nloc.py:energy_nonlocal'])
p('C35','Local pseudopotential is lattice periodic and additive over atoms',
 'potential_local_reciprocal is additive over atoms, unchanged when an atom moves by a lattice vector, zero at G=0, and energy_local equals the real-space integral of density times ifftn of the potential when both are real.',
 'all positions, radial tables, cells',
 'periodicity over all integer translations',
 ['jrystal/pseudopotential/local.py:potential_local_reciprocal','jrystal/pseudopotential/local.py:energy_local','jrystal/pseudopotential/local.py:hamiltonian_local'])
p('C36','Convergence checker fires exactly on a quiet window',
 'After any sequence of check and reset calls, check(v) returns True if and only if at least window_size values (including v) were submitted since the last reset and the population standard deviation of the last window_size of them is below the threshold; the stored history never exceeds window_size values.',
 'every window size, threshold and history of calls',
 'history property over unbounded call sequences; window_size 0 and 1 are special',
 ['jrystal/calc/convergence.py:ConvergenceChecker'])
p('C37','Ground-state loop stops at first convergence and reports the energy of the evaluated parameters',
 'The optimisation loop performs exactly min(epoch, first converged step) updates, reports convergence iff the checker fired, and the reported total energy is the energy of the returned parameters/density.',
 'every update function, checker, epoch count',
 'stopping behaviour over all trajectories and epoch counts including 0',
 ['jrystal/calc/calc_ground_state_energy_all_electrons.py:calc','jrystal/calc/calc_ground_state_energy_normcons.py:calc'])
p('C38','Smearing temperature schedule anneals to the target',
 'The temperature used at step i is non-increasing in i, lies between smearing and 100, starts at 100 and equals smearing from step epoch//2 on; it is 0 at all steps when smearing is 0.',
 'every epoch count, every smearing value, every step',
 'inequalities for all real smearing values and all steps, with degenerate epoch//2 = 0',
 ['jrystal/calc/calc_ground_state_energy_all_electrons.py:calc'])
p('C39','Band-structure results come back in k-path order',
 'Splitting the k path over devices, processing each chunk sequentially and reassembling the eigenvalues returns at position q the eigenvalues of the q-th k point of the path, for every number of devices dividing the number of k points.',
 'every number of devices and k points, every per-k eigenvalue array',
 'index shuffles through C-order and F-order reshapes for all sizes',
 ['jrystal/calc/calc_band_structure_all_electrons.py:calc','jrystal/calc/calc_band_structure_normcons.py:calc'])
p('C40','Configuration loading',
 'get_config returns every key of the file unchanged, fills band_structure_empty_bands from empty_bands when it is null, and any key documented in the default configuration is available after loading a file that omits it.',
 'every configuration mapping',
 'quantifies over all partial configuration files',
 ['jrystal/config.py:get_config','jrystal/config.py:default_config'])
p('C41','Beta cache round-trips',
 'load_beta_sbt after save_beta_sbt with the same filename argument returns the saved list in order, for any list length, with or without an explicit filename.',
 'every list of arrays, both filename modes, every prior file-system state',
 'state-dependent (directory exists or not) and history-dependent (overwritten caches)',
 [f'{OU}:save_beta_sbt',f'{OU}:load_beta_sbt'])
p('C42','Per-atom mapping and padding preserve order and content',
 'map_over_atoms(f)(xs, ys, ...) returns [f(x_i, y_i, ...)] in atom order; stack_with_padding embeds each array unchanged at the origin of a common shape with zeros elsewhere and raises on empty input or mixed rank; pre-computed beta transforms come back in atom order irrespective of worker scheduling.',
 'all lists of arrays, all worker schedules',
 'schedules and shapes are unbounded',
 ['jrystal/pseudopotential/utils.py:map_over_atoms','jrystal/pseudopotential/utils.py:stack_with_padding','jrystal/calc/pre_calc.py:pre_calc_beta_sbt'])
p('C43','Differentiation and batching rules of the sharded FFT are correct',
 'The registered transpose of fftn3d (ifftn3d) is its true linear transpose, its tangent map is its derivative, and the batching rule returns at batch index b the transform of the b-th slice for any batch axis.',
 'all arrays, all grids, all batch axes',
 'linear-algebra identities for all sizes',
 ['jrystal/_src/spmd/fft.py'])
p('C44','Sharded execution equals single-device execution',
 'The partitioning rule for the 3D FFT only accepts shardings under which each device holds complete transform axes, so that running the local FFT on each shard and concatenating equals the FFT of the whole array.',
 'every partition spec, rank and mesh',
 'all shardings; a wrong rule silently gives wrong numbers on multi-device runs only',
 ['jrystal/_src/spmd/custom_sharding.py:_supported_sharding','jrystal/_src/spmd/fft.py','jrystal/_src/spmd/uniform.py:uniform'])
p('C45','safe_real never drops a significant imaginary part',
 'safe_real returns its input when the dtype is real; for complex input it returns the real parts if every imaginary part is at most tol in modulus and raises ValueError otherwise (including NaN or infinite imaginary parts).',
 'all arrays, all tolerances',
 'boundary and non-finite values',
 [f'{U}:safe_real'])
p('C46','Crystal geometry accessors are consistent',
 'For every invertible cell, scaled_positions are the fractional coordinates (scaled_positions @ cell_vectors = positions), vol is positive and invariant under integer unimodular basis changes, num_electron is the sum of charges and the default spin has the parity of the electron number; a spin of wrong parity is rejected by create_crystal.',
 'all invertible cells, positions, charges',
 'cells in tests are symmetric, which hides transposition errors',
 ['jrystal/_src/crystal.py:Crystal',f'{OU}:create_crystal',f'{U}:check_spin_number'])
p('C47','k path coordinates',
 'get_k_path(fractional=True) returns the fractional coordinates of the requested path and fractional=False returns the same points in Cartesian reciprocal coordinates (fractional @ B), up to the rounding of the Bohr/Angstrom constant.',
 'all invertible cells, all paths',
 'depends on cancelling unit conversions for all cells',
 ['jrystal/_src/band/k_path.py:get_k_path'])
p('C48','Spherical coordinates and Legendre features',
 'cartesian_to_spherical returns r > 0, theta in [0,2pi), phi in [0,pi] that convert back to the input for every non-zero vector (and r=eps at the origin), and legendre_kernel_trick(l) features satisfy <phi(x),phi(y)> = (2l+1) P_l(cos angle(x,y)) for non-zero x,y with l in {0,1}, raising otherwise.',
 'all vectors',
 'branch cuts of arctan2 and the poles',
 ['jrystal/pseudopotential/spherical.py:cartesian_to_spherical','jrystal/pseudopotential/spherical.py:legendre_kernel_trick'])
p('C49','Radial quadrature weights',
 'The Simpson weights of pyNumSBT integrate every function that is quadratic in log r (times dr/drho) exactly on meshes with an odd number of points, are non-negative, and the numerical SBT is linear in the function and exact for the left Riemann sum it implements.',
 'all mesh lengths and meshes',
 'parity-dependent accumulation loop',
 ['jrystal/sbt/pysbt.py:pyNumSBT.sbt_init','jrystal/sbt/sbt_numerical.py:sbt','jrystal/sbt/sbt.py:batch_sbt'])
p('C50','UPF parsing',
 'parse_pp_info returns the valence configuration rows between the header and the generation-configuration line for any text that contains both; find_upf returns a file of the requested element regardless of letter case and raises when none exists, never returning a file of a different element; create() keeps per-atom lists aligned with the crystal symbols and drops exactly the mesh points with r <= 0.',
 'all texts, directory listings, symbol lists, meshes',
 'string processing over arbitrary inputs',
 ['jrystal/pseudopotential/load.py:parse_pp_info','jrystal/pseudopotential/load.py:find_upf','jrystal/pseudopotential/dataclass.py:NormConservingPseudopotential.create'])
p('C51','Every public evaluation function returns on well-shaped input',
 'wave_r, density_r, nabla_density_r, squeeze_coefficient, potential.hartree, energy.band_energy and hamiltonian_matrix return a value of the documented shape for every input of the documented shape.',
 'all shapes satisfying the documented signature',
 'a shape failure may be limited to some ranks or sizes; a proof covers all',
 [f'{PW}:wave_r',f'{U}:squeeze_coefficient',f'{PO}:hartree',f'{EN}:band_energy',f'{HA}:_hamiltonian_matrix'])
p('C52','Command line selects the requested calculation and overrides',
 'The mode and use_pseudopotential setting select exactly one of the four drivers; parse_args sets each configuration key to the value written on the command line, of the same type as its default, and leaves the others unchanged.',
 'all command lines and configurations',
 'all strings for all option types',
 ['main.py:main',f'{OU}:parse_args',f'{OU}:create_freq_mask',f'{OU}:create_pseudopotential',f'{OU}:create_optimizer'])
p('C53','Physical tables are mutually consistent',
 'SYMBOL2NUMBER and NUMBER2SYMBOL are inverse bijections between the 118 element symbols and 1..118; Bohr/Angstrom and eV/Hartree conversion constants are reciprocal within 2e-9 relative error.',
 'all 118 elements',
 'whole-table property; a single transposed entry would pass spot checks',
 ['jrystal/_src/const.py'])
p('C54','vmapstack maps over exactly the requested leading axes',
 'vmapstack(n)(f) applied to arrays with n leading batch axes returns f of each element at the same batch index; with args given it raises ValueError unless exactly n entries are provided.',
 'all n, all functions, all batch shapes',
 'unbounded nesting depth',
 [f'{U}:vmapstack',f'{G}:grid_vector_radius'])
p('C55','Analytic density gradient is the derivative of the density',
 'nabla_density_grid(r, coeff, cell, occupation) equals the gradient at r of the density sum_skb occ |psi_skb(r)|^2, and without occupation the gradient of each |psi|^2.',
 'all coefficients, positions, cells, occupations',
 'a derivative identity for all inputs',
 [f'{PW}:nabla_density_grid'])
p('C56','Exchange-correlation potential is the functional derivative of the energy',
 'With kohn_sham=True the LDA branch of xc_density returns d(n eps(n))/dn for each spin channel of the density, i.e. the derivative of the energy reported by xc_energy with respect to the density at that point.',
 'all densities and all differentiable functionals',
 'a derivative identity for arbitrary functionals and densities',
 [f'{XC}:vxc_lda',f'{XC}:xc_density',f'{EN}:xc_energy'])
p('C57','Crystal.create_from_symbols keeps the documented Bohr geometry',
 'Crystal.create_from_symbols(symbols, positions, cell_vectors) returns a crystal whose positions, cell_vectors, charges and spin are the arguments, positions and cell in Bohr as documented.',
 'all symbols, positions and cells',
 'a unit error changes every geometry by the same factor and needs the documented unit as reference',
 ['jrystal/_src/crystal.py:Crystal.create_from_symbols'])
p('C58','Exchange-correlation quantities follow a translation of the density',
 'Translating the density by a grid vector translates the exchange-correlation energy density and the Kohn-Sham potential of xc_density by the same vector and leaves xc_energy unchanged, for LDA and GGA functionals.',
 'all densities, cells, grids, translations and functionals',
 'an equivariance statement over all densities and shifts',
 [f'{XC}:xc_density',f'{XC}:sigma_r_fn',f'{XC}:vxc_gga_recp',f'{EN}:xc_energy'])
p('C59','Parallel initialisation works for every number of devices',
 'Initialising the wave-function parameters with a sharding returns an array of the requested shape distributed as the sharding says, for every mesh, partition spec and shape; in particular the parallel ground-state calculation starts for every number of devices and k points.',
 'all shapes, meshes, partition specs and device counts',
 'needs many devices and all divisibility patterns',
 ['jrystal/_src/spmd/uniform.py:uniform','jrystal/_src/unitary_module.py:unitary_matrix_param_init','jrystal/calc/calc_ground_state_energy_all_electrons.py:calc'])
p('C60','Real spherical harmonics span the same kernel as the complex ones',
 'For every degree l and any two directions, the sum over m of products of the real spherical harmonics used by the nonlocal pseudopotential equals the sum over m of conj(Y_lm) Y_lm of the complex spherical harmonics, so projector sums do not depend on the choice of basis.',
 'every degree, every pair of directions, every family of complex harmonics with the standard conjugation symmetry',
 'an identity over all degrees and directions; sign conventions for negative m only show up in cross terms',
 ['jrystal/pseudopotential/spherical.py:batch_sph_harm_real','jrystal/pseudopotential/spherical.py:batch_sph_harm'])
p('C61','Nonlocal pseudopotential energy does not depend on the choice of origin',
 'Moving every atom by a vector t and every wave function by the same vector (coefficients multiplied by exp(-i(k+G).t)) leaves the nonlocal Hamiltonian matrix and the nonlocal energy unchanged.',
 'every shift vector, crystal, projector table and coefficient array',
 'a symmetry over a continuum of shifts; tests use crystals whose atoms are symmetric about the origin, where a wrong sign is invisible',
 ['jrystal/pseudopotential/nloc.py:potential_nonlocal_psi_reciprocal','jrystal/pseudopotential/nloc.py:hamiltonian_nonlocal'])
p('C62','Local pseudopotential is real in real space and its matrix Hermitian',
 'The inverse transform of potential_local_reciprocal is real at every grid point, and hamiltonian_local returns a Hermitian matrix for every spin and k point.',
 'every cell, grid size, crystal and coefficient array',
 'reality must hold at every grid point for every atom position, and depends on the parity of the grid sizes',
 ['jrystal/pseudopotential/local.py:potential_local_reciprocal','jrystal/pseudopotential/local.py:hamiltonian_local'])
p('C63','Norm-conserving Hamiltonian has the advertised elements',
 'hamiltonian_matrix of the norm-conserving module returns, for every spin and k point, the nonlocal plus kinetic plus local, Hartree and exchange-correlation matrix elements, is Hermitian, and hamiltonian_trace is the sum of its diagonal.',
 'every coefficient array, density, potential, cell, k mesh and functional',
 'an identity and a symmetry over all arrays; the sum involves broadcasting over spin and k axes whose failures depend on sizes',
 ['jrystal/pseudopotential/nloc.py:hamiltonian_matrix','jrystal/pseudopotential/nloc.py:hamiltonian_trace'])
p('C64','The fft method of the local potential samples the tabulated potential',
 'With method fft the inverse transform of the local potential of a neutral atom is, up to its mean, the tabulated radial potential at each grid point.',
 'every cell, grid, radial table and volume',
 'a normalisation that depends on the volume is invisible on one cell',
 ['jrystal/pseudopotential/local.py:potential_local_reciprocal'])
p('C65','Projector form factors are the radial transforms of the tabulated projectors',
 'beta_sbt_grid returns for every k point, projector and G the interpolated spherical Bessel transform of the projector with its own angular momentum at |k+G|, dropping a first radial point at zero, and rejects tables whose sizes disagree.',
 'every table, angular momentum list, grid and k mesh',
 'pairing of projectors with angular momenta and alignment of radial points must hold for all table sizes',
 ['jrystal/pseudopotential/beta.py:_beta_sbt_single_atom'])
p('C66','The ground-state driver minimises the documented total energy',
 'The energy that the all-electron ground-state calculation minimises equals total_energy evaluated on the coefficients and occupations belonging to the current parameters.',
 'every set of plane-wave and occupation parameters, crystal, grid, mask, functional and occupation method',
 'the driver computes the energy by its own sequence of calls; agreement with the library function must hold for all parameters, not for one run',
 ['jrystal/calc/calc_ground_state_energy_all_electrons.py:calc','jrystal/_src/energy.py:total_energy'])
p('C67','The returned density holds the electrons of the crystal',
 'For every configuration the ground-state calculation finishes with a density that is non-negative, has one channel when spin restricted and two otherwise, integrates to the number of electrons and, with two channels, has the configured spin polarisation.',
 'every optimiser, update history, number of epochs, temperature schedule, starting point, functional and occupation method',
 'a statement about the end of every possible optimisation run; tests see a handful of runs',
 ['jrystal/calc/calc_ground_state_energy_all_electrons.py:calc','jrystal/calc/calc_ground_state_energy_normcons.py:calc','jrystal/_src/occupation.py'])
p('C68','Logged energies are consistent',
 'The total energy a ground-state calculation reports at its end is the sum of the kinetic, Hartree, external, exchange-correlation and nuclear repulsion energies it reports with it.',
 'every run: optimiser, history, number of epochs and convergence settings',
 'whether the numbers belong to the same iterate depends on the history; converged tests hide the difference',
 ['jrystal/calc/calc_ground_state_energy_all_electrons.py:calc','jrystal/calc/calc_ground_state_energy_normcons.py:calc'])
p('C69','Nuclear repulsion of a pseudopotential calculation is that of the ions',
 'In a norm-conserving calculation the nuclear repulsion added to the total energy is the Ewald energy of the ionic (valence) charges the local potential was made for.',
 'every crystal, valence table, cell, grid and Ewald setting',
 'a wrong constant does not show up in any single-geometry test of the optimiser',
 ['jrystal/calc/opt_utils.py:get_ewald_coulomb_repulsion','jrystal/calc/calc_ground_state_energy_normcons.py:calc'])
p('C70','A supplied ground state is used by the band calculation',
 'The norm-conserving band-structure calculation returns the band energies of the supplied ground-state density when one is given, and of the density it computes itself otherwise, one row per k point of the path in order.',
 'every ground-state output, path, number of devices and band count',
 'a branch that is never run by the tests; the ordering must hold for all path lengths and device counts',
 ['jrystal/calc/calc_band_structure_normcons.py:calc'])
p('C71','Band energies are upper bounds of the exact ones, in order',
 'At every k point of the path the reported band energies ascend with the band index, the b-th is never below the b-th eigenvalue of the Kohn-Sham Hamiltonian of the converged density in the plane-wave basis of the calculation, and they equal the eigenvalues when there are as many bands as plane waves.',
 'every crystal, density, functional, mask, path, device count, optimiser, number of epochs and starting point',
 'the bound has to hold for unconverged orbitals of every optimisation run; tests compare one converged run',
 ['jrystal/calc/calc_band_structure_all_electrons.py:calc','jrystal/calc/calc_band_structure_normcons.py:calc','jrystal/_src/hamiltonian.py:hamiltonian_matrix'])
p('C72','Minimising the band objective gives the lowest eigenvalues',
 'The value minimised at a k point is the sum of the band energies reported there; it is bounded below by the sum of the lowest exact eigenvalues over bands and spins, the bound is attained, and parameters that minimise it report exactly the lowest eigenvalues.',
 'every set of plane-wave parameters, k point, density, functional, mask and band count',
 'a statement about the global minimum over all parameters of a non-convex function',
 ['jrystal/calc/calc_band_structure_all_electrons.py:calc','jrystal/calc/calc_band_structure_normcons.py:calc','jrystal/_src/hamiltonian.py:hamiltonian_matrix_trace'])
p('C73','The fast spherical Bessel transform computes the Bessel integral it documents',
 'On a logarithmic mesh the forward transform of degree 0 to lmax returns on a logarithmic mesh of wave numbers ending at kmax: up to a cut the rectangle rule in log r for the integral of j_l(kr) f(r) r^2, above it the Mellin-space sum of the same integral with the exact Mellin transform of j_l and the function continued below the mesh by its power law; the cut is where both agree best. The inverse transform does the same with radii and wave numbers exchanged. Scaling the function scales the result; norm multiplies it by sqrt(2/pi); other degrees and directions raise.',
 'every logarithmic mesh of at least two points, function, degree, direction and option',
 'the identity between the FFT computation and the integral sums has to hold for every mesh length, step and function; tests compare a few functions within a tolerance',
 ['jrystal/sbt/pysbt.py:pyNumSBT.sbt_init','jrystal/sbt/pysbt.py:pyNumSBT.sbt_mltb','jrystal/sbt/pysbt.py:pyNumSBT.run','jrystal/sbt/sbt.py:sbt'])
p('C74','The fast spherical Bessel transform is stable',
 'The values above the cut satisfy a discrete Plancherel bound: the sum of k^3 g^2 is at most pi/2 times the sum of r^3 f^2 over the doubled mesh, or at most that sum with norm=True.',
 'every logarithmic mesh, function, degree and power',
 'a bound over all inputs',
 ['jrystal/sbt/pysbt.py:pyNumSBT.run'])
p('C75','The batched transform transforms each row with its degree',
 'batch_sbt returns for the i-th function and the i-th degree what sbt returns for them, on the common mesh, with one row of output for each row of input.',
 'every batch of functions and list of degrees',
 'a statement over all batch lengths',
 ['jrystal/sbt/sbt.py:batch_sbt','jrystal/sbt/sbt.py:sbt'])
p('C76','A ground-state calculation does not depend on the orientation of the crystal',
 'Rotating or reflecting all positions and cell vectors by an orthogonal matrix leaves the result of the all-electron ground-state calculation unchanged: the same exception, or the same energies, total and density values.',
 'every geometry, configuration, functional, optimiser and orthogonal matrix',
 'tests can try a few rotations; the identity must hold through every step of the optimisation for all of them',
 ['jrystal/calc/calc_ground_state_energy_all_electrons.py:calc','jrystal/_src/crystal.py:Crystal','jrystal/_src/grid.py:g_vectors','jrystal/_src/xc.py:xc_density','jrystal/_src/ewald.py:ewald_coulomb_repulsion'])
p('C77','A ground-state calculation does not depend on how the atoms are listed',
 'Listing the atoms in another order, or adding a site without nuclear charge, leaves the result of the all-electron ground-state calculation unchanged.',
 'every geometry, configuration, permutation and ghost position',
 'a statement over all permutations and all positions through a whole run',
 ['jrystal/calc/calc_ground_state_energy_all_electrons.py:calc','jrystal/_src/energy.py:external_energy','jrystal/_src/ewald.py:ewald_coulomb_repulsion'])
p('C78','A ground-state calculation does not depend on the choice of the periodic images',
 'Moving all atoms by one lattice vector leaves the result unchanged; moving single atoms by lattice vectors leaves the energies of the electrons and the density unchanged, and the total changes only by the reported nuclear repulsion.',
 'every geometry, configuration and lattice vectors',
 'a statement over all integer combinations through a whole run',
 ['jrystal/calc/calc_ground_state_energy_all_electrons.py:calc','jrystal/_src/potential.py:external_reciprocal','jrystal/_src/ewald.py:ewald_coulomb_repulsion'])
p('C79','An admissible ground-state calculation runs to its end and returns a physical density',
 'With a non-singular cell, sizes up to 2048, a known mask holding at least one plane wave per band, placeable electrons, a positive Ewald cutoff, k points that the devices can share and at least one epoch, the all-electron calculation raises nothing; its density is nonnegative, has one channel per spin and integrates to the number of electrons and to the requested polarisation; the grid has the least admissible sizes that hold the requested ones; the geometry comes from the named crystal if a name is given, else from the file path.',
 'every configuration, geometry, optimiser and random seed that is admissible',
 'tests run a few small systems; the claim covers every configuration and every step of an arbitrary optimiser',
 ['jrystal/calc/calc_ground_state_energy_all_electrons.py:calc','jrystal/calc/opt_utils.py:create_crystal','jrystal/calc/opt_utils.py:create_grids','jrystal/calc/opt_utils.py:create_freq_mask','jrystal/calc/opt_utils.py:get_ewald_coulomb_repulsion'])
p('C80','Time reversal',
 'Replacing every orbital at k by its complex conjugate at -k changes neither energies nor density, and the band energies reported at k and -k are equal.',
 'every crystal, mask, k point, potential and orbital parameters',
 'a statement over all k points and all coefficient arrays; single examples at symmetric k points cannot see a lost symmetry',
 ['jrystal/_src/energy.py:total_energy','jrystal/calc/calc_band_structure_all_electrons.py:calc','jrystal/_src/grid.py:cubic_mask','jrystal/_src/grid.py:spherical_mask','jrystal/_src/grid.py:k_vectors'])
p('C81','The two spin channels are equivalent',
 'Exchanging the spin channels of orbitals and occupations leaves all energies unchanged and exchanges the densities, so a polarisation and its opposite reach the same energies; a restricted state has the energies of the unrestricted state with equal channels, so dropping the restriction never raises the lowest energy.',
 'every crystal, functional, orbitals and occupations',
 'identities over all coefficient arrays and functionals',
 ['jrystal/_src/energy.py:total_energy','jrystal/_src/xc.py:xc_density','jrystal/_src/pw.py:density_grid'])
p('C82','The nonlocal pseudopotential has no preferred axes',
 'Rotating or reflecting atoms, reciprocal lattice and k points together does not change the matrix of the nonlocal pseudopotential.',
 'every orthogonal matrix, crystal, k mesh, D matrix, angular momenta and coefficient array',
 'the claim ranges over all rotations and rests on the addition theorem of the spherical harmonics; tests compare single orientations',
 ['jrystal/pseudopotential/nonlocal.py:potential_nonlocal_psi_reciprocal','jrystal/pseudopotential/spherical.py:batch_sph_harm_real','jrystal/pseudopotential/spherical.py:cartesian_to_spherical'])
p('C83','A norm-conserving calculation does not depend on the orientation of the crystal',
 'Rotating or reflecting cell and atoms together, the norm-conserving ground-state calculation returns the same report, or raises the same exception.',
 'every orthogonal matrix, configuration, crystal, pseudopotential and external routine',
 'the claim is about a whole run, with its optimisation history, for a continuum of orientations',
 ['jrystal/calc/calc_ground_state_energy_normcons.py:calc','jrystal/pseudopotential/local.py:potential_local_reciprocal','jrystal/pseudopotential/nonlocal.py:potential_nonlocal_psi_reciprocal'])
p('C84','A norm-conserving calculation does not depend on the choice of the unit cell contents',
 'Moving atoms by lattice vectors changes neither the energies nor the density of a norm-conserving calculation; moving all of them by one vector changes nothing at all.',
 'every crystal, assignment of lattice vectors to atoms, configuration and pseudopotential',
 'infinitely many equivalent descriptions of one crystal must give one report, over whole optimisation histories',
 ['jrystal/calc/calc_ground_state_energy_normcons.py:calc','jrystal/pseudopotential/local.py:potential_local_reciprocal'])
p('C85','A norm-conserving calculation does not depend on the order of the atoms',
 'Listing the atoms in another order, the calculation succeeds in the same cases and with the same report.',
 'every permutation of the atoms of every crystal, with different elements and pseudopotentials',
 'the pseudopotential lists, positions and charges must stay aligned for every permutation and every mixture of elements',
 ['jrystal/calc/calc_ground_state_energy_normcons.py:calc','jrystal/pseudopotential/dataclass.py:NormConservingPseudopotential.create','jrystal/calc/pre_calc.py:pre_calc_beta_sbt'])
p('C86','An admissible norm-conserving calculation succeeds and describes the valence electrons',
 'With a readable file for every element, a possible spin, enough plane waves and devices that share the work evenly, the norm-conserving calculation returns without exception a non-negative density that holds the valence electrons and the requested polarisation; its energies are those of states of orthonormal orbitals. Configurations it cannot treat are refused.',
 'every crystal, configuration, pseudopotential, optimiser and number of steps',
 'success and physicality of the whole pipeline depend on the interplay of all its parts for all inputs',
 ['jrystal/calc/calc_ground_state_energy_normcons.py:calc','jrystal/calc/opt_utils.py:create_pseudopotential','jrystal/calc/pre_calc.py:pre_calc_beta_sbt'])
p('C87','The band-structure Hamiltonian belongs to the energy that the ground state minimises',
 'The Hamiltonian the band calculation builds from a density is the derivative of the total energy the ground-state calculation minimises. Hence orthonormal bands of least energy solve the Kohn-Sham equations of that Hamiltonian, and diagonalising hamiltonian_matrix yields eigenstates of the full Hamiltonian.',
 'every crystal, grid, mask, k mesh, occupation, density functional and differentiable change of the orbitals',
 'a derivative relation between two separately written programs, for every density and every direction of change',
 ['jrystal/_src/energy.py:total_energy','jrystal/_src/hamiltonian.py:hamiltonian_matrix','jrystal/_src/hamiltonian.py:_hamiltonian_matrix_basis','jrystal/_src/potential.py:effective','jrystal/_src/xc.py:xc_density'])
p('C88','The parameters of a calculation can describe every physical state',
 'For every set of orthonormal orbitals made of the selected plane waves and every physical occupation there are values of the trained parameters with the density, the total energy and the free energy of that state: minimising over the parameters is minimising over the states.',
 'every crystal, grid, mask, k mesh, number of electrons, spin, functional, pseudopotential, orthonormal orbitals and occupations between zero and the Pauli limit with the right number of electrons',
 'surjectivity of a parametrisation onto a continuum of states; a test sees single states, and none that a missing parameter value would have had to describe',
 ['jrystal/_src/pw.py:coeff','jrystal/_src/unitary_module.py:unitary_matrix','jrystal/_src/occupation.py:occupation','jrystal/_src/occupation.py:idempotent','jrystal/_src/occupation.py:simplex_projector','jrystal/calc/calc_ground_state_energy_all_electrons.py:calc'])
p('C89','With an optimiser that comes within a tolerance of the minimum, a calculation reports the ground state to that tolerance',
 'Suppose each optimiser step ends at parameters whose free energy is at most eps above the least that any parameters have. Then every calculation that can be carried out succeeds, and the energy terms and the density it reports are those of one physical state whose free energy, at a temperature of the schedule, is at most eps above that of every physical state with the same number of electrons, spin, bands and plane waves. The reported total energy minus the nuclear repulsion is the energy of such a state too, provided that there are at least two epochs and the convergence window has at least two values.',
 'every crystal, grid, mask, k mesh, number of empty bands, spin, occupation method, continuous functional, pseudopotential, temperature schedule, initial parameters and optimiser of the stated quality; all electrons and norm-conserving; not spin-restricted simplex-projector with unpaired electrons, not gamma with several k points',
 'compares the answer with every state of a continuum; a test compares with a reference number for one crystal and cannot tell a missed state from a slow optimiser',
 ['jrystal/calc/calc_ground_state_energy_all_electrons.py:calc','jrystal/calc/calc_ground_state_energy_normcons.py:calc','jrystal/_src/pw.py:coeff','jrystal/_src/occupation.py:occupation','jrystal/_src/energy.py:total_energy','jrystal/_src/entropy.py:fermi_dirac'])
p('C90','A band-structure run saves upper bounds of the Kohn-Sham energies of its own ground-state density',
 'A band-structure run from a configuration succeeds whenever its ground-state calculation can be carried out, ase returns as many k points as requested, the devices can share them evenly and the mask has at least one plane wave per band. The saved array, in a file named after the atoms, has one row per requested k point, in the order of the path, and one column per band. At every k point the entries ascend with the band, bound the Kohn-Sham eigenvalues of the density that the ground-state calculation reports from above, and equal them when the bands are complete; nothing is saved when the ground-state calculation fails, when the path has fewer points than requested or when the points cannot be shared evenly.',
 'every crystal, grid, mask, k path, number of bands, functional, number of devices and optimiser',
 'holds for every crystal and path and for every outcome of the optimisation, also one that has not converged; a test sees one crystal and cannot know the exact eigenvalues',
 ['jrystal/calc/calc_band_structure_all_electrons.py:calc','jrystal/calc/calc_ground_state_energy_all_electrons.py:calc','jrystal/_src/band/k_path.py:get_k_path','jrystal/calc/opt_utils.py:create_crystal'])
p('C91','With good optimisers a band-structure run saves the Kohn-Sham energies of the ground state',
 'Suppose that the optimiser of the orbitals along the path ends within delta of the minimum of its objective at every k point, and the optimiser of the ground state within eps of the minimum of the free energy. Then every entry that a band-structure run saves is at most delta above the exact Kohn-Sham eigenvalue at its k point and not below it, where the potential is the one of the density of a state whose free energy is within eps of the lowest.',
 'every crystal, grid, mask, k path, number of bands, continuous functional, number of devices, initial parameters and optimisers of the stated quality with at least one step per k point',
 'compares with exact eigenvalues and with every electronic state; a test compares with the result of another approximate calculation',
 ['jrystal/calc/calc_band_structure_all_electrons.py:calc','jrystal/calc/calc_ground_state_energy_all_electrons.py:calc','jrystal/_src/hamiltonian.py:hamiltonian_matrix_trace'])
p('C92','A band-structure run does not depend on how the crystal is described',
 'The values that an all-electron band-structure run saves, and the exception it raises when it cannot be carried out, are the same when the whole geometry is rotated or reflected (if ase gives the same fractional path), when the atoms are listed in another order, when a site without nuclear charge is added, and when atoms are moved by lattice vectors. Only the name of the file follows the list of atoms.',
 'every crystal, configuration, set of library functions, optimiser, path, orthogonal matrix, permutation, site and lattice vectors, also when the run raises',
 'a relation between two runs for every crystal and every symmetry; a test compares a few rotated cells',
 ['jrystal/calc/calc_band_structure_all_electrons.py:calc','jrystal/calc/calc_ground_state_energy_all_electrons.py:calc','jrystal/_src/xc.py:vxc_gga_recp','jrystal/_src/band/k_path.py:get_k_path'])
p('C93','A norm-conserving band-structure run saves the bands of the ground state',
 'Every norm-conserving band-structure run that meets the documented requirements succeeds and saves, under the name made of the element symbols, one row of the requested number of bands for every k point of the path and every spin channel. The entries of a row ascend and are upper bounds of the eigenvalues of the Kohn-Sham Hamiltonian of that channel and k point for the density of the ground-state run, and are within the accuracy of the optimiser of them; a ground state that the user already has can be supplied.',
 'every crystal, set of pseudopotential files, configuration, device count, path, library function and optimiser',
 'whole runs over all crystals and files; a test runs one crystal',
 ['jrystal/calc/calc_band_structure_normcons.py:calc','jrystal/calc/calc_ground_state_energy_normcons.py:calc','jrystal/pseudopotential/nloc.py:hamiltonian_matrix','jrystal/pseudopotential/spherical.py:batch_sph_harm_real','jrystal/_src/band/k_path.py:get_k_path'])
p('C94','A norm-conserving band-structure run does not depend on how the crystal is described',
 'What a norm-conserving band-structure run saves does not change when the atoms are listed in another order (apart from the name of the file), when atoms are moved by lattice vectors, or when the whole geometry is rotated or reflected.',
 'every crystal, set of pseudopotential files, configuration, path, library function, optimiser, permutation, choice of lattice vectors and orthogonal matrix',
 'relates two whole runs for all crystals and all transformations; a test compares one pair',
 ['jrystal/calc/calc_band_structure_normcons.py:calc','jrystal/pseudopotential/nloc.py:potential_nonlocal_psi_reciprocal','jrystal/pseudopotential/local.py:potential_local_reciprocal','jrystal/_src/band/k_path.py:get_k_path'])
p('C95','The repulsion energy of the nuclei converges and its limit does not depend on numerical choices',
 'As the FFT grid and the real-space cutoff grow, the energy returned by nuclear_repulsion approaches the Ewald energy with both lattice sums complete. That limit is the same for every splitting parameter (up to a stated error of order 1e-20 from the regularised distances) and does not change when nuclei are moved by lattice vectors.',
 'every cell with a volume, number of nuclei, set of positions and charges, positive splitting parameter and tolerance; all grids and cutoffs beyond a bound',
 'a limit over all grid sizes and cutoffs; a test sees finitely many, where the truncation error hides a wrong constant',
 ['jrystal/_src/energy.py:nuclear_repulsion','jrystal/_src/ewald.py:ewald_coulomb_repulsion','jrystal/_src/grid.py:translation_vectors','jrystal/calc/opt_utils.py:get_ewald_coulomb_repulsion'])
p('C96','The Ewald settings only shift the reported energy',
 'Changing the splitting parameter or the (positive) real-space cutoff changes neither the density, nor the kinetic, Hartree, external and exchange-correlation energies, nor the saved band structure, nor the error of a failing run; the total energy changes by exactly the change of the repulsion energy, which on large grids with large cutoffs is negligible.',
 'every crystal, configuration, library function, optimiser and pair of settings, for all four drivers',
 'relates whole runs for all pairs of settings; a test compares one pair',
 ['jrystal/calc/calc_ground_state_energy_all_electrons.py:calc','jrystal/calc/calc_ground_state_energy_normcons.py:calc','jrystal/calc/calc_band_structure_all_electrons.py:calc','jrystal/calc/calc_band_structure_normcons.py:calc','jrystal/calc/opt_utils.py:get_ewald_coulomb_repulsion'])
p('C97','More variational freedom never raises the energy, and results are reproducible',
 'If a second calculation of the same crystal on the same grids allows at least the states of the first (a higher cutoff, more empty bands, free instead of prescribed occupations, two spin channels instead of one), then its total energy is at most that of the first plus the tolerance of its optimiser. Two calculations of the same configuration with different seeds, optimisers or machines report total energies within that tolerance of each other.',
 'every crystal, pair of configurations, functional, starting points and optimisers that meet the tolerance, for both ground-state drivers',
 'relates the results of whole calculations for every pair of configurations; a test compares one pair and cannot tell optimiser error from a wrong state space',
 ['jrystal/calc/calc_ground_state_energy_all_electrons.py:calc','jrystal/calc/calc_ground_state_energy_normcons.py:calc','jrystal/_src/grid.py:spherical_mask','jrystal/_src/occupation.py:simplex_projector','jrystal/_src/pw.py:coeff','jrystal/_src/energy.py:total_energy'])
p('C98','Results belong to the requested smearing temperature',
 'The energies and the density that a calculation reports are those of a state of least free energy at the temperature given by smearing (zero temperature for smearing <= 0), up to the tolerance of the optimiser. The reported energy exceeds the lowest energy by at most that tolerance plus 2 log 2 times the temperature for each band.',
 'every crystal, configuration with at least three epochs, functional, starting point and optimiser that meets the tolerance, for both ground-state drivers',
 'compares the outcome of an annealed optimisation with all states; a test cannot search them, and one that converges late does not show that another one ends too early',
 ['jrystal/calc/calc_ground_state_energy_all_electrons.py:calc','jrystal/calc/calc_ground_state_energy_normcons.py:calc','jrystal/_src/entropy.py:fermi_dirac','jrystal/calc/convergence.py:ConvergenceChecker'])
p('C99','Band energies and occupations of the ground state belong together',
 'The energy changes with an occupation number at the rate of the diagonal element of the Hamiltonian for that band (Janak). States of least free energy exist; their occupations follow one Fermi level: with a temperature the Fermi-Dirac distribution of the band energies (up to the regularisation of the logarithm), without one the states below the level are full and those above it empty, and no occupied band lies above a wave that an empty band could take. Their orbitals solve the Kohn-Sham equations.',
 'every crystal, density functional of the density, number of bands and k points, temperature and optimal state, for both ground-state codes',
 'is a statement about derivatives and about the optimum among all states',
 ['jrystal/_src/energy.py:total_energy','jrystal/_src/hamiltonian.py:hamiltonian_matrix','jrystal/_src/entropy.py:fermi_dirac','jrystal/_src/potential.py:effective','jrystal/pseudopotential/nloc.py:hamiltonian_matrix'])
p('C100','Better optimisation converges to a ground state',
 'For every tolerance there is an accuracy of the optimiser such that every calculation with an optimiser of that accuracy reports energies and a density (at every grid point) within the tolerance of those of an exact ground state at the requested temperature. Exact ground states exist.',
 'every crystal, configuration, continuous functional, tolerance, starting point and optimiser of sufficient accuracy, for both ground-state drivers',
 'an epsilon-delta statement about all optimisers and about a minimum over all states',
 ['jrystal/calc/calc_ground_state_energy_all_electrons.py:calc','jrystal/calc/calc_ground_state_energy_normcons.py:calc','jrystal/_src/energy.py:total_energy','jrystal/_src/pw.py:density_grid'])
p('C101','The pseudopotential Hamiltonian belongs to the energy of the valence electrons',
 'Along every change of the orbitals the energy of valence electrons changes at the rate given by the Hamiltonian matrix of the pseudopotential code for the density at hand. Hence a ground state of valence electrons solves the Kohn-Sham equations of the plane-wave Hamiltonian whose eigenvalues the norm-conserving band calculation reports, the matrix does not couple bands of different occupation, and diagonalising it among the occupied bands gives Kohn-Sham states.',
 'every cell, grid, cutoff, local and nonlocal potential, k points, occupations, temperature and differentiable functional',
 'a statement about derivatives in all directions and about minimisers over all orthonormal orbitals',
 ['jrystal/pseudopotential/nloc.py:hamiltonian_matrix','jrystal/pseudopotential/nloc.py:hamiltonian_nonlocal','jrystal/pseudopotential/nloc.py:energy_nonlocal','jrystal/pseudopotential/local.py:energy_local','jrystal/calc/calc_ground_state_energy_normcons.py:calc'])
p('C102','The occupied bands of a ground state are the lowest bands of the band structure',
 'Without smearing, at every k point with an empty band, the levels of the occupied bands of a ground state (the eigenvalues of the Hamiltonian matrix among them) are exactly the lowest eigenvalues of the plane-wave Hamiltonian with the Kohn-Sham potential of its density: no occupied level is too high and none below is left out. A band calculation that passes this k point saves these levels, up to the accuracy of its optimiser.',
 'every crystal, grid, cutoff, k points, number of bands and electrons, potential and differentiable functional, and every ground state',
 'a statement about minimisers over all orthonormal orbitals and occupations, compared with the whole spectrum of a matrix',
 ['jrystal/_src/hamiltonian.py:hamiltonian_matrix','jrystal/_src/energy.py:total_energy','jrystal/pseudopotential/nloc.py:hamiltonian_matrix','jrystal/calc/calc_band_structure_all_electrons.py:calc'])
p('C103','Compiled transforms do not depend on the devices',
 'fftn3d and ifftn3d give the same result evaluated at once, compiled for one device, and compiled for several devices under a mesh, however the array is divided; inside a mesh they accept every array of rank at least three.',
 'every array, shape, sharding, mesh, number of devices and compilation context',
 'the unit tests run on one device; the custom call is only emitted on several',
 ['jrystal/_src/spmd/custom_partitioning.py:jrystal_custom_partitioning','jrystal/_src/spmd/custom_partitioning.py:_custom_partitioning_lowering_rule','jrystal/_src/spmd/custom_sharding.py:custom_sharding_by_mesh','jrystal/_src/spmd/fft.py:fftn3d'])
p('C104','The program runs what its command line and its configuration file say',
 'The program runs the driver chosen by -m and by the switch for pseudopotentials, with the configuration of the file named by -c, and for band structures starts from the output named by -l. Before a calculation the number format, NaN checks and log level are set from its configuration, the thread variables to 4 and nothing else in the environment, whatever ran before in the same process.',
 'every command line, set of files, configuration and earlier state of the process',
 'the outcome depends on all earlier calculations of the process and on every combination of options',
 ['main.py:main','jrystal/calc/opt_utils.py:set_env_params','jrystal/config.py:get_config'])
p('C105','The Hankel variant of the spherical Bessel transform is the normalised transform on its own grid',
 'The transform by way of the fast Hankel transform returns its results together with the points they belong to; the points end at kmax where scipy keeps the proposed offset; the values are the normalised spherical Bessel transform of the samples.',
 'every logarithmic mesh, degree, kmax and function',
 'an identity between integrals, for every mesh and every offset scipy may choose',
 ['jrystal/sbt/sbt.py:_sbt_hankel'])
p('C106','Band energies vary continuously along the path, belong to their k point alone, and approach those of an exact ground state',
 'The energies a band calculation saves at two k points differ by at most a constant times the distance of the points, up to the accuracy of the band optimiser. The energies at a k point do not depend on the rest of the path, the number of bands or the order of the points. As the accuracy of the ground-state optimiser improves, the saved energies approach the Kohn-Sham eigenvalues of an exact ground state.',
 'every crystal, grid, cutoff, path, number of bands, functional with a continuous potential, and every optimiser of the stated accuracy',
 'a statement about all pairs of k points and paths and about a limit of accuracies',
 ['jrystal/calc/calc_band_structure_all_electrons.py:calc','jrystal/calc/calc_band_structure_normcons.py:calc','jrystal/pseudopotential/beta.py:_beta_sbt_single_atom'])
p('C107','Displacing atoms changes the electronic energy in a controlled way, at the rate of the Hellmann-Feynman forces',
 'When atoms are displaced, a calculation that ends at the requested temperature succeeds as before and its total energy without the repulsion of the nuclei changes by at most the number of electrons times a bound of the forces times the lengths of the displacements, up to the accuracy of the optimiser and 2 T log 2 per band. For electrons in the field of nuclei the bound is explicit, the least free energy along a motion of the nuclei is Lipschitz continuous and differentiable at almost every time, and its derivative is the power of the electrostatic forces that the density of any ground state exerts.',
 'every crystal, displacement, grid, cutoff, k-point mesh, functional, occupation method and pseudopotential, and every optimiser of the stated accuracy',
 'a bound on all pairs of arrangements and a statement about the derivative of a minimum',
 ['jrystal/_src/energy.py:external','jrystal/_src/potential.py:external_reciprocal','jrystal/calc/calc_ground_state_energy_all_electrons.py:calc','jrystal/calc/calc_ground_state_energy_normcons.py:calc','jrystal/pseudopotential/local.py:potential_local_reciprocal','jrystal/pseudopotential/nloc.py:potential_nonlocal_psi_reciprocal'])
p('C108','More smearing never lowers the energy or the entropy, and raises the energy by at most 2 T log 2 per band',
 'Of two calculations without a convergence test that differ in the smearing alone, the one with more smearing reports a total energy that is not lower, up to the accuracy of the optimiser, and at most 2 T log 2 per band higher. The entropy of a ground state grows with the temperature. The least free energy is a concave function of the temperature whose derivative is minus the entropy.',
 'every crystal, pair of temperatures, grid, cutoff, k-point mesh, functional, occupation method, and every optimiser of the stated accuracy',
 'a monotonicity statement about all pairs of temperatures and about minima',
 ['jrystal/_src/entropy.py:fermi_dirac','jrystal/calc/calc_ground_state_energy_all_electrons.py:calc','jrystal/calc/calc_ground_state_energy_normcons.py:calc','jrystal/calc/opt_utils.py:create_optimizer'])
p('C109','A crystal can be described with a larger cell and correspondingly fewer k points',
 'Every state of a crystal computed with a mesh of q k1 by q k2 by q k3 points (q odd on each axis) is also a state of the same crystal described with the cell that is q times as long along each axis, with k1 by k2 by k3 points, the correspondingly finer grid, the folded plane waves and the replicated atoms: its kinetic, Hartree, external and exchange-correlation energies are multiplied by the number of copies and its density is the same, repeated. Hence without smearing the run with the larger cell reports a total energy (without the repulsion of the nuclei) of at most the number of copies times that of the smaller one, up to the accuracy of the optimiser.',
 'every crystal, odd multiple on each axis, grid, cutoff, k-point mesh, LDA or GGA functional, occupation method other than gamma, spin, and every optimiser of the stated accuracy',
 'a relation between two calculations of different sizes for all states and all multiples',
 ['jrystal/_src/grid.py:k_vectors','jrystal/_src/grid.py:g_vectors','jrystal/_src/pw.py:density_grid','jrystal/_src/energy.py:total_energy','jrystal/_src/potential.py:hartree_reciprocal','jrystal/_src/potential.py:external_reciprocal','jrystal/_src/xc.py:xc_density','jrystal/calc/calc_ground_state_energy_all_electrons.py:calc'])
p('C110','Equivalent k points have the same band energies',
 'When two k points of a band calculation have coordinates that differ by integers, the energies saved for them describe the same states: they are equal up to the accuracy of the optimiser. (The code violates this, because it uses the same plane waves G for every k point instead of those with small k + G. What holds is that both are bounded from below by the eigenvalues for every set of plane waves that contains the selected ones and the moved ones, and from above by the eigenvalues for the waves that are selected in both positions.)',
 'every crystal, grid, cutoff, path, pair of equivalent points and band, for all potentials',
 'a statement about pairs of points in all calculations; the difference vanishes only in the limit of all plane waves',
 ['jrystal/calc/calc_band_structure_all_electrons.py:calc','jrystal/_src/grid.py:spherical_mask','jrystal/_src/grid.py:cubic_mask','jrystal/_src/hamiltonian.py:hamiltonian_matrix','jrystal/calc/opt_utils.py:create_freq_mask'])
p('C111','The energy varies continuously with the shape of the cell and the positions of the atoms',
 'Calculations of two geometries that are close enough have the same grid, both succeed, and their total energies, with or without the repulsion of the nuclei, are as close as one likes, up to the accuracy of the optimiser and, with smearing, 2 T log 2 per band. (The code violates this when the kinetic energy of a plane wave is exactly the cutoff: then the set of plane waves changes with the cell, and a calculation can even fail in every slightly smaller cell, because it has fewer plane waves than bands. It violates it also where the Ewald cutoff is a multiple of the squared length of the sum of the cell vectors: then every slightly smaller cell sums over more translations and reports an energy that is higher by a fixed amount.)',
 'every crystal, nearby crystal, configuration, functional that is continuous, and near-minimising optimiser',
 'a limit over all geometries in a neighbourhood; a finite set of volumes always misses the places where the energy jumps',
 ['jrystal/calc/calc_ground_state_energy_all_electrons.py:calc','jrystal/_src/grid.py:spherical_mask','jrystal/_src/grid.py:translation_vectors','jrystal/_src/ewald.py:ewald_coulomb_repulsion','jrystal/_src/energy.py:total_energy','jrystal/calc/opt_utils.py:create_freq_mask','jrystal/crystal.py:Crystal'])
p('C112','Scaling a crystal scales its energies, and at the best volume the virial theorem holds',
 'Multiplying the cell and the positions by s and dividing the cutoff by s squared selects the same plane waves; every state keeps its kinetic energy divided by s squared, its electron repulsion and exchange energy divided by s, and its attraction to the nuclei divided by s up to an explicit regularisation error. A calculation of the scaled crystal reports at most what the scaled components of the original report give. When neither a slightly compressed nor a slightly stretched crystal has a lower reported total energy, twice the reported kinetic energy plus the other reported components cancel the change of the nuclear repulsion.',
 'every crystal, scale factor, configuration, state and homogeneous functional',
 'a relation between infinitely many calculations that holds only for the exact components; a test at one scale cannot separate wrong powers of the volume that cancel there',
 ['jrystal/_src/energy.py:total_energy','jrystal/_src/grid.py:g_vectors','jrystal/_src/pw.py:density_grid','jrystal/_src/potential.py:external_reciprocal','jrystal/calc/calc_ground_state_energy_all_electrons.py:calc'])
p('C113','The order of the cell vectors and the origin of the grid do not matter',
 'Listing the three cell vectors, together with the sizes of the FFT grid and of the k mesh, in another order, or, without pseudopotentials, moving all atoms by a vector of the FFT grid, gives a calculation with the same nuclear repulsion and the same total energy, up to the accuracy of the optimiser and, with smearing, 2 T log 2 per band; every state of one description is a state of the other with the same kinetic, external, Hartree and exchange-correlation energy and the same density at corresponding points. Corresponding densities give the same band energies (without pseudopotentials and gradients).',
 'every permutation of the axes, grid vector, crystal, configuration, LDA or GGA functional, state, and every optimiser of the stated accuracy',
 'the two calculations use different arrays, masks and starting points; a test of a cubic crystal with equal sizes cannot notice two exchanged axes',
 ['jrystal/_src/grid.py:g_vectors','jrystal/_src/grid.py:k_vectors','jrystal/_src/grid.py:translation_vectors','jrystal/_src/grid.py:cubic_mask','jrystal/_src/grid.py:spherical_mask','jrystal/_src/energy.py:total_energy','jrystal/_src/ewald.py:ewald_coulomb_repulsion','jrystal/calc/calc_ground_state_energy_all_electrons.py:calc','jrystal/calc/calc_ground_state_energy_normcons.py:calc','jrystal/pseudopotential/local.py:potential_local_reciprocal'])
p('C114','The choice of the optimiser does not change the number of electrons',
 'Whatever optimiser of optax the configuration names, the density that a calculation returns holds all electrons of the crystal.',
 'every crystal, configuration, occupation method and optimiser, any number of steps',
 'the tests use one optimiser; the loss of electrons is small in each step and depends on the number of steps',
 ['jrystal/calc/opt_utils.py:create_optimizer','jrystal/_src/occupation.py:occupation','jrystal/_src/occupation.py:param_init','jrystal/calc/calc_ground_state_energy_all_electrons.py:calc'])
p('C115','Every finished band-structure calculation keeps its result',
 'After any history of band-structure calculations in one directory, finished, failed or killed at any point, one after the other or at the same time, the energies of each finished calculation can be read from the file it named, and files of other programs are as they were.',
 'every list of calculations, all-electron or norm-conserving, every schedule of their file operations and every point at which they are killed',
 'histories, schedules and crash points; a test runs one calculation in an empty directory',
 ['jrystal/calc/calc_band_structure_all_electrons.py:calc','jrystal/calc/calc_band_structure_normcons.py:calc','jrystal/_src/const.py:NUMBER2SYMBOL_DICT'])
p('C116','The projector cache survives concurrent and interrupted use',
 'When several processes call save_beta_sbt (pre_calc_beta_sbt with save_cache) at the same time, or one is killed, every call that is not killed returns, and load_beta_sbt afterwards returns a list that one of them, or an earlier call, saved.',
 'every number of processes, every list, every state of the cache directory, every schedule of the file operations down to single bytes and every point at which a process is killed',
 'schedules and crash points are unbounded; a test runs one process',
 ['jrystal/calc/opt_utils.py:save_beta_sbt','jrystal/calc/opt_utils.py:load_beta_sbt','jrystal/calc/pre_calc.py:pre_calc_beta_sbt'])
p('C117','The setting of the functional is the sum of the named functionals',
 'The setting xc = "a+b+..." stands for the sum of the named functionals: the exchange-correlation energy of every density is the sum of the energies of the names, and the order of the names changes nothing in a ground-state or band-structure calculation, all-electron or with pseudopotentials. Only the values of the functional matter.',
 'every list of names, every library of functionals, every configuration, crystal, optimiser and density',
 'lists of names, densities and whole calculations are unbounded; a test compares a few numbers',
 ['jrystal/_src/xc.py:xc_density','jrystal/_src/xc.py:get_xc_functional','jrystal/_src/energy.py:xc_energy','jrystal/calc/calc_ground_state_energy_all_electrons.py:calc','jrystal/calc/calc_band_structure_normcons.py:calc'])
p('C118','Every optimiser that the configuration can name works',
 'A calculation that succeeds with one optimiser of optax succeeds with every other one that create_optimizer accepts.',
 'every crystal and configuration, all optimisers, ground-state and band-structure calculations, with and without pseudopotentials',
 'the tests use one optimiser; which arguments an optimiser needs is seen only when it is called',
 ['jrystal/calc/opt_utils.py:create_optimizer','jrystal/calc/calc_ground_state_energy_all_electrons.py:calc','jrystal/calc/calc_ground_state_energy_normcons.py:calc','jrystal/calc/calc_band_structure_all_electrons.py:calc','jrystal/calc/calc_band_structure_normcons.py:calc'])
p('C119','A calculation is refused exactly when its input is inconsistent',
 'A ground-state calculation returns a result if its settings fit together, and raises otherwise: parity and size of the spin, grid sizes, names of mask and occupation method, enough plane waves for the bands, k points that the devices can share, a positive Ewald cutoff, at least one epoch, a usable optimiser.',
 'every crystal, configuration, optimiser and number of devices, with and without pseudopotentials',
 'a test tries a few wrong settings; whether every inconsistent combination is refused, and none that fits, concerns all of them',
 ['jrystal/calc/calc_ground_state_energy_all_electrons.py:calc','jrystal/calc/opt_utils.py:create_crystal','jrystal/calc/opt_utils.py:create_grids','jrystal/calc/opt_utils.py:create_freq_mask','jrystal/_src/occupation.py:param_init','jrystal/_src/pw.py:density_grid','jrystal/calc/calc_ground_state_energy_normcons.py:calc'])
p('C120','A band structure is saved as asked for, or not at all',
 'A band-structure calculation saves a file exactly if its settings fit together: a ground state that can be calculated, a number of k points, a path through that many points, devices that can share them, a usable optimiser. The file holds as many bands as asked for at every point of the path, and every energy belongs to its point.',
 'every crystal, configuration, path, number of devices and optimiser',
 'a test tries a few settings; that no combination yields a file of another shape, or with the energies of other points, concerns all of them',
 ['jrystal/calc/calc_band_structure_all_electrons.py:calc','jrystal/calc/calc_band_structure_normcons.py:calc'])
p('C121','The gradient that drives the occupations is their derivative and conserves electrons',
 'The gradient of the occupations of the simplex-projector method with respect to their parameters, as computed by automatic differentiation through the projector, is their true derivative, and moving along it changes no channel total to first order. The occupations never move further apart than the parameters do.',
 'every number of k points and bands, number of electrons and spin, all parameter values and all directions',
 'the derivative passes through a sort, a data-dependent position and two branches; finite differences at sample points see one ordering and one branch, not all of them',
 ['jrystal/_src/occupation.py:proj','jrystal/_src/occupation.py:simplex_projector'])
p('C122','A vanishing occupation gradient means optimal occupations',
 'With the simplex-projector method, when the gradient of the energy with respect to the occupation parameters is zero the occupations obey the Aufbau rule: fractionally occupied bands share one orbital energy, and no other admissible occupation lowers the energy. No band is cut off from being filled.',
 'every number of k points and bands, number of electrons and spin, all parameters, every differentiable energy of the occupations',
 'a run that has converged shows only that the gradient is small; whether an empty band could still lower the energy is not visible in the energies that a test compares',
 ['jrystal/_src/occupation.py:proj','jrystal/_src/occupation.py:simplex_projector','jrystal/_src/occupation.py:simplex_projector_init'])
p('C123','The gradient of a band calculation bounds the error of its energies',
 'At every k point the gradient of the value minimised by a band calculation tells how far the reported energies are from exact eigenvalues of the Kohn-Sham Hamiltonian: each is within half the gradient norm times the parameter norm of a different eigenvalue, and where the gradient is zero the lowest eigenvalues are reported.',
 'every crystal, grid, cutoff, k point, number of bands and spins, exchange-correlation functional and density, all independent parameters',
 'a test compares energies of one trained run with reference values; it cannot show a bound for all parameters or exclude that training stops at other stationary points',
 ['jrystal/calc/calc_band_structure_all_electrons.py:calc','jrystal/calc/calc_band_structure_normcons.py:calc','jrystal/hamiltonian.py:hamiltonian_matrix_trace'])
p('C124','A converged ground state solves the Kohn-Sham equations, and only such a state is converged',
 'With fixed occupations, the gradient of the energy that a ground-state run minimises, taken in the plane-wave parameters, exists wherever the bands of the parameters are independent, and it is zero exactly when the bands made from the parameters solve the Kohn-Sham equations of the Hamiltonian of their own density: occupied bands span an invariant space of the plane-wave Hamiltonian and bands of different occupation are not coupled.',
 'every crystal, grid, cutoff, set of k points, number of bands, occupations, temperature, functional and all independent parameters, in both drivers',
 'a test looks at one run that stopped near a solution; it cannot show that no other point stops the optimiser or that every solution does',
 ['jrystal/calc/calc_ground_state_energy_all_electrons.py:calc','jrystal/calc/calc_ground_state_energy_normcons.py:calc','jrystal/energy.py:total_energy','jrystal/pw.py:coeff','jrystal/hamiltonian.py:hamiltonian_matrix'])
p('C125','A run with smearing stops at Fermi-Dirac occupations of its own bands, and only there',
 'In a spin-restricted run with simplex-projector occupations, the gradient of the minimised free energy is zero, in the plane-wave and in the occupation parameters, exactly when the state is self-consistent: the occupied bands solve the Kohn-Sham equations of the density of the state, and in each spin channel all partly filled bands have the same energy of adding an electron, so that their occupations follow the Fermi-Dirac distribution of the band energies up to the regularisation of the logarithm.',
 'every crystal, grid, cutoff, set of k points, number of bands and electrons, temperature, functional and all parameters where the occupations have a derivative, in both drivers',
 'a test looks at the occupations of one run that stopped; it cannot show that no other occupations stop the optimiser',
 ['jrystal/calc/calc_ground_state_energy_all_electrons.py:calc','jrystal/calc/calc_ground_state_energy_normcons.py:calc','jrystal/_src/occupation.py:simplex_projector','jrystal/_src/entropy.py:fermi_dirac','jrystal/hamiltonian.py:hamiltonian_matrix'])
p('C126','Spin-polarised runs and GGA runs stop at Kohn-Sham states, and only there',
 'For any number of spin channels and for LDA and GGA functionals, the gradient of the minimised energy exists at independent parameters and is zero exactly when the occupied bands of each spin channel solve the Kohn-Sham equations of the textbook Hamiltonian: kinetic energy, the potential of the nuclei or of the pseudopotential, the Hartree potential of the total density and the functional derivative of the exchange-correlation energy with respect to the density of that channel. That derivative is the usual one, with the divergence of the gradient terms. With trained occupations the gradient is zero exactly if, in addition, the partly filled bands of each channel share a Fermi level.',
 'every crystal, grid, cutoff, set of k points, number of bands and electrons, spin, temperature and differentiable functional, restricted or not, in both drivers',
 'a test runs one crystal with one functional; it cannot show that every place where the optimiser can stop is a Kohn-Sham state',
 ['jrystal/_src/energy.py:total_energy','jrystal/_src/xc.py:xc_density','jrystal/calc/calc_ground_state_energy_all_electrons.py:calc','jrystal/calc/calc_ground_state_energy_normcons.py:calc','jrystal/_src/occupation.py:simplex_projector','jrystal/_src/entropy.py:fermi_dirac'])
p('C127','Ground states of spin-polarised and GGA calculations are self-consistent and fill the lowest bands',
 'For any number of spin channels and for LDA and GGA functionals, a state of least free energy solves the Kohn-Sham equations of the textbook Hamiltonian of its own densities in each channel, and unless the occupations are fixed each channel has a Fermi level: occupations that follow the Fermi-Dirac law with smearing, and without smearing no occupied band above an empty one. Without smearing, at each k point with an empty band the occupied bands of a channel have the lowest eigenvalues of the Hamiltonian of that channel on all plane waves of the cutoff. With a good enough optimiser the density that a calculation reports is, to any given accuracy, that of such a self-consistent state.',
 'every crystal, grid, cutoff, set of k points, number of bands and electrons, spin, temperature, occupation method and differentiable functional, restricted or not, in both drivers',
 'a test compares the bands of one material with a reference code; it cannot show that every ground state of the energy is self-consistent, and the Hamiltonian of the code is not the one to compare with when there are two channels',
 ['jrystal/_src/energy.py:total_energy','jrystal/_src/xc.py:xc_density','jrystal/calc/calc_ground_state_energy_all_electrons.py:calc','jrystal/calc/calc_ground_state_energy_normcons.py:calc','jrystal/_src/entropy.py:fermi_dirac'])
p('C128','The energy of a norm-conserving calculation depends continuously on the cell and the positions',
 'For a calculation with norm-conserving pseudopotentials there is, for each tolerance, a neighbourhood of the cell vectors and the atomic positions such that the calculation succeeds with the same grid for each geometry in it and the total energies differ by at most the tolerance, up to the accuracy of the optimiser and the entropy of the smearing.',
 'every crystal, set of pseudopotential files, cell, positions, grid, k mesh, number of bands, spin, temperature and occupation method, and every displacement of all atoms and cell vectors together',
 'an equation of state is sampled at a few volumes; jumps between the samples, or for other strains, are not seen',
 ['jrystal/calc/calc_ground_state_energy_normcons.py:calc','jrystal/pseudopotential/local.py:potential_local_reciprocal','jrystal/pseudopotential/nloc.py:potential_nonlocal_psi_reciprocal','jrystal/pseudopotential/beta.py:beta_sbt_grid','jrystal/_src/ewald.py:ewald_coulomb_repulsion'])
p('C129','The total energy is a continuous function of the atomic positions, with the electrostatic forces as its slope',
 'While no two nuclei collide, the total energy that either driver reports, the repulsion of the nuclei included, changes as little as one likes when the atoms move little enough, up to the accuracy of the optimiser and the entropy of the smearing. The repulsion energy is differentiable, minus its gradient are the Ewald forces, and these add up to zero. The least total energy along a motion is differentiable at almost every time, with the slope that the forces of any ground state and of the other nuclei prescribe; where it is least these forces do no work.',
 'every crystal, cell, cutoff, grid, k mesh, number of bands, spin, temperature and occupation method, all positions without collisions and all displacements and motions of the atoms',
 'a relaxation or a finite-difference test samples a few arrangements; kinks, jumps and wrong slopes elsewhere are not seen',
 ['jrystal/calc/calc_ground_state_energy_all_electrons.py:calc','jrystal/calc/calc_ground_state_energy_normcons.py:calc','jrystal/_src/energy.py:nuclear_repulsion','jrystal/_src/ewald.py:ewald_coulomb_repulsion'])
p('C130','The potentials of a norm-conserving calculation are those that the files of its atoms describe',
 'Every atom gets the file of its own element from the requested directory, or from the directory of the package for the requested type. The number of electrons is the sum of the valences in those files. The local potential in reciprocal space is the sum over the atoms of the radial transform of the numbers in the atom\'s file, halved from Rydberg, with the phase of the position of the atom. The projectors, their angular momenta and the matrix of their strengths are those of the file, in the order of the file. Band structures use the same files, with the projectors transformed for the points of the path.',
 'every crystal, every directory of pseudopotential files, every content of the files that is accepted, every grid, k mesh, spline and Bessel function',
 'a test sees a few files; a shift by one, a swapped pair of atoms or a wrong column for one shape of file stays hidden',
 ['jrystal/calc/calc_ground_state_energy_normcons.py:calc','jrystal/calc/calc_band_structure_normcons.py:calc','jrystal/calc/opt_utils.py:create_pseudopotential','jrystal/pseudopotential/dataclass.py:NormConservingPseudopotential','jrystal/pseudopotential/local.py:potential_local_reciprocal','jrystal/pseudopotential/beta.py:beta_sbt_grid'])
p('C131','Where the density has no gradient the potential does not need the slope of the functional in the gradient',
 'The exchange-correlation potential of a gradient functional depends on the slope of the functional in the squared gradient of a channel only at points where the density of that channel has a gradient. Functionals whose slope is undefined at zero gradient still give the same potential.',
 'every pair of gradient functionals, every density with one or two channels, every grid and cell',
 'tests use densities whose gradient vanishes nowhere on the grid, or functionals with a harmless slope',
 ['jrystal/_src/xc.py:vxc_gga_recp','jrystal/_src/xc.py:vxc_gga'])
p('C132','Random starting parameters are usable with probability one',
 'param_init draws every number of the plane-wave parameters uniformly from [0, 1). If there are not more bands than plane waves, then with probability one no band of the draw is a combination of the others, and the function that either ground-state driver minimises has a gradient at the draw. With trainable occupations, for almost all plane-wave and occupation parameters the gradient exists and is zero exactly at self-consistent solutions. With more bands than plane waves no draw has independent bands.',
 'every number of spins, k points, plane waves and bands, every crystal, cutoff, functional with a derivative, temperature and occupation method',
 'a test draws a few seeds; that the exceptional parameters have probability zero is a statement about all of them',
 ['jrystal/_src/pw.py:param_init','jrystal/_src/unitary_module.py:unitary_matrix_param_init','jrystal/_src/spmd/uniform.py:uniform','jrystal/calc/calc_ground_state_energy_all_electrons.py:calc','jrystal/calc/calc_ground_state_energy_normcons.py:calc'])
p('C133','With idempotent occupations a zero gradient means whole levels are filled',
 'With the trainable occupation method idempotent the function that either ground-state driver minimises has a gradient in the plane-wave and the occupation parameters wherever both have independent columns. It is zero exactly if the occupied bands solve the Kohn-Sham equations of their own density and the density matrix of each spin channel mixes only bands of equal energy (at a temperature, energy less the entropy gained per electron). Then every group of bands of equal energy holds a whole number of electrons of the channel, and a band whose energy no other band has is empty or full. Random occupation parameters have independent columns with probability one.',
 'every crystal, cutoff, functional with a derivative, number of k points, bands and electrons, temperature, one or two spin channels, with and without projectors',
 'a test can follow one minimisation; that all stationary points, also unconverged or saddle points, fill whole levels is a statement about every parameter',
 ['jrystal/_src/occupation.py:idempotent','jrystal/_src/occupation.py:idempotent_param_init','jrystal/_src/unitary_module.py:unitary_matrix','jrystal/_src/entropy.py:fermi_dirac','jrystal/calc/calc_ground_state_energy_all_electrons.py:calc','jrystal/calc/calc_ground_state_energy_normcons.py:calc'])
p('C134','Gradient descent lengthens the parameters and does not make bands dependent',
 'In the function either ground-state driver minimises, the gradient in the plane-wave parameters of each band is perpendicular to the parameters of this band and of all earlier bands. So a step of plain gradient descent adds to the squared length of each band the squared length of the step, and only finitely many step sizes can give dependent bands. If all bands of a channel and k point are equally occupied, no step size can; then with probability one over the random start a run of any length, with any step sizes and temperatures, always has a gradient to follow and no band ever gets shorter than at the start. The gradient in idempotent occupation parameters is perpendicular to them too, and no step makes their columns dependent.',
 'every crystal, cutoff, functional, occupation, temperature and step size at every step, run of any length, one or two spin channels, with and without projectors',
 'a test follows a few runs with a few step sizes; that no run can reach parameters where the orthogonal bands are undefined is a statement about all step sizes and all histories',
 ['jrystal/_src/unitary_module.py:unitary_matrix','jrystal/_src/occupation.py:idempotent','jrystal/calc/opt_utils.py:create_optimizer','jrystal/calc/calc_ground_state_energy_all_electrons.py:calc','jrystal/calc/calc_ground_state_energy_normcons.py:calc'])
p('C135','Gradient descent on the band objective converges to exact eigenvalues for any step size',
 'In a band-structure calculation, plain gradient descent at a k point from independent bands converges for any step size, also one that changes from step to step between two positive bounds: the bands stay independent and bounded, the gradient tends to zero, and each reported energy converges to one exact eigenvalue of the Kohn-Sham Hamiltonian at this k point, different bands to different eigenvalues. Among the first T steps there is one whose energies are all within a constant over the square root of T of exact eigenvalues. Along a whole band structure, where each k point starts from the parameters of the one before, the bands stay independent and every gradient exists, for any step sizes.',
 'every crystal, cutoff, k point, number of bands and spins, density and functional, start with independent bands, sequence of step sizes between two positive bounds, with and without projectors',
 'a test runs finitely many steps from a few starts with a few step sizes; convergence is a statement about infinite runs, and that no step size is too large is a statement about all of them',
 ['jrystal/calc/calc_band_structure_all_electrons.py:calc','jrystal/calc/calc_band_structure_normcons.py:calc','jrystal/_src/unitary_module.py:unitary_matrix','jrystal/calc/opt_utils.py:create_optimizer'])
p('C136','Short gradient steps never raise the band objective and from a good start find the lowest energies',
 'In a band-structure calculation, for every start with independent bands there is a step size such that plain gradient descent at a k point with steps up to that size never raises the minimised value. If the minimised value at the start exceeds the sum of the lowest exact energies over bands and spins by less than the gap between the highest wanted band and the next one, each reported energy converges to the exact energy of its own band, the lowest in order.',
 'every crystal, cutoff, k point, number of bands below the number of plane waves, number of spins, density and functional, start with independent bands, sequence of step sizes between a positive bound and the step size that belongs to the start, with and without projectors',
 'a test runs finitely many steps from a few starts and cannot tell slow convergence to the lowest energies from a stay near higher ones',
 ['jrystal/calc/calc_band_structure_all_electrons.py:calc','jrystal/calc/calc_band_structure_normcons.py:calc','jrystal/_src/unitary_module.py:unitary_matrix','jrystal/calc/opt_utils.py:create_optimizer'])
p('C137','Gradient descent finds the lowest band energy from almost every start',
 'In a band-structure calculation, plain gradient descent at a k point with step sizes between any two positive bounds, however long, brings the lowest reported energy from above to the lowest exact energy, with errors that have a bounded sum over all steps (so the best of T steps is within a constant over T), as soon as the bands at the start are independent and one of them is not orthogonal to a state of lowest energy. Randomly created starting parameters meet both conditions with probability one.',
 'every crystal, cutoff, k point, positive number of bands up to the number of plane waves, number of spins, density and functional, start as described, sequence of step sizes between two positive bounds, with and without projectors',
 'a test runs finitely many steps from a few starts with a few step sizes; it cannot rule out starts or step sizes for which the run stays at a higher energy',
 ['jrystal/calc/calc_band_structure_all_electrons.py:calc','jrystal/calc/calc_band_structure_normcons.py:calc','jrystal/_src/unitary_module.py:unitary_matrix','jrystal/_src/unitary_module.py:unitary_matrix_param_init','jrystal/calc/opt_utils.py:create_optimizer'])
if __name__=='__main__':
    import json,os
    out=os.path.join(os.path.dirname(__file__),'..','properties.jsonl')
    with open(out,'w') as f:
        for a in P:
            f.write(json.dumps(dict(zip(['id','title','statement','quantifier','why_tests_cant','anchors'],a)))+'\n')
    print(len(P))
