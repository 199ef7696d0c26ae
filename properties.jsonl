{"id": "C01", "title": "MPI task slices partition the task range", "statement": "For every number of tasks n and every number of ranks R>=1, the slices `my_slice` that the MPI distributor assigns to ranks 0..R-1 are contiguous, in rank order, pairwise disjoint and cover exactly 0..n-1; `my_tasks` of a rank is the corresponding list of task indices and its length is `my_size`.", "quantifier": "all task counts n, all communicator sizes R>=1, all ranks", "why_tests_cant": "tests fix a few (n, R); the partition must hold for every combination, in particular n<R and n not divisible by R", "anchors": ["src/dga/mpi_aux.py: MpiDistributor.distribute_tasks, my_slice, my_tasks, my_size"]}
{"id": "C02", "title": "MPI load is balanced", "statement": "For every n and R>=1 the rank sizes sum to n, each size is floor(n/R) or floor(n/R)+1, exactly the last n mod R ranks get the larger size, and every rank has at least one task iff n>=R.", "quantifier": "all task counts n, all communicator sizes R>=1, all ranks", "why_tests_cant": "a wrong remainder rule shows only for special (n,R)", "anchors": ["src/dga/mpi_aux.py: MpiDistributor.distribute_tasks, sizes"]}
{"id": "C03", "title": "scatter followed by gather/allgather is the identity", "statement": "For every array whose first axis has length ntasks and whose remaining axes hold s elements each (s arbitrary), scatter hands every rank exactly data[my_slice], and gather/allgather of the rank arrays returns the original array on every rank.", "quantifier": "all arrays, all trailing sizes s, all n, all R>=1, all ranks", "why_tests_cant": "the count bookkeeping (sizes times trailing elements) must agree for every shape and rank count", "anchors": ["src/dga/mpi_aux.py: MpiDistributor.scatter, gather, allgather"]}
{"id": "C04", "title": "distributed q-sums do not depend on the number of ranks", "statement": "If every rank evaluates a q-sum (Schwinger-Dyson self-energy, optical vertex sum) over its own task slice with the common 1/nq_tot normalisation and the results are combined with allreduce, the outcome on every rank equals the serial sum over all q points, for every number of ranks (exact arithmetic).", "quantifier": "all summands, all numbers of q points and ranks", "why_tests_cant": "a test can only compare a few rank counts", "anchors": ["src/dga/mpi_aux.py: MpiDistributor.allreduce", "src/dga/four_point.py: schwinger_dyson_full_q, schwinger_dyson_kernel_q", "src/dga/dga_main.py"]}
{"id": "C05", "title": "vertex rank files load back what was written", "statement": "For every set of vertex slices F(q,w) written by the ranks with write_vertex_components (or write_optics_vertex_components), the loader returns, for every irreducible q and every bosonic index -niw..niw, exactly the slice written for that (q,w).", "quantifier": "all irreducible q indices, all bosonic indices in -niw..niw, all rank counts, all slice contents", "why_tests_cant": "round trip must hold for every index including negative ones and indices wider than the zero padding", "anchors": ["src/dga/four_point.py: write_vertex_components, load_vertex_from_rank_files", "src/dga/optics.py: write_optics_vertex_components, load_optics_vertex_from_rank_files"]}
{"id": "C06", "title": "irreducible q index is recovered from the group name", "statement": "For every irreducible q index and every bosonic index (negative included), the number the loaders extract first from the group name is the q index that was written, also for indices with more digits than the zero padding; different (q,w) pairs get different group names.", "quantifier": "all natural q indices and all integer bosonic indices", "why_tests_cant": "string formatting/parsing must be inverse for every number", "anchors": ["src/dga/four_point.py: write_vertex_components, load_vertex_from_rank_files", "src/dga/pairing_vertex.py: write_pairing_vertex_components, load_pairing_vertex_from_rank_files"]}
{"id": "C07", "title": "pairing vertex assembled from rank files", "statement": "For every vertex F(w,v,v') written per bosonic frequency, the assembled pairing vertex at (v,v') with |v|,|v'| in the pairing box is the average of P(v,v') and the complex conjugate of P(v',v), where P(v,v') = -F(w=v-v'; v,-v'); in particular it is Hermitian in (v,v'), every entry is written and none is written twice.", "quantifier": "all vertices, all box sizes, all rank counts, all (v,v')", "why_tests_cant": "index masks, transposed masks and flatten order must match for every box size", "anchors": ["src/dga/pairing_vertex.py: get_omega_condition, get_pp_slice_4pt, write_pairing_vertex_components, load_pairing_vertex_from_rank_files", "src/dga/config.py: BoxSizes.niv_pp"]}
{"id": "C08", "title": "irreducible Brillouin zone map picks a symmetry-equivalent representative", "statement": "For the predefined symmetry sets (square, nematic/quasi-1d, quasi-2d square) and every grid size, fbz2irrk sends each k point to the smallest linear index among the points related to it by the symmetry operations; it is idempotent and two points share a representative iff they are symmetry equivalent. For any other list of known symmetry names the map sends each point to a symmetry-equivalent point whose index is not larger, and points with the same value are symmetry equivalent. For x-y inversion every point is mapped to itself or to its inverted partner.", "quantifier": "all grid sizes nkx,nky,nkz>=1 (nkx=nky where x-y symmetry acts), all k points", "why_tests_cant": "fold boundaries differ for even and odd grids; tests use a few sizes", "anchors": ["src/dga/brillouin_zone.py: inv_sym, x_y_sym, x_y_inv, apply_symmetries, KGrid.set_fbz2irrk"]}
{"id": "C09", "title": "irreducible and full zone representations are inverse", "statement": "map_fbz2irrk(map_irrk2fbz(m)) = m for every m on the irreducible zone, and map_irrk2fbz(map_fbz2irrk(f)) = f for every f on the full zone that is invariant under the symmetry map; list and mesh shapes agree.", "quantifier": "all grids, all data, all lists of symmetry names the grid accepts", "why_tests_cant": "depends on np.unique ordering conventions for every grid", "anchors": ["src/dga/brillouin_zone.py: KGrid.set_irrk_maps, map_irrk2fbz, map_fbz2irrk"]}
{"id": "C10", "title": "k-mean over the irreducible zone equals the full-zone mean", "statement": "For every function on the irreducible zone, k_mean with the multiplicities equals the plain mean of its full-zone expansion; multiplicities are positive and sum to nk_tot.", "quantifier": "all grids, all symmetric data", "why_tests_cant": "weights must be right for every grid size/parity", "anchors": ["src/dga/brillouin_zone.py: KGrid.k_mean, set_irrk_maps"]}
{"id": "C11", "title": "symmetrize_irrk is a projection onto symmetric functions", "statement": "For every idempotent symmetry fold, symmetrize_irrk returns a function constant on symmetry classes, equal to the class average, leaves symmetric functions unchanged, is idempotent and preserves the zone mean.", "quantifier": "all grids, all data", "why_tests_cant": "class averages for every class of every grid", "anchors": ["src/dga/brillouin_zone.py: KGrid.symmetrize_irrk"]}
{"id": "C12", "title": "momentum shifts are periodic translations", "statement": "shift_mat_by_ind(mat, -q) evaluates mat at k+q modulo the grid in every axis; shifts compose additively, are periodic in the grid, invert each other, commute with the zone mean; shifting by pi twice is the identity on even grids.", "quantifier": "all grids, all integer shifts (negative and larger than the grid), all data", "why_tests_cant": "wrap-around for all shifts and sizes", "anchors": ["src/dga/brillouin_zone.py: shift_mat_by_ind, KGrid.shift_mat_by_ind, shift_mat_by_pi"]}
{"id": "C13", "title": "cutting a fermionic frequency box keeps the frequencies", "statement": "cut_v keeps, for every box with 0<=cut<=niv, exactly the values at Matsubara indices -cut..cut-1; cut -1 is the identity; cuts compose (cut to a then b = cut to b). For cut>niv the Python slice does not raise.", "quantifier": "all arrays, all box sizes", "why_tests_cant": "index arithmetic for all sizes", "anchors": ["src/dga/matsubara_frequencies.py: cut_v_1d, cut_v"]}
{"id": "C14", "title": "core/shell decomposition is lossless", "statement": "For every array on -niv..niv-1 and every core<=niv, concatenating the inner box (cut_v) with the outer part (inv_cut_v with shell=niv-core) via concatenate_core_asmypt restores the array; inv_cut_v returns exactly the frequencies outside the core.", "quantifier": "all arrays, all core sizes", "why_tests_cant": "all sizes; default arguments", "anchors": ["src/dga/matsubara_frequencies.py: inv_cut_v_1d, inv_cut_v, concatenate_core_asmypt"]}
{"id": "C15", "title": "full frequency range from positive frequencies obeys conjugation symmetry", "statement": "fermionic_full_nu_range(f)(-n-1)=conj f(n), restricting to n>=0 gives back f; bosonic_full_nu_range(f)(-n)=conj f(n), length 2N+1 and positive part restored.", "quantifier": "all arrays", "why_tests_cant": "every index of every length", "anchors": ["src/dga/matsubara_frequencies.py: fermionic_full_nu_range, bosonic_full_nu_range, clip_pos_mf_vn"]}
{"id": "C16", "title": "shifted frequency windows address v-w", "statement": "wn_slices_gen, wn_slices_shell, cut_iv_with_iw_shift return at window position v (resp. shell position) the value at Matsubara index v-w for every w for which the window fits in the box; when it does not fit the window is silently shorter or wrapped, and the exact admissible set |w|<=niv-cut is characterised.", "quantifier": "all arrays, windows, bosonic shifts of both signs", "why_tests_cant": "off-by-one/sign errors only visible for particular w", "anchors": ["src/dga/matsubara_frequencies.py: wn_slices_gen, wn_slices_shell, cut_iv_with_iw_shift_1d"]}
{"id": "C17", "title": "frequency-notation shifts differ by exactly the transferred frequency", "statement": "For every w, get_freq_shift returns (s1,s2) with s2-s1 = w for 'plus' and s1-s2 = w for 'minus' and 'center'; 'center' is balanced to within one index; an unknown notation raises.", "quantifier": "all integers w (negative odd included), all notation strings", "why_tests_cant": "floor division on negative odd numbers", "anchors": ["src/dga/matsubara_frequencies.py: get_freq_shift"]}
{"id": "C18", "title": "w -> v-v' conversion", "statement": "w_to_vmvp(mat)[v,v'] is mat at bosonic index v-v' for every v,v' in the produced box; the access is in bounds for every input with an odd number of frequencies; get_f_diag combines the channels with the documented weights and rejects other channels. reshape_chi does the same for the pairing vertex.", "quantifier": "all arrays, all box sizes", "why_tests_cant": "index arithmetic for all sizes", "anchors": ["src/dga/matsubara_frequencies.py: w_to_vmvp", "src/dga/local_four_point.py: get_f_diag", "src/dga/pairing_vertex.py: reshape_chi"]}
{"id": "C19", "title": "adding bosonic objects of different box sizes", "statement": "add_bosonic(a,b) has the larger box, its value at index n is a(n)+b(n) with missing entries counted as zero, and it is commutative.", "quantifier": "all pairs of odd-length arrays", "why_tests_cant": "all size pairs", "anchors": ["src/dga/matsubara_frequencies.py: add_bosonic"]}
{"id": "C20", "title": "ph -> pp frequency conversions read the documented entries", "statement": "ph2pp(mat)[w,v,v'] = mat[v+v'+1-w, v, v'] for every index of the produced box and never reads outside the input; ph2pp_wc either raises or returns -mat[v-v', v, w-v'-1] at every entry: it never silently wraps.", "quantifier": "all box sizes niw,niv, all indices", "why_tests_cant": "bounds for all box-size pairs", "anchors": ["src/dga/matsubara_frequencies.py: ph2pp_iwn, ph2pp, ph2pp_iwn_wc, ph2pp_wc"]}
{"id": "C21", "title": "appending and removing a constant shell", "statement": "append_v_vp_shell puts the matrix in the centre and val elsewhere; cutting back to the original box returns the original matrix.", "quantifier": "all square matrices, all shell sizes, all values", "why_tests_cant": "all sizes", "anchors": ["src/dga/matsubara_frequencies.py: append_v_vp_shell, cut_v"]}
{"id": "C22", "title": "bubble: using the w -> -w symmetry gives the direct result", "statement": "For every local or lattice Green's function with G(-v-1)=conj G(v) (and G real-symmetric data layout), the bubble on the full bosonic range computed with is_full_wn=True equals the direct evaluation for every w, in every notation where the mirrored window is the same window.", "quantifier": "all Green's functions with the conjugation symmetry, all boxes, all w", "why_tests_cant": "symmetry reconstruction must hold for all data", "anchors": ["src/dga/bubble.py: vec_get_gchi0, vec_get_chi0_sum, vec_get_gchi0_q, vec_get_chi0_q"]}
{"id": "C23", "title": "bubble contraction consistency", "statement": "Contracting the generalized bubble over v with 1/beta^2 gives the physical bubble chi0 (local and lattice); the mean of the lattice bubble over all q equals the product of local Green's functions; cutting the box commutes with evaluating on the smaller box.", "quantifier": "all Green's functions, betas!=0, boxes, w, q", "why_tests_cant": "algebraic identities over all data", "anchors": ["src/dga/bubble.py: get_gchi0, get_chi0_sum, get_gchi0_q, get_chi0_q, BubbleGenerator.contract_legs"]}
{"id": "C24", "title": "generalized susceptibility <-> G2 conversions are inverse", "statement": "g2_from_chir(gchir_from_g2(g2)) = g2 and conversely for every channel and every set of bosonic frequencies; the disconnected term is subtracted only in the density channel at w=0.", "quantifier": "all data, beta!=0, all frequency lists, all channels", "why_tests_cant": "branches on channel and presence of w=0", "anchors": ["src/dga/local_four_point.py: gchir_from_g2, g2_from_chir, get_ggv"]}
{"id": "C25", "title": "full vertex and irreducible vertex conversions are inverse", "statement": "gchir_from_fob2(fob2_from_gchir(chi)) = chi (and conversely) for every nowhere-zero bubble; gchir_from_gamob2(gamob2_from_gchir(chi)) = chi for every invertible chi; singular matrices raise.", "quantifier": "all matrices of all sizes over the complex numbers", "why_tests_cant": "algebraic identity over all data and sizes", "anchors": ["src/dga/local_four_point.py: fob2_from_gchir, gchir_from_fob2, gamob2_from_gchir_wn, gchir_from_gamob2_wn"]}
{"id": "C26", "title": "u-range irreducible vertex reduces to the plain Bethe-Salpeter inversion without shell", "statement": "gamob2_from_gchir_urange equals gamob2_from_gchir when the bubble box equals the core box; with a shell, the returned core Gamma extended by U/beta^2 in the shell reproduces exactly the core block of the generalized susceptibility (Bethe-Salpeter equation on the full box).", "quantifier": "all invertible data, all core/shell sizes", "why_tests_cant": "matrix identity for all sizes", "anchors": ["src/dga/local_four_point.py: gamob2_from_gchir_urange_wn, gchir_from_gamob2_wn, gamob2_from_gchir_wn"]}
{"id": "C27", "title": "vertex, three-leg vertex and susceptibility are consistent", "statement": "The decomposition of the ladder vertex F = f1 + (1-u_r chi) f2 into auxiliary susceptibility, three-leg vertex and physical susceptibility equals the full vertex obtained from the Bethe-Salpeter equation, and the physical susceptibility from the auxiliary one equals the contracted generalized susceptibility (no shell).", "quantifier": "all invertible data, all sizes, all channels", "why_tests_cant": "Sherman-Morrison identity over all data", "anchors": ["src/dga/local_four_point.py: gchi_aux_core_from_gammar, chi_phys_urange, vrg_from_gchi_aux, fob2_from_vrg_and_chir, fob2_from_gamob2_urange", "src/dga/four_point.py: ladder_vertex_from_chi_aux_components"]}
{"id": "C28", "title": "channel tables", "statement": "get_ur returns +u for dens/updo and -u for magn/upup and raises otherwise; get_sign returns the sign for dens/magn and raises otherwise; constructing an n-point object with an unknown channel raises.", "quantifier": "all strings, all u", "why_tests_cant": "error branches for every other string", "anchors": ["src/dga/local_four_point.py: get_ur, get_sign, LocalNPoint.__init__"]}
{"id": "C29", "title": "symmetrize_v_vp is a projection", "statement": "symmetrize_v_vp returns a matrix symmetric in (v,v'), is idempotent and leaves symmetric matrices unchanged.", "quantifier": "all matrices of all sizes", "why_tests_cant": "all data", "anchors": ["src/dga/local_four_point.py: LocalFourPoint.symmetrize_v_vp"]}
{"id": "C30", "title": "Schwinger-Dyson equation: kernel form equals vertex form", "statement": "The lattice SDE evaluated with the precomputed kernel equals the sum of the channel contributions evaluated with vertex and susceptibility, minus the double counting; it is linear in the kernel and additive over splits of the q list; on a one-point grid it equals the local SDE.", "quantifier": "all vertices, susceptibilities, Green's functions, q lists, boxes", "why_tests_cant": "algebraic identity for all data", "anchors": ["src/dga/four_point.py: get_kernel, schwinger_dyson_kernel_q, schwinger_dyson_vrg_q, schwinger_dyson_full_q", "src/dga/local_four_point.py: schwinger_dyson_vrg"]}
{"id": "C31", "title": "lambda correction 'none' and dispatch", "statement": "With 'none' the susceptibilities are returned unchanged with lambdas 0; with 'sp' the density susceptibility is unchanged and its lambda is 0; 'spch' corrects both; any other string raises.", "quantifier": "all inputs, all strings", "why_tests_cant": "all strings/data", "anchors": ["src/dga/lambda_correction.py: lambda_correction"]}
{"id": "C32", "title": "applying lambda is an additive shift of the inverse", "statement": "use_lambda(chi,0)=chi where chi!=0, use_lambda composes additively, keeps a positive static susceptibility positive and finite iff lambda > -min 1/chi, is strictly decreasing in lambda there, and the start value returned by get_lambda_start is exactly that pole.", "quantifier": "all real positive chi arrays, all lambdas", "why_tests_cant": "all data", "anchors": ["src/dga/lambda_correction.py: use_lambda, get_lambda_start"]}
{"id": "C33", "title": "lambda search stays on the physical branch", "statement": "For every positive real susceptibility and every target, every lambda at which the sum rule is evaluated during the search, and the returned lambda except when the loop ends by convergence, is greater than the pole -min 1/chi; the loop performs at most maxiter evaluations; if it stops by convergence the last evaluated lambda satisfies the sum rule to eps and the returned value is one Newton step further.", "quantifier": "all inputs, all iteration histories", "why_tests_cant": "histories of the Newton loop with restarts", "anchors": ["src/dga/lambda_correction.py: lambda_correction_single"]}
{"id": "C34", "title": "Gram-Schmidt removes the converged gap functions", "statement": "If the stored gap functions are mutually orthogonal and non-zero, gram_schmidt(_eliash) returns a vector orthogonal to each of them, is idempotent, and leaves orthogonal vectors unchanged.", "quantifier": "all vectors, all orthogonal bases of any size", "why_tests_cant": "all data", "anchors": ["src/dga/eliashberg_equation.py: gram_schmidt, gram_schmidt_eliash, proj, proj_eliash"]}
{"id": "C35", "title": "power iteration: termination, stopping rule, deflation and fixed points", "statement": "power_iteration performs at most max_count+1 iterations for every kernel and start vector and returns the first iterate whose eigenvalue changed by less than eps (or iterate max_count+1). Every reported eigenvalue is the Rayleigh quotient of the unshifted kernel at a vector orthogonal to all previously reported gaps (if these are mutually orthogonal); exactly n_eig pairs are reported. Started at an exact eigenvector the solver returns it with its eigenvalue.", "quantifier": "all kernels, start vectors, shifts, tolerances, iteration limits, numbers of eigenvalues", "why_tests_cant": "The number of iterations and the path depend on the kernel; tests see a few kernels.", "anchors": ["src/dga/eliashberg_equation.py:EliashberPowerIteration.get_eig", "src/dga/eliashberg_equation.py:EliashberPowerIteration.power_iteration"]}
{"id": "C36", "title": "gap start functions and vertex symmetrization have the declared parity", "statement": "symmetrize_gamma(sing) is even and (trip) odd in v', each is a projection, they are complementary, any other channel raises. get_gap_start gives, for the named k-types, a function with the requested frequency parity and the d/p-wave momentum symmetry.", "quantifier": "all arrays, box sizes, grids", "why_tests_cant": "all data", "anchors": ["src/dga/eliashberg_equation.py: symmetrize_gamma, get_gap_start, d_wave, p_wave_x, p_wave_y"]}
{"id": "C37", "title": "self-energy on the full axis", "statement": "get_siw(n) has 2n frequencies, is conjugation symmetric, equals the input for indices below the core size and the moment tail smom0 - smom1/(iv) from the core edge on, for every n (also n larger than the stored range), provided the core does not exceed the stored range.", "quantifier": "all self-energies, all requested n, all core sizes", "why_tests_cant": "core/tail boundary for all sizes", "anchors": ["src/dga/two_point.py: SelfEnergy.get_siw, get_asympt, sigma_core"]}
{"id": "C38", "title": "DGA self-energy with DMFT tail", "statement": "create_dga_siwk_with_dmft_as_asympt keeps the DGA self-energy in its box, takes the DMFT value at the same frequency outside, for every k, and the result has niv_core+niv_shell positive frequencies.", "quantifier": "all self-energies, boxes, grids", "why_tests_cant": "core/shell boundary for all sizes", "anchors": ["src/dga/two_point.py: create_dga_siwk_with_dmft_as_asympt"]}
{"id": "C39", "title": "Green's function symmetry and layout", "statement": "The Green's function built from a conjugation symmetric self-energy and real dispersion satisfies G(-v-1)=conj G(v) at every frequency and k; core and asymptotic parts are concatenated so that index n is evaluated with the frequency of index n.", "quantifier": "all self-energies, dispersions, mu, boxes", "why_tests_cant": "all data", "anchors": ["src/dga/two_point.py: build_g, GreensFunction.g_full, build_asympt, set_g_asympt"]}
{"id": "C40", "title": "component index conversions are mutual inverses", "statement": "component2index_band/index2component_band and index2component_general are inverse mixed-radix encodings between 1-based compound indices and band (and spin) tuples for every number of bands and operators; indices are exactly 1..(bands)^N (resp. (2 bands)^N).", "quantifier": "all band counts, operator counts, indices", "why_tests_cant": "encode/decode for every index", "anchors": ["src/dga/symmetrize.py: index2component_general, component2index_band, index2component_band"]}
{"id": "C41", "title": "unique output path", "statement": "uniquify never returns an existing path: it returns the path itself if free, otherwise the one with the smallest counter that is free, and terminates for every finite file system.", "quantifier": "all file-system states, all path strings", "why_tests_cant": "unbounded loop over file-system states", "anchors": ["src/dga/util.py: uniquify", "src/dga/config.py: OutputConfig.set_output_path"]}
{"id": "C42", "title": "box sizes from the four-point input", "statement": "After BoxSizes.set_from_lfp every -1 size is the available size, no size exceeds the available one (otherwise ValueError), and an unspecified asymptotic range is niv_full + 2*niw_core computed from the final sizes.", "quantifier": "all configurations, all available sizes", "why_tests_cant": "all combinations of defaulted/explicit fields", "anchors": ["src/dga/config.py: BoxSizes.__init__, set_from_lfp"]}
{"id": "C43", "title": "optics frequency ranges keep all accesses in bounds", "statement": "After OpticsConfig.set_frequency_ranges succeeds, the slice F(v,v-w) taken for every admissible external w reads only stored frequencies and returns F at (v, v-w); failing conditions raise.", "quantifier": "all box configurations, all vertices", "why_tests_cant": "bounds for all sizes", "anchors": ["src/dga/config.py: OpticsConfig.set_frequency_ranges", "src/dga/optics.py: get_vmw_v_slice"]}
{"id": "C44", "title": "tight-binding model Fourier transform equals the closed form", "statement": "For all hopping parameters and all k, the band energy computed from the real-space one-band t-t'-t'' model equals the closed-form square-lattice dispersion; it is real, even in each k component and symmetric under kx<->ky.", "quantifier": "all t,t',t'', all k", "why_tests_cant": "trigonometric identity for all k", "anchors": ["src/dga/wannier.py: wannier_one_band_2d_t_tp_tpp, convham, ek_square"]}
{"id": "C45", "title": "Pade (Thiele) interpolation reproduces the input", "statement": "For every set of distinct nodes and data for which the continued-fraction recursion does not divide by zero, the rational function evaluated at an input node returns the input value.", "quantifier": "all node sets of all sizes, all data over a field", "why_tests_cant": "unbounded number of nodes", "anchors": ["src/dga/pade_aux.py: compute_coefficients, a, g, A, B, C", "src/ana_cont/pade.pyx"]}
{"id": "C46", "title": "frequency meshes for analytic continuation span the window", "statement": "For every n>=2 the linear, hyperbolic and tan meshes start at wmin, end at wmax, have n points and are strictly increasing; an unknown mesh name raises.", "quantifier": "all windows wmin<wmax, all n", "why_tests_cant": "real-analysis statement for all sizes", "anchors": ["src/dga/analytic_continuation.py: linear_w_mesh, hyperbolic_w_mesh, tan_w_mesh, get_w_mesh"]}
{"id": "C47", "title": "quasiparticle weight is clamped", "statement": "get_gamma_bandshift_z returns z with 0<z<=1 for every input.", "quantifier": "all fit results", "why_tests_cant": "all real slopes including the pole", "anchors": ["src/dga/analytic_continuation.py: get_gamma_bandshift_z"]}
{"id": "C48", "title": "logger writes once, in order", "statement": "In an MPI run only rank 0 appends to the log file; every call logged by rank 0 appears exactly once, in order and with its text, whatever the other ranks do and however the ranks are interleaved; no schedule in which every rank creates its logger before logging fails; task times measured with a non-decreasing clock are non-negative and together do not exceed the elapsed time.", "quantifier": "all event sequences, all rank counts, all interleavings of ranks", "why_tests_cant": "histories/interleavings", "anchors": ["src/dga/loggers.py: MpiLogger, RealTime"]}
{"id": "C49", "title": "configuration symmetry names", "statement": "LatticeConfig accepts exactly the three named symmetry sets, an empty value, 'none' and tuples; anything else raises; unknown entries of a tuple are rejected.", "quantifier": "all strings and tuples", "why_tests_cant": "all inputs", "anchors": ["src/dga/config.py: LatticeConfig.check_symmetries", "src/dga/brillouin_zone.py: apply_symmetry"]}
{"id": "C50", "title": "worm component symmetrization averages equivalent components", "statement": "Given any valid table of equivalent bands (each band lists itself, lists have no repetitions and equivalent bands have the same list) and an input holding every Kanamori component once in any order, the dataset of every band tuple in the density/magnetic channel holds the weighted sum over the six spin combinations ((uu+ud+du+dd)/2, resp. (uu+dd-ud-du+flips)/4) of the average over all equivalent band tuples. For one band the file groups 1,4,7,10,13,16 give (x1+x4+x13+x16)/2 and (x1+x16+x7+x10-x4-x13)/4. check_sym tests only the equal-lists condition.", "quantifier": "all tables, all numbers of bands, all data, all orders of the groups", "why_tests_cant": "every table and every number of bands", "anchors": ["src/dga/symmetrize.py: get_groups, check_sym, get_symgroups, read_and_add, main"]}
{"id": "C51", "title": "q lists enumerate the zone in the order of the irreducible maps", "statement": "Row l of get_q_list is the grid point with linear (C-order) index l, so it agrees with map_irrk2fbz(..., 'list'); for any list of symmetry names the grid accepts the rows of get_irrq_list are distinct and the row that the expansion assigns to a grid point is symmetry equivalent to it, so a symmetric quantity computed only at these rows and expanded is the quantity on the full zone; for the predefined symmetry sets get_irrq_list contains exactly one point of every symmetry class, namely the representative, in the same order as the irreducible arrays.", "quantifier": "all grid sizes, all lists of symmetry names", "why_tests_cant": "the correspondence must hold for every grid size and every point", "anchors": ["src/dga/brillouin_zone.py: KGrid.get_q_list, get_irrq_list, kmesh_ind"]}
{"id": "C52", "title": "the FFT form of the Eliashberg kernel is the momentum sum", "statement": "For every grid size, pairing vertex, Green's function and gap, one application of the pairing kernel in the power iteration (forward FFT of the vertex, inverse FFT of gap*|G|^2, product, forward FFT) equals (1/norm) sum_{k',v'} Gamma(k'-k;v,v')|G(k',v')|^2 gap(k',v') with periodic momenta; for a vertex even in the momentum transfer this is the usual Gamma(k-k').", "quantifier": "all grid sizes nx,ny,nz>=1, all numbers of frequencies, all complex arrays", "why_tests_cant": "An identity between discrete Fourier transforms and momentum sums for every grid; the test in the repo uses a 2x2x1 grid on which k-k' and k'-k coincide.", "anchors": ["src/dga/eliashberg_equation.py: EliashberPowerIteration.__init__, power_iteration"]}
{"id": "C53", "title": "moments and energies", "statement": "The asymptotic self-energy built from get_smom0/get_smom1 is U n/2 + U^2 n/2 (1-n/2)/(iv) and causal for 0<n<2; the moment fit recovers exact tails; e_kin and e_pot equal 1/(beta Nk) sum ek G and 1/(beta Nk) sum (Sigma - smom0) G over the full frequency range, have vanishing imaginary part, so the assertions never fail (exact arithmetic), and e_pot vanishes for a static self-energy.", "quantifier": "all self-energies, dispersions, chemical potentials, fillings, interaction values, numbers of asymptotic frequencies", "why_tests_cant": "The cancellation of imaginary parts has to hold for every self-energy and dispersion.", "anchors": ["src/dga/two_point.py:get_smom0", "src/dga/two_point.py:get_smom1", "src/dga/two_point.py:fit_smom", "src/dga/two_point.py:GreensFunction.e_kin", "src/dga/two_point.py:GreensFunction.e_pot"]}
{"id": "C54", "title": "spectral function is positive", "statement": "Wherever Im Sigma is below the broadening deltino, the real-frequency spectral function returned by awk is strictly positive.", "quantifier": "all w, mu, ek, deltino, Sigma with Im Sigma < deltino", "why_tests_cant": "all real inputs", "anchors": ["src/dga/two_point.py: RealFrequencyGreensFunction awk, get_gwk"]}
{"id": "C55", "title": "default start gaps have the Pauli parity", "statement": "For every k symmetry name the default frequency symmetry of the singlet and triplet start gap makes the total parity (k times frequency) even for singlet and odd for triplet; names without a definite k parity get a random frequency part.", "quantifier": "all k-symmetry strings", "why_tests_cant": "all strings", "anchors": ["src/dga/config.py: EliashbergConfig set_gap0_sing, set_gap0_trip"]}
{"id": "C56", "title": "the analytic-continuation mesh covers the configured window", "statement": "The mesh held by MaxEntConfig has the configured type, number of points, window [-wmax, wmax] and cut.", "quantifier": "all configuration dictionaries", "why_tests_cant": "all configurations", "anchors": ["src/dga/config.py: MaxEntConfig"]}
{"id": "C57", "title": "conductivity bubble", "statement": "For every grid, Green's function, light vertices, number of summed frequencies and bosonic index that fit into the stored range, get_chijj_bubble is -2/beta times the k average of lv_a(k) lv_b(k) sum_v G(k,v)G(k,v-w); the array stored by the main program (w>=0 extended by conjugation) holds this value at every w of the range when G(k,-v)=conj G(k,v).", "quantifier": "all grids, Green's functions, light vertices, frequency boxes, w", "why_tests_cant": "index arithmetic for all sizes and all w", "anchors": ["src/dga/optics.py: get_chijj_bubble, vec_get_chijj_bubble", "src/dga/dga_main.py: main"]}
{"id": "C58", "title": "vertex correction of the conductivity", "statement": "vec_get_chijj_vert returns for every external frequency -2/(beta^2 nk) sum_{q,v} mean_k lv_a(k)lv_b(k+q)G(k,v-w)G(k,v) sum_w' G(k+q,v-w')G(k+q,v-w'-w)F(q,w',w,v) with periodic momenta; cutting the Green's function to the computed number of frequencies loses nothing that is read; splitting the q list over any number of ranks and summing gives the same result.", "quantifier": "all grids, Green's functions, vertices, q lists, partitions of the q list, frequency ranges", "why_tests_cant": "all shapes, momenta and partitions", "anchors": ["src/dga/optics.py: get_chijj_vertex, vec_get_chijj_vert"]}
{"id": "C59", "title": "conductivity vertex combines the channels correctly", "statement": "The vertex assembled from the stored ladder components is -1/2 F_dens - 3/2 F_magn entry by entry, with F_r beta^2 times the core block of the full ladder vertex; the slice (v,v-w) commutes with the combination.", "quantifier": "all irreducible vertices, bubbles, u, beta, box sizes", "why_tests_cant": "algebraic identity for all inputs", "anchors": ["src/dga/optics.py: build_vertex_for_optical_conductivity, write_optics_vertex_components"]}
{"id": "C60", "title": "vertex files are read back as written", "statement": "Reading a symmetrized two-particle file returns the symmetrized data with the fermionic axes in the original order: entry (w,v,v') of read_g2_full is the symmetrized value at (v,v',w); read_g2 with matching sizes agrees; get_niw is the half range of the bosonic axis; read_g2_iw at centred frequencies iw returns exactly their entries and raises KeyError for a frequency outside the range (no wrap-around). For an arbitrary file read_g2_full returns the datasets up to the first missing one.", "quantifier": "all box sizes, all data, all lists of requested frequencies", "why_tests_cant": "every box size and every frequency list", "anchors": ["src/dga/w2dyn_aux_dga.py: W2dynG4iwFile.read_g2, read_g2_full, read_g2_iw, get_niw", "src/dga/symmetrize.py: initialize_output, read_and_add"]}
{"id": "C64", "title": "Pade continuation recovers rational functions", "statement": "If the data are the values of a ratio of two polynomials of the degrees matching the number of points, and the recursion does not break down, the continuation equals that function everywhere its denominator does not vanish, not only at the nodes.", "quantifier": "all rational functions of matching degree, all node sets without breakdown, all evaluation points", "why_tests_cant": "Quantifies over all evaluation points and functions.", "anchors": ["src/dga/pade_aux.py: compute_coefficients, C, padeThiele, epade"]}
{"id": "C65", "title": "averaged Pade continuation stays physical", "statement": "The average over physical continuations lies between their bounds, has a nowhere positive imaginary part, and equals the common value if they coincide; with exactly two different physical continuations the selection is empty and the result undefined.", "quantifier": "all sets of continuations, all orderings and selection parameters", "why_tests_cant": "The selection depends on pairwise distances of all candidates.", "anchors": ["src/dga/pade_aux.py: pade"]}
{"id": "C66", "title": "polynomial extrapolation to the Fermi level is exact on polynomials", "statement": "If the fitted Matsubara data are the values of a polynomial of degree at most the fit order at more than `order` distinct frequencies, then the least-squares fit exists, every minimiser is that polynomial, and the extrapolated value and slope at zero frequency are the polynomial's value and derivative; for a Fermi-liquid self-energy gamma, band shift and Z come out as the physical values.", "quantifier": "all polynomials, all fit orders, all sets of distinct frequencies", "why_tests_cant": "all coefficients and orders", "anchors": ["src/dga/analytic_continuation.py: poly_extrap_0, poly_der_extrap_0, get_gamma_bandshift_z"]}
{"id": "C67", "title": "MaxEnt driver: data and frequencies belong together, rows independent, parallel equals serial", "statement": "For every history of a MaxEnt controller the optimisation is called with the non-negative Matsubara frequencies and exactly the data at those frequencies; only the fit length changes, to at most the number of available frequencies; each row of an array of continuations is the continuation of that row alone; distributing the rows over ranks gives the serial result if there are at least as many rows as ranks and all ranks return the same element type (bosonic kernel, or all continuations succeed, or none does), and whenever it returns; with more ranks than rows it fails; the fermionic default model has weight one; unknown kernels are refused.", "quantifier": "all data, fit lengths, matrices, histories of earlier continuations, numbers of ranks, solver outcomes", "why_tests_cant": "the controller is stateful and the solver arbitrary", "anchors": ["src/dga/analytic_continuation.py: MaxEnt, mpi_ana_cont", "src/dga/mpi_aux.py: MpiDistributor"]}
{"id": "C68", "title": "back transformation and Kramers-Kronig keep causality, symmetry and the spectrum", "statement": "The back transformation of real-frequency data is the trapezoidal integral of the kernel with -Im/pi; the fermionic result obeys G(-iv)=conj G(iv) and is causal for every non-negative spectrum; the bosonic result is real, non-negative, non-increasing in |frequency| and equals the total weight at zero; the Kramers-Kronig transform keeps the spectrum, so transform and back transform integrate the original spectrum; unknown kernels are refused. The real part returned by kkt at every mesh point is the principal-value integral of the spectrum by the trapezoidal rule with that point left out (for each of the six kinds), and the cells add up to the frequency window.", "quantifier": "all spectra, all strictly increasing meshes, all frequencies", "why_tests_cant": "inequalities over all spectra and meshes", "anchors": ["src/dga/analytic_continuation.py: get_backtransform_kernel, transform_from_real_to_imag, kkt"]}
{"id": "C61", "title": "the impurity self-energy is the equation of motion with the measured vertex", "statement": "Whenever the local part of the calculation returns, there are irreducible vertices and solutions of the impurity Bethe-Salpeter equations (asymptotic value U on the shell) whose core blocks are exactly the generalized susceptibilities of the input two-particle Green's functions, the returned physical susceptibilities are their contractions, and the returned self-energy is U n/2 + U/(2 beta) sum (F_D - F_M) B g in the core and U n/2 + U^2/(2 beta) sum (chi_D + chi_M) g on the shell.", "quantifier": "all two-particle and one-particle Green's functions, interactions, temperatures, box and shell sizes", "why_tests_cant": "the chain of inversions (vertex, auxiliary susceptibility, three-leg vertex) must compose to the physical equation for every input, tests compare one data set", "anchors": ["src/dga/high_level_routines.py: local_sde_from_g2", "src/dga/local_four_point.py: gamob2_from_gchir_urange, get_vrg_and_chir_tilde_from_gammar_urange", "src/dga/local_four_point.py: schwinger_dyson_full"]}
{"id": "C62", "title": "the complete calculation returns DMFT minus impurity plus lattice equation of motion, on any number of ranks", "statement": "Whenever the calculation returns a self-energy it equals, at every momentum and core frequency, the DMFT self-energy minus the impurity equation of motion plus the lattice equation of motion built from the ladder with the impurity vertex: density channel plus three times the magnetic channel (lambda corrected where requested) minus the double counting term, contracted with G(k+q, v-w), averaged over the momentum grid. The result, including failure of an inversion, is the same for every number of ranks.", "quantifier": "all inputs, grids, symmetry maps under which the bubble is invariant, lambda values, numbers of ranks", "why_tests_cant": "depends on how momenta are folded, distributed, gathered, scattered and summed for every grid and rank count", "anchors": ["src/dga/dga_main.py: main program lines 99-253", "src/dga/high_level_routines.py: construct_dc_kernel, construct_vrg_and_chi_q_urange", "src/dga/four_point.py", "src/dga/bubble.py", "src/dga/mpi_aux.py: MpiDistributor", "src/dga/four_point.py: schwinger_dyson_full_q"]}
{"id": "C63", "title": "without momentum dependence the DGA result is the DMFT self-energy", "statement": "If the lattice Green's function equals the impurity Green's function at every momentum and no lambda correction is applied, then whenever the calculation returns (and no physical impurity susceptibility vanishes) the self-energy equals the input DMFT self-energy at every momentum and core frequency.", "quantifier": "all inputs, grids, symmetry maps, numbers of ranks", "why_tests_cant": "exact cancellation of three different code paths for every input", "anchors": ["src/dga/dga_main.py: main program lines 99-253"]}
{"id": "C69", "title": "the self-energy has the symmetry of the lattice", "statement": "For every list of symmetry names the grid accepts and every lattice Green's function invariant under it, whatever the complete calculation returns takes the same values at symmetry-equivalent momenta, for any number of ranks; the bubbles of equally labelled momenta agree, so reducing the ladder to the irreducible momenta loses nothing.", "quantifier": "all symmetric Green's functions, grids, symmetry sets, inputs, numbers of ranks", "why_tests_cant": "folding conventions differ for odd and even grids; must hold for all data", "anchors": ["src/dga/dga_main.py: main program lines 99-253", "src/dga/brillouin_zone.py: KGrid", "src/dga/bubble.py: BubbleGenerator.get_gchi0_q_list"]}
{"id": "C70", "title": "the self-energy obeys Sigma(k,-v) = conj Sigma(k,v)", "statement": "If the two-particle Green's functions obey G2(-w,-v,-v') = conj G2(w,v,v'), the one-particle Green's functions and the DMFT self-energy obey f(-v) = conj f(v) and beta, U, n and the lambda corrections are real, then every self-energy the complete calculation returns obeys Sigma(k,-v) = conj Sigma(k,v) at every momentum and frequency, for any number of ranks and either choice of lambda correction: storing only the positive half and recreating the rest by conjugation loses nothing.", "quantifier": "all conjugation-symmetric inputs, grids, box sizes, lambda corrections, numbers of ranks", "why_tests_cant": "the symmetry passes through matrix inversions, asymptotic corrections, lambda correction, the ladder on each rank and the Fourier convolution; a test sees only one data set", "anchors": ["src/dga/dga_main.py: main program lines 99-253", "src/dga/four_point.py", "src/dga/schwinger_dyson.py"]}
{"id": "C71", "title": "the tight-binding band has the symmetry the k grid assumes", "statement": "On every grid the band energies of the t-t'-t'' model are equal at all momenta that any accepted list of symmetry names identifies, and those of the one-band model with directional hoppings are equal at momenta identified by the axis inversions; with unequal tx, ty the latter is not symmetric under kx<->ky.", "quantifier": "all hoppings, all grid sizes, all lists of symmetry names", "why_tests_cant": "odd and even grids fold differently; must hold for all parameters", "anchors": ["src/dga/wannier.py: WannierHr.get_ek, wannier_one_band_2d_t_tp_tpp, wannier_one_band_2d_nematic", "src/dga/brillouin_zone.py: KGrid"]}
{"id": "C72", "title": "the light vertex is the k-derivative of the Hamiltonian", "statement": "For every real-space Hamiltonian (any number of orbitals, any hopping elements, lattice vectors and weights), every direction and every momentum, the light vertex is the derivative of the Fourier-transformed Hamiltonian with respect to that momentum component; for the t-t'-t'' model it equals the closed-form group velocity.", "quantifier": "all Hamiltonians, momenta, directions", "why_tests_cant": "a derivative at all momenta", "anchors": ["src/dga/wannier.py: light_vertex, WannierHr.get_light_vertex, del_ek_del_kx_square"]}
{"id": "C73", "title": "H(k) is Hermitian and periodic", "statement": "If the hopping elements obey H(-R)_ba = conj H(R)_ab with equal weights, H(k) and the light vertex are Hermitian at every momentum; if all lattice vectors are integer, both are unchanged by reciprocal lattice vectors. The built-in one-band models and the Emery model meet the first condition for all parameters.", "quantifier": "all Hamiltonians, momenta, reciprocal lattice vectors", "why_tests_cant": "must hold at all momenta and for all hoppings", "anchors": ["src/dga/wannier.py: convham, light_vertex, wannier_emery_model"]}
{"id": "C74", "title": "both Fourier transforms agree", "statement": "The element-by-element transform returns exactly the array of the vectorised one, for every Hamiltonian and every list of momenta.", "quantifier": "all Hamiltonians, all k lists", "why_tests_cant": "index arithmetic over all sizes", "anchors": ["src/dga/wannier.py: convham, convham2"]}
{"id": "C75", "title": "the Emery model in real space and in momentum space agree", "statement": "The Fourier transform of the real-space Emery model is, at every momentum and for all parameters, the closed-form 3x3 matrix, and this matrix is Hermitian.", "quantifier": "all parameters, all momenta", "why_tests_cant": "must hold for all k and parameters", "anchors": ["src/dga/wannier.py: wannier_emery_model, emery_model_ek"]}
{"id": "C76", "title": "hopping-table dispersions agree with the real-space models", "statement": "The dispersion evaluated from a 3x3 hopping table without out-of-plane hopping equals the Fourier transform of the corresponding real-space model at every momentum, and the shifted dispersion at (k, q) is the dispersion at k+q, also when q is shifted by reciprocal lattice vectors. Evaluating a list of momenta gives the values of the single momenta, and the hopping tables shipped for cuprates, nickelates, the square lattice and Ba2CuO4 are those of the one-band models with the parameters in their names; only the square lattice has e(k+(pi,pi)) = -e(k) at every k.", "quantifier": "all hoppings, momenta, lists of momenta, shifts", "why_tests_cant": "trigonometric identities for all k and q", "anchors": ["src/dga/wannier.py: ek_3d, ek_3d_klist, ekpq_3d, one_band_2d_*"]}
{"id": "C77", "title": "grid averages recover the hopping elements", "statement": "For integer lattice vectors and any grid, the average over the k mesh of H(k) exp(-i k.r) is the sum of the hopping elements (over their weights) of all vectors equal to r modulo the grid; for the t-t'-t'' model the band averages to zero on every grid of at least 3x3 points and its mean square is 4t^2+4t'^2+4t''^2 on every grid of at least 5x5 points.", "quantifier": "all Hamiltonians, grids, vectors", "why_tests_cant": "aliasing depends on the grid size; must hold for all of them", "anchors": ["src/dga/wannier.py: WannierHr.get_ek", "src/dga/brillouin_zone.py: KGrid.k_mean"]}
{"id": "C78", "title": "the complete calculation keeps lattice and conjugation symmetry", "statement": "For every table of hopping elements whose band is real and has the configured lattice symmetries on the momentum grid (the built-in t, t', t'' model always does, for every accepted list of symmetry names), chemical potential, local DMFT self-energy, interaction, filling, grid, real lambda corrections and number of ranks, and for two-particle Green's functions with G2(-w,-v,-v') = conj G2(w,v,v'), every self-energy returned by the complete calculation started from the real-space model is invariant under the lattice symmetries and obeys Sigma(k,-v) = conj Sigma(k,v).", "quantifier": "all parameters, inputs, grids, numbers of ranks", "why_tests_cant": "composition of all parts of the program for all data", "anchors": ["src/dga/dga_main.py: main program", "src/dga/wannier.py: WannierHr.get_ek", "src/dga/two_point.py: GreensFunction"]}
{"id": "C79", "title": "random-phase limit of the complete calculation", "statement": "If the measured impurity susceptibilities are those of the bare interaction (+U density, -U magnetic) and no RPA denominator vanishes, the complete calculation returns, for every grid labelling compatible with the bubbles, any number of ranks and any lambda correction, the DMFT self-energy minus U^2/(2 beta) sum_x (chi_D + chi_M) g plus U^2/(beta N) sum_q,x (chi_D,q/2 + 3 chi_M,q/2 - chi0_q/(1 - U chi0)) G(k+q,v-x), with chi = chi0/(1 +- U chi0) and the lambda correction applied to the lattice susceptibilities. The irreducible vertex is determined uniquely by the bubble and the measured core block.", "quantifier": "all Green's functions, box sizes, grids, lambda corrections, numbers of ranks", "why_tests_cant": "closed form of the whole pipeline for all inputs of this class", "anchors": ["src/dga/dga_main.py: main program", "src/dga/local_four_point.py: gamob2_from_gchir_urange", "src/dga/four_point.py", "src/dga/schwinger_dyson.py"]}
{"id": "C80", "title": "Real-space Hamiltonian files round-trip", "statement": "Reading a real-space Hamiltonian with the w2k reader from the file the w2k writer produced returns the number of lattice vectors and bands, the weights, the lattice vectors and the orbital labels exactly and every matrix element rounded to six decimals (error at most half a unit of the sixth decimal; bands change by at most nr*1e-6 at every momentum) whenever no non-first integer field is <= -1000 and no matrix element rounds to <= -1000; in every other case the fixed-width fields run together and reading fails.", "quantifier": "all numbers of lattice vectors and bands, all weights (integer or float array), all lattice vectors, orbital labels and matrix elements", "why_tests_cant": "the failure depends on the number of digits of every single field; tests use a handful of Hamiltonians with small numbers", "anchors": ["src/dga/wannier.py:read_hr_w2k", "src/dga/wannier.py:write_hr_w2k"]}
{"id": "C81", "title": "Momentum-space Hamiltonian files round-trip", "statement": "A complex H(k) written with write_hk_wannier90 is read back by read_hk_w2k with the same k-points in the same order and every matrix element rounded to twelve decimals (length-one axes dropped); with spin_sym=False element [k,b,s,b',s'] is the element between orbitals s*nb+b and s'*nb+b', and an odd number of orbitals is refused; a file written from a real array is always refused. save_hk followed by read_hk_w2k returns on every k grid the Hamiltonian of the hopping file at each grid momentum within rounding.", "quantifier": "all k-grids, numbers of bands, k-points and Hamiltonians", "why_tests_cant": "index arithmetic of reshape and transpose must be right for every grid and band count", "anchors": ["src/dga/wannier.py:read_hk_w2k", "src/dga/wannier.py:write_hk_wannier90"]}
{"id": "C82", "title": "The high-frequency correction of the bubble completes the Matsubara sum", "statement": "For every temperature, bosonic frequency list and known notation, the asymptotic correction returned for the local bubble (and for a momentum q when no frequency index exceeds the number of frequencies) equals the sum, over all fermionic Matsubara frequencies outside the summed window, of the asymptotic form of G(v)G(v+w); the closed formulas for zero and nonzero bosonic frequency are the values of the infinite sums. Hence the corrected bubble differs from the complete sum only by what G G and its asymptotic form differ outside the window, and for a Green's function with the moments of the self-energy and a dispersion of zero average that difference is bounded by a window-independent constant times the fifth powers of the inverse frequencies.", "quantifier": "all real beta not 0, all chemical potentials, moments, meshes, dispersions, momenta, window sizes, frequency lists and notations", "why_tests_cant": "the claim is about infinite sums and about every window size; a test only compares finite truncations at some tolerance", "anchors": ["src/dga/bubble.py: LocalBubble.get_chi0", "src/dga/bubble.py: get_asymptotic_correction, get_asymptotic_correction_q", "src/dga/bubble.py: get_asympt_sum, get_exact_asymptotics, get_asympt_prefactors and the _q versions"]}
{"id": "C83", "title": "A path through the Brillouin zone visits the nearest grid points in order", "statement": "For every grid and every list of at least two corners with coordinates between -1 and 1 (all named points among them), mapping an array on the grid onto the path raises no index error; segment i has the rounded grid distance of its corners as number of points, and its j-th value is the array at the grid point nearest to the fraction j/n of the way, taken periodically; a corner that is a grid point is the first point of its segment. The coordinates reported along the path are those of the points when the grid has the same number of points in all directions (or is a square layer).", "quantifier": "all grids, arrays, corner lists, segments and points", "why_tests_cant": "must hold for every path and grid including wrap-around and negative coordinates", "anchors": ["src/dga/brillouin_zone.py: KPath.build_k_path, map_to_kpath, get_kpath_val, cind", "src/dga/brillouin_zone.py: kpath_segment"]}
{"id": "C84", "title": "Momenta are found on the grid", "statement": "find_q_ind returns per axis the first of the nearest grid values; a momentum of the grid is found at its index, shifting by it is the periodic translation by that index, and the slice of an array at a grid momentum is the plane of that momentum in each of the three directions.", "quantifier": "all grids, arrays, momenta and axes", "why_tests_cant": "must hold for every grid size and momentum; ties and wrap-around are at measure-zero inputs", "anchors": ["src/dga/brillouin_zone.py: KGrid.find_q_ind, shift_mat_by_q, get_k_slice, set_k_axes"]}
{"id": "C85", "title": "filling and chemical potential", "statement": "For every dispersion, chemical potential and self-energy with moment tail, the number of electrons 2(T sum Re G + 1/2) of the Green's function exists; the filling reported by GreensFunction(mu=...) differs from it by at most C/(number of frequencies)^3, C not depending on the number of frequencies (plus at most 2 exp(-40) when the level lies more than 20 T above mu). For static self-energies the number of electrons is twice the mean Fermi function, and for equal levels get_fill returns it exactly for every window. get_fill_primitive is the plain window sum, real for symmetric self-energies. GreensFunction(n=...) solves exactly 'filling(mu) = n' from mu=0, and silently uses mu=0 if the root finder gives up.", "quantifier": "all dispersions, chemical potentials, inverse temperatures, self-energies, window sizes, root finders", "why_tests_cant": "an infinite Matsubara sum and its convergence rate for every window size", "anchors": ["src/dga/two_point.py: get_gloc, get_g_model, get_fill, get_fill_primitive, root_fun, update_mu, GreensFunction.__init__"]}
{"id": "C86", "title": "real-frequency optical bubble", "statement": "On a symmetric grid of 2M+1 equally spaced frequencies vec_get_chijj_bubble_realf never leaves the grid: for every frequency w=ih below the maximum w_max (rounded to c h) it returns -2 times the momentum mean of lv_a lv_b times the trapezoidal integral of nf(v) A(v) [G(v+w) + conj G(v-w)] over the window |v| <= (M-c) h, the same for all w. On a symmetric grid with an even number of frequencies it raises as soon as one frequency has to be computed. The conductivity returned at these frequencies is Im chi/w for every interpolation that passes through its data, and these data are even in w.", "quantifier": "all grid sizes, spacings, maxima, Green's functions, light vertices, interpolations", "why_tests_cant": "index arithmetic with Python negative slices for every grid size and frequency", "anchors": ["src/dga/optics.py: vec_get_chijj_bubble_realf, get_sigma_from_chijj_realf, fermi_function"]}
{"id": "C87", "title": "filling from real frequencies", "statement": "get_filling_real_f is twice the trapezoidal integral of the momentum-averaged spectral function over the non-positive grid frequencies; it is never negative for a causal self-energy on an increasing grid, but not bounded by 2 (it exceeds every bound for small broadening). RealFrequencyGF with n keeps n and takes the minimiser of a function that vanishes exactly at the chemical potentials of that filling; with mu it stores the filling of mu; with neither it raises.", "quantifier": "all grids, self-energies, dispersions, minimisers", "why_tests_cant": "positivity for all causal self-energies and grids", "anchors": ["src/dga/two_point.py: RealFrequencyGF, get_gwk, get_filling_real_f, opt_func, adjust_mu_real_f"]}
{"id": "C88", "title": "maximum-entropy spectrum is the unique optimum", "statement": "For every mesh, positive default model, data, errors and alpha > 0, the equations solved by the MaxEnt solver for positive spectra (compute_f_J_diag) have exactly one solution; its spectrum is the unique maximiser of alpha * S - chi^2/2 over all non-negative spectra, where S is the Shannon-Jaynes entropy and chi^2 uses the kept singular values (and is the reported chi2 if they reproduce the kernel); the Jacobian returned is the matrix of partial derivatives and is never singular; with smaller alpha chi^2 and entropy do not increase.", "quantifier": "all meshes, kernels, singular decompositions, data, error bars, default models, alpha > 0, competing spectra", "why_tests_cant": "global optimality over a continuum of spectra for every input", "anchors": ["src/ana_cont/solvers.py: MaxentSolverSVD.compute_f_J_diag, singular_to_realspace_diag, chi2, entropy_pos"]}
{"id": "C89", "title": "offdiagonal maximum-entropy spectrum", "statement": "For offdiagonal elements the positive-negative entropy computed is the largest sum of the entropies of two non-negative parts whose difference is the spectrum; the equations of compute_f_J_offdiag have exactly one solution for alpha > 0 and its spectrum is the unique maximiser of alpha * S - chi^2/2 over all real spectra; the Jacobian is the matrix of derivatives and never singular.", "quantifier": "all meshes, kernels, data, errors, models, alpha > 0, competing spectra", "why_tests_cant": "global optimality over a continuum", "anchors": ["src/ana_cont/solvers.py: compute_f_J_offdiag, singular_to_realspace_offdiag, entropy_posneg"]}
{"id": "C90", "title": "signs of spectrum, entropy and Bayesian quantities", "statement": "Whatever vector the optimiser holds, the diagonal spectrum is positive with positive norm, its entropy is not positive and zero only for the default model, chi2 is not negative; at the optimum chi2 is not larger than that of the default model; the eigenvalues used by the Bayesian criteria are not negative in exact arithmetic, so the trace lies between 0 and the number of frequencies, the number of good data points is not negative and the posterior probability lies in (0, alpha].", "quantifier": "all vectors, meshes, models, data, alpha > 0", "why_tests_cant": "sign statements for all reals", "anchors": ["src/ana_cont/solvers.py: singular_to_realspace_diag, chi2, entropy_pos, entropy_posneg, bayes_conv, bayes_conv_offdiag, posterior_probability"]}
{"id": "C91", "title": "errors, covariance and truncation in the solver constructor", "statement": "With a covariance matrix the chi2 of the solver is the quadratic form of the misfit with the inverse covariance, with standard deviations the sum of squared deviations in units of sigma; the back transformation returns the fit in the original basis. Exactly one of stdev and cov must be given, otherwise the constructor raises. The number of kept singular values is one less than the number above 1e-10, so the data component of the smallest significant one is ignored; with none above the limit it raises.", "quantifier": "all data, kernels, covariances (any eigenbasis), singular values", "why_tests_cant": "linear algebra identity for every dimension and basis", "anchors": ["src/ana_cont/solvers.py: MaxentSolverSVD.__init__, backtransform, chi2"]}
{"id": "C92", "title": "Newton optimiser", "statement": "NewtonOptimizer always ends after at most max_iter iterations: it returns the result of the first iteration 1..max_iter whose change is below 1e-4 in every component with nfev its number, or raises. A significant component never changes by more than its own size; an accepted iteration was not damped, so the returned vector solves the linearised equations exactly at a point closer than 1e-4, and the residual there is bounded by 1e-4 times the row sum of the Jacobian; a start at a root is returned unchanged; with no singular values it raises.", "quantifier": "all functions, Jacobians, starts, iteration limits, dimensions", "why_tests_cant": "termination and accuracy for every function and start", "anchors": ["src/ana_cont/solvers.py: NewtonOptimizer.iteration_function, __call__, get_proposal"]}
{"id": "C93", "title": "determination of alpha", "statement": "chi2kink optimises at alpha_start, alpha_start/alpha_div, ... down to alpha_end, each run started from the last success, and ends iff alpha_div > 1; runs that raise are left out; the final run is at 10^(c - fit_position/d), started at the closest alpha, or the last run is returned when the fit raises ValueError. historic and classic scan 10^6, 10^5, ... up to the first alpha whose criterion reaches one, always starting from zero, and overwrite the vector of the second to last scanned result. The spectrum of bryan is a convex combination of the optimised ones. An unknown or missing mode raises.", "quantifier": "all optimisers (including failing ones), fits, schedules", "why_tests_cant": "holds for every optimiser behaviour and history", "anchors": ["src/ana_cont/solvers.py: solve_historic, solve_classic, solve_bryan, solve_chi2kink, solve"]}
{"id": "C94", "title": "continuation kernels and preblur", "statement": "On meshes without repeated points the bosonic frequency kernel is w^2/(w^2+nu^2), in [0,1], one at nu = 0 and without NaN; the bosonic time kernel is positive, symmetric under tau -> 1-tau and even in w, and the value one put in the first column is its limit at w = 0 (wrong if the mesh does not start there); the fermionic time kernel is in (0,1] and its branch for very negative w has relative error at most 1e-8; particle-hole symmetric kernels are sums over w and -w; blurred kernels are positive averages of the original ones (causal, even, bounded). Blurring works exactly for the two frequency kernels and a positive width.", "quantifier": "all meshes, frequencies, times, widths", "why_tests_cant": "bounds and limits over the reals", "anchors": ["src/ana_cont/kernels.py: Kernel.*"]}
{"id": "C95", "title": "units of the continuation problem", "statement": "For fermionic and bosonic time data the continuation problem rescales axes, data, spectrum and back transformation consistently: the returned spectrum has on the user's mesh the norm found by the solver, and the returned fit is the integral of the kernel in the user's units. Six kinds of data are accepted, only the method maxent_svd can be solved. The particle-hole symmetric frequency kind discards purely imaginary data and the symmetric time kind returns the spectrum in scaled units.", "quantifier": "all meshes, temperatures, spectra, data", "why_tests_cant": "identity for every mesh and temperature", "anchors": ["src/ana_cont/continuation.py: AnalyticContinuationProblem.__init__, solve"]}
{"id": "C96", "title": "the parallel run never deadlocks", "statement": "All ranks of a run call the same MPI collectives with the same roots in the same order, for every configuration; with a usable configuration every schedule of the ranks is finite and ends with all ranks having completed the program, and no rank leaves the program before every other rank has done its work. This holds for any MPI library that synchronises at least as much as the standard demands.", "quantifier": "all process counts, configurations, interleavings of the ranks, MPI libraries", "why_tests_cant": "a deadlock or a missing synchronisation shows up only in particular interleavings and rank counts", "anchors": ["src/dga/dga_main.py: main", "src/dga/dga_max_ent.py: main", "src/dga/config.py: create_folders, set_output_path, parse_config_file", "src/dga/mpi_aux.py: MpiDistributor.scatter, gather, allreduce"]}
{"id": "C97", "title": "rank files are complete when they are read and are deleted only afterwards", "statement": "Whenever rank 0 assembles the pairing vertex, the optics vertex or the ladder vertex, the rank file of every rank exists and holds exactly what that rank computed for both channels, in every interleaving. In a completed run the assembled vertices therefore do not depend on the schedule, and the rank files are removed, or complete if they are to be kept.", "quantifier": "all process counts, configurations, interleavings, rank data", "why_tests_cant": "a race between writers, reader and deletion is schedule dependent", "anchors": ["src/dga/dga_main.py: main", "src/dga/high_level_routines.py: construct_vrg_and_chi_q_urange", "src/dga/mpi_aux.py: MpiDistributor.delete_file"]}
{"id": "C98", "title": "no rank touches a folder or file before it exists", "statement": "In every interleaving, every access of a rank to the folders and files of the run (output, plots, poly fits, Eliashberg, optics and continuation folders, the DMFT input, susceptibilities, vertices, self-energy) finds what it needs, and the final set of folders and saved files does not depend on the schedule.", "quantifier": "all process counts, usable configurations, interleavings", "why_tests_cant": "a missing barrier fails only if another rank is slow", "anchors": ["src/dga/config.py: create_folders, create_logger", "src/dga/dga_main.py: main", "src/dga/dga_max_ent.py: main"]}
{"id": "C99", "title": "configurations with which the run hangs", "statement": "Eliashberg without the pairing vertex, an optics section without the bubble, fewer than ten bosonic frequencies in the core box, fewer than four momenta along x or y, polynomial fits on a grid with several momenta along z, and continuation of the self-energy with k- and q-grids of different irreducible size make rank 0 raise; then no rank ever completes, in any schedule, because the other ranks wait for rank 0 in a collective.", "quantifier": "all process counts, all remaining configuration flags, all interleavings", "why_tests_cant": "non-termination in every schedule cannot be observed", "anchors": ["src/dga/dga_main.py: main", "src/dga/dga_max_ent.py: main", "src/dga/config.py: EliashbergConfig, OpticsConfig", "src/dga/plotting.py: default_g2_plots"]}
{"id": "C100", "title": "each option of the configuration file takes effect, and only that one", "statement": "After construction of the run configuration every documented option of the sections poly_fitting, dmft_input, output and dga has the value written in the file - in its own section, or in a section of higher precedence (dga over output over dmft_input over poly_fitting) - and its documented default otherwise; other options, misspelled options and unknown sections have no influence. Options of the pairing section take effect except the start functions gap0_sing/gap0_trip, which are always recomputed from k_sym. Saving a configuration of plain values writes exactly its public attributes. An option written only in a section of lower precedence is silently dropped. The computed box sizes (niv_full, niv_pp, frequency grids) follow from niv_core, niv_shell and niw_core whatever the section contains. The dictionary of default options gives every documented option its documented default.", "quantifier": "all configuration files (any sections, any options, any values)", "why_tests_cant": "The attributes result from interleaved defaults and dictionary updates of four sections into one namespace; only sample files can be tested, not every combination of options and sections.", "anchors": ["src/dga/config.py: ConfigBase.update_dict, ConfigBase.set_from_obj, ConfigBase.as_dict, DgaConfig.__init__, EliashbergConfig.__init__, get_default_config_dict"]}
{"id": "C101", "title": "the Eliashberg power iteration converges to the largest eigenvalue", "statement": "For a pairing vertex with conj Gamma(q;v,v') = Gamma(-q;v',v), a Green's function without zeros and real norm, the successive eigenvalue estimates of the power iteration tend to the largest eigenvalue contained in the start gap whenever the shift is not above the spectrum; the two runs made with shift_mat (first unshifted, then shifted by the first result unless it is positive, shift added back) tend to the largest eigenvalue of the kernel even when a negative eigenvalue dominates in modulus. A deflated run tends to the dominant eigenvalue of what is left, but the gap function it returns is an eigenvector only if the kernel maps it orthogonally to the first gap.", "quantifier": "for all grid sizes, vertices, Green's functions, start gaps, shifts and numbers of iterations (limits, no iteration bound)", "why_tests_cant": "A limit over all iterations, kernels and start vectors cannot be observed by a finite run; a test shows one kernel stopping at one tolerance.", "anchors": ["src/dga/eliashberg_equation.py: EliashberPowerIteration.power_iteration", "src/dga/eliashberg_equation.py: EliashberPowerIteration.get_eig", "src/dga/eliashberg_equation.py: proj_eliash"]}
{"id": "C102", "title": "Vertex input objects hold the cut data and survive a restart", "statement": "build_g2_obj sets the core box sizes to the requested ones, or to those of the density data where -1 was requested, refuses a box larger than the density data, and returns two objects whose value at every Matsubara index (w, v, v') of that box is the value of the input array at the same index, symmetrised in v <-> v' exactly if asked for. Saving these objects with create_dmft_ddict and building again (same sizes or none) gives the same two objects.", "quantifier": "all input dictionaries with arrays of any size, all requested box sizes, with and without symmetrisation", "why_tests_cant": "the index arithmetic of two centred cuts on three axes has to be right for every pair of sizes, and the restart identity for every data set", "anchors": ["src/dga/dga_io.py:create_dmft_ddict", "src/dga/dga_io.py:build_g2_obj", "src/dga/local_four_point.py:get_g2_from_dmft_input", "src/dga/config.py:BoxSizes.set_from_lfp"]}
{"id": "C103", "title": "Loading of DMFT data", "statement": "load_1p_data accepts exactly the four documented types. w2dynamics input: the loaded Green's function and self-energy are the spin averages of the first band, the filling is the nominal one or, if that is zero, the sum of the spin-diagonal occupations, and the two-particle arrays are those of the symmetrised file with v and v' in the order of the symmetrisation and the zero bosonic frequency in the centre. ED input: the datasets unchanged. 'default': the saved dictionary. get_chi subtracts the disconnected part at zero frequency only and raises for an even number of frequencies.", "quantifier": "all files (as finite maps of datasets) and all array sizes", "why_tests_cant": "must hold for every file content and size; a test sees one file", "anchors": ["src/dga/dga_io.py:load_1p_data", "src/dga/dga_io.py:load_1p_data_ed", "src/dga/dga_io.py:load_1p_data_w2dyn", "src/dga/w2dyn_aux_dga.py:W2dynFile.get_chi", "src/dga/w2dyn_aux_dga.py:W2dynG4iwFile.read_g2_full"]}
{"id": "C104", "title": "U-asymptotic susceptibility and three-leg vertex", "statement": "get_vrg_and_chir_tilde_from_gammar_uasympt returns the physical susceptibility of the Bethe-Salpeter solution on the core plus shell box increased by the asymptotic correction of the bubble, and a three-leg vertex for which (1 - u_r chi) vrg is unchanged by the correction; without correction it returns what the u-range routine returns; the variant starting from the susceptibility gives the same. get_gchir_from_gamma_loc_q solves the Bethe-Salpeter equation at every momentum and frequency and gives back the local susceptibility where the bubble is local.", "quantifier": "all vertices, Green's functions with the conjugation symmetry, box sizes, shells and corrections for which the linear systems are regular", "why_tests_cant": "an identity between two routes that has to hold for every vertex and box; tests compare at one data set within tolerances", "anchors": ["src/dga/local_four_point.py:get_vrg_and_chir_tilde_from_gammar_uasympt", "src/dga/local_four_point.py:get_vrg_and_chir_tilde_from_chir_uasympt", "src/dga/four_point.py:get_gchir_from_gamma_loc_q"]}
{"id": "C105", "title": "maps of polynomial extrapolations over the Brillouin zone", "statement": "poly_fit saves on the full grid, for each momentum, the coefficients (Re, scattering rate -Im, Z) fitted to the positive frequencies at one symmetry-equivalent momentum, the first that shares its value in the irreducible map (for the predefined sets the irreducible representative); for input with the symmetry of the lattice these are the coefficients at that momentum. dga_poly_fit, which shifts its input by pi before it reduces it to the irreducible zone of the unshifted grid, is right for even nkx and nky (map centred at Gamma) and wrong for odd nkx. A single momentum or a single positive frequency raises.", "quantifier": "all grids, lists of symmetry names the grid accepts, data, fits", "why_tests_cant": "the interplay of shift, reduction and expansion depends on the parity of every axis", "anchors": ["src/dga/dga_io.py: poly_fit, dga_poly_fit, dmft_poly_fit", "src/dga/analytic_continuation.py: extract_coeff_on_ind, extract_coefficient_imaxis"]}
{"id": "C106", "title": "The non-linear Pad\u00e9 fit hands the optimiser the exact Jacobian of its residual", "statement": "For every parameter vector, node and column, the entry of the Jacobian that padeNonlinear passes to leastsq is the partial derivative of the corresponding entry of the residual it passes, wherever the denominator of the approximant does not vanish; an odd number of coefficients makes the Jacobian raise; the start vector is the function 1/z; the residual vanishes exactly if the approximant takes the data's values at all nodes, and data taken from a rational function of the fitted degree have a parameter vector with zero residual. acPade returns the value of the chosen solver and exits for an odd number of coefficients, for Thiele's method with a number of coefficients different from the number of nodes, and for an unknown solver.", "quantifier": "all real parameter vectors, all numbers of coefficients, all complex nodes and data, all optimisers and output points", "why_tests_cant": "a wrong sign or block of the Jacobian only slows the optimiser down or biases it, sample fits still look plausible; correctness is an identity of derivatives for all parameters", "anchors": ["src/dga/pade_aux.py:padeNonlinear", "src/dga/pade_aux.py:acPade"]}
{"id": "C107", "title": "vn and wn return Matsubara frequencies only for a non-integer-typed inverse temperature", "statement": "Called with an inverse temperature of a floating-point type and a number of frequencies, vn returns (2n+1)\u03c0/\u03b2 and wn returns 2n\u03c0/\u03b2 for exactly the indices of the (shifted, full or positive) box; with an array in place of the number the box is read off the axis, and the index forms cover an axis exactly if its length is even (vn) or odd (wn). Called with an inverse temperature of an integer type, the same calls silently take \u03b2 for the number of frequencies and the number of frequencies for the shift: for every \u03b2 > 0 and every box the result is not the list of frequencies (and with the keyword shift the call raises).", "quantifier": "all inverse temperatures of either type, all box sizes, shifts, positive or full boxes, all axis lengths", "why_tests_cant": "every test passes a float; the integer overload returns an array of plausible numbers, of the right length if \u03b2 equals the box size", "anchors": ["src/dga/matsubara_frequencies.py:vn", "src/dga/matsubara_frequencies.py:vn_beta", "src/dga/matsubara_frequencies.py:wn", "src/dga/matsubara_frequencies.py:wn_beta", "src/dga/analytic_continuation.py:254"]}
{"id": "C108", "title": "Centred frequency sums", "statement": "vn_centered_sum(_wn) sums each plane over the window of 2s fermionic frequencies around half the bosonic frequency on both axes and divides by \u03b2\u00b2, as long as the window lies inside the box; a window that sticks out at the lower end gives zero instead of an error. For even bosonic frequencies the result keeps the conjugation symmetry of the data, for odd ones it does not. wn_sum sums the frequencies -s\u2026s and divides by \u03b2; a cut larger than the box silently sums only the s-N largest positive frequencies. clip_pos_mf_vn keeps exactly the non-negative frequencies.", "quantifier": "all box sizes, window sizes, bosonic frequencies, data and temperatures", "why_tests_cant": "negative slice bounds wrap around, so the outcome depends on the relation of three sizes; the tests use windows that fit", "anchors": ["src/dga/matsubara_frequencies.py:vn_centered_sum_wn", "src/dga/matsubara_frequencies.py:vn_centered_sum", "src/dga/matsubara_frequencies.py:wn_sum", "src/dga/matsubara_frequencies.py:clip_pos_mf_vn"]}
{"id": "C109", "title": "Crossing of density and magnetic channel into pp notation", "statement": "Whenever ph2pp_wc_md returns, its two arrays are, at every pp frequency triple (w, v, v') of the box, the crossed combinations -(D+3M)/2 and -(D-M)/2 of the inputs at (v-v', v, w-v'-1), never values from wrapped-around indices; hence the triplet combination of the results is minus that of the inputs, the singlet combination equals that of the inputs, and the crossing of the pair of channels is an involution.", "quantifier": "all box sizes, all complex inputs of matching shape, all frequency triples in the pp box", "why_tests_cant": "the test compares one data set at one tolerance; index and sign conventions must hold for every triple and size", "anchors": ["src/dga/matsubara_frequencies.py:ph2pp_wc_md", "src/dga/matsubara_frequencies.py:ph2pp_wc"]}
{"id": "C110", "title": "Rank-file handles are closed after every block, and files never silently lose or overwrite groups", "statement": "Using a distributor as a context manager never leaves its rank file open, whatever sequence of with-blocks, exceptions in their bodies and deletions is executed. While the file exists a block writes exactly its assignments in order up to the first key that exists already or the point where the body raises; earlier content is kept unchanged and the exception is passed on. Creating a distributor on a file that still holds the groups of an earlier run keeps them, so that the repeated writer raises at its first assignment. After the file is deleted, or without output path, the failing open is silent, but the first assignment raises, and no later block creates the file again.", "quantifier": "all initial files, all histories of with-blocks, exception points and deletions, all keys and values", "why_tests_cant": "The number of blocks and the position of an exception inside a body are unbounded; a test executes one history.", "anchors": ["src/dga/mpi_aux.py:MpiDistributor"]}
{"id": "C111", "title": "Momentum grid: size of the irreducible zone, axes, list/mesh conversion, quarter masks", "statement": "For every grid the number of irreducible points nk_irr is nx ny nz without symmetries, (nx/2+1)(ny/2+1) nz for the nematic and quasi-1d sets, (n/2+1)(n/2+2)/2 nz for the square set with nx=ny=n and (n/2+1)(n/2+2)/2 (nz/2+1) for the quasi-2d set (integer division), and (nx ny - (nx - nx/2 - 1)(ny - 1)) nz for x-y inversion; the x-y symmetry is skipped when nx differs from ny. map_fbz_mesh2list and map_fbz_list2mesh invert each other and refuse data of the wrong size; ind equals get_q_list. The axes are 2 pi i/n and the shifted axes are these minus pi; shift_mat_by_pi of data given on the axis belongs to the shifted axis exactly for even n, for odd n it is displaced by half a grid step and the Gamma point is not on the shifted axis. irr_kmesh holds the momenta of get_irrq_list in the same order. get_bz_masks cuts out every point in exactly one of the four masks.", "quantifier": "all grid sizes, all predefined symmetry sets, all data", "why_tests_cant": "grid sizes are unbounded and even and odd sizes differ; the count formula has to hold for all of them", "anchors": ["src/dga/brillouin_zone.py:KGrid", "src/dga/brillouin_zone.py:get_bz_masks"]}
{"id": "C112", "title": "Continuation of local quantities: data, default model, filling and blur width", "statement": "max_ent hands the optimisation the fermionic frequencies (2k+1)pi/beta, k<n_fit, with the data of exactly these frequencies, a flat default model of weight one and constant errors, and returns a function whose -Im/pi is the optimal spectrum; with more frequencies requested than present the data are shorter than the frequencies (no clamping, unlike MaxEnt). check_filling of the result is twice the trapezoidal integral of the spectrum over the negative mesh points, hence between 0 and twice the total weight for non-negative spectra. max_ent_loc_bw_range performs one continuation per blur width, in order, and returns the blur width at which the fitted curve has risen by the fraction 1/(1+exp(bw_fit_position)) of its total rise, independent of the fit parameters, or 0 if the fit fails. The model spectra used for tests integrate to their weights and peak at the given position.", "quantifier": "all input data, box sizes, meshes, blur-width ranges, solvers and fit results", "why_tests_cant": "a test runs one data set with one n_fit; the statements are about all sizes and all results of the optimisation", "anchors": ["src/dga/analytic_continuation.py:max_ent", "src/dga/analytic_continuation.py:max_ent_loc_bw_range", "src/dga/analytic_continuation.py:check_filling", "src/dga/analytic_continuation.py:gauss_peak"]}
{"id": "C113", "title": "Ornstein-Zernike fit: the parameters are amplitude and correlation length", "statement": "oz_spin_w0 is a/(xi^-2+|q-(pi,pi,0)|^2) at every grid point in the order of the flattened susceptibility; for a>0 it is positive, at most a xi^2, reaches this exactly at q=(pi,pi,0) (on the grid only if nx and ny are even) and has dropped to half of it at the distance 1/xi. It has the in-plane symmetries of the square lattice but, because distances along z are not periodic, not the kz inversion symmetry on grids with three or more kz points. For data of exactly this form every least-squares result returns the amplitude and the square of the correlation length; the sign of xi is not determined.", "quantifier": "all grids, all amplitudes and correlation lengths, all least-squares results", "why_tests_cant": "identifiability and symmetry are statements over all grids and parameters", "anchors": ["src/dga/ornstein_zernicke_function.py:oz_spin_w0", "src/dga/ornstein_zernicke_function.py:fit_oz_spin", "src/dga/dga_io.py:fit_and_plot_oz"]}
{"id": "C114", "title": "Green's function object: histories of tail changes, broadcasting, Fermi-surface map", "statement": "However often set_g_asympt is called, the Green's function object is the one the constructor builds with the last tail length. Its full array, frequency axis v, niv_full, local mean and core belong together: at every momentum and frequency of the axis full is Dyson's equation with the self-energy of that momentum (a local self-energy is used for all momenta), core is its central part, g_loc its momentum mean, mem its number of entries. fs() is the spectral weight at the first positive frequency and positive for a causal self-energy. Arrays of unfitting shape and core sizes beyond the stored frequencies raise. Exceptions: a negative tail length is accepted and gives fs() the wrong sign; sigma_const is constant below its core size only.", "quantifier": "all self-energies, bands, chemical potentials, tail lengths and sequences of calls", "why_tests_cant": "the cached attributes have to stay consistent for every history of calls and every size", "anchors": ["src/dga/two_point.py:GreensFunction", "src/dga/two_point.py:sigma_const"]}
{"id": "C115", "title": "Frequency cuts along any axes of an array", "statement": "cut_v, inv_cut_v, cut_w and cut_iv_with_iw_shift with any tuple of distinct (positive or negative) axes of an array of any number of dimensions act on each named axis like the one-dimensional cut and leave the other axes alone: every entry of the result is the entry of the input with the same indices elsewhere and the same (respectively shifted) Matsubara index on the cut axes, also when the axes have different sizes. The order of the axes and the way they are counted make no difference; an axis outside the array raises.", "quantifier": "all arrays of any rank and shape, all axes tuples, all cut sizes that fit", "why_tests_cant": "ranges over all ranks, shapes and axis tuples", "anchors": ["src/dga/matsubara_frequencies.py:cut_v", "src/dga/matsubara_frequencies.py:inv_cut_v", "src/dga/matsubara_frequencies.py:cut_w", "src/dga/matsubara_frequencies.py:cut_iv_with_iw_shift"]}
{"id": "C116", "title": "linear_eliashberg: the requested pairing symmetry is kept", "statement": "linear_eliashberg raises exactly for a channel other than 'sing'/'trip' and otherwise reports n_eig pairs. For a vertex and Green's function with the symmetries of the square lattice, k_sym='d-wave' gives, for every eigenvalue, channel, symmetrisation flag and shift option, only gap functions that are even under kx -> -kx and ky -> -ky and odd under exchange of kx and ky (hence zero on both diagonals); p-wave-x/y gaps are odd in their component. If the vertex is unchanged under reversal of both frequencies, every gap has the frequency parity of its start function. Symmetrising the vertex leaves exactly the non-zero eigenpairs of the channel's parity; it does not change a d-wave run (no shift), and it maps the p-wave start function of the default configuration to zero.", "quantifier": "all grids, boxes, vertices and Green's functions with the symmetries, tolerances, numbers of steps and eigenvalues, random starts", "why_tests_cant": "every number of iterations and every deflated run, for all vertices", "anchors": ["src/dga/eliashberg_equation.py: linear_eliashberg, EliashberPowerIteration, symmetrize_gamma", "src/dga/config.py: EliashbergConfig.set_gap0_sing, set_gap0_trip"]}
{"id": "C117", "title": "Pairing vertex files: symmetries from the ladder calculation to the Eliashberg eigenvalues", "statement": "build_pairing_vertex, fed by the rank files of a ladder calculation, saves at every momentum and (v, v') the singlet combination 3/2 magn - 1/2 dens (triplet 1/2 magn + 1/2 dens) of the Hermitian averages of the pairing-channel components with the susceptibilities at w = v - v'. If Green's function and irreducible vertices obey the conjugation symmetry and u, beta, lambda are real, the saved vertices are Hermitian in (v, v') at each momentum, reversing both frequencies conjugates them, and symmetry-related momenta carry the same values. The Eliashberg solver run on these files (no shift, named k_sym) reports only real eigenvalues, with gaps Delta(k,-v) = +/- conj Delta(k,v), symmetrised or not; on the square lattice d-wave gaps keep their form; with inversion among the symmetries the vertex meets the condition under which the power iteration finds the leading eigenvalue.", "quantifier": "all grids, predefined symmetry sets, boxes, rank numbers, Green's functions and irreducible vertices with the conjugation symmetry, real u and lambda, iteration numbers", "why_tests_cant": "holds for every calculation and every number of ranks, after any number of power iterations", "anchors": ["src/dga/pairing_vertex.py: build_pairing_vertex, write_pairing_vertex_components, load_pairing_vertex_from_rank_files, reshape_chi", "src/dga/four_point.py: ladder_vertex_from_chi_aux_components", "src/dga/eliashberg_equation.py: linear_eliashberg"]}
{"id": "C118", "title": "Eliashberg solver with the default options converges to the leading eigenvalue", "statement": "With the default options (vertex symmetrised in frequency, matrix shift) the kernel of the Eliashberg solver is in general neither Hermitian nor diagonalisable. Still, for the pairing vertex saved by a calculation on a lattice with inversion symmetry and a conjugation-symmetric Green's function without zeros, all eigenvalues of this kernel are real; if its largest eigenvalue is positive, the first (unshifted) run tends to the eigenvalue of largest modulus, and the first eigenvalue returned by the solver after the second, shifted run is as close as desired to the largest eigenvalue if both runs make enough steps, also when the dominant eigenvalue is negative and although the shift is the result of a finite number of steps and possibly complex. Provided the start gaps are not orthogonal to the respective eigenvectors in the sense of the spectral decomposition, and no step divides by zero.", "quantifier": "all grids with inversion, boxes, rank numbers, Green's functions and vertices, both channels, all start gaps, tolerances and iteration numbers", "why_tests_cant": "limit statement about infinitely many iterations for every kernel", "anchors": ["src/dga/eliashberg_equation.py: EliashbergPowerIteration.get_eig, power_iteration, symmetrize_gamma, linear_eliashberg", "src/dga/config.py: EliashbergConfig", "src/dga/pairing_vertex.py: build_pairing_vertex"]}
{"id": "C119", "title": "the lambda correction establishes the sum rules", "statement": "For every positive real susceptibility with static maximum and physical parameters (1e-6 <= beta <= 1e6, target sum between 1e-6 and 1e6, at most 1e12 momenta and frequencies, beta*nq <= 5e7), lambda_correction in mode 'spch' with its default parameters converges within its 1000 iterations and returns positive susceptibilities whose frequency- and momentum-summed value is at least the local one and exceeds it by less than 1e-7, in each channel; in mode 'sp' the density channel is unchanged and the sum over both channels fulfils the total sum rule to the same accuracy. In general the search needs at most j + k + 1 iterations with j halvings of the start distance and k Newton steps bounded by explicit logarithms.", "quantifier": "all physical susceptibilities, all local sums in the stated range, all lattice and frequency box sizes", "why_tests_cant": "Convergence of a Newton iteration with restarts next to a pole must hold for every susceptibility; tests only sample a few of them, and the returned value is not the one that was tested for convergence.", "anchors": ["src/dga/lambda_correction.py: lambda_correction, lambda_correction_single, get_lambda_start"]}
{"id": "C120", "title": "saved pairing vertices are the lambda-corrected ladder vertices", "statement": "For every number of MPI ranks, momentum grid, symmetry set and frequency box, whenever the bubble does not vanish and the Bethe-Salpeter equation of each channel is solvable with non-vanishing physical susceptibility, the singlet and triplet pairing vertices written for the Eliashberg equation are, at every momentum of the full zone and every pair v, v' of the pairing box, -(3/2 V_m - 1/2 V_d) and -(1/2 V_m + 1/2 V_d), where V_r is beta^2 F from the lattice Bethe-Salpeter equation of the channel r at the irreducible representative, bosonic frequency v - v' and fermionic frequencies v and -v', with the physical susceptibility in its three-leg part replaced by the lambda-corrected one; without correction V_r = beta^2 F exactly.", "quantifier": "all numbers of ranks, grids, symmetry sets, temperatures, interactions, local irreducible vertices symmetric in the two fermionic frequencies, propagators with the Matsubara conjugation symmetry, box sizes, with and without lambda correction", "why_tests_cant": "It is an identity between the solution of a linear equation on the full box and the two-component shortcut on the core box through the rank files; a test fixes one grid, one rank count and one vertex.", "anchors": ["src/dga/four_point.py: ladder_vertex_from_chi_aux_components, get_vrg_and_chir_lad_from_gammar_uasympt_q", "src/dga/pairing_vertex.py: write_pairing_vertex_components, load_pairing_vertex_from_rank_files, build_pairing_vertex", "src/dga/high_level_routines.py", "src/dga/dga_main.py"]}
{"id": "C121", "title": "which configuration files are accepted, and for how many processes", "statement": "Constructing the run configuration from a parsed file and an MPI communicator succeeds exactly if the file has a lattice section with two grid sizes (nq defaults to nk), a symmetry entry that is one of the known names or empty, and a Hamiltonian given by three hopping amplitudes or a readable wannier90 file; none of the sections poly_fitting, dmft_input, output and dga is present but empty; and there are at most as many processes as irreducible points of the k grid. The lattice then is the described one, its band the closed form with the given amplitudes. If nq is not set, no accepted number of processes leaves a process without irreducible q-points; with a q grid coarser than the k grid the check does not protect against that.", "quantifier": "all configuration files (any sections, options and values), all communicator sizes, all grids", "why_tests_cant": "The set of files is infinite and acceptance is an interaction of every section with the process count; tests check a few files.", "anchors": ["src/dga/config.py: LatticeConfig.__init__, LatticeConfig.check_symmetries, LatticeConfig.set_hr, LatticeConfig.get_ek, DgaConfig.__init__, DgaConfig.build_lattice_conf", "src/dga/mpi_aux.py: MpiDistributor"]}
{"id": "C122", "title": "real-frequency post-processing agrees with the main code", "statement": "Twice get_filling of the post-processing module is get_filling_real_f for every grid and Green's function, so both adjust_mu functions return the same chemical potential for the same minimiser and start; if the self-energy handed in has no imaginary part the objective is the constant n^2 for every chemical potential, i.e. the fit says nothing (plot_giwk_cont passes 0*swk). get_dqp_bw of Re(1/G) is 1 exactly where w >= ek - mu + Re Sigma and 0 elsewhere. fs() is, for every momentum, the spectral function at the (first) grid frequency closest to zero, positive for a causal self-energy; aw is the momentum mean of awk; get_gwk_tb keeps the filling and has Lorentzian spectral functions of width deltino (counted once).", "quantifier": "all frequency grids, momenta, self-energies, chemical potentials, targets and minimisers", "why_tests_cant": "equality of objectives for all chemical potentials and constancy of the undamped objective are statements about all inputs", "anchors": ["src/postproc/real_frequency_two_point.py: get_dqp_bw, get_giwk, get_filling, opt_func, adjust_mu", "src/dga/two_point.py: RealFrequencyGF.awk, aw, fs, get_gwk_tb"]}
{"id": "C123", "title": "auxiliary-susceptibility helpers", "statement": "local_gchi_aux_from_gammar and gchi_aux_core_from_gammar give the same object (and raise on the same inputs). gchi_aux_asympt raises for every full bosonic range with more than one frequency when given one susceptibility per frequency (the factor is aligned with the fermionic axis); with a single frequency it adds a rank-one term with the bare interaction and changes nothing when both susceptibilities agree. ladder_vertex_from_chi_aux is f1 + (1 - u_r chi) f2 of the saved components with the three-leg vertex multiplied by beta. append_shell in place and get_urange hold the same data.", "quantifier": "all boxes, channels, vertices, bubbles, susceptibilities", "why_tests_cant": "equalities and failures for all shapes and values", "anchors": ["src/dga/local_four_point.py: local_gchi_aux_from_gammar, local_gchi_aux_from_gammar_wn, gchi_aux_core_from_gammar, gchi_aux_asympt, append_shell, get_urange", "src/dga/pairing_vertex.py: ladder_vertex_from_chi_aux"]}
{"id": "C124", "title": "A run never touches the results of an earlier run", "statement": "Whatever the configuration, the number of MPI ranks, the order in which the ranks proceed and the point at which the run stops (also in the middle of writing a file), a DGA run changes, creates and deletes entries of the file system only inside the output folder it chose at start-up, and every file and folder that existed before is unchanged afterwards. Hence after any number of runs, each of which may have crashed anywhere, all results and remains of all earlier runs are intact.", "quantifier": "all configurations and input-dependent branches that decide which files are written, all rank counts, all interleavings, all crash points and torn contents, all histories of runs, all base paths and all initial file systems", "why_tests_cant": "a test runs a few configurations to the end on one file system; the claim ranges over all combinations of output switches, all schedules and crash points, and all sequences of runs", "anchors": ["src/dga/dga_main.py:main", "src/dga/config.py:DgaConfig.create_folders, OutputConfig.set_output_path, save_data, clean_data", "src/dga/util.py:uniquify", "src/dga/dga_io.py", "src/dga/plotting.py", "src/dga/dga_max_ent.py:main", "src/dga/mpi_aux.py:create_file, delete_file"]}
{"id": "C125", "title": "Every file of a run has one owner and one content, no matter how the ranks are scheduled", "statement": "In one run no two MPI ranks ever touch the same file or folder, and two different results are never written under one file name (with one exception that is a defect: the check plot chi_dens_magn_lad_q_tilde.png of the ladder susceptibility is overwritten by the one of the lambda-corrected susceptibility). Hence at every moment the disk is determined by how far each rank has come, not by the order in which the ranks ran. Every folder is made once and before anything is put into it, and no file has the name of a folder, so in a new output folder no access fails. A result stays in its file to the end of the run, except the files of the ranks, the two pairing vertices and the conductivity vertex, which are deleted if they are not to be kept.", "quantifier": "all configurations, rank counts, interleavings permitted by the barrier after folder creation, and moments of an execution", "why_tests_cant": "collisions depend on the combination of output switches and on the schedule of the ranks; tests sample a handful of both", "anchors": ["src/dga/dga_main.py:main", "src/dga/config.py:DgaConfig.create_folders", "src/dga/mpi_aux.py:MpiDistributor.create_file, delete_file", "src/dga/dga_io.py:chiq_checks", "src/dga/dga_max_ent.py:main", "src/dga/analytic_continuation.py:max_ent_loc_bw_range, save_and_plot_cont_fermionic"]}
{"id": "C126", "title": "The Pad\u00e9 solver object: spectrum, retarded function and check belong to one interpolant", "statement": "PadeSolver(im_axis, re_axis, im_data).solve() succeeds exactly if there are as many data as frequencies and at least one; at every real frequency g_ret is the value of the continued fraction through the nodes (i v, data), equal to numerator/denominator, A_opt is -Im g_ret / pi, and check holds the values of the same fraction at 500 equidistant points from 0 to twice the largest frequency. Data of a rational function of low enough degree are continued exactly. Because the fraction is evaluated on the real axis itself, data of a rational function with real coefficients (a discrete spectrum) give zero spectrum at all regular frequencies. The helper a returns the coefficients without the last one and cannot be used to evaluate the approximant.", "quantifier": "all frequency lists, data, real axes, rational functions", "why_tests_cant": "identity of functions for all data and points", "anchors": ["src/dga/pade_aux.py: PadeSolver.solve", "src/dga/pade_aux.py: PadeSolver.check", "src/dga/pade_aux.py: a"]}
{"id": "C127", "title": "A complete run of the symmetrisation program", "statement": "For the targets 1freq_b, 2freq and 3freq, any number of inequivalent atoms with any number of bands and any table of equivalent bands that passes the check, and an input file that holds every Kanamori component of every atom once (in any order of the group numbers), a run of dga.symmetrize.main with a free output path ends normally and writes exactly one dataset per atom, channel, bosonic index and Kanamori band tuple; each entry is the channel-weighted sum over the six spin combinations of the average over the equivalent band tuples (NaN entries of three-frequency data counting as zero), so that W2dynG4iwFile.read_g2_full of the written file returns this value at (w, v, v'). The number-of-groups test passes without a question exactly if the Kanamori components are complete. If something is at the output path, the run never changes it. The bosonic box always comes from worm-last of the first atom: without worm-last no run succeeds, with a larger box in the selected group the frequencies are silently shifted, and with an even bosonic axis the run raises and leaves a file behind which blocks every later run.", "quantifier": "every target, number of atoms, number of bands, table of equivalent bands, order of the groups, box size, input data (including NaN), state of the output path and answer of the user", "why_tests_cant": "The claim ranges over all band tables, atom counts and group orders and over every prior state of the output path; the repository has no test of the program, and a test on one file cannot see which components are dropped or counted twice for other tables.", "anchors": ["src/dga/symmetrize.py:main", "src/dga/symmetrize.py:get_groups", "src/dga/symmetrize.py:get_fbox", "src/dga/symmetrize.py:initialize_output", "src/dga/symmetrize.py:read_and_add", "src/dga/w2dyn_aux_dga.py:W2dynG4iwFile", "src/cli/sym1b.py:main"]}
{"id": "C128", "title": "The run with the lambda correction it computes itself", "statement": "A run of the main program with lambda_correction_type 'spch', 'sp' or 'none' returns whenever the calculation with prescribed lambdas does (the search never makes it fail), any other value is reported by NotImplementedError, and self-energy, saved susceptibilities, lambdas and error do not depend on the number of MPI ranks. The arrays handed to the correction are the physical ladder susceptibilities on the whole momentum grid and the local ones, the saved susceptibilities are 1/(1/chi + lambda) of these with the lambda of lambda.txt (in mode 'sp' the density one is unchanged), the self-energy is the equation of motion with exactly these lambdas and is conjugate at opposite frequencies, and so are the susceptibilities. If the inverse susceptibilities lie in a cone of 30 degrees above the smallest static one (even if that one is negative, past the instability), then at the defaults the search converges, the saved susceptibilities have positive real part, are real at the static frequency, and their sum over momenta and frequencies is real and equals the local sum (mode 'sp': the sum of both channels) up to 1e-7, from above.", "quantifier": "all grids, labellings of equivalent momenta, frequency boxes, shells, Green's functions and vertices with the Matsubara symmetry, numbers of ranks, modes, and all complex susceptibilities satisfying the cone condition", "why_tests_cant": "the search is an iteration whose number of steps depends on the susceptibilities; a test sees one vertex and one grid, and the complex, negative-static case is exactly the one a toy input does not contain", "anchors": ["src/dga/dga_main.py: lambda correction and Schwinger-Dyson part", "src/dga/lambda_correction.py: lambda_correction, lambda_correction_single, get_lambda_start, use_lambda"]}
{"id": "C129", "title": "From the files on disk to the saved self-energy", "statement": "Running the symmetrisation program on a complete set of worm measurements and then the main program on its output and the one-particle file (or the main program on a file that holds the same data) has one meaning: with causal self-energies on at least 20 positive frequencies, boxes that fit (they always do when the program chooses the number of asymptotic frequencies and the core sizes are given) and non-vanishing bubbles, whenever the main program returns, it used the requested core sizes (those of the density data where none were requested), its susceptibilities and core self-energy are the DGA ones for the Green's function of the band and of the spin-averaged self-energy (the local one never vanishes), with the density combination (uuuu + uudd + dduu + dddd)/2 and the magnetic one (uuuu + dddd + uddu + duud - uudd - dduu)/4 of the measurements at their Matsubara indices, symmetrised in v and v' if asked for. The core self-energy has the symmetry of the lattice, the saved object holds at every momentum the core self-energy inside the core and the DMFT one on the shell, and if the input is conjugate at opposite frequencies so is the saved self-energy on its whole range.", "quantifier": "all file contents, measurements, box settings, hopping tables with a real band that has the configured symmetries (built-in and Wannier), momentum grids, numbers of ranks, lambda modes", "why_tests_cant": "loading, cutting, symmetrising, local inversion, ladder, lambda search and shell replacement each have their own index conventions; an end-to-end test compares one stored data set, where an index shift in the loader and a wrong box can compensate or stay below the tolerance", "anchors": ["src/dga/dga_main.py: main", "src/dga/dga_io.py: load_1p_data", "src/dga/symmetrize.py: main", "src/cli/sym1b.py", "src/dga/two_point.py: SelfEnergy, create_dga_siwk_with_dmft_as_asympt"]}
{"id": "C130", "title": "From the files on disk to the Eliashberg eigenvalues", "statement": "With pairing vertex and Eliashberg equation switched on, and input conjugate at opposite frequencies, whenever the complete main program returns: the part up to the self-energy returned the result of C129; the pairing box has half the size of the smaller core box and each channel has as many eigenvalues as asked for; the saved singlet and triplet vertices are Hermitian in the two frequencies, conjugate under reversal of both and equal at symmetry-related momenta for every number of ranks; with data symmetric in v and v' (or symmetrised) they are -(3/2 F_magn - 1/2 F_dens) and -(1/2 F_magn + 1/2 F_dens) of the lambda-corrected ladder vertices built from the irreducible vertices that reproduce the measured data; what is solved is the kernel of these vertices with Dyson's equation for the saved self-energy and band at the chemical potential found; for a d-wave start on a square grid all gaps written keep the d-wave form; without shift all eigenvalues written are real; with inversion and symmetrised vertices the kernel has only real eigenvalues. The vertex and Eliashberg part adds only one way to fail (a non-real chemical potential).", "quantifier": "all file contents, box settings, hopping tables with a real band that has the configured symmetries (built-in and Wannier), grids with a predefined symmetry set, numbers of ranks, lambda modes, Eliashberg settings, random start vectors and root-finder outcomes", "why_tests_cant": "the pairing vertex passes through per-rank files, frequency boxes and the irreducible zone before it meets the Green's function; a test with one grid and one number of ranks cannot tell a consistent mislabelling from the right vertex, and convergence of one power iteration says nothing about symmetry of all gaps", "anchors": ["src/dga/dga_main.py: main", "src/dga/pairing_vertex.py", "src/dga/eliashberg_equation.py: linear_eliashberg", "src/dga/two_point.py: GreensFunction"]}
{"id": "C131", "title": "The complete run does not depend on the number of MPI ranks", "statement": "For any input files, configuration and random numbers, the complete main program (from the input files over ladder, lambda correction, Schwinger-Dyson equation and the rank files of the vertex components to pairing vertices and Eliashberg eigenvalues) returns on R ranks exactly what it returns on R' ranks: the same box sizes, susceptibilities, lambdas, self-energy, pairing vertices, chemical potential, eigenvalues and gap functions; and it fails on one number of ranks exactly if it fails on the other, with the same error.", "quantifier": "all admissible input files and configurations, all pairs of positive numbers of ranks, all random start vectors", "why_tests_cant": "tests run on one or two ranks; the distribution over ranks has remainders, empty ranks and file splits that depend on the number of ranks and momenta", "anchors": ["src/dga/dga_main.py:main", "src/dga/mpi_aux.py:MpiDistributor", "src/dga/four_point.py", "src/dga/pairing_vertex.py"]}
{"id": "C132", "title": "The numbers in the text files of a run are what their headers say", "statement": "After a run of the main program, lambda.txt holds the two lambda shifts that were applied to the saved susceptibilities; UniformStaticSusceptibility.txt holds, per channel, the real part of the saved susceptibility at zero momentum and zero frequency plus the contribution of the fermionic frequencies outside the box to the uniform static bubble (with the band and the moments of the DMFT self-energy); the kinetic energies in energies.txt are 1/(beta Nk) sum_{k,v} e(k) G(k,v) of the DGA Green's function (Dyson equation with the saved self-energy at the chemical potential found for the filling) and of the DMFT Green's function, the third number is the potential energy 1/(beta Nk) sum (Sigma - Sigma_static) G + Sigma_static n/2 of the DGA Green's function. The fourth number, headed pot-dmft, is the DGA potential energy again (the code does not compute the DMFT one), which in general differs from the DMFT value. The files are written whenever the run reaches a self-energy and the root finder a real chemical potential: the assertions on the imaginary parts cannot fail.", "quantifier": "all admissible input files, hopping tables with a real band that has the configured symmetries, box sizes, lattice symmetries, lambda modes, numbers of ranks and root finders", "why_tests_cant": "the numbers are sums over all momenta and frequencies of quantities that pass through irreducible-zone expansion, tails and lambda shifts; a test compares one file with one reference", "anchors": ["src/dga/dga_main.py:main", "src/dga/two_point.py:GreensFunction.e_kin", "src/dga/two_point.py:GreensFunction.e_pot", "src/dga/bubble.py:BubbleGenerator.get_asympt_correction_q_list"]}
{"id": "C133", "title": "The optical conductivity of a complete run, from the files on disk to the current-current correlation function", "statement": "With the optics section of the configuration, whenever a complete run returns: (a) self-energy, susceptibilities and lambda shifts are those of the run without optics in the asymptotic frequency range the optics section asks for (with the default ranges: exactly those of the run without optics), and all arrays have the sizes of the configured ranges; (b) nothing depends on the number of ranks, including whether and how the run fails; (c) with non-negative ranges the optics part fails only if no chemical potential is found; (d) the bubble written is at every frequency -2/beta times the zone mean of v_a v_b sum_v G(k,v) G(k,v-w) with Dyson's equation for the saved self-energy and the derivatives of the band; (e) the vertex contribution written is, for non-negative external frequencies, -2/(beta^2 Nk) sum over q, v, and the transfers 0 <= w' <= niw_vert of v_a(k) v_b(k+q) GG GG F_cond, the negative external frequencies hold the conjugates; (f) F_cond is -1/2 F_dens - 3/2 F_magn of the lambda-corrected lattice ladder vertices at (q,w',v,v-w) for w' >= 0, while the entries at w' < 0 are left at 0, although the same combination there is the conjugate of the mirrored entry: the transfers w' < 0 are missing from the sum.", "quantifier": "all admissible input files, hopping tables with a real band that has the configured symmetries, box sizes, optics ranges, directions of the light vertex, lattice symmetries, lambda modes, numbers of ranks and root finders", "why_tests_cant": "the value passes through rank files, irreducible-zone expansion, lambda shifts, a distributed momentum sum and a mirrored frequency axis; a test compares one small run with a reference produced by the same code", "anchors": ["src/dga/dga_main.py:main", "src/dga/optics.py:build_vertex_for_optical_conductivity", "src/dga/optics.py:load_optics_vertex_from_rank_files", "src/dga/optics.py:vec_get_chijj_vert", "src/dga/optics.py:vec_get_chijj_bubble", "src/dga/config.py:OpticsConfig.set_frequency_ranges"]}
{"id": "C134", "title": "Hopping tables from Wannier90 files", "statement": "A run that reads its band from a Wannier90 file sees at every momentum the Fourier sum (with the weights of the file) of the first orbital's elements rounded to six decimals. If the table that was saved has H(-R) = conj H(R) and the symmetries of the configuration, the table read back has them too (rounding does not break them), and its band is real and symmetric on every momentum grid, so that all theorems on complete runs apply. Saving the built-in t-t'-t'' model and running from the file is the same run as with the amplitudes rounded to six decimals (unless one of them rounds to 1000 or more, when the file cannot be read).", "quantifier": "all tables of hopping elements with any number of orbitals, vectors and weights, all symmetry lists, all momentum grids", "why_tests_cant": "Real tables have arbitrary vectors, complex elements and weights; a test checks one lattice. Symmetry of the band after text rounding must hold for every table.", "anchors": ["src/dga/config.py:set_hr", "src/dga/wannier.py:create_wannier_hr_from_file", "src/dga/wannier.py:read_hr_w2k", "src/dga/wannier.py:write_hr_w2k", "src/dga/wannier.py:convham", "src/dga/brillouin_zone.py:KGrid"]}
{"id": "C135", "title": "From the configuration file to the saved self-energy", "statement": "The main program started with a configuration file returns a result exactly if the file is accepted (lattice section complete, no empty merged section, at most as many processes as irreducible points) and the calculation on the input files it names, with the settings it means (each option from the section of highest precedence that has it, else its documented default; box sizes from box_sizes), returns this result. Every accepted configuration with built-in hopping amplitudes, and every one with a symmetric Wannier90 table, meets the lattice hypothesis of the theorems on complete runs, so the result is the DGA result for these settings.", "quantifier": "all configuration files, Wannier90 files, input files and numbers of processes", "why_tests_cant": "The space of configuration files is infinite; precedence of options, defaults and derived box sizes interact with the whole calculation.", "anchors": ["src/dga/dga_main.py:main", "src/dga/config.py:DgaConfig", "src/dga/config.py:LatticeConfig", "src/dga/config.py:BoxSizes", "src/dga/dga_io.py:load_1p_data"]}
{"id": "C136", "title": "The complete main program: one self-energy, one chemical potential, all parts", "statement": "A complete run (self-energy, text files, Eliashberg equation, optical conductivity) returns a result exactly if the ranges of the optics section are accepted, the self-energy and text files are those of the run in the asymptotic range they ask for, the pairing part is that of the run of C130 in this range (or both its flags are off) and the optics part that of C133 (or the bubble alone, or nothing without a section). The result does not depend on the number of processes. Energies, Eliashberg equation and optical conductivity all use the Green's function of the saved self-energy at one and the same chemical potential. The bubble written is -2/beta times the zone mean of v_a v_b sum_v G G whether or not the vertex is asked for. Whenever the self-energy run returns, the flags fit together, the optics ranges are usable and the chemical potential is found, everything is written. Started with a configuration file, the program returns exactly the complete run with the input, settings and plan the file means (each option from its section, else its documented default).", "quantifier": "all configuration files, input files, lattices, frequency ranges, flag combinations, numbers of processes, root finders and random start vectors", "why_tests_cant": "The parts of the program are coupled through the frequency box (which the optics section may enlarge), the Green's function and files; a test runs one combination of flags on one input.", "anchors": ["src/dga/dga_main.py:main", "src/dga/config.py:OpticsConfig", "src/dga/config.py:EliashbergConfig", "src/dga/eliashberg_equation.py:linear_eliashberg", "src/dga/optics.py:vec_get_chijj_bubble", "src/dga/optics.py:vec_get_chijj_vert"]}
{"id": "C137", "title": "One rank file for everything: channels and kinds of vertex do not disturb each other", "statement": "During a run every process writes the slices of the pairing vertex, of the optics vertex and of the full ladder vertex, for the density and the magnetic channel, into one and the same file. Whatever combination of the three is asked for, no dataset is written twice (the run does not stop because a name exists), and each of the three loaders returns exactly the four arrays it would return if every component of every channel had been written to files of its own. In particular the pairing vertex, the conductivity vertex and the full vertex of a run do not depend on which of the others are asked for.", "quantifier": "all combinations of flags, numbers of processes, task lists, frequency ranges and vertex components; all complete runs", "why_tests_cant": "Separation rests on group and dataset names (prefixes fq_, f_, pv_ of one another's character, signs and digits in the names) for every momentum and frequency index and every combination of flags; a test looks at one file.", "anchors": ["src/dga/four_point.py:write_vertex_components", "src/dga/four_point.py:load_vertex_from_rank_files", "src/dga/optics.py:write_optics_vertex_components", "src/dga/optics.py:load_optics_vertex_from_rank_files", "src/dga/pairing_vertex.py:write_pairing_vertex_components", "src/dga/pairing_vertex.py:load_pairing_vertex_from_rank_files", "src/dga/high_level_routines.py:construct_vrg_and_chi_q_urange"]}
{"id": "C138", "title": "The saved full ladder vertices of a complete run", "statement": "With save_fq a run saves F_dens and F_magn on the full zone, shape (momenta, 2 niw + 1, 2 niv, 2 niv). Whenever the self-energy run returns, so does the run that saves them, with the same other results; the arrays depend neither on the number of processes nor on whether pairing and optics vertices are written too. For a causal self-energy, non-vanishing bubbles and data symmetric in the fermionic frequencies, the entries at bosonic frequencies w >= 0 are the lambda-corrected full vertices of the lattice ladder with irreducible vertices that reproduce the impurity data; the entries at w < 0 are all 0, although the vertex there is the complex conjugate of the entry at (-w, -v'-1, -v-1).", "quantifier": "all input files, lattices, boxes, flag combinations, numbers of processes and ladder solutions", "why_tests_cant": "The arrays pass through per-process files whose group names carry momentum and frequency, through the irreducible zone and through the lambda correction; a test of one lattice on one process sees none of the failure modes, and the comparison with the lattice ladder ranges over all data.", "anchors": ["src/dga/four_point.py:build_vertex_fq", "src/dga/four_point.py:write_vertex_components", "src/dga/four_point.py:load_vertex_from_rank_files", "src/dga/four_point.py:ladder_vertex_from_chi_aux_components", "src/dga/dga_main.py:main"]}
{"id": "C139", "title": "The averaged Pad\u00e9 continuation: what it performs, when it exits, when its mean is defined, and exactness for rational Green's functions", "statement": "pade(zin, fin, zout) performs exactly 321 continuations (start indices -3, -2, -1, with mirrored points; 50, 54, ..., 98 points; 40, 44, ..., 80 coefficients not exceeding the number of points) and prints that number. It exits exactly if every one of them has a positive imaginary part somewhere on zout; otherwise fs holds the physical ones in this order, masks has one entry for each, fmeans is the mean of the marked ones, at most 51 % are marked if there are several, and the mean is nowhere positive in its imaginary part. With several physical continuations the mean is defined exactly if some continuation's total distance to the others is at most 0.99 of the average total distance, else it is nan everywhere. Data of a rational function with real coefficients that decays at infinity, has at most 20 poles and a non-positive imaginary part on zout, sampled at 39 + (number of poles) or more distinct points of the upper half plane, are continued to that function itself wherever no denominator vanishes. With fewer data than points asked for, all larger numbers of points yield the same continuation, so the 321 are not independent.", "quantifier": "all data sets of all lengths, all output points, all rational functions in the class, all solvers that return an exact solution of the linear system if there is one, all orders of ties", "why_tests_cant": "the selection depends on all pairwise distances of 321 continuations; exactness is an identity for all rational functions and evaluation points", "anchors": ["src/dga/pade_aux.py: pade", "src/dga/pade_aux.py: pick_points", "src/dga/pade_aux.py: acPade", "src/dga/pade_aux.py: padeMatrix", "src/dga/pade_aux.py: epade"]}
{"id": "C140", "title": "The complete program with one rank file per process for everything asked for", "statement": "In a complete run every process writes one file for the pairing vertex, the optics vertex and the full vertices. The run returns exactly if the run in which each component has files of its own returns for the same input, with the same self-energies, text files, eigenvalues and conductivity: no part reads a dataset of another. The saved pairing vertices are those of a run of C130 also if the Eliashberg equation is not solved, the saved full vertices those of a run of C138 that asks for nothing else. The number of processes does not matter. A run that asks for the pairing vertex returns only if niw_core and niv_core are at least 2 (below, the plots raise after all ladders have been computed). Whenever the self-energy run returns, the flags fit together and the chemical potential is found, everything asked for is written. Started with a configuration file, the program returns exactly the run the file means; save_fq is read from the sections output or dga and off by default.", "quantifier": "all input files, settings, plans (pairing, Eliashberg, optics, save_fq in any combination), numbers of processes, random starts, configuration files", "why_tests_cant": "The set of datasets in one file depends on flags, grids and number of processes; every combination of flags, grids and process counts is a different interleaving of groups in the files.", "anchors": ["src/dga/dga_main.py:main", "src/dga/high_level_routines.py:construct_vrg_and_chi_q_urange", "src/dga/pairing_vertex.py:build_pairing_vertex", "src/dga/optics.py:build_vertex_for_optical_conductivity", "src/dga/four_point.py:build_vertex_fq", "src/dga/config.py:DgaConfig"]}
{"id": "C141", "title": "Polynomial fits of a complete run", "statement": "A complete run of the main program with polynomial fits asked for returns exactly if the run without fits returns and the grid has more than one momentum and the self-energy more than one positive frequency; everything else it writes is the same, on any number of ranks. The DMFT maps hold at each momentum the coefficients fitted to Dyson's Green's function with the DMFT self-energy there, at the positive Matsubara frequencies; the text file those of the DMFT self-energy; the DGA maps hold at k the coefficients fitted to the saved self-energy, and to Dyson's Green's function with it and the new chemical potential, at k minus (pi, pi, 0) if nkx and nky are even, and at r minus (pi, pi, 0) for some r symmetry-equivalent to k on other grids. The fits are made if the configuration file has a section poly_fitting, with n_fit = 4 and o_fit = 3 unless given.", "quantifier": "all input files, settings, plans, ranks, fit functions, and configuration files", "why_tests_cant": "the maps must be right for every grid, box, symmetry set and combination of options of a complete run", "anchors": ["src/dga/dga_main.py: main", "src/dga/dga_io.py: dmft_poly_fit, dga_poly_fit, poly_fit", "src/dga/config.py: DgaConfig.__init__"]}
{"id": "C142", "title": "Continuations to real frequencies of a complete run", "statement": "A complete run with continuations asked for writes everything the run without them writes. The optical conductivity is continued if optics and its max_ent subsection exist: the bubble, and bubble plus vertex (the vertex counted as zero beyond its frequencies and if it was not asked for), both from the same number of frequencies, at most that of the bubble. The separate maximum-entropy program reads the saved self-energy, finds the chemical potential for it and needs 20 positive frequencies; it continues at each momentum the self-energy without its Hartree term and adds the term again, Dyson's Green's function with that self-energy and chemical potential from at most the range of the configuration, and the two saved susceptibilities; from the continued self-energy it computes the chemical potential and Green's function on the real axis. Each section needs a mesh of its own, and if do_cont is not set nothing is left. A momentum whose optimisation fails holds zeros. What a run leaves on any number of ranks it leaves on one; it does not return on more ranks than irreducible momenta if anything is continued. It returns whenever the mesh of the self-energy has an odd number of points with zero in the middle and the optimisations succeed - so with wmin = -wmax, any named mesh and an odd number of points, as in the default settings; on a mesh from -wmax to wmax with an even number of points, ten or more, it does not return.", "quantifier": "all input files, settings, plans, meshes, optimisers, interpolations, root finders and numbers of ranks", "why_tests_cant": "the continuation starts from files of a finished calculation on any grid and box; every combination of sections, meshes, symmetry sets and process counts is a different run", "anchors": ["src/dga/dga_max_ent.py: main", "src/dga/dga_main.py: main", "src/dga/dga_io.py: load_siwk_dga, load_chi_dga", "src/dga/analytic_continuation.py: MaxEnt", "src/dga/optics.py: chijj_bubble_realf"]}
{"id": "C143", "title": "Optical bubble on meshes that are not equidistant", "statement": "On every mesh of real frequencies with an odd number of points and zero in the middle, equidistant or not, the bubble of the optical conductivity is returned if the requested maximum is not negative and below the largest frequency: at each mesh frequency above zero and below the one nearest to the maximum it is minus two times the momentum average of the squared light vertex times the trapezoidal sum of nf(v) A(v) times the Green's functions, taken a fixed number of mesh points above and below. These are the Green's functions at v+w and v-w for all points if and only if the mesh is equidistant. Every mesh the program makes from -wmax to wmax with an odd number of points is of this kind, that of the default settings included; on the tan mesh, the default, the mesh point i places above the j-th positive one always lies higher than the sum of the two frequencies, so the default optical conductivity on the real axis uses Green's functions at other frequencies than those of the formula. On the meshes from -wmax to wmax with an even number of points, ten or more, the routine raises for the window it is called with.", "quantifier": "all meshes, temperatures, Green's functions, light vertices and requested maxima; all mesh kinds, sizes and bounds", "why_tests_cant": "the index arithmetic of the window depends on the parity and the spacing of the mesh; a test on one mesh says nothing about the others, and whether index shift and frequency shift agree is a statement about all pairs of points", "anchors": ["src/dga/optics.py: vec_get_chijj_bubble_realf", "src/dga/analytic_continuation.py: get_w_mesh, tan_w_mesh, hyperbolic_w_mesh, lorentzian_w_mesh, linear_w_mesh", "src/dga/dga_max_ent.py: main"]}
{"id": "C144", "title": "Continuations of a complete run from the configuration file on", "statement": "The complete program with all analytic continuations, started with a configuration file, returns a result if and only if the file is accepted and the run with the input files, settings, plan, fits and continuations the file means returns it. A continuation is asked for by a subsection; each of its settings has the value of the subsection, else that of the section max_ent, else the documented default: 20 frequencies, the tan mesh of 501 points from -15 to 15, blur width 0.01. In the subsection of the optics section, n_fit = -1 stands for all computed frequencies. A max_ent or optics section without entries stops the program with an error although the calculation itself does not need its entries. A file that asks for a self-energy on a symmetric mesh with an even number of points, ten or more, never gives a result.", "quantifier": "all configuration files with distinct keys, input files, numbers of ranks, outcomes of the optimisations and random numbers", "why_tests_cant": "the settings come from three layers for each of five continuations; which combination a file means, and that nothing else in the file matters, is a statement about all files", "anchors": ["src/dga/analytic_continuation.py: MaxEnt.__init__, MAX_ENT_DEFAULT_SETTINGS", "src/dga/dga_max_ent.py: main", "src/dga/dga_main.py: main", "src/dga/config.py: MaxEntConfig, OpticsConfig"]}
{"id": "C145", "title": "What a run logs before the calculation: memory estimate and check of the DMFT Green's function", "statement": "Before the calculation a run logs, for every input: the largest deviation between the local Green's function of the DMFT input and the momentum average of Dyson's equation on the frequencies both have, together with twice the chemical potential of the input (the second one is not recomputed, so the two printed chemical potentials always agree); an input without any frequency of the Green's function stops the run, otherwise the check influences no result. Of the announced memory, the Green's function of the final self-energy and the three-leg vertices take exactly the announced amount; the bubbles of all ranks together at most the announced one, exactly it only without symmetry reduction; the Green's function of the DMFT self-energy at most the announced one if and only if its core is not larger than core and shell of the box together; and the vertex of the optical conductivity is smaller by a factor of 4 niv_core at least.", "quantifier": "every dmft input file, grid, lattice, box, number of ranks, set of symmetries and plan", "why_tests_cant": "the sizes depend on box, grid, symmetries and ranks together; a test sees one combination, and the numbers are only printed", "anchors": ["src/dga/config.py: DgaConfig.log_estimated_memory_consumption, check_gloc_dmft, log_sys_params, set_system_parameter", "src/dga/dga_main.py: main", "src/dga/loggers.py: MpiLogger.log_memory_usage"]}
{"id": "C146", "title": "Fermi-surface crossings along a path", "statement": "For every path through the Brillouin zone whose first segment has two points at least and every other one a point, and every non-empty set of points of the Fermi surface, the post-processing returns one position per segment: the first of the points of this segment with the smallest Euclidean distance in the plane to any point of the Fermi surface (periodic images are not considered). The segments together look at every point of the path but the last exactly once, so that the last point is never returned even if it lies on the Fermi surface. Nothing is returned exactly if the Fermi surface is empty or a segment has no point.", "quantifier": "every list of corners, grid, axis and set of Fermi-surface points", "why_tests_cant": "which point is nearest, and whether a point is skipped between two segments, depends on all lengths and coordinates", "anchors": ["src/postproc/util.py: find_fermi_crossing", "src/dga/brillouin_zone.py: KPath.cind, KPath.nk_seg, KPath.get_kpath_val", "src/postproc/plot_giwk_cont.py", "src/postproc/plot_siwk_cont.py"]}
{"id": "C147", "title": "Which files the symmetrisation commands read and write", "statement": "symmetrize.py WORM FILE writes to the part of FILE before its first dot followed by _sym.hdf5; so two inputs have the same output exactly if their paths agree up to the first dot, and every path that starts with ./ or ../ has the output _sym.hdf5 in the working directory; the output is never the input. sym1b concatenates path and file names without a separator, uses Vertex.hdf5 and g4iw_sym.hdf5 in the working directory without options, and raises for an option without a value. Over any sequence of calls of the two programs no file that is there is changed and no path other than the outputs is touched. So with a correct input and no output the call is done, and whatever is called later the output holds the average over the equivalent components of the data of this input; a later call for another input with the same part before the first dot is never done.", "quantifier": "every path, contents of the disk, set of input files and sequence of calls with any options and answers", "why_tests_cant": "the collision of names and the first-writer-wins behaviour are statements about all pairs of paths and all histories of calls", "anchors": ["src/dga/symmetrize.py: command line (__main__), main", "src/cli/sym1b.py: create_dga_argparser, main"]}
{"id": "C148", "title": "Green's function saved by the post-processing of a continued self-energy", "statement": "The post-processing of a continued self-energy leaves every entry with a damping |Im| of 0.04 at least as it is and gives all others the same real part and imaginary part -0.04, so that a causal self-energy has Im at most -0.04 everywhere. It saves Dyson's Green's function with this self-energy at every momentum and frequency and the chemical potential used in it, which minimises the squared deviation of the filling of just this Green's function from the filling of the input. For a causal self-energy the result has no pole, |G| <= 25 and a positive spectral function of at most 25/pi; acausal entries of 0.04 or more are kept and give a negative one. Compared with the damping the run itself adds, the damping is never larger and at least half. The second saved number, mu_lda, is the chemical potential of the interacting run whatever lattice and filling, if the minimiser stays where the objective is constant. The labels of the plotted momentum axes are those of the data at the first entry only; the zone centre is labelled pi/(n-1).", "quantifier": "every self-energy, dispersion, frequency mesh, filling, chemical potential, grid and minimiser", "why_tests_cant": "pole-free for every chemical potential the minimiser may try, and a useless objective, are statements about all inputs; a test compares one figure", "anchors": ["src/postproc/plot_siwk_cont.py: main", "src/postproc/real_frequency_two_point.py: get_giwk, adjust_mu", "src/dga/two_point.py: RealFrequencyGF"]}
{"id": "C149", "title": "Every continued self-energy of a run can be post-processed into a causal Green's function", "statement": "Whenever a complete run of the program leaves a continued self-energy and its optimiser only finds non-negative spectra, then this self-energy is causal at every momentum of the zone and every frequency of the mesh, also where the continuation failed and after the Hartree term was added; and the post-processing of the run's files returns for every mu.txt with two numbers, every filling and every minimiser. At every momentum and frequency both the run's own Green's function (damping 0.04 added) and the post-processed one (damping raised to 0.04) are Dyson's with the dispersion of the configuration at this momentum, have no pole and a positive spectral function of at most 25/pi.", "quantifier": "every input, lattice, configuration, number of ranks, optimiser with non-negative spectra, minimiser and mu.txt for which the run returns", "why_tests_cant": "causality at all momenta and frequencies of all runs, and no pole for any chemical potential the two minimisers return, are statements about all inputs of two programs chained by files", "anchors": ["src/dga/dga_max_ent.py: main", "src/dga/analytic_continuation.py: class MaxEnt", "src/postproc/plot_siwk_cont.py: main", "src/dga/two_point.py: RealFrequencyGF"]}
{"id": "C150", "title": "Paths and figures of the continuation driver", "statement": "The continuation driver gets past the preparation of its k-paths exactly if half the number of momenta along y, rounded half to even, is smaller than the number along x; otherwise it raises before anything is continued. A dispersion figure shows, at each point of the path, the spectral function of its grid point, next to the local spectral function, with a line that ends at 1.05 times the largest local value inside the window; it is drawn exactly if the path has a point and some mesh frequency lies strictly inside the window (without a window: the mesh has three frequencies). A susceptibility figure on a mesh of non-negative increasing frequencies shows w*chi and the smallest frequencies at which that is largest, in a window from the second mesh frequency to twice the largest of them; it is drawn exactly if the path has a point and the mesh two frequencies; a failed continuation is drawn below the window, and if all fail the window is upside down.", "quantifier": "all grid sizes, paths with corners in the zone, meshes, windows and data", "why_tests_cant": "Whether the driver raises depends on the parity and ratio of the grid sizes; the window conditions range over all meshes.", "anchors": ["src/dga/dga_max_ent.py:main", "src/dga/high_level_plotting.py:plot_real_frequency_dispersion", "src/dga/high_level_plotting.py:plot_chi_along_kpath", "src/dga/brillouin_zone.py:KPath"]}
{"id": "C151", "title": "A complete run gets through the figures along the paths", "statement": "A complete run with continuations and the figures of the continuation program returns exactly if the run without the figures returns and, if the continuation program is part of it, half the number of momenta along y (rounded half to even) is smaller than the number along x, there are two momenta along x if the self-energy or a susceptibility is continued, the mesh of the self-energy has three frequencies and one strictly inside (-2, 2), and the meshes of the susceptibilities two frequencies. With named meshes (for the self-energy symmetric and with an odd number of points) only the grid matters. On a grid with an even number of at least 2 nx momenta along y a run that asks for the program never gets to its end. The ten figures of the self-energy show, at each point of the five paths, the spectral function of the saved real-frequency Green's function at its grid point.", "quantifier": "every input file, settings, plan, number of ranks, continuation settings, random numbers, and optimiser that returns one value per frequency", "why_tests_cant": "whether the program ends after hours of continuation depends on grid and meshes together", "anchors": ["src/dga/dga_max_ent.py: main", "src/dga/high_level_plotting.py: plot_real_frequency_dispersion, plot_chi_along_kpath", "src/dga/brillouin_zone.py: KPath"]}
{"id": "C152", "title": "A complete run gets through the figures of the main program", "statement": "A complete run with the figures of the main program returns exactly if the run without them does, its box has at least ten bosonic frequencies, the grid has at least four momenta along x and four along y, and - if polynomial fits are asked for - one along z; what it returns is the same. So with a smaller box, a smaller grid, or fits on a three-dimensional grid no run ever gets to its end, whatever else is configured. Drawn are the planes of the two-particle Green's functions the run uses, in the core box, at the frequencies 0 (both channels), 10 and -10 (magnetic); the Fermi surface is searched as the zeros of the real part of Dyson's Green's function with the final self-energy at the first positive frequency, where both momenta are below pi, and the first half of the points found is used, which are momenta of the grid. On several processes, with nothing else wrong, the run can come to its end exactly if the figures can be drawn; otherwise no rank ever does, in any schedule.", "quantifier": "every input file, settings, plan, fits, continuations, number of ranks, random numbers, and whatever contour lines matplotlib finds", "why_tests_cant": "that a plotting routine refuses its data after hours of calculation depends on box and grid of the particular run", "anchors": ["src/dga/dga_main.py: main", "src/dga/plotting.py: default_g2_plots, default_gamma_plots, plot_siwk_extrap", "src/dga/local_four_point.py: LocalFourPoint.plot", "src/dga/brillouin_zone.py: find_zeros", "src/dga/dga_io.py: default_giwk_checks, poly_fit"]}
