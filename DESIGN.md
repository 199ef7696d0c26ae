# Formal model of PaulWorm/DGApy in Lean 4 — design

## 1. Method

The code is Python/numpy and is only read, never run.  It is modelled in Lean 4 as small total functions that follow
the source branch by branch; Python exceptions are values (`Except`/`Option`).  Every definition cites the file and
lines it models and states what is simplified.  Layout under `lean/Verif/`:

* `Py.lean` — Python/numpy primitives used by the models (slices with negative indices and clipping, `//`, `%`,
  checked indexing, `roll`, `flip`).  Facts about them are lemmas there.
* `<Area>/Model.lean` — transcription of the repo functions of that area.
* `<Area>/Lemmas.lean` — helper lemmas (not part of the claims), where there are many of them.
* `<Area>/Props.lean` — the property theorems, each stated against a small specification written in terms of
  Matsubara indices / momenta / index sets rather than the model's helpers, with an `example` that
  meets the hypotheses.

Two array representations are used.  Where the claim is about slicing, boxes or wrap-around an array axis is a `List`
with Python slice semantics (an N-d array whose relevant axis is the list and whose entries are arbitrary: numpy
slices act on one axis at a time).  Where the claim is algebraic (Bethe-Salpeter, Schwinger-Dyson, bubbles) arrays are
functions on finite index types or Mathlib matrices over a field.

## 2. Trusted base

* Lean 4.33.0 kernel; Mathlib as installed.  No axioms are added; every property theorem depends on at most
  `propext`, `Classical.choice`, `Quot.sound`.
* The reading of the Python source (the model/code correspondence is by inspection only).
* numpy/h5py/mpi4py/re semantics as written down in `Py.lean` and in the model comments (slice clipping, `np.unique`
  returning sorted unique values with first indices, `np.linalg.inv` raising on singular input, HDF5 keys listed
  in byte order, `Scatterv/Gatherv` copying the counted segments in rank order, `Allreduce` summing).
* Arithmetic is exact (ℚ/ℝ/ℂ or any field); floating-point rounding, overflow, NaN propagation, memory layout,
  performance, plotting, HDF5 internals and MPI transport are not modelled.

## 3. Properties: what is modelled and how it is proved

| id | model | proof |
|----|-------|-------|
| C01 C02 | `distribute_tasks` on `Nat`, cumulative sums as lists | closed form of the prefix sums, induction over ranks |
| C03 | `Scatterv/Gatherv` as segment copies of the flattened buffer with `sizes * other_dims` counts | lists: take/drop algebra, induction over ranks |
| C04 | rank-local sums folded over the task slices, `Allreduce` as sum over ranks | C01 + sum over concatenation |
| C05 C06 | group names as character lists (`{:03d}`, `{:04d}`), `re.findall(r'\d+')` as a scanner, file as ordered key/value list | digit round trip by induction; the negative-frequency case is refuted by a concrete witness and kept `_partial` |
| C07 | masks, row-major flattening and masked `+=` | closed form of every entry |
| C08 – C11 | index arrays as functions on the grid; slice assignments as index maps; `np.unique` as sorted distinct values + first index | case analysis with `omega`, generic lemmas for idempotent folds |
| C12 | `np.roll` on functions over `Fin n` / `Int` mod n | modular arithmetic |
| C13 – C21 | lists with Python slices | index lemmas, `omega` |
| C22 C23 | Green's functions as functions of Matsubara index, windows from the list model | finite sums, reindexing |
| C24 – C29 | Mathlib matrices over a field; singular `inv` is `none` | matrix algebra, Schur complement, Sherman–Morrison |
| C30 | finite sums over q, w | linearity, `Finset` algebra |
| C31 – C33 | the Newton loop as a fuelled recursion over ℝ | invariants over the loop |
| C34 – C36 | vectors over ℂ; loop as fuelled recursion | induction |
| C37 – C39 | lists + functions over ℂ | index lemmas |
| C40 | base-n digits | induction on the number of operators |
| C41 | file system as predicate / finite set, loop as least search | well-founded search |
| C42 C43 C49 | record transformers returning `Except` | case analysis |
| C44 | finite Fourier sum over the listed hoppings, real/complex exponentials | trigonometric identities |
| C45 | Thiele recursion over a field | induction over continued fraction depth |
| C46 C47 | real functions | monotonicity |
| C48 | event trace semantics | induction over traces |
| C50 C60 | action tables on component tuples; HDF5 groups as key/value lists | finite case analysis lifted to all bands; loops as folds |
| C51 | `np.unique` maps of C08 and the q list generators | order of `np.unique` = order of first indices |
| C52 | `ifft(fft * fft)` as finite sums with roots of unity on the mesh | orthogonality of characters of `ZMod n` |
| C53 C54 | moments of the last 20 % of the frequencies, energies; spectral function of a causal self-energy | sums of lists, sign of the imaginary part of an inverse |
| C55 C56 | configuration records | case analysis; C56 is refuted (see section 4) |
| C57 – C59 | optical bubble and vertex correction as list windows and finite sums | index lemmas, reindexing |
| C61 – C63, C69, C70, C78, C79 | `Pipeline`: the whole chain (local part, irreducible vertex, ladder, Schwinger-Dyson, MPI slices) as one `Option` program | composition of the area theorems; the lattice symmetry and conjugation are carried through every step |
| C64 C65 | Thiele coefficients, averaging over node counts | rational interpolation uniqueness; averaging of selected continuations |
| C66 – C68 | least squares normal equations, driver loop with an arbitrary optimiser, kernels as integrals over meshes | algebra over ℝ/ℂ, list induction |
| C71 – C77 | `wannier.py`: hopping lists, `exp(i k r)` sums, closed dispersions | finite Fourier sums, trigonometric identities, `HasDerivAt` for the light vertex |
| C80 C81 | files as lists of characters / tokens, with the fixed-width formats of the writers | parser/printer inversion by induction |
| C83 C84 | k paths and lookup over ℝ with round-half-even and Python indexing | floor/fract case analysis, list induction |
| C82 | windows of the list model; infinite Matsubara sums as `HasSum` over ℤ | zeta values ζ(2), ζ(4), partial fractions of two frequencies, `IsBigO` at high frequency |
| C85 | filling routines on samples; root finder an arbitrary function; number of electrons = limit of symmetric window sums | partial fractions of cot/tanh give the Fermi function; third-order expansion, real parts; telescoping tail bound |
| C86 | real-frequency bubble on list grids with Python slices, broadcasting; interpolation an arbitrary function | slice arithmetic for all grid sizes; counterexample for every even grid |
| C87 | real-frequency filling, minimiser an arbitrary function | list induction on the trapezoidal rule, positivity of the spectral function |
| C88 – C90 | `MaxEnt`: functional, root function and Jacobian over ℝ on `Fin n` arrays; SVD factors arbitrary | convexity of the relative entropy; existence by minimising the coercive dual function; `HasDerivAt` |
| C91 | constructor with the results of `eigh` and `svd` as data | unitary change of basis, matrix inverse |
| C92 | optimiser loop by recursion on the remaining iterations, `pinv` an arbitrary function | loop induction; a damped step cannot pass the convergence test |
| C93 | α loops with fuel, optimiser an arbitrary function that may raise, `curve_fit` and `opt.newton` arguments | induction on the schedule |
| C94 C95 | kernels entry by entry (0/0 as `none`), Simpson and trapezoidal rules; rescaling of a problem | limits, exponentials, scaling of the quadrature |
| C96–C99 | small-step semantics of n ranks (local actions, collectives entered and left separately, arbitrary interleaving, any library at least as synchronising as the MPI standard); the program of every rank of `dga_main.main` incl. `dga_max_ent.main`, reduced to collectives, folders, files that are read back, checks that raise | control invariant (what has been left was entered by those waited for), happens-before lemma, minimal-rank argument for progress, single-writer invariant for files and folders |
| C100 | instance dictionaries as item lists, Python attribute lookup (property, instance, class), the exact statement order of `DgaConfig.__init__` | lookup after `update`, then the final dictionary as a closed function of the file |
| C101 | the unlimited power iteration of C35 over the kernel of C52, as a linear map on `ι → ℂ` | projector commutes with the kernel on the deflated space, powers rescaled by the dominant eigenvalue, spectral theorem for `√W Γ √W`; limit passed through the Rayleigh quotient |
| C102 | `build_g2_obj` on lists: centred cuts of three axes, `set_from_lfp`, symmetrisation, `create_dmft_ddict` | arrays as tabulated functions of Matsubara indices (`tab`, surjective); cuts composed on `tab` |
| C103 | files as finite maps; `load_1p_data*`, the `W2dynFile` getters, `get_chi`, `load_dmft1p_w2dyn` averages | evaluation of the loaders; composition with the symmetrised-file model of C60 |
| C104 | `get_vrg_and_chir_tilde_from_{gammar,chir}_uasympt`, `get_gchir_from_gamma_loc_q` over the objects of C61; the asymptotic correction is a list | slices reduced to the ladder on the full box (`slice_value`), invariance of `(1 - u_r chi) vrg` |
| C105 | `poly_fit`, `dga_poly_fit` on grids of rows; the fit at one momentum is a function argument | first occurrence of a class is its representative; the shift by half an even grid commutes with the symmetry operations |
| C106 | residual, Jacobian and start vector of `padeNonlinear`, `acPade`; `leastsq` is a function argument | real derivative of a quotient of polynomials in one coefficient, block by block |
| C107 | `vn`, `wn` with all overloads; arguments by run-time type, dispatch on positional types | length and entry of `np.arange`; for integers comparison of lengths, then of the first entry (π bounds) |
| C108 | `vn_centered_sum(_wn)`, `wn_sum`, `clip_pos_mf_vn` with Python slice semantics | slices of an axis given by a function of the index; reflection `v → -v-1` of the window |
| C109 | `ph2pp_wc_md` | C20 for both channels and an entry-wise combination |
| C110 | constructor, `__enter__`/`__exit__`, open/close/delete of the rank file with h5py handle states and exceptions | induction over the history of blocks; induction over the assignments of a body |
| C111 | `nk_irr`, `nk_tot`, axes and shifted axes over any field of characteristic 0, `kmesh_list`, `irr_kmesh`, list/mesh reshape, `get_bz_masks` | the index map is the representative map (C08), whose image is a box or a triangle times an interval; counting by Finset.card |
| C112 | `max_ent`, `max_ent_loc`, `max_ent_loc_bw_range`, `check_filling`, peaks; the optimisation and `curve_fit` are parameters | alignment by the slice lemmas of C67; trapezoidal sums restricted to a prefix; Gaussian and Lorentzian integrals from Mathlib |
| C113 | `oz_spin_w0` on the grid axes, least-squares fit as global minimiser of the squared residual | value through the mesh list of C111; zero residual at the true parameters forces equality at two points with different distances |
| C114 | `GreensFunction` as a state machine (constructor, `set_g_asympt`, `g_full`, `k_mean`, `fs`, axes), numpy broadcasting of a local self-energy, `sigma_const` | induction over the history of calls; row lemma from C39 |
| C115 | n-dimensional arrays, `np.apply_along_axis`, axis normalisation, sort and flip of the axes, the four cut functions | induction over the axes; each one-dimensional cut picks entries, picks on distinct axes commute |
| C116 | eliashberg_equation.py:155-184 driver on top of the C34-C36/C101 model, start gaps from config.py:403-425 | sectors (factor under a map of the arguments) are invariant under Gram-Schmidt, kernel, shift and normalisation; induction over steps and runs; momentum-sum form of the kernel for lattice and frequency maps |
| C117 | `build_pairing_vertex` on rank files, zone map and susceptibilities; the components written by the ladder calculation; loading by the Eliashberg driver | entrywise value from C07 and `reshape_chi`; Hermiticity algebraically; reversal via the conjugation lemmas of C70; zone invariance from C09; real eigenvalues by showing that the set Δ(-v) = ± conj Δ(v) is kept by kernel, Gram–Schmidt and normalisation; existence of the files for every calculation |
| C118 | the default path of `linear_eliashberg` (symmetrised vertex, both runs of `get_eig`) on the saved vertex | the symmetrised kernel is Hermitian × weights × parity projection (not normal); decomposition of every start vector into eigenvectors to real eigenvalues and a part annihilated by two applications; limits of the powers of the shifted map; neighbourhood of shifts for which the second run finds the top |
| C119 | lambda_correction (both modes) with default parameters, exact reals | F·|G| quartered by each Newton step left of the root, halvings right of it; bounds on F, G by distance to the pole and Cauchy–Schwarz; final step: termwise bound 2σ/D² |
| C120 | pairing-vertex slices of every rank, rank files, load and symmetrisation (as C117) linked to the Bethe–Salpeter equation (C27) | two-component decomposition is the ladder vertex (C61); transposition symmetry of the core inverse; Hermitian average is the identity for symmetric components; C117 value of the saved file |
| C121 | DgaConfig/LatticeConfig construction from the parsed file (sections may be empty), set_hr dispatch, process limit | case analysis against an independent description of the file; C08 (fold defined), C111 (count), C02 (idle ranks) |
| C122 | post-processing filling, objective and adjust_mu, quasiparticle indicator, argmin grid search, Fermi-surface map, tight-binding companion | linearity of the trapezoidal rule; realness of the undamped Green function; loop invariant of argmin |
| C123 | local_gchi_aux_from_gammar, gchi_aux_asympt with numpy broadcasting, ladder_vertex_from_chi_aux, append_shell | equality of loops; parity of the axis lengths; algebra |
| C124 | list of all file accesses of main (Writes/Model: exact path strings, all output switches), POSIX semantics of mkdir/open/remove on absolute path components; path resolution is assumed to ignore a trailing slash and to add one component for a name in a folder (PathTree, lexical instance in Writes/Examples) | every target lies below the output folder (dir_key, cmds_names); frame rule and parent-closedness by induction over the events; induction over histories |
| C125 | as C124; the order of accesses per rank and the barrier of create_folders | targets of different ranks differ, equal names carry equal quantities (finite table by kernel decide plus the families indexed by gap number, blur width and vertex box); okFrom (folder made before use) by composition of segments; induction over events; `models_agree`: this list of accesses and the concurrent program of C96-C99 (Spmd) make the same folders and store and delete the same files in the same order on every rank |
| C126 | PadeSolver (coefficients at construction, solve, check), helper a; exact complex arithmetic, division by zero gives zero as in Pade/Model | numerator/denominator/check all unfold to the continued fraction of C45; recovery by C64; real coefficients on the real axis have zero imaginary part |
| C127 | `Symm/Run.lean`: `main` for the three targets with input file, output path and the three ways to end; `Symm/RunProps*.lean` | simulation of the file program by the pointwise program of C50 (one entry of one dataset at a time), then `symmetrize_average`; reader by C60; concrete single-band file |
| C128 | run with the lambda correction (`dgaRun`: impurity part, ladder on ranks, expansion, `lambdaCorrection` of C31-C33, second half of C62), complex susceptibilities | the run is C62 with the reported lambdas (split of latticeSde); arrays identified with physical susceptibilities via C62 lemmas; for complex chi the half-plane/cone argument: Newton steps stay right of the pole and monotone because Re of the sum and of its slope have a sign in the 30 degree cone; example: RPA chain |
| C129 | `Pipeline/FromFiles.lean`: the whole of dga_main up to the saved self-energy as a function of the file system and the settings, assembled from the models of loader, box sizes, symmetrisation, band, bubble, ladder, lambda search, SDE, self-energy objects | `main_run`, `main_run_conj`: objects as functions of Matsubara indices; causality of the fitted tail gives a non-vanishing local Green function; `worm_run` composes with the symmetrisation program; `Ex3.returns`: concrete file |
| C130 | `Pairing/FromFiles.lean`: rank files of the vertex components written from the ladder of the run, assembly from all rank files, Green function of the saved self-energy at the chemical potential found, both Eliashberg channels; continues C129. Newton and the random starts are parameters | `FromFilesChain.lean`: every run that returns is a `Saved` calculation of C117 with the vertices of the local inversion (`vertexOf`, `eliFrom_eq`); `FromFilesProps.lean`: C116-C120 applied to it; `FromFilesEx.lean`: concrete file on which the run returns |
| C131 | mainRun/mainEli of C129/C130 with the number of ranks as a parameter | closed forms of ladder, SDE sum and rank files hold for every number of ranks; equality of the two Except results |
| C132 | Report/Model.lean: continuation of the run of C129 to dga_main.py:279 (asymptotic correction of the uniform bubble, e_kin/e_pot of the object with broadcasting and assertions, TwoPoint/Energies.lean) | main_report: values by zero-momentum invariance of the irreducible expansion and closed form of bubble tail; energies by getSiw/Dyson values of GfState; report_returns: assertions cannot fail (conjugation symmetry); potential_depends: two self-energies with different potential energy |
| C133 | `Optics/FromFiles.lean`: continuation of the run of C129: `set_frequency_ranges`, rank files of the optics slices, loader and assembly of F_cond, Green function of the saved self-energy, bubble and distributed vertex sum; Newton is a parameter | `FromFilesChain.lean`: closed form of every step (`optResult`) for every number of ranks; `FromFilesProps.lean`: values with C43/C57-C59 sums, light vertex = derivative of the band (C73), vertex through the ladder of C27/C104; `FromFilesEx.lean`: concrete run |
| C134 | `Pipeline/Wannier90.lean`: `latticeHr` (set_hr, reader of C80, table of C71-C77); specification of a symmetric table (`TableOk`, `RowsOk`) by permutations of its vectors | reindexing of the Fourier sum, periodicity under reciprocal lattice vectors, image of a grid point = rotated momentum modulo a reciprocal vector; rounding is odd; equality of the reloaded table with the built-in one |
| C135 | `Pipeline/Program.lean`: `program` = buildDga (C121), options (C100), boxOfConf, latticeHr, mainRun (C129) | `program_iff` against the specification `Means`; `ProgramEx.lean`: two configuration files (amplitudes, Wannier90 file) that give the same run |
| C136 | `Whole/Model.lean`: `mainAll` = load, box, optics ranges, calcFrom (C129), reportFrom (C132), eliFrom (C130), optFrom (C133) / `bubFrom` in one run; `Whole/Program.lean`: `planOf`, `programAll` from the configuration file | `all_iff` reduces a complete run to the separate runs, the other parts follow from C130-C133; `plan_iff` against `MeansPlan`, `program_all_iff`; `Whole/Ex.lean`: a configuration that asks for everything |
| C137 | One rank file as the list of its datasets (group, name), written by two channels and three writers in the order of the program; loaders that read all four components of a group | names determine prefix, momentum and frequency; the datasets of one writer are disjoint from the others; sorted keys with a prefix = names of the own file; fold of four independent folds; link to the single-component files of C130/C133 |
| C138 | build_vertex_fq on the shared rank files of C137, corrected susceptibilities of C129 | fqFiles_written + load_core, regular_each (channel-wise version of the vertex value of C133) |
| C139 | the complete driver pade: loops, physical filter, mask, mean, with its constants | loops as folds reduced to a list of jobs; exactness by a polynomial with more roots than its degree, existence of an exact solution by multiplying numerator and denominator with a power of z |
| C140 | `Whole/One.lean`: `mainOne` = the run of C136 with the shared rank files of C137 (`runFiles`), `pairVertex`, `condVertex`, `buildFq` from them, Eliashberg and optics parts with the loaded arrays; `Whole/OneProgram.lean`: from the configuration file | from the shared files to files of their own by run_pairing/run_optics/run_fq of C137, then the parts of C136 and C138 |
| C141 | Whole/Fits.lean, FitsProps.lean, FitsProgram.lean: `dmft_poly_fit` and `dga_poly_fit` in the complete program of C140, on the DMFT Green function, the DMFT self-energy, the saved self-energy and its Green function; options from the configuration file | Chain: calc_sigma (rows with lattice symmetry) and Dyson rows are invariant, so C105 applies; fits separate from the run; attr lemmas of C100 |
| C142 | Whole/Conts*.lean: dga_main.py:355-391 and dga_max_ent.py after the complete program of C141 (section `loc`, plots and k-paths left out; optimisation, minimiser and interpolation are any functions) | The rows handed over are those of Sym3 functions (sigma_saved, chi_saved, Dyson), so the way through the irreducible momenta and over the ranks holds each row as one continuation (C67, C112); (e)-(h) lift C143 to the program |
| C143 | Optics/MeshProps.lean, MeshKinds.lean: the model of C86 (optics.py:49-77) on the meshes of C66 (analytic_continuation.py:83-125) | symmetric meshes read backwards change sign (linspace, rescaling, midpoints); trapezoidal sum by index; tan x + tan y < tan(x+y) |
| C144 | dga_main.py 355-391 and dga_max_ent.py 58-59, 87-176 with analytic_continuation.py 202-265: settings of every continuation from the subsection, section and defaults, on the run of C142 (`loc`, names of methods and keyword arguments, and values of other kinds outside) | equivalence of the updated dictionaries with "subsection, else section, else default"; composition with C141 and C142; an accepted file with all five continuations as example |
| C145 | the report before the calculation: memory estimate (config.py 668-682), system parameters, comparison of the local Green's functions (config.py 654-666), on the inputs of C142 (`Whole/StartReport.lean`); rounding of the printed numbers not modelled | the arrays whose memory is announced are taken from the models of the run (C136, C140, C142) and their entries counted; maximum of a list by induction; irrelevance of the check by unfolding the whole program |
| C146 | `find_fermi_crossing` on top of the path model of C83 (`KPath/Crossing.lean`); the points of the Fermi surface (matplotlib contour) are an argument | first minimum by induction on lists; the segments of `cind` are disjoint and cover all points but the last |
| C147 | command line of symmetrize.py and sym1b: names of worm group, input and output for any arguments; a call as `run` on the disk; any sequence of calls (`Symm/Command`) | list arguments for the names (`out_stem`, `out_same`, `sym1b_files`); induction over the calls (`calls_keep`), with C127 for one call (`command_value`, `same_stem_blocks`) |
| C148 | `plot_siwk_cont.main` up to the saved files: floor of the damping, the two fits of the chemical potential (minimiser a parameter), Green function; labels of the momentum axes (`TwoPoint/SigmaPost`) | case analysis for the floor; Dyson and filling by C87, C122; constant objective off the finitely many poles; shifted axis by C111 |
| C149 | the files of the run of C142 given to the post-processing of C148 (`Whole/SigmaPostRun`) | value theorems C142 (b), C148 (b) and (c) composed; Kramers–Kronig keeps the spectrum (C68); shape of the expanded array |
| C150 | the five paths of the driver, `KPath`'s construction, ticks and axis, the numbers of the two figures; drawing itself is not modelled | the coordinates of a path through the quarter stay in it (monotonicity of the rounding); converse through the first point after the corner Y; figures through `map_to_kpath_value`, induction for argmax and max |
| C151 | the run of C142 followed by the path figures of C150 (`Whole/ContsFigs`); the other plots are not modelled | C150 at the shapes and values of the saved files (C142 (b)); named meshes through C46 and C142 (h); rounding of half the grid |
| C152 | `Whole/MainPlots`: `default_g2_plots`, `find_zeros` and `default_giwk_checks`, shapes of `plot_siwk_extrap`, on top of the run of C142; other figures of the main program are left out | values of the input objects (C102) and of the Green function of the final self-energy (C141); squeezed shapes by cases; the run of `Whole/PlotsEx` meets all conditions; PlotsHang.lean: the same condition decides whether the parallel program of C96-C99 can complete |

Nothing in the list is "not expressible"; where only a part could be proved the theorem carries the suffix `_partial`
and section 4 says what is missing.

### Modelled and not modelled

Modelled (function by function, lines cited in the definitions): `mpi_aux` (task distribution, scatter/gather, rank files),
`matsubara_frequencies`, `brillouin_zone` (grid maps, shifts, symmetrisation, q lists), `bubble`, `local_four_point`,
`four_point`, `schwinger_dyson`, `lambda_correction`, `linear_eliashberg`, `pairing_vertex`, `two_point`, `optics`,
`loggers`, `config` (sizes, symmetries, defaults), `util`/`dga_io` path handling, `wannier`, `symmetrize`/`w2dyn` component
handling, `pade_aux`/`analytic_continuation`, `ana_cont` (kernels, MaxEnt solver, α determination, problem scaling), and the calling sequence of `dga_main` for the self-energy.

Not modelled: plotting (`plot_specs`, `plotting`), the command line and YAML text parsing, HDF5 bytes, MPI transport, the
numerical optimisers of `ana_cont` (they enter as arbitrary functions), `scipy.optimize` (the root finder of the filling search is an arbitrary function), timing and
memory estimates.  `tools/coverage.py` lists the functions no citation touches.

## 4. Findings (code violates the property as stated, or a natural reading of it)

Each has a machine-checked theorem (name in brackets, found by `grep`) except where marked "read only".

1. Rank files (and the optics loader) drop the minus sign of a negative bosonic index on loading [`loadsBack_refuted`, C05].
2. `inv_cut_v_1d` with the default shell drops the negative half [`invCutV_default_drops_negative`]; `cut_v` with a cut larger
   than the array is silently wrong [`cutV_too_large`]; `get_mat_at_iwn` wraps [`matAtIwn_value`]; windows that do not fit
   [`window_misfit`].
3. The symmetry list `['x-inv', 'x-y-sym']` does not fold idempotently on a 4×4 grid [`fold_not_idempotent`]; `x_y_inv`
   leaves the first column unfolded [`xyInversion_incomplete`].
4. `symmetrize_irrk` raises for every non-empty grid [`symmetrizeIrrk_raises`, C11].
5. `KPath.get_kpath_val` uses `kx` for all three axes [`pathVals_wrong`, `pathVals_raises`]; ticks of a path lie one point
   before the corner [`tick_position`]; momentum lookup is not periodic [`findQ_not_periodic`].
6. An unknown symmetry tuple builds `NotImplementedError` without raising it, caught only later
   [`unknown_tuple_entry_rejected`]; YAML lists are rejected [`yaml_list_rejected`]; `'quasi_two_dimensional_square'` is not
   accepted [`quasi2d_not_accepted`].
7. The assertion on the bosonic axis of `LocalNPoint` is vacuous, local_four_point.py:103 (read only).
8. `BoxSizes.niv_asympt` is computed before the sizes are set and is stale [`asympt_stale`, `asympt_stale_value`, C42].
9. `get_gap_start`: random k types are not even, an unknown v type discards the k type [`gapStart_random_not_even`,
   `gapStart_random_v`].
10. `get_vrg_and_chir_lad_from_gammar_uasympt_q` passes an array where an object is expected (four_point.py:254) and
    `get_vrg_and_chir_tilde_from_chir_uasympt` passes `u` as `sum_axis` (local_four_point.py:454) (read only).
11. `e_pot_dmft` is a copy of another energy in dga_main.py:277 (read only); `create_orbs` [`emery_orbs_wrong`]; the z entry of
    the third hopping row acts as a nearest neighbour [`table_z_second_neighbour`]; the lambda returned is one Newton step beyond
    the one checked [`converged_sum_rule`, `returned_above_pole`]; core size 20 may exceed the data [`getSiw_core_too_large`];
    the estimate returns 20 when the tail is never reached [`estimate_never_reached`].
12. Bubble: `is_full_wn` with the centred notation is off by one fermionic index at odd negative frequencies
    [`gchi0_center_reflected`, `center_full_ne_direct`]; the docstring says `G(v-w, k-q)`, the code evaluates `k+q`.
13. `schwinger_dyson_full_q`: the shell weighs the channels differently from the core [`sdeFullQ_value`]; the q weight enters
    only the core of `schwinger_dyson_channel_q` [`sdeChannelQ_value`]; sign in a docstring [`fob2GamSlice_eq`].
14. Eliashberg: the kernel is `Γ(k'-k)` and equals `Γ(k-k')` only for an even vertex [`kernel_even`]; deflation needs mutually
    orthogonal gaps [`gramSchmidt_needs_orthogonal`].
15. The negative half of the DGA self-energy is discarded and rebuilt by conjugation (justified by C70).
16. `create_poly_fit_folder` runs on every rank without broadcast: the folder depends on the schedule
    [`polyFit_schedule_dependent`].
17. The default number of optical frequencies is not checked [`setRanges_nivVert_pos`]; an out-of-range window can be
    broadcast silently [`vmwVSlice_unnoticed`].
18. The configured continuation mesh is ignored [`maxEnt_mesh_ignores_config`, `maxEnt_mesh_stale`, C56].
19. `check_sym` accepts tables without the identity [`checkSym_accepts_nonreflexive`]; a dataset name in the `1freq_f` target was
    changed by a rename and does not exist in real files (read only).
20. Two physical continuations with different imaginary parts give an empty average [`average_two_fails`]; `np.complex`,
    `np.bool` are gone from numpy ≥ 1.24 (read only).
21. The bosonic default model has the weight of the first entry [`model_boson_weight`, `model_boson_not_static`]; the symmetric
    and antisymmetric Kramers–Kronig formulas are exchanged [`kkt_symmetry_swapped`]; the default kernel name is refused
    [`kernel_default_refused`]; ranks can return different dtypes [`rank_types_differ`].
22. Fixed-width fields of `write_hr_w2k` fuse for numbers ≤ -1000 and the file cannot be read [`fused_rejected`]; a real array
    written by `write_hk_wannier90` cannot be read [`real_hk_rejected`].
23. The momentum version of the asymptotic sum pads by the number of frequencies rather than their size
    [`correctionQ_single_raises`]; the prefactors assume a dispersion of zero average (hypothesis of C82 (d)).
24. If the root finder for the chemical potential gives up, `mu = 0` is used silently [`gfMu_failure`, `gfMu_failure_wrong`];
    `root_fun_primitive` indexes a scalar with `[0]` (two_point.py:231) and can never succeed (read only).
25. The real-frequency bubble raises on every symmetric grid with an even number of points [`realf_even_raises`]; the real-frequency
    filling is not bounded by 2 [`fillingRealF_unbounded`].
26. MaxEnt solver: `n_sv` is an index used as a count, so the smallest significant singular value is dropped [`nSv_off_by_one`,
    `dropped_ignored`], and with a single one the optimiser always raises [`newton_empty`]; giving both or neither of `stdev`
    and `cov` ends in an AttributeError [`chooseErr_cases`].
27. Newton optimiser: convergence at the last allowed evaluation is reported as failure [`newton_spec`].
28. α determination: `classic` and `bryan` never update the start vector, every run starts from zero [`scan_result`,
    `bryanLoop_result`]; `historic`/`classic` overwrite a stored result in place [`finishRoot_overwrites`]; `alpha_div ≤ 1` never
    ends [`kink_forever`]; a bare `except` hides every failure and ends in an IndexError [`kink_all_fail`]; Bryan's method with
    offdiagonal elements compares `None`, with preblur it back-transforms the blurred spectrum (read only).
29. Kernels: the first column of the bosonic time kernel is one whatever the mesh [`timeBos_first_column`]; `preblur=True` with
    the default width or a time kernel fails [`blurCall_iff`].
30. Continuation problem: the particle–hole symmetric kind tests the axis instead of the data and loses them [`phsym_data_lost`];
    `time_fermionic_phsym` is not rescaled back [`timePhsym_not_rescaled`]; the method `pade` cannot be solved
    [`solveMethod_iff`]; `partial_solution` returns an exception object (read only).
31. `do_eliash` without `do_pairing_vertex` [`eliash_without_pairing_hangs`], an `optics` section without `do_bubble`
    [`optics_without_bubble_hangs`]: rank 0 raises, the job hangs instead of ending (nothing calls `comm.Abort`).
32. `dga_max_ent.main` distributes k-dependent data with a distributor that counts irreducible q-points (line 83): with different
    k- and q-grids rank 0 raises in `Scatterv` or in `map_irrk2fbz` and the job hangs [`continuation_grid_mismatch_hangs`].
33. `gap0_sing`/`gap0_trip` of the `pairing` section are always overwritten [`eliash_gap0_overwritten`]; an `output` flag under
    `dmft_input` is dropped silently [`misplaced_option_ignored`]; the section `box` of `get_default_config_dict` is never read
    (the reader wants `box_sizes`) [`default_box_ignored`]; `set_from_obj` raises KeyError for class-level attributes
    [`setFromObj_class_attribute`]; YAML mappings nested in a saved configuration lose their items [`saved_config_nested`].
34. The eigenvectors of `Γ|G|²` are orthogonal in the weighted product `Σ|G|² conj(u) v` (the commented-out line 115), not in the
    plain one used by `proj_eliash`: a second run still finds the right eigenvalue [`second_eigenvalue`], but the gap function it
    returns is not an eigenvector [`second_gap_eigenvector_iff`, counterexample `second_gap_wrong`].
35. Input: the size of the magnetic vertex data is not checked against the box, too small data give too few frequencies silently
    [`magn_size_unchecked`]; a symmetrised file that ends early is accepted, its bosonic frequencies are shifted
    [`truncated_file_shifted`]; `load_dmft1p_w2dyn` adds up the bands [`halfSum_value`]; `get_chi` needs an odd number of
    frequencies [`getChi_value`].
36. `get_vrg_and_chir_tilde_from_chir_uasympt` passes `u` where the axis belongs and raises for every non-integer `u`
    [`uasympt_chir`]; `get_vrg_and_chir_lad_from_gammar_uasympt_q` always raises (four_point.py:254 hands an array to
    `get_kernel_dc`, which reads its attribute `u_r`; read only).
37. `dga_poly_fit` shifts its input by π and then reduces it with the maps of the unshifted grid: for odd nkx (or nky) the saved
    coefficients belong to other momenta (`dgaPolyFit_odd_wrong`).  `poly_fit` raises for a single momentum or a single positive frequency
    because of `np.squeeze`.
38. `vn(beta, n)` / `wn(beta, n)` with an integer-typed β (a Python int in an npy input, an integer h5 dataset `/config/beta`) resolve to the overload
    `vn(n, shift)`: `integer_beta_is_not_a_temperature`.  Only `MaxEnt` casts to float (analytic_continuation.py:254 names the problem); `SelfEnergy`,
    `GreensFunction`, `BubbleGenerator` and `poly_fit` do not.
39. `vn_centered_sum_wn` returns zero for windows sticking out at the lower end, and is not conjugation symmetric at odd bosonic frequencies
    (`centered_sum_misfit`, `centered_sum_odd`); `wn_sum` with a cut above the box size sums only the largest positive frequencies (`wnSum_value`).
40. `MpiDistributor.open_file` (mpi_aux.py:87-91) swallows every error; after `delete_file`, or without an output path, the with-block is entered with a
    closed handle or `None` and only the first assignment raises (C110 d). The constructor opens with mode `a`, so a rank file left over from an
    earlier run is not emptied and the next writer raises on the first existing key (C110 c).
41. Plots on the shifted axes (`kx_shift`, `get_extent_pi_shift`) show `shift_mat_by_pi` data displaced by half a grid step for odd grid sizes
    (`pi_shift_axis`, `gamma_on_shifted_axis`).
42. `oz_spin_w0` measures kz distances without periodicity: not symmetric under kz inversion for nz ≥ 3 although the susceptibility is
    (`oz_not_z_symmetric`); the sign of the fitted ξ is arbitrary (`fit_exact`). `max_ent` does not clamp `n_fit` (`maxEnt_too_many`); `check_filling`
    drops the interval between the last negative mesh point and zero (`checkFilling_value`).
43. `set_g_asympt` (and the constructor) accept a negative tail length: `full` is then the core array but `niv_full` and `v` shrink, `fs()` has the wrong
    sign (`negative_tail`). `sigma_const` is not constant beyond its core size (`sigmaConst_constant_iff`).
44. config.py:403-425 with the default sym_sing = sym_trip = True and k_sym p-wave-x/y: set_gap0_sing starts the singlet run with an odd-frequency gap
    (triplet: even) while symmetrize_gamma keeps the even (odd) part of the vertex only, so the kernel maps the start gap to zero for every vertex
    [`p_wave_default_is_annihilated`]: the reported eigenvalue is 0 (negative shift) or 0/0; in floating point the run continues from rounding noise
    and loses the requested symmetry.
45. config.py:563-565 limits the number of processes by the irreducible points of the k grid, while irreducible q-points are distributed; with nq coarser
    than nk an accepted run has processes without q-points [`limit_on_wrong_grid`, C121]. An empty YAML section (`output:` without entries) makes the
    constructor raise TypeError for four of the sections, not for the others [`empty_section_refused`].
46. plot_giwk_cont.py:37 fits mu_lda with rtp.adjust_mu(mu0, n, 0*swk, ...): the Green function is real on the grid, the filling is zero for every mu and
    the objective is the constant n^2 (C122 undamped_objective_constant); mu_lda therefore carries no information about n
47. local_four_point.gchi_aux_asympt multiplies an array of shape (w,v,v) with one of shape (w,): numpy aligns it with the last fermionic axis, so on a
    full bosonic range (odd) with an even box it always raises for more than one frequency; it also uses the bare u (not u_r) and no 1/beta^2 (C123).
    The function is not called.
48. A run with fewer than ten bosonic frequencies in the core box raises on rank 0 in the default plots of g2 (plotting.py:62, assertion
    local_four_point.py:179) and hangs the other ranks [`few_frequencies_hang`, C99]; the set of usable configurations of C96/C98 (`Valid`) therefore
    asks for niw_core >= 10.
49. dga_io.py:187-190 (chiq_checks): the plot of the q-summed susceptibilities is always named chi_dens_magn_lad_q_tilde.png, so the plot made for the
    ladder susceptibility is overwritten by the plot for the lambda-corrected one in every run (theorem ladder_check_overwritten).
50. dga_max_ent.py:189: the plots of the continued magnetic susceptibility along the k-paths are written as chi_dens_<path>.png (into the folder of the
    magnetic continuation); the content is magnetic, the name says density (model: maxEntC).
51. PadeSolver evaluates the continued fraction on the real axis without a positive shift: for a discrete spectrum (rational data with real coefficients)
    A_opt is zero at all regular points (`discrete_spectrum_invisible`). The helper `a` drops the last coefficient (`aList_drops_last`). The bundled
    `ana_cont.continuation` looks up `solvers.PadeSolver`, which that module does not define, so method "pade" raises AttributeError there.
52. symmetrize.get_fbox takes the frequency box from group 00001 of the first atom of `worm-last` whatever `worm_group` is asked for: without `worm-last`
    no run succeeds, and if the selected group has a larger bosonic box its frequencies are silently truncated off-centre (`run_needs_worm_last`,
    `run_box_off_centre`).
53. symmetrize.main on data with an even number of bosonic frequencies raises an IndexError after the output file was created (`2*(n//2)+1 > n`); the
    incomplete file then blocks every later run, which prints "File already exists" and exits with code 0 (`run_even_raises`, `run_blocked`).
54. The target 1freq_f of symmetrize.main copies the input over an existing output file, whereas the other targets refuse (`run1f_overwrites`).
55. `symmetrize.py WORM FILE` cuts the path at its first dot: `a.1.hdf5` and `a.2.hdf5` share the output `a_sym.hdf5`, and anything given as `./x` or `../x` is written
    to `_sym.hdf5` in the working directory; the second input is silently not symmetrised (exit code 0) (`out_same`, `same_stem_blocks`).
56. plot_siwk_cont.py fits `mu_lda` with a self-energy without any damping: the filling is 0 off the poles, the objective constant, and the saved `mu_lda` is the start
    value, i.e. the chemical potential of the interacting run; the dispersion plotted relative to it is shifted accordingly (`mu_lda_is_start`).
57. plot_siwk_cont.py and plot_giwk_cont.py label the momentum axes with `linspace(-pi, pi, n)` including the end point, but the data are on a grid without it: every
    momentum except the first is labelled too large, up to one grid step (`labels_off`).
58. `dga_max_ent.py` builds all its k-paths at start-up, on every rank, and `KPath` looks the coordinates of all three directions up on the x axis: on a grid with an even number of at
    least `2 nx` momenta along y it raises before anything is continued (C150).
59. `plot_real_frequency_dispersion` raises unless some mesh frequency lies strictly inside the window (the driver's first window is (−2, 2)); `plot_chi_along_kpath` draws an upside-down
    window if the continuation failed at every momentum of the path and the mesh begins at zero (C150).
60. `find_zeros` hands `giwk[:nkx // 2, :nky // 2]` to `contour`, which needs two rows and columns: on a grid with fewer than four momenta along x or y rank 0 raises after the non-local
    calculation, before `giwk_dga` and `mu.txt` are written (C152), and the other ranks wait forever [`small_grid_hangs`, C99].
61. `poly_fit` draws its coefficients with `pcolormesh` over `kx`, `ky`: on a grid with more than one momentum along z (or one along x or y) it raises, already for the DMFT Green's function at
    the beginning of the run (C152), and the other ranks wait forever [`fits_on_3d_grid_hang`, C99]; `Valid` (C96, C98) excludes both.

## 5. Tests against wrong programs

`tools/mut.py` edits one definition of the model in a scratch copy, rebuilds everything and records which theorems fail;
`seeded/LOG.jsonl` is the log.  Mutants that survived led to stronger theorems (field `tightened`).
