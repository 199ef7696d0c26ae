{
 "C01": [
  "proved",
  [
   "DGA.Mpi.slices_contiguous",
   "DGA.Mpi.tasks_concat",
   "DGA.Mpi.task_unique_owner",
   "DGA.Mpi.mySize_eq_length"
  ],
  ""
 ],
 "C02": [
  "proved",
  [
   "DGA.Mpi.sizes_sum",
   "DGA.Mpi.mySize_value",
   "DGA.Mpi.sizes_balanced",
   "DGA.Mpi.no_idle_rank_iff"
  ],
  ""
 ],
 "C03": [
  "proved",
  [
   "DGA.Mpi.scatter_rows",
   "DGA.Mpi.gather_scatter",
   "DGA.Mpi.scatter_gather"
  ],
  ""
 ],
 "C04": [
  "proved",
  [
   "DGA.Mpi.allreduce_task_sums"
  ],
  ""
 ],
 "C05": [
  "partial",
  [
   "DGA.RankFiles.write_succeeds",
   "DGA.RankFiles.load_nonneg_partial",
   "DGA.RankFiles.negative_frequencies_lost",
   "DGA.RankFiles.loadsBack_refuted"
  ],
  "The claim as stated (LoadsBack) is false of the code and this is proved (loadsBack_refuted): the loaders drop the sign of negative bosonic indices, so those slices stay zero. Proved: the nonnegative half loads back exactly, the negative half is exactly what negative_frequencies_lost says."
 ],
 "C06": [
  "proved",
  [
   "DGA.RankFiles.irrq_recovered",
   "DGA.RankFiles.groupName_injective",
   "DGA.RankFiles.wn_recovered_up_to_sign",
   "DGA.RankFiles.prefixes_disjoint",
   "DGA.RankFiles.rankFileName_injective"
  ],
  ""
 ],
 "C07": [
  "proved",
  [
   "DGA.Pairing.pairing_entry",
   "DGA.Pairing.pairing_hermitian",
   "DGA.Pairing.pairing_symmetric_input",
   "DGA.Pairing.sing_trip_recover"
  ],
  ""
 ],
 "C08": [
  "proved",
  [
   "DGA.Bz.irrk_representative",
   "DGA.Bz.irrk_share_iff",
   "DGA.Bz.xyInversion_value",
   "DGA.Bz.xyInversion_incomplete",
   "DGA.Bz.fold_not_idempotent",
   "DGA.Bz.irrk_any_list",
   "DGA.Bz.irrk_share_related"
  ],
  ""
 ],
 "C09": [
  "proved",
  [
   "DGA.Bz.reduce_expand",
   "DGA.Bz.expand_reduce",
   "DGA.Bz.reduce_expand_mesh",
   "DGA.Bz.mesh_list_agree",
   "DGA.Bz.symmetric_function_recovered"
  ],
  ""
 ],
 "C10": [
  "proved",
  [
   "DGA.Bz.kMean_irrk_eq_list",
   "DGA.Bz.kMean_irrk_eq_mesh",
   "DGA.Bz.irrkCount_sum"
  ],
  ""
 ],
 "C100": [
  "proved",
  [
   "DGA.Cfg.option_value",
   "DGA.Cfg.option_takes_effect",
   "DGA.Cfg.option_independent",
   "DGA.Cfg.misplaced_option_ignored",
   "DGA.Cfg.unknown_option_stored",
   "DGA.Cfg.subconfig_kept",
   "DGA.Cfg.poly_fitting_flag",
   "DGA.Cfg.eliash_option",
   "DGA.Cfg.eliash_gap0_overwritten",
   "DGA.Cfg.property_shadows_option",
   "DGA.Cfg.setFromObj_value",
   "DGA.Cfg.setFromObj_class_attribute",
   "DGA.Cfg.saved_config",
   "DGA.Cfg.saved_config_nested",
   "DGA.Cfg.default_box_ignored",
   "DGA.Cfg.eliash_gap0_table",
   "DGA.Cfg.eliash_defaults",
   "DGA.Cfg.box_attributes",
   "DGA.Cfg.dga_class_defaults",
   "DGA.Cfg.default_config_neutral",
   "DGA.Cfg.default_pairing_neutral"
  ],
  ""
 ],
 "C101": [
  "proved",
  [
   "DGA.Eli.iter_converges",
   "DGA.Eli.power_iteration_converges",
   "DGA.Eli.leading_eigenvalue",
   "DGA.Eli.shifted_converges",
   "DGA.Eli.two_runs_leading",
   "DGA.Eli.eliashberg_leading",
   "DGA.Eli.second_eigenvalue",
   "DGA.Eli.second_gap_eigenvector_iff",
   "DGA.Eli.second_gap_wrong"
  ],
  "Convergence is stated for the unlimited iteration `iter`; powerLoop_stop (C35) and power_iteration_converges tie it to power_iteration with its stopping rule. All theorems assume no Rayleigh quotient vanishes on the way (the code divides by it)."
 ],
 "C102": [
  "proved",
  [
   "DGA.Inp.buildG2_value",
   "DGA.Inp.buildG2_refuses",
   "DGA.Inp.restart_same",
   "DGA.Inp.tab_surjective",
   "DGA.Inp.magn_size_unchecked",
   "DGA.Inp.g2FromInput_value"
  ],
  "finding: the size of the magnetic data is not checked"
 ],
 "C103": [
  "proved",
  [
   "DGA.Inp.load1p_types",
   "DGA.Inp.loadW2dyn_value",
   "DGA.Inp.loadEd_value",
   "DGA.Inp.loadDefault_value",
   "DGA.Inp.load_then_build",
   "DGA.Inp.truncated_file_shifted",
   "DGA.Inp.halfSum_value",
   "DGA.Inp.getChi_value"
  ],
  "finding: a truncated symmetrised file is read with shifted bosonic frequencies"
 ],
 "C104": [
  "proved",
  [
   "DGA.Pipe.uasympt_value",
   "DGA.Pipe.uasympt_zero_shell",
   "DGA.Pipe.uasympt_chir",
   "DGA.Pipe.gchirQ_value"
  ],
  "the variant from the susceptibility passes u as the axis and raises for every non-integer u (uasympt_chir); the equality of the routes is proved for the two values of u for which it works"
 ],
 "C105": [
  "proved",
  [
   "DGA.Pf.polyFit_value",
   "DGA.Pf.polyFit_symmetric",
   "DGA.Pf.polyFit_raises",
   "DGA.Pf.dgaPolyFit_even",
   "DGA.Pf.dgaPolyFit_odd_wrong",
   "DGA.Pf.dmft_map_exact",
   "DGA.Pf.polyFit_value_any"
  ],
  ""
 ],
 "C106": [
  "proved",
  [
   "DGA.Pade.jac_correct",
   "DGA.Pade.jac_odd",
   "DGA.Pade.start_is_inverse",
   "DGA.Pade.padeErr_zero_iff",
   "DGA.Pade.rational_zero_residual",
   "DGA.Pade.acPade_spec"
  ],
  ""
 ],
 "C107": [
  "proved",
  [
   "DGA.Mf.frequencies_of_real_beta",
   "DGA.Mf.integer_beta_is_not_a_temperature",
   "DGA.Mf.indices_of_array"
  ],
  "the integer overload is a finding; dispatch by the types of positional arguments is assumed of the multimethod package"
 ],
 "C108": [
  "proved",
  [
   "DGA.Mf.centered_sum_value",
   "DGA.Mf.centered_sum_full",
   "DGA.Mf.centered_sum_misfit",
   "DGA.Mf.centered_sum_conj",
   "DGA.Mf.centered_sum_odd",
   "DGA.Mf.centered_sum_all",
   "DGA.Mf.wnSum_value",
   "DGA.Mf.clipPos_value"
  ],
  ""
 ],
 "C109": [
  "proved",
  [
   "DGA.Mf.crossing_value",
   "DGA.Mf.crossing_channels"
  ],
  ""
 ],
 "C11": [
  "partial",
  [
   "DGA.Bz.symmetrizeIrrk_raises",
   "DGA.Bz.symmetrizeFlat_partial",
   "DGA.Bz.classMean_const",
   "DGA.Bz.classMean_of_symmetric",
   "DGA.Bz.classMean_mean"
  ],
  "The claim is false of the code: symmetrize_irrk raises IndexError on every non-empty grid (three-axis boolean mask on a two-axis array), proved in symmetrizeIrrk_raises. The projection properties are proved for the routine with the mask flattened."
 ],
 "C110": [
  "proved",
  [
   "DGA.RankFiles.no_open_handle",
   "DGA.RankFiles.withBlock_value",
   "DGA.RankFiles.withBlock_complete",
   "DGA.RankFiles.withBlock_interrupted",
   "DGA.RankFiles.leftover_groups_raise",
   "DGA.RankFiles.no_file_raises",
   "DGA.RankFiles.deleted_stays_deleted"
  ],
  ""
 ],
 "C111": [
  "proved",
  [
   "DGA.Bz.nkIrr_value",
   "DGA.Bz.mesh_list_inverse",
   "DGA.Bz.indTuple_eq",
   "DGA.Bz.kAxis_value",
   "DGA.Bz.gamma_on_shifted_axis",
   "DGA.Bz.pi_shift_axis",
   "DGA.Bz.irrKmesh_value",
   "DGA.Bz.bzMasks_value",
   "DGA.Bz.nkIrr_xyInversion"
  ],
  ""
 ],
 "C112": [
  "proved",
  [
   "DGA.Ana.maxEnt_value",
   "DGA.Ana.maxEnt_too_many",
   "DGA.Ana.checkFilling_value",
   "DGA.Ana.bwRange_value",
   "DGA.Ana.peaks_normalised"
  ],
  ""
 ],
 "C113": [
  "proved",
  [
   "DGA.Oz.ozGrid_value",
   "DGA.Oz.oz_shape",
   "DGA.Oz.maximum_on_grid",
   "DGA.Oz.oz_symmetric",
   "DGA.Oz.oz_not_z_symmetric",
   "DGA.Oz.fit_exact",
   "DGA.Oz.failure_marker"
  ],
  ""
 ],
 "C114": [
  "proved",
  [
   "DGA.Two.history_irrelevant",
   "DGA.Two.gf_value",
   "DGA.Two.fs_value",
   "DGA.Two.negative_tail",
   "DGA.Two.broadcast_local",
   "DGA.Two.newGf_raises",
   "DGA.Two.sigmaConst_value",
   "DGA.Two.sigmaConst_constant_iff",
   "DGA.Two.no_tail"
  ],
  "fs(pi_shift=True) is the same array shifted in momentum (C12) and not repeated here"
 ],
 "C115": [
  "proved",
  [
   "DGA.Mf.cutV_nd",
   "DGA.Mf.invCutV_nd",
   "DGA.Mf.cutW_nd",
   "DGA.Mf.cutIvShift_nd",
   "DGA.Mf.cutV_axes_irrelevant",
   "DGA.Mf.alongAll_bad_axis"
  ],
  ""
 ],
 "C116": [
  "proved",
  [
   "DGA.Eli.getEig_sym",
   "DGA.Eli.symmetrised_spectrum",
   "DGA.Eli.kernel_symGamma",
   "DGA.Eli.linearEliashberg_eq",
   "DGA.Eli.driver_total",
   "DGA.Eli.d_wave_stays",
   "DGA.Eli.d_wave_nodes",
   "DGA.Eli.p_wave_stays",
   "DGA.Eli.frequency_parity_stays",
   "DGA.Eli.d_wave_symmetrisation_irrelevant",
   "DGA.Eli.p_wave_default_is_annihilated"
  ],
  "exact arithmetic: in floating point the annihilated p-wave start gap leaves rounding noise"
 ],
 "C117": [
  "proved",
  [
   "DGA.Pairing.buildPairing_value",
   "DGA.Pairing.Saved.symmetries",
   "DGA.Pairing.Saved.reported_eigenvalues_real",
   "DGA.Pairing.saved_d_wave",
   "DGA.Pairing.saved_leading",
   "DGA.Pairing.saved_exists",
   "DGA.Eli.eigenvalues_real"
  ],
  "with a shift: eigenvalues_real covers it when the shift is real."
 ],
 "C118": [
  "proved",
  [
   "DGA.Eli.symmetrised_runs",
   "DGA.Eli.symmetrised_reported",
   "DGA.Eli.projected_decomposition",
   "DGA.Pairing.saved_eigenvalues_real",
   "DGA.Pairing.saved_reported"
  ],
  ""
 ],
 "C119": [
  "proved",
  [
   "DGA.Lam.newton_quarter",
   "DGA.Lam.search_converges_within",
   "DGA.Lam.default_search_converges",
   "DGA.Lam.returned_sum_rule",
   "DGA.Lam.spch_sum_rules",
   "DGA.Lam.sp_sum_rule"
  ],
  ""
 ],
 "C12": [
  "proved",
  [
   "DGA.Bz.shift_value",
   "DGA.Bz.shift_shift",
   "DGA.Bz.shift_period",
   "DGA.Bz.shift_inverse",
   "DGA.Bz.shiftByPi_twice",
   "DGA.Bz.shiftByPi2_twice",
   "DGA.Bz.shift_perm"
  ],
  ""
 ],
 "C120": [
  "proved",
  [
   "Calc.pp_value",
   "DGA.Pairing.saved_is_ladder",
   "DGA.Pairing.components_value",
   "Calc.H_eq",
   "Calc.comp_value",
   "DGA.Pairing.regular_const",
   "DGA.Pairing.vertexLam_none"
  ],
  ""
 ],
 "C121": [
  "proved",
  [
   "DGA.Cfg.accepted_iff",
   "DGA.Cfg.no_idle_process",
   "DGA.Cfg.lattice_band",
   "DGA.Cfg.limit_on_wrong_grid",
   "DGA.Cfg.square_limit",
   "DGA.Cfg.empty_section_refused",
   "DGA.Cfg.symEntry_iff",
   "DGA.Cfg.refusals"
  ],
  ""
 ],
 "C122": [
  "proved",
  [
   "DGA.Two.postFilling_eq",
   "DGA.Two.postAdjustMu_eq",
   "DGA.Two.undamped_objective_constant",
   "DGA.Two.indicator_switches",
   "DGA.Two.indicator_value",
   "DGA.Two.nearest_spec",
   "DGA.Two.fermiSurface_value",
   "DGA.Two.awAt_mean",
   "DGA.Two.getGwkTb_value"
  ],
  ""
 ],
 "C123": [
  "proved",
  [
   "DGA.Fp.localGchiAux_eq",
   "DGA.Fp.gchiAuxAsympt_full_range_raises",
   "DGA.Fp.gchiAuxAsympt_single",
   "DGA.Fp.ladderVertex_eq",
   "DGA.Fp.appendShell4_eq"
  ],
  ""
 ],
 "C124": [
  "proved",
  [
   "DGA.Wr.run_frame",
   "DGA.Wr.runStep_frame",
   "DGA.Wr.history_keeps"
  ],
  ""
 ],
 "C125": [
  "proved",
  [
   "DGA.Wr.ranks_disjoint",
   "DGA.Wr.one_value_per_file",
   "DGA.Wr.ladder_check_overwritten",
   "DGA.Wr.content_of_owner",
   "DGA.Wr.schedule_independent",
   "DGA.Wr.program_order",
   "DGA.Wr.run_succeeds",
   "DGA.Wr.deletes_only",
   "DGA.Wr.written_stays",
   "DGA.Wr.models_agree"
  ],
  "the exception named in the statement is proved to happen in every run (ladder_check_overwritten)"
 ],
 "C126": [
  "proved",
  [
   "DGA.Pade.solve_spec",
   "DGA.Pade.solve_recovers",
   "DGA.Pade.discrete_spectrum_invisible",
   "DGA.Pade.aList_drops_last"
  ],
  ""
 ],
 "C127": [
  "proved",
  [
   "DGA.Sym.run_value",
   "DGA.Sym.run_then_read",
   "DGA.Sym.run_box_off_centre",
   "DGA.Sym.count_test",
   "DGA.Sym.run_keeps_existing",
   "DGA.Sym.run_blocked",
   "DGA.Sym.run_needs_worm_last",
   "DGA.Sym.run_even_raises",
   "DGA.Sym.run1f_overwrites"
  ],
  ""
 ],
 "C128": [
  "proved",
  [
   "DGA.Pipe.dga_run",
   "DGA.Pipe.run_is_self_energy",
   "DGA.Pipe.run_returns",
   "DGA.Pipe.run_unknown_mode",
   "DGA.Pipe.run_rank_independent",
   "DGA.Pipe.run_conj_symmetric",
   "DGA.Pipe.run_sum_rules",
   "DGA.Pipe.run_sum_rule_sp",
   "Ex2.run_spch",
   "DGA.Lam.spch_sum_rules_complex",
   "DGA.Lam.sp_sum_rule_complex",
   "DGA.Lam.Sectorial.default_converges",
   "DGA.Lam.Sectorial.default_single",
   "DGA.Lam.Sectorial.returned",
   "DGA.Lam.Sectorial.search_converges_within",
   "DGA.Lam.Physical.sectorial",
   "DGA.Lam.unstable_example"
  ],
  "the momentum-diagonal arithmetic is exact; requirements on the susceptibilities (cone) are hypotheses about the physical ladder susceptibilities, met by the example run_spch"
 ],
 "C129": [
  "proved",
  [
   "DGA.Pipe.main_run",
   "DGA.Pipe.main_run_conj",
   "DGA.Pipe.worm_to_dict",
   "DGA.Pipe.worm_run",
   "DGA.Pipe.default_box_fits",
   "DGA.Pipe.sigma_inside",
   "DGA.Pipe.gLoc_ne_zero",
   "DGA.Pipe.run_is_dga",
   "Ex3.returns"
  ],
  "Composition of the models of the loader, box sizes, symmetrisation, band, Green function, local part, ladder, lambda correction, SDE and saved object. Assumed: band type t_tp_tpp, a causal self-energy, no vanishing bubble, exact arithmetic; no epsilon/mu adjustment. IsDga is conditional on solvable ladders with non-vanishing physical susceptibility (as in C128). Ex3: concrete file on which the program returns."
 ],
 "C13": [
  "proved",
  [
   "DGA.Mf.cutV_value",
   "DGA.Mf.cutV_minus_one",
   "DGA.Mf.cutV_cutV",
   "DGA.Mf.cutV2_value",
   "DGA.Mf.cutVPos_value",
   "DGA.Mf.cutV_too_large"
  ],
  ""
 ],
 "C130": [
  "proved",
  [
   "DGA.Pairing.Files.eli_run",
   "DGA.Pairing.Files.eli_real",
   "DGA.Pairing.Files.eli_d_wave",
   "DGA.Pairing.Files.eli_kernel",
   "DGA.Pairing.Files.eli_vertex",
   "DGA.Pairing.Files.eli_returns",
   "DGA.Pairing.Files.run_of_sde",
   "DGA.Pairing.Files.eli_chain",
   "DGA.Pairing.pvFiles_written"
  ],
  "eli_real is for runs without shift (the default of the program is a shifted second run, whose shift comes from a random complex start); for shifted runs C118 gives convergence to the largest eigenvalue. Newton and the random numbers are arbitrary."
 ],
 "C131": [
  "proved",
  [
   "DGA.Pairing.Files.eli_ranks",
   "DGA.Pairing.Files.calcFrom_ranks"
  ],
  "Exact arithmetic: allreduce sums in floating point depend on the order, which is not modelled. Input as in C130."
 ],
 "C132": [
  "proved",
  [
   "DGA.Report.main_report",
   "DGA.Report.report_returns",
   "DGA.Report.uniform_is_ladder",
   "DGA.Report.potential_depends",
   "DGA.Two.gf_energies"
  ],
  "columns as stated; the fourth column of energies.txt is refuted as DMFT value (potential_depends, last clause of main_report); the rounding of savetxt is not modelled"
 ],
 "C133": [
  "proved",
  [
   "DGA.Pairing.Files.opt_run",
   "DGA.Pairing.Files.opt_default",
   "DGA.Pairing.Files.opt_ranks",
   "DGA.Pairing.Files.opt_returns",
   "DGA.Pairing.Files.opt_bubble",
   "DGA.Pairing.Files.opt_vert",
   "DGA.Pairing.Files.opt_vertex"
  ],
  "hypothesis: number of bosonic frequencies <= shell + asymptotic range (otherwise the slices of the Green function wrap); (f) states what is stored, including the zeros at negative transfers"
 ],
 "C134": [
  "proved",
  [
   "DGA.Pipe.lattice_of_table",
   "DGA.Pipe.saved_table",
   "DGA.Pipe.saved_square",
   "DGA.Pipe.squareRows_table"
  ],
  "decimal to float rounding on reading is not modelled (C80); Ex4: concrete file"
 ],
 "C135": [
  "proved",
  [
   "DGA.Pipe.program_iff",
   "DGA.Pipe.program_lattice",
   "DGA.Pipe.program_main_run",
   "Ex4.both_return"
  ],
  "configurations without optics section and with equal momentum grids for Green function and ladder; option values of the expected type"
 ],
 "C136": [
  "proved",
  [
   "DGA.Whole.all_iff",
   "DGA.Whole.all_ranks",
   "DGA.Whole.all_consistent",
   "DGA.Whole.all_bubble",
   "DGA.Whole.all_returns",
   "DGA.Whole.plan_iff",
   "DGA.Whole.program_all_iff",
   "DGA.Whole.ex_returns"
  ],
  "polynomial fits, plots and continuations to real frequencies not part of the complete run; pairing vertex without Eliashberg equation and optics sections with max_ent are outside the model"
 ],
 "C137": [
  "proved",
  [
   "DGA.Shared.shared_written",
   "DGA.Shared.shared_optics",
   "DGA.Shared.shared_fq",
   "DGA.Shared.shared_pairing",
   "DGA.Shared.run_pairing",
   "DGA.Shared.run_optics",
   "DGA.Shared.run_fq",
   "DGA.Shared.run_returns",
   "DGA.Shared.files_run"
  ],
  "One HDF5 file per rank modelled dataset by dataset, both channels, three kinds of slices; the loaders return what files of their own per component would give (the files of C05, C07, C110, C130, C133)."
 ],
 "C138": [
  "proved",
  [
   "DGA.Pairing.Files.fq_returns",
   "DGA.Pairing.Files.fq_independent",
   "DGA.Pairing.Files.fq_shape",
   "DGA.Pairing.Files.fq_value"
  ],
  "Complete run from the files on disk to F_dens/F_magn through the shared rank files of C137; the zero entries at negative bosonic frequencies are the defect of C05 seen end to end."
 ],
 "C139": [
  "proved",
  [
   "DGA.Pade.Driver.loop_value",
   "DGA.Pade.Driver.pade_exit_iff",
   "DGA.Pade.Driver.pade_returns",
   "DGA.Pade.Driver.pade_mean_defined_iff",
   "DGA.Pade.Driver.cont_exact",
   "DGA.Pade.Driver.pade_exact",
   "DGA.Pade.Driver.cont_saturates"
  ],
  "exact arithmetic; numpy least squares enters through: it returns an exact solution of the linear system if one exists"
 ],
 "C14": [
  "proved",
  [
   "DGA.Mf.invCutV_value",
   "DGA.Mf.concatCoreAsympt_value",
   "DGA.Mf.core_shell_lossless",
   "DGA.Mf.invCutV_default_drops_negative"
  ],
  ""
 ],
 "C140": [
  "proved",
  [
   "DGA.Whole.one_iff",
   "DGA.Whole.one_ranks",
   "DGA.Whole.one_box",
   "DGA.Whole.one_returns",
   "DGA.Whole.program_one_iff"
  ],
  "Polynomial fits, plots (except where they raise) and continuations to real frequencies not part of the run; the local quantities and ladders are shared by all parts (same deterministic calls)."
 ],
 "C141": [
  "proved",
  [
   "DGA.Whole.poly_iff",
   "DGA.Whole.poly_values",
   "DGA.Whole.poly_ranks",
   "DGA.Whole.program_poly_iff"
  ],
  "The fit of one row is an arbitrary function (C66 states what get_gamma_bandshift_z returns); plots are left out; float beta; n_fit > 0, o_fit >= 0."
 ],
 "C142": [
  "proved",
  [
   "DGA.Whole.cond_iff",
   "DGA.Whole.maxEnt_values",
   "DGA.Whole.loaded_value",
   "DGA.Whole.conts_values",
   "DGA.Whole.conts_split",
   "DGA.Whole.conts_ranks",
   "DGA.Whole.maxEnt_ranks",
   "DGA.Whole.maxEnt_returns",
   "DGA.Whole.conts_returns",
   "DGA.Whole.maxEnt_even",
   "DGA.Whole.symmetric_meshes"
  ],
  "of the figures drawn in between, those along the paths are added in C150 and C151 (they can make the program raise); the other plots are not modelled"
 ],
 "C143": [
  "proved",
  [
   "DGA.Optics.mesh_value",
   "DGA.Optics.shift_is_frequency_iff",
   "DGA.Optics.kinds_odd",
   "DGA.Optics.tan_mesh_value",
   "DGA.Optics.tan_overshoots",
   "DGA.Optics.mesh_even_raises",
   "DGA.Optics.kinds_even"
  ],
  ""
 ],
 "C144": [
  "proved",
  [
   "DGA.Whole.program_conts_iff",
   "DGA.Whole.conts_plan_iff",
   "DGA.Whole.program_empty",
   "DGA.Whole.sub_defaults",
   "DGA.Whole.conts_even"
  ],
  "of the figures drawn in between, those along the paths are added in C150 and C151 (they can make the program raise); the other plots are not modelled"
 ],
 "C145": [
  "proved",
  [
   "DGA.Whole.start_report",
   "DGA.Whole.start_report_empty",
   "DGA.Whole.memory_dga",
   "DGA.Whole.memory_dmft",
   "DGA.Whole.memory_bubbles",
   "DGA.Whole.memory_vrg",
   "DGA.Whole.memory_fcond",
   "DGA.Whole.giw_irrelevant"
  ],
  "memory_dga/memory_dmft/memory_bubbles/memory_vrg/memory_fcond compare the announced numbers with the arrays the run builds"
 ],
 "C146": [
  "proved",
  [
   "DGA.KPath.fermi_crossing",
   "DGA.KPath.looked_at_once",
   "DGA.KPath.last_never",
   "DGA.KPath.crossing_fails",
   "DGA.KPath.path_crossing"
  ],
  ""
 ],
 "C147": [
  "proved",
  [
   "DGA.Sym.out_stem",
   "DGA.Sym.out_same",
   "DGA.Sym.calls_keep",
   "DGA.Sym.call_elsewhere",
   "DGA.Sym.same_stem_blocks",
   "DGA.Sym.sym1b_files",
   "DGA.Sym.command_value"
  ],
  "The interactive questions (ask_for_input) are not modelled for the names."
 ],
 "C148": [
  "proved",
  [
   "DGA.Two.dampFloor_spec",
   "DGA.Two.floor_least",
   "DGA.Two.post_value",
   "DGA.Two.post_causal",
   "DGA.Two.mu_lda_is_start",
   "DGA.Two.floor_vs_added",
   "DGA.Two.labels_off"
  ],
  "scipy.optimize.minimize is a parameter; find_zeros (contour lines of matplotlib) is not modelled."
 ],
 "C149": [
  "proved",
  [
   "DGA.Whole.post_of_run",
   "DGA.Whole.post_of_maxEnt",
   "DGA.Whole.orZeros_causal",
   "DGA.Whole.good_of",
   "DGA.Whole.swk_flat"
  ],
  "the optimiser is a parameter; that its spectra are non-negative is a hypothesis"
 ],
 "C15": [
  "proved",
  [
   "DGA.Mf.fermionicFull_value",
   "DGA.Mf.bosonicFull_value",
   "DGA.Mf.fermionicFull_symmetric",
   "DGA.Mf.bosonicFull_symmetric",
   "DGA.Mf.cutPos_fermionicFull"
  ],
  ""
 ],
 "C150": [
  "proved",
  [
   "DGA.KPath.prepare_iff",
   "DGA.KPath.prepare_raises",
   "DGA.KPath.ticks_iff",
   "DGA.KPath.dispersion_iff",
   "DGA.KPath.dispersion_full",
   "DGA.KPath.dispersion_value",
   "DGA.KPath.chi_iff",
   "DGA.KPath.chi_value",
   "DGA.KPath.failed_row",
   "DGA.KPath.failed_window",
   "DGA.KPath.prepared",
   "DGA.KPath.paths_have_points"
  ],
  "matplotlib calls are not modelled; only the numbers passed to them and the exceptions raised before"
 ],
 "C151": [
  "proved",
  [
   "DGA.Whole.drawn_iff",
   "DGA.Whole.drawn_named",
   "DGA.Whole.never_drawn",
   "DGA.Whole.drawn_values"
  ],
  "figures other than those along the paths are not modelled; in the code a figure comes directly after its continuation"
 ],
 "C152": [
  "proved",
  [
   "DGA.Whole.plotted_iff",
   "DGA.Whole.plotted_values",
   "DGA.Whole.fermi_points",
   "DGA.Whole.never_plotted",
   "DGA.Whole.ranks_complete",
   "DGA.Whole.plotted_iff_completes"
  ],
  "matplotlib enters through what it refuses (contour: two rows and columns; pcolormesh: a two-dimensional array fitting its axes); figures that refuse nothing are left out"
 ],
 "C16": [
  "proved",
  [
   "DGA.Mf.window_value",
   "DGA.Mf.window_rows",
   "DGA.Mf.window_misfit",
   "DGA.Mf.window_right_iff",
   "DGA.Mf.cutIvShift_value",
   "DGA.Mf.shell_window_value"
  ],
  ""
 ],
 "C17": [
  "proved",
  [
   "DGA.Mf.freqShift_difference"
  ],
  ""
 ],
 "C18": [
  "proved",
  [
   "DGA.Mf.wToVmvp_value",
   "DGA.Mf.reshapeChi_value",
   "DGA.Fp.getFDiag_value"
  ],
  ""
 ],
 "C19": [
  "proved",
  [
   "DGA.Mf.addBosonic_value",
   "DGA.Mf.addBosonic_comm",
   "DGA.Mf.cutW_value",
   "DGA.Mf.matAtIwn_value"
  ],
  ""
 ],
 "C20": [
  "proved",
  [
   "DGA.Mf.ph2pp_value",
   "DGA.Mf.ph2ppWc_value"
  ],
  ""
 ],
 "C21": [
  "proved",
  [
   "DGA.Mf.appendShell_value",
   "DGA.Mf.appendShell_cutV2",
   "DGA.Fp.cutV_ofFn",
   "DGA.Fp.cutV2_rowsOf",
   "DGA.Fp.appendShell_rowsOf"
  ],
  ""
 ],
 "C22": [
  "proved",
  [
   "DGA.Bubble.gchi0_full_eq_direct",
   "DGA.Bubble.chi0_full_eq_direct",
   "DGA.Bubble.gchi0q_full_eq_direct",
   "DGA.Bubble.chi0q_full_eq_direct",
   "DGA.Bubble.gchi0_center_reflected",
   "DGA.Bubble.center_full_ne_direct"
  ],
  ""
 ],
 "C23": [
  "proved",
  [
   "DGA.Bubble.contract_gchi0",
   "DGA.Bubble.contract_gchi0q",
   "DGA.Bubble.gchi0_cut",
   "DGA.Bubble.gchi0q_mean_eq_local"
  ],
  ""
 ],
 "C24": [
  "proved",
  [
   "DGA.Fp.gchirFromG2_value",
   "DGA.Fp.g2FromChir_value",
   "DGA.Fp.g2_of_gchir_of_g2",
   "DGA.Fp.gchir_of_g2_of_gchir"
  ],
  ""
 ],
 "C25": [
  "proved",
  [
   "DGA.Fp.gchir_of_fob2_of_gchir",
   "DGA.Fp.fob2_of_gchir_of_fob2",
   "DGA.Fp.gamob2W_iff",
   "DGA.Fp.gamob2_iff_gchir",
   "DGA.Fp.gamob2_singular",
   "DGA.Fp.gamob2_exists"
  ],
  ""
 ],
 "C26": [
  "proved",
  [
   "DGA.Fp.gamUrange_no_shell",
   "DGA.Fp.gamUrange_no_shell_exists",
   "DGA.Fp.gamUrange_slice",
   "DGA.Fp.gamob2Urange_bse"
  ],
  ""
 ],
 "C27": [
  "proved",
  [
   "DGA.Fp.chi_phys_is_contraction",
   "DGA.Fp.vrg_is_row_sum",
   "DGA.Fp.vertex_decomposition",
   "DGA.Fp.ladder_vertex",
   "DGA.Fp.fob2GamSlice_eq",
   "DGA.Fp.lambda_route",
   "DGA.Fp.asympt_invariant",
   "DGA.Fp.aux_routes",
   "DGA.Fp.noninteracting",
   "DGA.Fp.f_dc_is_vertex",
   "DGA.Pipe.gchiAuxCore_value",
   "DGA.Pipe.gchiAuxUrange_value"
  ],
  ""
 ],
 "C28": [
  "proved",
  [
   "DGA.Fp.getUr_table",
   "DGA.Fp.getSign_table",
   "DGA.Fp.ur_eq_sign_mul",
   "DGA.Fp.newNPoint_spec",
   "DGA.Fp.cutIw_refused",
   "DGA.Fp.cutIw_value",
   "DGA.Fp.contract4_value"
  ],
  ""
 ],
 "C29": [
  "proved",
  [
   "DGA.Fp.symmetrizeVVp_value",
   "DGA.Fp.symmetrizeVVp_symm",
   "DGA.Fp.symmetrizeVVp_fixed",
   "DGA.Fp.symmetrizeVVp_idem"
  ],
  ""
 ],
 "C30": [
  "proved",
  [
   "DGA.Sde.sdeVrg_value",
   "DGA.Sde.sdeShell_value",
   "DGA.Sde.sdeShellLat_eq",
   "DGA.Sde.sdeCoreUrange_value",
   "DGA.Sde.sdeFull_value",
   "DGA.Sde.sdeF_value",
   "DGA.Sde.sdeF_eq_channels",
   "DGA.Sde.sdeKernelQ_value",
   "DGA.Sde.sdeVrgQ_value",
   "DGA.Sde.sdeShellQ_value",
   "DGA.Sde.sdeChannelQ_value",
   "DGA.Sde.sdeDc_value",
   "DGA.Sde.sdeFullQ_value",
   "DGA.Sde.sdeFullQ_eq_channels",
   "DGA.Sde.sdeDc_eq_kernel",
   "DGA.Sde.sdeKernelQ_split",
   "DGA.Sde.sdeKernelQ_ranks",
   "DGA.Sde.sdeKernelQ_linear",
   "DGA.Sde.sdeVrgQ_one_point",
   "DGA.Sde.sdeVrgQ_local"
  ],
  ""
 ],
 "C31": [
  "proved",
  [
   "DGA.Lam.none_unchanged",
   "DGA.Lam.sp_only_magn",
   "DGA.Lam.spch_both",
   "DGA.Lam.unknown_mode_raises",
   "DGA.Lam.sp_target",
   "DGA.Lam.spch_targets"
  ],
  ""
 ],
 "C32": [
  "proved",
  [
   "DGA.Lam.useLambda_zero",
   "DGA.Lam.useLambda_add",
   "DGA.Lam.useLambda_undo",
   "DGA.Lam.useLambda_rows",
   "DGA.Lam.getLambdaStart_spec",
   "DGA.Lam.positive_iff_above_start",
   "DGA.Lam.strictly_decreasing"
  ],
  ""
 ],
 "C33": [
  "proved",
  [
   "DGA.Lam.search_above_pole",
   "DGA.Lam.converged_sum_rule",
   "DGA.Lam.search_converges",
   "DGA.Lam.returned_above_pole",
   "DGA.Lam.sum_rule_root"
  ],
  "Liveness needs a susceptibility whose maximum is static and a positive target; exact arithmetic."
 ],
 "C34": [
  "proved",
  [
   "DGA.Eli.gramSchmidt_orthogonal",
   "DGA.Eli.gramSchmidt_fixed",
   "DGA.Eli.gramSchmidt_idem",
   "DGA.Eli.gramSchmidt_span",
   "DGA.Eli.gramSchmidt_needs_orthogonal"
  ],
  ""
 ],
 "C35": [
  "proved",
  [
   "DGA.Eli.powerIteration_count",
   "DGA.Eli.powerIteration_stops_first",
   "DGA.Eli.getEig_length",
   "DGA.Eli.getEig_deflates",
   "DGA.Eli.second_gap_orthogonal",
   "DGA.Eli.reported_is_unshifted",
   "DGA.Eli.fixed_point_is_eigenvector",
   "DGA.Eli.eigenvector_start",
   "DGA.Eli.getEig_eigenvector",
   "DGA.Eli.shift_not_positive"
  ],
  ""
 ],
 "C36": [
  "proved",
  [
   "DGA.Eli.symmetrizeGamma_sing_even",
   "DGA.Eli.symmetrizeGamma_trip_odd",
   "DGA.Eli.symmetrizeGamma_idem",
   "DGA.Eli.symmetrizeGamma_fixed",
   "DGA.Eli.symmetrizeGamma_complementary",
   "DGA.Eli.symmetrizeGamma_raises",
   "DGA.Eli.gapStart_parity",
   "DGA.Eli.gapStart_value",
   "DGA.Eli.gapStart_momentum_symmetry",
   "DGA.Eli.gapStart_random_v",
   "DGA.Eli.gapStart_random_k",
   "DGA.Eli.gapStart_random_not_even"
  ],
  "The parity claim is for the named k-types; for a random k-type the code copies without mirroring and the start gap is in general not even (gapStart_random_not_even)."
 ],
 "C37": [
  "proved",
  [
   "DGA.Two.sigmaSpec_symm",
   "DGA.Two.sigmaSpec_tail",
   "DGA.Two.getSiw_value",
   "DGA.Two.getSiw_default",
   "DGA.Two.getSiw_core_too_large",
   "DGA.Two.estimate_bounds",
   "DGA.Two.estimate_never_reached",
   "DGA.Two.fit_recovers_tail",
   "DGA.Two.newSelfEnergy_full",
   "DGA.Two.getSiw_round_trip",
   "DGA.Two.getSiw_default_rows"
  ],
  ""
 ],
 "C38": [
  "proved",
  [
   "DGA.Two.createDga_value",
   "DGA.Two.createDga_getSiw"
  ],
  ""
 ],
 "C39": [
  "proved",
  [
   "DGA.Two.gFull_value",
   "DGA.Two.gFull_symm",
   "DGA.Two.sigmaFull_eq_getSiw"
  ],
  ""
 ],
 "C40": [
  "proved",
  [
   "DGA.Sym.band_roundtrip",
   "DGA.Sym.index_roundtrip",
   "DGA.Sym.component2index_inj",
   "DGA.Sym.general_roundtrip"
  ],
  ""
 ],
 "C41": [
  "proved",
  [
   "DGA.Paths.splitext_append",
   "DGA.Paths.uniquify_spec",
   "DGA.Paths.splitext_no_extension",
   "DGA.Paths.setOutputPath_spec",
   "DGA.Paths.runs_distinct",
   "DGA.Paths.mkdir_any_schedule",
   "DGA.Paths.polyFit_schedule_dependent"
  ],
  ""
 ],
 "C42": [
  "partial",
  [
   "DGA.Cfg.setFromLfp_sizes",
   "DGA.Cfg.asympt_partial",
   "DGA.Cfg.asympt_stale",
   "DGA.Cfg.asympt_stale_value"
  ],
  "Sizes and errors are proved in full; the clause about the asymptotic range is false of the code when the provisional value computed before the sizes are known is positive (asympt_stale, asympt_stale_value), otherwise proved (asympt_partial)."
 ],
 "C43": [
  "proved",
  [
   "DGA.Opt.vmwVSlice_value",
   "DGA.Opt.optics_ranges_fit",
   "DGA.Opt.vmwVSlice_unnoticed",
   "DGA.Cfg.setRanges_spec",
   "DGA.Cfg.setRanges_nivVert_pos"
  ],
  "The default number of external frequencies niw_core//2 is not checked by the code, so the hypotheses ask for a non-negative vertex range; setRanges_nivVert_pos says when it is positive."
 ],
 "C44": [
  "proved",
  [
   "DGA.Wan.square_band",
   "DGA.Wan.square_band_ek",
   "DGA.Wan.getEk_square",
   "DGA.Wan.ekSquare_symm"
  ],
  ""
 ],
 "C45": [
  "proved",
  [
   "DGA.Pade.interpolates",
   "DGA.Pade.interpolates_last",
   "DGA.Pade.gRec_eq_table",
   "DGA.Pade.padeThiele_eq",
   "DGA.Pade.epade_interpolates",
   "DGA.Pade.pickPoints_pos",
   "DGA.Pade.pickPoints_mirror"
  ],
  ""
 ],
 "C46": [
  "proved",
  [
   "DGA.Ana.mesh_valid",
   "DGA.Ana.mesh_refused"
  ],
  ""
 ],
 "C47": [
  "proved",
  [
   "DGA.Ana.clampZ_value",
   "DGA.Ana.z_bounds"
  ],
  ""
 ],
 "C48": [
  "proved",
  [
   "DGA.Log.nonroot_silent",
   "DGA.Log.root_appends_one",
   "DGA.Log.file_only_root",
   "DGA.Log.log_once_in_order",
   "DGA.Log.run_total",
   "DGA.Log.task_times",
   "DGA.Log.printed_times"
  ],
  ""
 ],
 "C49": [
  "proved",
  [
   "DGA.Cfg.checkSymmetries_accepts",
   "DGA.Cfg.symOfName_known",
   "DGA.Cfg.unknown_tuple_entry_rejected",
   "DGA.Cfg.latticeGrids_rejects",
   "DGA.Cfg.latticeGrids_value",
   "DGA.Cfg.quasi2d_not_accepted",
   "DGA.Cfg.yaml_list_rejected",
   "DGA.Cfg.tuple_symmetries"
  ],
  ""
 ],
 "C50": [
  "proved",
  [
   "DGA.Sym.symmetrize_average",
   "DGA.Sym.symBands_spec",
   "DGA.Sym.symmetrize_one_band",
   "DGA.Sym.symmetrize_one_band_su2",
   "DGA.Sym.checkSym_valid",
   "DGA.Sym.checkSym_accepts_nonreflexive",
   "DGA.Sym.sym1freqBand_value",
   "DGA.Sym.sym1freqBand_const"
  ],
  ""
 ],
 "C51": [
  "proved",
  [
   "DGA.Bz.qList_value",
   "DGA.Bz.irrqList_value",
   "DGA.Bz.irrqList_any",
   "DGA.Bz.compute_on_irrq"
  ],
  ""
 ],
 "C52": [
  "proved",
  [
   "DGA.Eli.kernel_is_momentum_sum",
   "DGA.Eli.kernel_even",
   "DGA.Eli.ifftn_fftn"
  ],
  ""
 ],
 "C53": [
  "proved",
  [
   "DGA.Two.moments_give_tail",
   "DGA.Two.moments_causal",
   "DGA.Two.fit_recovers_tail",
   "DGA.Two.fit_recovers_tail_rows",
   "DGA.Two.energies_value",
   "DGA.Two.energies_real",
   "DGA.Two.ePot_hartree"
  ],
  ""
 ],
 "C54": [
  "proved",
  [
   "DGA.Two.awk_pos"
  ],
  ""
 ],
 "C55": [
  "proved",
  [
   "DGA.Cfg.gap0_parity",
   "DGA.Cfg.default_gap_total_parity"
  ],
  ""
 ],
 "C56": [
  "partial",
  [
   "DGA.Cfg.maxEnt_mesh_ignores_config",
   "DGA.Cfg.maxEnt_mesh_stale"
  ],
  "False of the code: __dict__.update bypasses the property setter, the stored mesh is always the tan mesh of 501 points on [-15,15]; the theorems state exactly what is stored and refute the claim."
 ],
 "C57": [
  "proved",
  [
   "DGA.Opt.chijjBubble_value",
   "DGA.Opt.chijjBubbleMain_value",
   "DGA.Opt.chijjBubble_from_chi0"
  ],
  ""
 ],
 "C58": [
  "proved",
  [
   "DGA.Opt.chijjVertex_value",
   "DGA.Opt.vecChijjVert_value",
   "DGA.Opt.chijjVertex_split"
  ],
  ""
 ],
 "C59": [
  "proved",
  [
   "DGA.Opt.fCond_value",
   "DGA.Opt.vmwVSlice_map"
  ],
  ""
 ],
 "C60": [
  "proved",
  [
   "DGA.Sym.readG2Full_writeG2",
   "DGA.Sym.readG2_writeG2",
   "DGA.Sym.readG2Iw_writeG2",
   "DGA.Sym.getNiw_writeG2",
   "DGA.Sym.readG2Full_prefix"
  ],
  ""
 ],
 "C61": [
  "proved",
  [
   "DGA.Pipe.local_sde_is_equation_of_motion"
  ],
  ""
 ],
 "C62": [
  "proved",
  [
   "DGA.Pipe.dga_self_energy",
   "DGA.Pipe.dga_rank_independent",
   "DGA.Pipe.dga_of"
  ],
  ""
 ],
 "C63": [
  "proved",
  [
   "DGA.Pipe.dga_reduces_to_dmft"
  ],
  ""
 ],
 "C64": [
  "proved",
  [
   "DGA.Pade.recovers_rational"
  ],
  ""
 ],
 "C65": [
  "proved",
  [
   "DGA.Pade.average_between",
   "DGA.Pade.average_physical",
   "DGA.Pade.average_two_fails",
   "DGA.Pade.average_const",
   "DGA.Pade.dist1_metric",
   "DGA.Pade.accum_value",
   "DGA.Pade.mask_spec"
  ],
  ""
 ],
 "C66": [
  "proved",
  [
   "DGA.Ana.polyfit_exact",
   "DGA.Ana.polyExtrap0_exact",
   "DGA.Ana.polyDerExtrap0_exact",
   "DGA.Ana.fermi_liquid",
   "DGA.Ana.scattering_rate"
  ],
  ""
 ],
 "C67": [
  "proved",
  [
   "DGA.Ana.cutMatrix_fermion",
   "DGA.Ana.cutMatrix_boson",
   "DGA.Ana.imFreq_value",
   "DGA.Ana.contSingle_aligned",
   "DGA.Ana.contAll_independent",
   "DGA.Ana.mpiCont_eq_serial",
   "DGA.Ana.model_fermion_weight",
   "DGA.Ana.model_boson_weight",
   "DGA.Ana.model_boson_not_static",
   "DGA.Ana.initMaxEnt_valid",
   "DGA.Ana.rank_types_differ",
   "DGA.Ana.mpiCont_serial",
   "DGA.Ana.mpiCont_few_rows",
   "DGA.Ana.contIsComplex_value"
  ],
  "The optimiser is an arbitrary function; the bosonic default model weight and the dtype mismatch are recorded as defects."
 ],
 "C68": [
  "proved",
  [
   "DGA.Ana.realToImag_value",
   "DGA.Ana.kernel_refused",
   "DGA.Ana.kernel_default_refused",
   "DGA.Ana.fermionSpec_conj",
   "DGA.Ana.fermion_causal",
   "DGA.Ana.boson_properties",
   "DGA.Ana.kkt_keeps_spectrum",
   "DGA.Ana.kkt_round_trip",
   "DGA.Ana.kkt_symmetry_swapped",
   "DGA.Ana.kkt_real_part",
   "DGA.Ana.cellWidths_spec"
  ],
  ""
 ],
 "C69": [
  "proved",
  [
   "DGA.Pipe.dga_symmetric",
   "DGA.Pipe.bubble_labels"
  ],
  ""
 ],
 "C70": [
  "proved",
  [
   "DGA.Pipe.dga_conj_symmetric"
  ],
  ""
 ],
 "C71": [
  "proved",
  [
   "DGA.Wan.nematic_invariant",
   "DGA.Wan.square_invariant",
   "DGA.Wan.nematic_not_square"
  ],
  ""
 ],
 "C72": [
  "proved",
  [
   "DGA.Wan.light_vertex_is_derivative",
   "DGA.Wan.light_vertex_square",
   "DGA.Wan.getLightVertex_is_derivative",
   "DGA.Wan.getLightVertex_square"
  ],
  ""
 ],
 "C73": [
  "proved",
  [
   "DGA.Wan.hk_hermitian",
   "DGA.Wan.hk_periodic",
   "DGA.Wan.nematic_hermitian",
   "DGA.Wan.emery_hermitian"
  ],
  ""
 ],
 "C74": [
  "proved",
  [
   "DGA.Wan.convham2_eq"
  ],
  ""
 ],
 "C75": [
  "proved",
  [
   "DGA.Wan.emery_band",
   "DGA.Wan.emery_hk_hermitian",
   "DGA.Wan.emery_orbs_wrong",
   "DGA.Wan.emery_orbs_table"
  ],
  ""
 ],
 "C76": [
  "proved",
  [
   "DGA.Wan.table_is_model",
   "DGA.Wan.table_is_model_square",
   "DGA.Wan.shifted_dispersion",
   "DGA.Wan.table_z_second_neighbour",
   "DGA.Wan.triangular_table",
   "DGA.Wan.square_nesting",
   "DGA.Wan.klist_is_mesh",
   "DGA.Wan.preset_bands",
   "DGA.Wan.preset_nesting"
  ],
  "finding: the second-neighbour z entry of the table acts as a nearest-neighbour term"
 ],
 "C77": [
  "proved",
  [
   "DGA.Wan.inverse_transform",
   "DGA.Wan.band_mean_zero",
   "DGA.Wan.band_coefficient",
   "DGA.Wan.band_second_moment"
  ],
  ""
 ],
 "C78": [
  "proved",
  [
   "DGA.Pipe.dga_square_lattice"
  ],
  ""
 ],
 "C79": [
  "proved",
  [
   "DGA.Pipe.dga_rpa",
   "DGA.Pipe.vertex_unique"
  ],
  ""
 ],
 "C80": [
  "proved",
  [
   "DGA.WanIo.hr_file_roundtrip",
   "DGA.WanIo.rounded_close",
   "DGA.WanIo.rounded_exact",
   "DGA.WanIo.reloaded_band_error",
   "DGA.WanIo.fused_rejected"
  ],
  "character level; decimal text to float rounding on reading and numbers beyond 10^16 not modelled"
 ],
 "C81": [
  "proved",
  [
   "DGA.WanIo.hk_file_roundtrip",
   "DGA.WanIo.hk_file_spin_orbit",
   "DGA.WanIo.real_hk_rejected",
   "DGA.WanIo.hk_file_counts",
   "DGA.WanIo.text12_close",
   "DGA.WanIo.hk_file_old_header",
   "DGA.WanIo.save_hk_reload"
  ],
  "token level; VERSION headers not modelled"
 ],
 "C82": [
  "proved",
  [
   "DGA.Bubble.exact_asymptotics_hasSum",
   "DGA.Bubble.asymptSumW_value",
   "DGA.Bubble.correction_is_outside",
   "DGA.Bubble.correctionQ_is_outside",
   "DGA.Bubble.outside_tendsto",
   "DGA.Bubble.chi0_corrected_error",
   "DGA.Bubble.chi0q_corrected_error",
   "DGA.Bubble.lattice_product_order",
   "DGA.Bubble.local_product_order",
   "DGA.Bubble.chi0q_corrected_bound",
   "DGA.Bubble.outside_fifth_tendsto",
   "DGA.Bubble.correctionQ_single_raises"
  ],
  "the momentum version pads by the number of frequencies, so a list like [5] raises (correctionQ_single_raises)"
 ],
 "C83": [
  "proved",
  [
   "DGA.KPath.map_to_kpath_value",
   "DGA.KPath.segCount_near",
   "DGA.KPath.knownPoint_inZone",
   "DGA.KPath.corner_on_path",
   "DGA.KPath.tick_position",
   "DGA.KPath.pathVals_cubic",
   "DGA.KPath.pathVals_square",
   "DGA.KPath.pathVals_wrong",
   "DGA.KPath.pathVals_raises"
  ],
  "get_kpath_val looks all components up in the x grid: other grids give wrong coordinates or raise (pathVals_wrong, pathVals_raises); ticks lie one point before the corner (tick_position)"
 ],
 "C84": [
  "proved",
  [
   "DGA.KPath.findQInd_nearest",
   "DGA.KPath.argNear_grid",
   "DGA.KPath.shiftByQ_grid",
   "DGA.KPath.kSlice_grid",
   "DGA.KPath.findQ_not_periodic"
  ],
  "the lookup is not periodic (findQ_not_periodic)"
 ],
 "C85": [
  "proved",
  [
   "DGA.Two.getFill_error",
   "DGA.Two.gfFilling_error",
   "DGA.Two.outsideFourth_rate",
   "DGA.Two.filling_static",
   "DGA.Two.getFill_atomic",
   "DGA.Two.primitive_value",
   "DGA.Two.gfMu_cases",
   "DGA.Two.gfMu_root",
   "DGA.Two.gfMu_failure",
   "DGA.Two.gfMu_failure_wrong"
  ],
  "scipy newton is an arbitrary function"
 ],
 "C86": [
  "proved",
  [
   "DGA.Optics.realf_value",
   "DGA.Optics.realf_even_raises",
   "DGA.Optics.sigmaNodes_even",
   "DGA.Optics.sigmaNodes_sorted",
   "DGA.Optics.sigma_values"
  ],
  "the cubic interpolation of scipy is any interpolation through its points"
 ],
 "C87": [
  "proved",
  [
   "DGA.Two.fillingRealF_value",
   "DGA.Two.trapzPts_eq",
   "DGA.Two.fillingRealF_nonneg",
   "DGA.Two.fillingRealF_unbounded",
   "DGA.Two.realGf_cases",
   "DGA.Two.adjustMuRealF_not_worse"
  ],
  ""
 ],
 "C88": [
  "proved",
  [
   "DGA.Mx.root_exists",
   "DGA.Mx.root_unique",
   "DGA.Mx.root_maximises",
   "DGA.Mx.complete_svd_maximises",
   "DGA.Mx.jacobian_diag",
   "DGA.Mx.jacobian_injective",
   "DGA.Mx.alpha_tradeoff"
  ],
  ""
 ],
 "C89": [
  "proved",
  [
   "DGA.Mx.entropyPosneg_spec",
   "DGA.Mx.rootOff_exists",
   "DGA.Mx.rootOff_unique",
   "DGA.Mx.rootOff_maximises",
   "DGA.Mx.jacobian_off",
   "DGA.Mx.jacobian_off_injective"
  ],
  ""
 ],
 "C90": [
  "proved",
  [
   "DGA.Mx.diag_signs",
   "DGA.Mx.off_signs",
   "DGA.Mx.chi2_nonneg",
   "DGA.Mx.optimum_vs_model",
   "DGA.Mx.lambda_eig_nonneg",
   "DGA.Mx.bayes_bounds"
  ],
  ""
 ],
 "C91": [
  "proved",
  [
   "DGA.Mx.chi2_covariance",
   "DGA.Mx.chi2_stdev",
   "DGA.Mx.backtransform_eq",
   "DGA.Mx.chooseErr_cases",
   "DGA.Mx.nSv_off_by_one",
   "DGA.Mx.dropped_ignored",
   "DGA.Mx.chi2_real_covariance",
   "DGA.Mx.chi2_real_stdev",
   "DGA.Mx.truncation_error"
  ],
  ""
 ],
 "C92": [
  "proved",
  [
   "DGA.Mx.newton_spec",
   "DGA.Mx.step_bound",
   "DGA.Mx.converged_full_step",
   "DGA.Mx.newton_solution",
   "DGA.Mx.newton_maxent",
   "DGA.Mx.newton_at_root",
   "DGA.Mx.newton_empty"
  ],
  ""
 ],
 "C93": [
  "proved",
  [
   "DGA.Mx.kink_scan",
   "DGA.Mx.kink_forever",
   "DGA.Mx.kinkState_spec",
   "DGA.Mx.kink_result",
   "DGA.Mx.kink_all_fail",
   "DGA.Mx.scan_result",
   "DGA.Mx.finishRoot_overwrites",
   "DGA.Mx.bryan_convex",
   "DGA.Mx.bryanLoop_result",
   "DGA.Mx.bryan_result",
   "DGA.Mx.dispatch_spec",
   "DGA.Mx.solveRoot_result",
   "DGA.Mx.solveRoot_raises",
   "DGA.Mx.predictAlpha_exact",
   "DGA.Mx.predictAlpha_between"
  ],
  ""
 ],
 "C94": [
  "proved",
  [
   "DGA.Mx.freqBosonic_spec",
   "DGA.Mx.timeBosRaw_spec",
   "DGA.Mx.timeBos_limit",
   "DGA.Mx.timeBos_first_column",
   "DGA.Mx.timeFermionic_spec",
   "DGA.Mx.freqFermionic_parts",
   "DGA.Mx.phsym_kernels",
   "DGA.Mx.xyz_spec",
   "DGA.Mx.blurBose_spec",
   "DGA.Mx.blurFermi_spec",
   "DGA.Mx.blurCall_iff",
   "DGA.Mx.blur_quadrature"
  ],
  ""
 ],
 "C95": [
  "proved",
  [
   "DGA.Mx.timeFermionic_scaling",
   "DGA.Mx.timeBosonic_scaling",
   "DGA.Mx.mkProb_refused",
   "DGA.Mx.solveMethod_iff",
   "DGA.Mx.phsym_data_lost",
   "DGA.Mx.timePhsym_not_rescaled"
  ],
  ""
 ],
 "C96": [
  "proved",
  [
   "DGA.Spmd.collectives_agree",
   "DGA.Spmd.run_progress",
   "DGA.Spmd.run_bounded",
   "DGA.Spmd.run_completes",
   "DGA.Spmd.exit_together",
   "DGA.Spmd.progress",
   "DGA.Spmd.steps_bounded"
  ],
  ""
 ],
 "C97": [
  "proved",
  [
   "DGA.Spmd.reads_see_writes",
   "DGA.Spmd.run_result"
  ],
  ""
 ],
 "C98": [
  "proved",
  [
   "DGA.Spmd.next_succeeds",
   "DGA.Spmd.run_root_result"
  ],
  ""
 ],
 "C99": [
  "proved",
  [
   "DGA.Spmd.eliash_without_pairing_hangs",
   "DGA.Spmd.optics_without_bubble_hangs",
   "DGA.Spmd.continuation_grid_mismatch_hangs",
   "DGA.Spmd.scatter_too_few_rows",
   "DGA.Spmd.irrk2fbz_too_few_rows",
   "DGA.Spmd.gathered_rows",
   "DGA.Spmd.few_frequencies_hang",
   "DGA.Spmd.fits_on_3d_grid_hang",
   "DGA.Spmd.small_grid_hangs"
  ],
  ""
 ]
}