{
 "claims": [
  {
   "property": "C01",
   "status": "proved",
   "theorems": [
    "DGA.Mpi.slices_contiguous",
    "DGA.Mpi.tasks_concat",
    "DGA.Mpi.task_unique_owner",
    "DGA.Mpi.mySize_eq_length"
   ],
   "note": ""
  },
  {
   "property": "C02",
   "status": "proved",
   "theorems": [
    "DGA.Mpi.sizes_sum",
    "DGA.Mpi.mySize_value",
    "DGA.Mpi.sizes_balanced",
    "DGA.Mpi.no_idle_rank_iff"
   ],
   "note": ""
  },
  {
   "property": "C03",
   "status": "proved",
   "theorems": [
    "DGA.Mpi.scatter_rows",
    "DGA.Mpi.gather_scatter",
    "DGA.Mpi.scatter_gather"
   ],
   "note": ""
  },
  {
   "property": "C04",
   "status": "proved",
   "theorems": [
    "DGA.Mpi.allreduce_task_sums"
   ],
   "note": ""
  },
  {
   "property": "C05",
   "status": "partial",
   "theorems": [
    "DGA.RankFiles.write_succeeds",
    "DGA.RankFiles.load_nonneg_partial",
    "DGA.RankFiles.negative_frequencies_lost",
    "DGA.RankFiles.loadsBack_refuted"
   ],
   "note": "The claim as stated (LoadsBack) is false of the code and this is proved (loadsBack_refuted): the loaders drop the sign of negative bosonic indices, so those slices stay zero. Proved: the nonnegative half loads back exactly, the negative half is exactly what negative_frequencies_lost says."
  },
  {
   "property": "C06",
   "status": "proved",
   "theorems": [
    "DGA.RankFiles.irrq_recovered",
    "DGA.RankFiles.groupName_injective",
    "DGA.RankFiles.wn_recovered_up_to_sign",
    "DGA.RankFiles.prefixes_disjoint",
    "DGA.RankFiles.rankFileName_injective"
   ],
   "note": ""
  },
  {
   "property": "C07",
   "status": "proved",
   "theorems": [
    "DGA.Pairing.pairing_entry",
    "DGA.Pairing.pairing_hermitian",
    "DGA.Pairing.pairing_symmetric_input",
    "DGA.Pairing.sing_trip_recover"
   ],
   "note": ""
  },
  {
   "property": "C08",
   "status": "proved",
   "theorems": [
    "DGA.Bz.irrk_representative",
    "DGA.Bz.irrk_share_iff",
    "DGA.Bz.xyInversion_value",
    "DGA.Bz.xyInversion_incomplete",
    "DGA.Bz.fold_not_idempotent",
    "DGA.Bz.irrk_any_list",
    "DGA.Bz.irrk_share_related"
   ],
   "note": ""
  },
  {
   "property": "C09",
   "status": "proved",
   "theorems": [
    "DGA.Bz.reduce_expand",
    "DGA.Bz.expand_reduce",
    "DGA.Bz.reduce_expand_mesh",
    "DGA.Bz.mesh_list_agree",
    "DGA.Bz.symmetric_function_recovered"
   ],
   "note": ""
  },
  {
   "property": "C10",
   "status": "proved",
   "theorems": [
    "DGA.Bz.kMean_irrk_eq_list",
    "DGA.Bz.kMean_irrk_eq_mesh",
    "DGA.Bz.irrkCount_sum"
   ],
   "note": ""
  },
  {
   "property": "C11",
   "status": "partial",
   "theorems": [
    "DGA.Bz.symmetrizeIrrk_raises",
    "DGA.Bz.symmetrizeFlat_partial",
    "DGA.Bz.classMean_const",
    "DGA.Bz.classMean_of_symmetric",
    "DGA.Bz.classMean_mean"
   ],
   "note": "The claim is false of the code: symmetrize_irrk raises IndexError on every non-empty grid (three-axis boolean mask on a two-axis array), proved in symmetrizeIrrk_raises. The projection properties are proved for the routine with the mask flattened."
  },
  {
   "property": "C12",
   "status": "proved",
   "theorems": [
    "DGA.Bz.shift_value",
    "DGA.Bz.shift_shift",
    "DGA.Bz.shift_period",
    "DGA.Bz.shift_inverse",
    "DGA.Bz.shiftByPi_twice",
    "DGA.Bz.shiftByPi2_twice",
    "DGA.Bz.shift_perm"
   ],
   "note": ""
  },
  {
   "property": "C13",
   "status": "proved",
   "theorems": [
    "DGA.Mf.cutV_value",
    "DGA.Mf.cutV_minus_one",
    "DGA.Mf.cutV_cutV",
    "DGA.Mf.cutV2_value",
    "DGA.Mf.cutVPos_value",
    "DGA.Mf.cutV_too_large"
   ],
   "note": ""
  },
  {
   "property": "C14",
   "status": "proved",
   "theorems": [
    "DGA.Mf.invCutV_value",
    "DGA.Mf.concatCoreAsympt_value",
    "DGA.Mf.core_shell_lossless",
    "DGA.Mf.invCutV_default_drops_negative"
   ],
   "note": ""
  },
  {
   "property": "C15",
   "status": "proved",
   "theorems": [
    "DGA.Mf.fermionicFull_value",
    "DGA.Mf.bosonicFull_value",
    "DGA.Mf.fermionicFull_symmetric",
    "DGA.Mf.bosonicFull_symmetric",
    "DGA.Mf.cutPos_fermionicFull"
   ],
   "note": ""
  },
  {
   "property": "C16",
   "status": "proved",
   "theorems": [
    "DGA.Mf.window_value",
    "DGA.Mf.window_rows",
    "DGA.Mf.window_misfit",
    "DGA.Mf.window_right_iff",
    "DGA.Mf.cutIvShift_value",
    "DGA.Mf.shell_window_value"
   ],
   "note": ""
  },
  {
   "property": "C17",
   "status": "proved",
   "theorems": [
    "DGA.Mf.freqShift_difference"
   ],
   "note": ""
  },
  {
   "property": "C18",
   "status": "proved",
   "theorems": [
    "DGA.Mf.wToVmvp_value",
    "DGA.Mf.reshapeChi_value",
    "DGA.Fp.getFDiag_value"
   ],
   "note": ""
  },
  {
   "property": "C19",
   "status": "proved",
   "theorems": [
    "DGA.Mf.addBosonic_value",
    "DGA.Mf.addBosonic_comm",
    "DGA.Mf.cutW_value",
    "DGA.Mf.matAtIwn_value"
   ],
   "note": ""
  },
  {
   "property": "C20",
   "status": "proved",
   "theorems": [
    "DGA.Mf.ph2pp_value",
    "DGA.Mf.ph2ppWc_value"
   ],
   "note": ""
  },
  {
   "property": "C21",
   "status": "proved",
   "theorems": [
    "DGA.Mf.appendShell_value",
    "DGA.Mf.appendShell_cutV2",
    "DGA.Fp.cutV_ofFn",
    "DGA.Fp.cutV2_rowsOf",
    "DGA.Fp.appendShell_rowsOf"
   ],
   "note": ""
  },
  {
   "property": "C22",
   "status": "proved",
   "theorems": [
    "DGA.Bubble.gchi0_full_eq_direct",
    "DGA.Bubble.chi0_full_eq_direct",
    "DGA.Bubble.gchi0q_full_eq_direct",
    "DGA.Bubble.chi0q_full_eq_direct",
    "DGA.Bubble.gchi0_center_reflected",
    "DGA.Bubble.center_full_ne_direct"
   ],
   "note": ""
  },
  {
   "property": "C23",
   "status": "proved",
   "theorems": [
    "DGA.Bubble.contract_gchi0",
    "DGA.Bubble.contract_gchi0q",
    "DGA.Bubble.gchi0_cut",
    "DGA.Bubble.gchi0q_mean_eq_local"
   ],
   "note": ""
  },
  {
   "property": "C24",
   "status": "proved",
   "theorems": [
    "DGA.Fp.gchirFromG2_value",
    "DGA.Fp.g2FromChir_value",
    "DGA.Fp.g2_of_gchir_of_g2",
    "DGA.Fp.gchir_of_g2_of_gchir"
   ],
   "note": ""
  },
  {
   "property": "C25",
   "status": "proved",
   "theorems": [
    "DGA.Fp.gchir_of_fob2_of_gchir",
    "DGA.Fp.fob2_of_gchir_of_fob2",
    "DGA.Fp.gamob2W_iff",
    "DGA.Fp.gamob2_iff_gchir",
    "DGA.Fp.gamob2_singular",
    "DGA.Fp.gamob2_exists"
   ],
   "note": ""
  },
  {
   "property": "C26",
   "status": "proved",
   "theorems": [
    "DGA.Fp.gamUrange_no_shell",
    "DGA.Fp.gamUrange_no_shell_exists",
    "DGA.Fp.gamUrange_slice",
    "DGA.Fp.gamob2Urange_bse"
   ],
   "note": ""
  },
  {
   "property": "C27",
   "status": "proved",
   "theorems": [
    "DGA.Fp.chi_phys_is_contraction",
    "DGA.Fp.vrg_is_row_sum",
    "DGA.Fp.vertex_decomposition",
    "DGA.Fp.ladder_vertex",
    "DGA.Fp.fob2GamSlice_eq",
    "DGA.Fp.lambda_route",
    "DGA.Fp.asympt_invariant",
    "DGA.Fp.aux_routes",
    "DGA.Fp.noninteracting",
    "DGA.Fp.f_dc_is_vertex",
    "DGA.Pipe.gchiAuxCore_value",
    "DGA.Pipe.gchiAuxUrange_value"
   ],
   "note": ""
  },
  {
   "property": "C28",
   "status": "proved",
   "theorems": [
    "DGA.Fp.getUr_table",
    "DGA.Fp.getSign_table",
    "DGA.Fp.ur_eq_sign_mul",
    "DGA.Fp.newNPoint_spec",
    "DGA.Fp.cutIw_refused",
    "DGA.Fp.cutIw_value",
    "DGA.Fp.contract4_value"
   ],
   "note": ""
  },
  {
   "property": "C29",
   "status": "proved",
   "theorems": [
    "DGA.Fp.symmetrizeVVp_value",
    "DGA.Fp.symmetrizeVVp_symm",
    "DGA.Fp.symmetrizeVVp_fixed",
    "DGA.Fp.symmetrizeVVp_idem"
   ],
   "note": ""
  },
  {
   "property": "C30",
   "status": "proved",
   "theorems": [
    "DGA.Sde.sdeVrg_value",
    "DGA.Sde.sdeShell_value",
    "DGA.Sde.sdeShellLat_eq",
    "DGA.Sde.sdeCoreUrange_value",
    "DGA.Sde.sdeFull_value",
    "DGA.Sde.sdeF_value",
    "DGA.Sde.sdeF_eq_channels",
    "DGA.Sde.sdeKernelQ_value",
    "DGA.Sde.sdeVrgQ_value",
    "DGA.Sde.sdeShellQ_value",
    "DGA.Sde.sdeChannelQ_value",
    "DGA.Sde.sdeDc_value",
    "DGA.Sde.sdeFullQ_value",
    "DGA.Sde.sdeFullQ_eq_channels",
    "DGA.Sde.sdeDc_eq_kernel",
    "DGA.Sde.sdeKernelQ_split",
    "DGA.Sde.sdeKernelQ_ranks",
    "DGA.Sde.sdeKernelQ_linear",
    "DGA.Sde.sdeVrgQ_one_point",
    "DGA.Sde.sdeVrgQ_local"
   ],
   "note": ""
  },
  {
   "property": "C31",
   "status": "proved",
   "theorems": [
    "DGA.Lam.none_unchanged",
    "DGA.Lam.sp_only_magn",
    "DGA.Lam.spch_both",
    "DGA.Lam.unknown_mode_raises",
    "DGA.Lam.sp_target",
    "DGA.Lam.spch_targets"
   ],
   "note": ""
  },
  {
   "property": "C32",
   "status": "proved",
   "theorems": [
    "DGA.Lam.useLambda_zero",
    "DGA.Lam.useLambda_add",
    "DGA.Lam.useLambda_undo",
    "DGA.Lam.useLambda_rows",
    "DGA.Lam.getLambdaStart_spec",
    "DGA.Lam.positive_iff_above_start",
    "DGA.Lam.strictly_decreasing"
   ],
   "note": ""
  },
  {
   "property": "C33",
   "status": "proved",
   "theorems": [
    "DGA.Lam.search_above_pole",
    "DGA.Lam.converged_sum_rule",
    "DGA.Lam.search_converges",
    "DGA.Lam.returned_above_pole",
    "DGA.Lam.sum_rule_root"
   ],
   "note": "Liveness needs a susceptibility whose maximum is static and a positive target; exact arithmetic."
  },
  {
   "property": "C34",
   "status": "proved",
   "theorems": [
    "DGA.Eli.gramSchmidt_orthogonal",
    "DGA.Eli.gramSchmidt_fixed",
    "DGA.Eli.gramSchmidt_idem",
    "DGA.Eli.gramSchmidt_span",
    "DGA.Eli.gramSchmidt_needs_orthogonal"
   ],
   "note": ""
  },
  {
   "property": "C35",
   "status": "proved",
   "theorems": [
    "DGA.Eli.powerIteration_count",
    "DGA.Eli.powerIteration_stops_first",
    "DGA.Eli.getEig_length",
    "DGA.Eli.getEig_deflates",
    "DGA.Eli.second_gap_orthogonal",
    "DGA.Eli.reported_is_unshifted",
    "DGA.Eli.fixed_point_is_eigenvector",
    "DGA.Eli.eigenvector_start",
    "DGA.Eli.getEig_eigenvector",
    "DGA.Eli.shift_not_positive"
   ],
   "note": ""
  },
  {
   "property": "C36",
   "status": "proved",
   "theorems": [
    "DGA.Eli.symmetrizeGamma_sing_even",
    "DGA.Eli.symmetrizeGamma_trip_odd",
    "DGA.Eli.symmetrizeGamma_idem",
    "DGA.Eli.symmetrizeGamma_fixed",
    "DGA.Eli.symmetrizeGamma_complementary",
    "DGA.Eli.symmetrizeGamma_raises",
    "DGA.Eli.gapStart_parity",
    "DGA.Eli.gapStart_value",
    "DGA.Eli.gapStart_momentum_symmetry",
    "DGA.Eli.gapStart_random_v",
    "DGA.Eli.gapStart_random_k",
    "DGA.Eli.gapStart_random_not_even"
   ],
   "note": "The parity claim is for the named k-types; for a random k-type the code copies without mirroring and the start gap is in general not even (gapStart_random_not_even)."
  },
  {
   "property": "C37",
   "status": "proved",
   "theorems": [
    "DGA.Two.sigmaSpec_symm",
    "DGA.Two.sigmaSpec_tail",
    "DGA.Two.getSiw_value",
    "DGA.Two.getSiw_default",
    "DGA.Two.getSiw_core_too_large",
    "DGA.Two.estimate_bounds",
    "DGA.Two.estimate_never_reached",
    "DGA.Two.fit_recovers_tail",
    "DGA.Two.newSelfEnergy_full",
    "DGA.Two.getSiw_round_trip",
    "DGA.Two.getSiw_default_rows"
   ],
   "note": ""
  },
  {
   "property": "C38",
   "status": "proved",
   "theorems": [
    "DGA.Two.createDga_value",
    "DGA.Two.createDga_getSiw"
   ],
   "note": ""
  },
  {
   "property": "C39",
   "status": "proved",
   "theorems": [
    "DGA.Two.gFull_value",
    "DGA.Two.gFull_symm",
    "DGA.Two.sigmaFull_eq_getSiw"
   ],
   "note": ""
  },
  {
   "property": "C40",
   "status": "proved",
   "theorems": [
    "DGA.Sym.band_roundtrip",
    "DGA.Sym.index_roundtrip",
    "DGA.Sym.component2index_inj",
    "DGA.Sym.general_roundtrip"
   ],
   "note": ""
  },
  {
   "property": "C41",
   "status": "proved",
   "theorems": [
    "DGA.Paths.splitext_append",
    "DGA.Paths.uniquify_spec",
    "DGA.Paths.splitext_no_extension",
    "DGA.Paths.setOutputPath_spec",
    "DGA.Paths.runs_distinct",
    "DGA.Paths.mkdir_any_schedule",
    "DGA.Paths.polyFit_schedule_dependent"
   ],
   "note": ""
  },
  {
   "property": "C42",
   "status": "partial",
   "theorems": [
    "DGA.Cfg.setFromLfp_sizes",
    "DGA.Cfg.asympt_partial",
    "DGA.Cfg.asympt_stale",
    "DGA.Cfg.asympt_stale_value"
   ],
   "note": "Sizes and errors are proved in full; the clause about the asymptotic range is false of the code when the provisional value computed before the sizes are known is positive (asympt_stale, asympt_stale_value), otherwise proved (asympt_partial)."
  },
  {
   "property": "C43",
   "status": "proved",
   "theorems": [
    "DGA.Opt.vmwVSlice_value",
    "DGA.Opt.optics_ranges_fit",
    "DGA.Opt.vmwVSlice_unnoticed",
    "DGA.Cfg.setRanges_spec",
    "DGA.Cfg.setRanges_nivVert_pos"
   ],
   "note": "The default number of external frequencies niw_core//2 is not checked by the code, so the hypotheses ask for a non-negative vertex range; setRanges_nivVert_pos says when it is positive."
  },
  {
   "property": "C44",
   "status": "proved",
   "theorems": [
    "DGA.Wan.square_band",
    "DGA.Wan.square_band_ek",
    "DGA.Wan.getEk_square",
    "DGA.Wan.ekSquare_symm"
   ],
   "note": ""
  },
  {
   "property": "C45",
   "status": "proved",
   "theorems": [
    "DGA.Pade.interpolates",
    "DGA.Pade.interpolates_last",
    "DGA.Pade.gRec_eq_table",
    "DGA.Pade.padeThiele_eq",
    "DGA.Pade.epade_interpolates",
    "DGA.Pade.pickPoints_pos",
    "DGA.Pade.pickPoints_mirror"
   ],
   "note": ""
  },
  {
   "property": "C46",
   "status": "proved",
   "theorems": [
    "DGA.Ana.mesh_valid",
    "DGA.Ana.mesh_refused"
   ],
   "note": ""
  },
  {
   "property": "C47",
   "status": "proved",
   "theorems": [
    "DGA.Ana.clampZ_value",
    "DGA.Ana.z_bounds"
   ],
   "note": ""
  },
  {
   "property": "C48",
   "status": "proved",
   "theorems": [
    "DGA.Log.nonroot_silent",
    "DGA.Log.root_appends_one",
    "DGA.Log.file_only_root",
    "DGA.Log.log_once_in_order",
    "DGA.Log.run_total",
    "DGA.Log.task_times",
    "DGA.Log.printed_times"
   ],
   "note": ""
  },
  {
   "property": "C49",
   "status": "proved",
   "theorems": [
    "DGA.Cfg.checkSymmetries_accepts",
    "DGA.Cfg.symOfName_known",
    "DGA.Cfg.unknown_tuple_entry_rejected",
    "DGA.Cfg.latticeGrids_rejects",
    "DGA.Cfg.latticeGrids_value",
    "DGA.Cfg.quasi2d_not_accepted",
    "DGA.Cfg.yaml_list_rejected",
    "DGA.Cfg.tuple_symmetries"
   ],
   "note": ""
  },
  {
   "property": "C50",
   "status": "proved",
   "theorems": [
    "DGA.Sym.symmetrize_average",
    "DGA.Sym.symBands_spec",
    "DGA.Sym.symmetrize_one_band",
    "DGA.Sym.symmetrize_one_band_su2",
    "DGA.Sym.checkSym_valid",
    "DGA.Sym.checkSym_accepts_nonreflexive",
    "DGA.Sym.sym1freqBand_value",
    "DGA.Sym.sym1freqBand_const"
   ],
   "note": ""
  },
  {
   "property": "C51",
   "status": "proved",
   "theorems": [
    "DGA.Bz.qList_value",
    "DGA.Bz.irrqList_value",
    "DGA.Bz.irrqList_any",
    "DGA.Bz.compute_on_irrq"
   ],
   "note": ""
  },
  {
   "property": "C52",
   "status": "proved",
   "theorems": [
    "DGA.Eli.kernel_is_momentum_sum",
    "DGA.Eli.kernel_even",
    "DGA.Eli.ifftn_fftn"
   ],
   "note": ""
  },
  {
   "property": "C53",
   "status": "proved",
   "theorems": [
    "DGA.Two.moments_give_tail",
    "DGA.Two.moments_causal",
    "DGA.Two.fit_recovers_tail",
    "DGA.Two.fit_recovers_tail_rows",
    "DGA.Two.energies_value",
    "DGA.Two.energies_real",
    "DGA.Two.ePot_hartree"
   ],
   "note": ""
  },
  {
   "property": "C54",
   "status": "proved",
   "theorems": [
    "DGA.Two.awk_pos"
   ],
   "note": ""
  },
  {
   "property": "C55",
   "status": "proved",
   "theorems": [
    "DGA.Cfg.gap0_parity",
    "DGA.Cfg.default_gap_total_parity"
   ],
   "note": ""
  },
  {
   "property": "C56",
   "status": "partial",
   "theorems": [
    "DGA.Cfg.maxEnt_mesh_ignores_config",
    "DGA.Cfg.maxEnt_mesh_stale"
   ],
   "note": "False of the code: __dict__.update bypasses the property setter, the stored mesh is always the tan mesh of 501 points on [-15,15]; the theorems state exactly what is stored and refute the claim."
  },
  {
   "property": "C57",
   "status": "proved",
   "theorems": [
    "DGA.Opt.chijjBubble_value",
    "DGA.Opt.chijjBubbleMain_value",
    "DGA.Opt.chijjBubble_from_chi0"
   ],
   "note": ""
  },
  {
   "property": "C58",
   "status": "proved",
   "theorems": [
    "DGA.Opt.chijjVertex_value",
    "DGA.Opt.vecChijjVert_value",
    "DGA.Opt.chijjVertex_split"
   ],
   "note": ""
  },
  {
   "property": "C59",
   "status": "proved",
   "theorems": [
    "DGA.Opt.fCond_value",
    "DGA.Opt.vmwVSlice_map"
   ],
   "note": ""
  },
  {
   "property": "C60",
   "status": "proved",
   "theorems": [
    "DGA.Sym.readG2Full_writeG2",
    "DGA.Sym.readG2_writeG2",
    "DGA.Sym.readG2Iw_writeG2",
    "DGA.Sym.getNiw_writeG2",
    "DGA.Sym.readG2Full_prefix"
   ],
   "note": ""
  },
  {
   "property": "C64",
   "status": "proved",
   "theorems": [
    "DGA.Pade.recovers_rational"
   ],
   "note": ""
  },
  {
   "property": "C65",
   "status": "proved",
   "theorems": [
    "DGA.Pade.average_between",
    "DGA.Pade.average_physical",
    "DGA.Pade.average_two_fails",
    "DGA.Pade.average_const",
    "DGA.Pade.dist1_metric",
    "DGA.Pade.accum_value",
    "DGA.Pade.mask_spec"
   ],
   "note": ""
  },
  {
   "property": "C66",
   "status": "proved",
   "theorems": [
    "DGA.Ana.polyfit_exact",
    "DGA.Ana.polyExtrap0_exact",
    "DGA.Ana.polyDerExtrap0_exact",
    "DGA.Ana.fermi_liquid",
    "DGA.Ana.scattering_rate"
   ],
   "note": ""
  },
  {
   "property": "C67",
   "status": "proved",
   "theorems": [
    "DGA.Ana.cutMatrix_fermion",
    "DGA.Ana.cutMatrix_boson",
    "DGA.Ana.imFreq_value",
    "DGA.Ana.contSingle_aligned",
    "DGA.Ana.contAll_independent",
    "DGA.Ana.mpiCont_eq_serial",
    "DGA.Ana.model_fermion_weight",
    "DGA.Ana.model_boson_weight",
    "DGA.Ana.model_boson_not_static",
    "DGA.Ana.initMaxEnt_valid",
    "DGA.Ana.rank_types_differ",
    "DGA.Ana.mpiCont_serial",
    "DGA.Ana.mpiCont_few_rows",
    "DGA.Ana.contIsComplex_value"
   ],
   "note": "The optimiser is an arbitrary function; the bosonic default model weight and the dtype mismatch are recorded as defects."
  },
  {
   "property": "C68",
   "status": "proved",
   "theorems": [
    "DGA.Ana.realToImag_value",
    "DGA.Ana.kernel_refused",
    "DGA.Ana.kernel_default_refused",
    "DGA.Ana.fermionSpec_conj",
    "DGA.Ana.fermion_causal",
    "DGA.Ana.boson_properties",
    "DGA.Ana.kkt_keeps_spectrum",
    "DGA.Ana.kkt_round_trip",
    "DGA.Ana.kkt_symmetry_swapped",
    "DGA.Ana.kkt_real_part",
    "DGA.Ana.cellWidths_spec"
   ],
   "note": ""
  },
  {
   "property": "C61",
   "status": "proved",
   "theorems": [
    "DGA.Pipe.local_sde_is_equation_of_motion"
   ],
   "note": ""
  },
  {
   "property": "C62",
   "status": "proved",
   "theorems": [
    "DGA.Pipe.dga_self_energy",
    "DGA.Pipe.dga_rank_independent",
    "DGA.Pipe.dga_of"
   ],
   "note": ""
  },
  {
   "property": "C63",
   "status": "proved",
   "theorems": [
    "DGA.Pipe.dga_reduces_to_dmft"
   ],
   "note": ""
  },
  {
   "property": "C69",
   "status": "proved",
   "theorems": [
    "DGA.Pipe.dga_symmetric",
    "DGA.Pipe.bubble_labels"
   ],
   "note": ""
  },
  {
   "property": "C70",
   "status": "proved",
   "theorems": [
    "DGA.Pipe.dga_conj_symmetric"
   ],
   "note": ""
  },
  {
   "property": "C71",
   "status": "proved",
   "theorems": [
    "DGA.Wan.nematic_invariant",
    "DGA.Wan.square_invariant",
    "DGA.Wan.nematic_not_square"
   ],
   "note": ""
  },
  {
   "property": "C72",
   "status": "proved",
   "theorems": [
    "DGA.Wan.light_vertex_is_derivative",
    "DGA.Wan.light_vertex_square",
    "DGA.Wan.getLightVertex_is_derivative",
    "DGA.Wan.getLightVertex_square"
   ],
   "note": ""
  },
  {
   "property": "C73",
   "status": "proved",
   "theorems": [
    "DGA.Wan.hk_hermitian",
    "DGA.Wan.hk_periodic",
    "DGA.Wan.nematic_hermitian",
    "DGA.Wan.emery_hermitian"
   ],
   "note": ""
  },
  {
   "property": "C74",
   "status": "proved",
   "theorems": [
    "DGA.Wan.convham2_eq"
   ],
   "note": ""
  },
  {
   "property": "C75",
   "status": "proved",
   "theorems": [
    "DGA.Wan.emery_band",
    "DGA.Wan.emery_hk_hermitian",
    "DGA.Wan.emery_orbs_wrong",
    "DGA.Wan.emery_orbs_table"
   ],
   "note": ""
  },
  {
   "property": "C76",
   "status": "proved",
   "theorems": [
    "DGA.Wan.table_is_model",
    "DGA.Wan.table_is_model_square",
    "DGA.Wan.shifted_dispersion",
    "DGA.Wan.table_z_second_neighbour",
    "DGA.Wan.triangular_table",
    "DGA.Wan.square_nesting",
    "DGA.Wan.klist_is_mesh",
    "DGA.Wan.preset_bands",
    "DGA.Wan.preset_nesting"
   ],
   "note": "finding: the second-neighbour z entry of the table acts as a nearest-neighbour term"
  },
  {
   "property": "C77",
   "status": "proved",
   "theorems": [
    "DGA.Wan.inverse_transform",
    "DGA.Wan.band_mean_zero",
    "DGA.Wan.band_coefficient",
    "DGA.Wan.band_second_moment"
   ],
   "note": ""
  },
  {
   "property": "C78",
   "status": "proved",
   "theorems": [
    "DGA.Pipe.dga_square_lattice"
   ],
   "note": ""
  },
  {
   "property": "C79",
   "status": "proved",
   "theorems": [
    "DGA.Pipe.dga_rpa",
    "DGA.Pipe.vertex_unique"
   ],
   "note": ""
  },
  {
   "property": "C80",
   "status": "proved",
   "theorems": [
    "DGA.WanIo.hr_file_roundtrip",
    "DGA.WanIo.rounded_close",
    "DGA.WanIo.rounded_exact",
    "DGA.WanIo.reloaded_band_error",
    "DGA.WanIo.fused_rejected"
   ],
   "note": "character level; decimal text to float rounding on reading and numbers beyond 10^16 not modelled"
  },
  {
   "property": "C81",
   "status": "proved",
   "theorems": [
    "DGA.WanIo.hk_file_roundtrip",
    "DGA.WanIo.hk_file_spin_orbit",
    "DGA.WanIo.real_hk_rejected",
    "DGA.WanIo.hk_file_counts",
    "DGA.WanIo.text12_close",
    "DGA.WanIo.hk_file_old_header",
    "DGA.WanIo.save_hk_reload"
   ],
   "note": "token level; VERSION headers not modelled"
  },
  {
   "property": "C82",
   "status": "proved",
   "theorems": [
    "DGA.Bubble.exact_asymptotics_hasSum",
    "DGA.Bubble.asymptSumW_value",
    "DGA.Bubble.correction_is_outside",
    "DGA.Bubble.correctionQ_is_outside",
    "DGA.Bubble.outside_tendsto",
    "DGA.Bubble.chi0_corrected_error",
    "DGA.Bubble.chi0q_corrected_error",
    "DGA.Bubble.lattice_product_order",
    "DGA.Bubble.local_product_order",
    "DGA.Bubble.chi0q_corrected_bound",
    "DGA.Bubble.outside_fifth_tendsto",
    "DGA.Bubble.correctionQ_single_raises"
   ],
   "note": "the momentum version pads by the number of frequencies, so a list like [5] raises (correctionQ_single_raises)"
  },
  {
   "property": "C83",
   "status": "proved",
   "theorems": [
    "DGA.KPath.map_to_kpath_value",
    "DGA.KPath.segCount_near",
    "DGA.KPath.knownPoint_inZone",
    "DGA.KPath.corner_on_path",
    "DGA.KPath.tick_position",
    "DGA.KPath.pathVals_cubic",
    "DGA.KPath.pathVals_square",
    "DGA.KPath.pathVals_wrong",
    "DGA.KPath.pathVals_raises"
   ],
   "note": "get_kpath_val looks all components up in the x grid: other grids give wrong coordinates or raise (pathVals_wrong, pathVals_raises); ticks lie one point before the corner (tick_position)"
  },
  {
   "property": "C84",
   "status": "proved",
   "theorems": [
    "DGA.KPath.findQInd_nearest",
    "DGA.KPath.argNear_grid",
    "DGA.KPath.shiftByQ_grid",
    "DGA.KPath.kSlice_grid",
    "DGA.KPath.findQ_not_periodic"
   ],
   "note": "the lookup is not periodic (findQ_not_periodic)"
  },
  {
   "property": "C85",
   "status": "proved",
   "theorems": [
    "DGA.Two.getFill_error",
    "DGA.Two.gfFilling_error",
    "DGA.Two.outsideFourth_rate",
    "DGA.Two.filling_static",
    "DGA.Two.getFill_atomic",
    "DGA.Two.primitive_value",
    "DGA.Two.gfMu_cases",
    "DGA.Two.gfMu_root",
    "DGA.Two.gfMu_failure",
    "DGA.Two.gfMu_failure_wrong"
   ],
   "note": "scipy newton is an arbitrary function"
  },
  {
   "property": "C86",
   "status": "proved",
   "theorems": [
    "DGA.Optics.realf_value",
    "DGA.Optics.realf_even_raises",
    "DGA.Optics.sigmaNodes_even",
    "DGA.Optics.sigmaNodes_sorted",
    "DGA.Optics.sigma_values"
   ],
   "note": "the cubic interpolation of scipy is any interpolation through its points"
  },
  {
   "property": "C87",
   "status": "proved",
   "theorems": [
    "DGA.Two.fillingRealF_value",
    "DGA.Two.trapzPts_eq",
    "DGA.Two.fillingRealF_nonneg",
    "DGA.Two.fillingRealF_unbounded",
    "DGA.Two.realGf_cases",
    "DGA.Two.adjustMuRealF_not_worse"
   ],
   "note": ""
  },
  {
   "property": "C88",
   "status": "proved",
   "theorems": [
    "DGA.Mx.root_exists",
    "DGA.Mx.root_unique",
    "DGA.Mx.root_maximises",
    "DGA.Mx.complete_svd_maximises",
    "DGA.Mx.jacobian_diag",
    "DGA.Mx.jacobian_injective",
    "DGA.Mx.alpha_tradeoff"
   ],
   "note": ""
  },
  {
   "property": "C89",
   "status": "proved",
   "theorems": [
    "DGA.Mx.entropyPosneg_spec",
    "DGA.Mx.rootOff_exists",
    "DGA.Mx.rootOff_unique",
    "DGA.Mx.rootOff_maximises",
    "DGA.Mx.jacobian_off",
    "DGA.Mx.jacobian_off_injective"
   ],
   "note": ""
  },
  {
   "property": "C90",
   "status": "proved",
   "theorems": [
    "DGA.Mx.diag_signs",
    "DGA.Mx.off_signs",
    "DGA.Mx.chi2_nonneg",
    "DGA.Mx.optimum_vs_model",
    "DGA.Mx.lambda_eig_nonneg",
    "DGA.Mx.bayes_bounds"
   ],
   "note": ""
  },
  {
   "property": "C91",
   "status": "proved",
   "theorems": [
    "DGA.Mx.chi2_covariance",
    "DGA.Mx.chi2_stdev",
    "DGA.Mx.backtransform_eq",
    "DGA.Mx.chooseErr_cases",
    "DGA.Mx.nSv_off_by_one",
    "DGA.Mx.dropped_ignored",
    "DGA.Mx.chi2_real_covariance",
    "DGA.Mx.chi2_real_stdev",
    "DGA.Mx.truncation_error"
   ],
   "note": ""
  },
  {
   "property": "C92",
   "status": "proved",
   "theorems": [
    "DGA.Mx.newton_spec",
    "DGA.Mx.step_bound",
    "DGA.Mx.converged_full_step",
    "DGA.Mx.newton_solution",
    "DGA.Mx.newton_maxent",
    "DGA.Mx.newton_at_root",
    "DGA.Mx.newton_empty"
   ],
   "note": ""
  },
  {
   "property": "C93",
   "status": "proved",
   "theorems": [
    "DGA.Mx.kink_scan",
    "DGA.Mx.kink_forever",
    "DGA.Mx.kinkState_spec",
    "DGA.Mx.kink_result",
    "DGA.Mx.kink_all_fail",
    "DGA.Mx.scan_result",
    "DGA.Mx.finishRoot_overwrites",
    "DGA.Mx.bryan_convex",
    "DGA.Mx.bryanLoop_result",
    "DGA.Mx.bryan_result",
    "DGA.Mx.dispatch_spec",
    "DGA.Mx.solveRoot_result",
    "DGA.Mx.solveRoot_raises",
    "DGA.Mx.predictAlpha_exact",
    "DGA.Mx.predictAlpha_between"
   ],
   "note": ""
  },
  {
   "property": "C94",
   "status": "proved",
   "theorems": [
    "DGA.Mx.freqBosonic_spec",
    "DGA.Mx.timeBosRaw_spec",
    "DGA.Mx.timeBos_limit",
    "DGA.Mx.timeBos_first_column",
    "DGA.Mx.timeFermionic_spec",
    "DGA.Mx.freqFermionic_parts",
    "DGA.Mx.phsym_kernels",
    "DGA.Mx.xyz_spec",
    "DGA.Mx.blurBose_spec",
    "DGA.Mx.blurFermi_spec",
    "DGA.Mx.blurCall_iff",
    "DGA.Mx.blur_quadrature"
   ],
   "note": ""
  },
  {
   "property": "C95",
   "status": "proved",
   "theorems": [
    "DGA.Mx.timeFermionic_scaling",
    "DGA.Mx.timeBosonic_scaling",
    "DGA.Mx.mkProb_refused",
    "DGA.Mx.solveMethod_iff",
    "DGA.Mx.phsym_data_lost",
    "DGA.Mx.timePhsym_not_rescaled"
   ],
   "note": ""
  },
  {
   "property": "C96",
   "status": "proved",
   "theorems": [
    "DGA.Spmd.collectives_agree",
    "DGA.Spmd.run_progress",
    "DGA.Spmd.run_bounded",
    "DGA.Spmd.run_completes",
    "DGA.Spmd.exit_together",
    "DGA.Spmd.progress",
    "DGA.Spmd.steps_bounded"
   ],
   "note": ""
  },
  {
   "property": "C97",
   "status": "proved",
   "theorems": [
    "DGA.Spmd.reads_see_writes",
    "DGA.Spmd.run_result"
   ],
   "note": ""
  },
  {
   "property": "C98",
   "status": "proved",
   "theorems": [
    "DGA.Spmd.next_succeeds",
    "DGA.Spmd.run_root_result"
   ],
   "note": ""
  },
  {
   "property": "C99",
   "status": "proved",
   "theorems": [
    "DGA.Spmd.eliash_without_pairing_hangs",
    "DGA.Spmd.optics_without_bubble_hangs",
    "DGA.Spmd.continuation_grid_mismatch_hangs",
    "DGA.Spmd.scatter_too_few_rows",
    "DGA.Spmd.irrk2fbz_too_few_rows",
    "DGA.Spmd.gathered_rows",
    "DGA.Spmd.few_frequencies_hang",
    "DGA.Spmd.fits_on_3d_grid_hang",
    "DGA.Spmd.small_grid_hangs"
   ],
   "note": ""
  },
  {
   "property": "C100",
   "status": "proved",
   "theorems": [
    "DGA.Cfg.option_value",
    "DGA.Cfg.option_takes_effect",
    "DGA.Cfg.option_independent",
    "DGA.Cfg.misplaced_option_ignored",
    "DGA.Cfg.unknown_option_stored",
    "DGA.Cfg.subconfig_kept",
    "DGA.Cfg.poly_fitting_flag",
    "DGA.Cfg.eliash_option",
    "DGA.Cfg.eliash_gap0_overwritten",
    "DGA.Cfg.property_shadows_option",
    "DGA.Cfg.setFromObj_value",
    "DGA.Cfg.setFromObj_class_attribute",
    "DGA.Cfg.saved_config",
    "DGA.Cfg.saved_config_nested",
    "DGA.Cfg.default_box_ignored",
    "DGA.Cfg.eliash_gap0_table",
    "DGA.Cfg.eliash_defaults",
    "DGA.Cfg.box_attributes",
    "DGA.Cfg.dga_class_defaults",
    "DGA.Cfg.default_config_neutral",
    "DGA.Cfg.default_pairing_neutral"
   ],
   "note": ""
  },
  {
   "property": "C101",
   "status": "proved",
   "theorems": [
    "DGA.Eli.iter_converges",
    "DGA.Eli.power_iteration_converges",
    "DGA.Eli.leading_eigenvalue",
    "DGA.Eli.shifted_converges",
    "DGA.Eli.two_runs_leading",
    "DGA.Eli.eliashberg_leading",
    "DGA.Eli.second_eigenvalue",
    "DGA.Eli.second_gap_eigenvector_iff",
    "DGA.Eli.second_gap_wrong"
   ],
   "note": "Convergence is stated for the unlimited iteration `iter`; powerLoop_stop (C35) and power_iteration_converges tie it to power_iteration with its stopping rule. All theorems assume no Rayleigh quotient vanishes on the way (the code divides by it)."
  },
  {
   "property": "C102",
   "status": "proved",
   "theorems": [
    "DGA.Inp.buildG2_value",
    "DGA.Inp.buildG2_refuses",
    "DGA.Inp.restart_same",
    "DGA.Inp.tab_surjective",
    "DGA.Inp.magn_size_unchecked",
    "DGA.Inp.g2FromInput_value"
   ],
   "note": "finding: the size of the magnetic data is not checked"
  },
  {
   "property": "C103",
   "status": "proved",
   "theorems": [
    "DGA.Inp.load1p_types",
    "DGA.Inp.loadW2dyn_value",
    "DGA.Inp.loadEd_value",
    "DGA.Inp.loadDefault_value",
    "DGA.Inp.load_then_build",
    "DGA.Inp.truncated_file_shifted",
    "DGA.Inp.halfSum_value",
    "DGA.Inp.getChi_value"
   ],
   "note": "finding: a truncated symmetrised file is read with shifted bosonic frequencies"
  },
  {
   "property": "C104",
   "status": "proved",
   "theorems": [
    "DGA.Pipe.uasympt_value",
    "DGA.Pipe.uasympt_zero_shell",
    "DGA.Pipe.uasympt_chir",
    "DGA.Pipe.gchirQ_value"
   ],
   "note": "the variant from the susceptibility passes u as the axis and raises for every non-integer u (uasympt_chir); the equality of the routes is proved for the two values of u for which it works"
  },
  {
   "property": "C105",
   "status": "proved",
   "theorems": [
    "DGA.Pf.polyFit_value",
    "DGA.Pf.polyFit_symmetric",
    "DGA.Pf.polyFit_raises",
    "DGA.Pf.dgaPolyFit_even",
    "DGA.Pf.dgaPolyFit_odd_wrong",
    "DGA.Pf.dmft_map_exact",
    "DGA.Pf.polyFit_value_any"
   ],
   "note": ""
  },
  {
   "property": "C106",
   "status": "proved",
   "theorems": [
    "DGA.Pade.jac_correct",
    "DGA.Pade.jac_odd",
    "DGA.Pade.start_is_inverse",
    "DGA.Pade.padeErr_zero_iff",
    "DGA.Pade.rational_zero_residual",
    "DGA.Pade.acPade_spec"
   ],
   "note": ""
  },
  {
   "property": "C107",
   "status": "proved",
   "theorems": [
    "DGA.Mf.frequencies_of_real_beta",
    "DGA.Mf.integer_beta_is_not_a_temperature",
    "DGA.Mf.indices_of_array"
   ],
   "note": "the integer overload is a finding; dispatch by the types of positional arguments is assumed of the multimethod package"
  },
  {
   "property": "C108",
   "status": "proved",
   "theorems": [
    "DGA.Mf.centered_sum_value",
    "DGA.Mf.centered_sum_full",
    "DGA.Mf.centered_sum_misfit",
    "DGA.Mf.centered_sum_conj",
    "DGA.Mf.centered_sum_odd",
    "DGA.Mf.centered_sum_all",
    "DGA.Mf.wnSum_value",
    "DGA.Mf.clipPos_value"
   ],
   "note": ""
  },
  {
   "property": "C109",
   "status": "proved",
   "theorems": [
    "DGA.Mf.crossing_value",
    "DGA.Mf.crossing_channels"
   ],
   "note": ""
  },
  {
   "property": "C110",
   "status": "proved",
   "theorems": [
    "DGA.RankFiles.no_open_handle",
    "DGA.RankFiles.withBlock_value",
    "DGA.RankFiles.withBlock_complete",
    "DGA.RankFiles.withBlock_interrupted",
    "DGA.RankFiles.leftover_groups_raise",
    "DGA.RankFiles.no_file_raises",
    "DGA.RankFiles.deleted_stays_deleted"
   ],
   "note": ""
  },
  {
   "property": "C111",
   "status": "proved",
   "theorems": [
    "DGA.Bz.nkIrr_value",
    "DGA.Bz.mesh_list_inverse",
    "DGA.Bz.indTuple_eq",
    "DGA.Bz.kAxis_value",
    "DGA.Bz.gamma_on_shifted_axis",
    "DGA.Bz.pi_shift_axis",
    "DGA.Bz.irrKmesh_value",
    "DGA.Bz.bzMasks_value",
    "DGA.Bz.nkIrr_xyInversion"
   ],
   "note": ""
  },
  {
   "property": "C112",
   "status": "proved",
   "theorems": [
    "DGA.Ana.maxEnt_value",
    "DGA.Ana.maxEnt_too_many",
    "DGA.Ana.checkFilling_value",
    "DGA.Ana.bwRange_value",
    "DGA.Ana.peaks_normalised"
   ],
   "note": ""
  },
  {
   "property": "C113",
   "status": "proved",
   "theorems": [
    "DGA.Oz.ozGrid_value",
    "DGA.Oz.oz_shape",
    "DGA.Oz.maximum_on_grid",
    "DGA.Oz.oz_symmetric",
    "DGA.Oz.oz_not_z_symmetric",
    "DGA.Oz.fit_exact",
    "DGA.Oz.failure_marker"
   ],
   "note": ""
  },
  {
   "property": "C114",
   "status": "proved",
   "theorems": [
    "DGA.Two.history_irrelevant",
    "DGA.Two.gf_value",
    "DGA.Two.fs_value",
    "DGA.Two.negative_tail",
    "DGA.Two.broadcast_local",
    "DGA.Two.newGf_raises",
    "DGA.Two.sigmaConst_value",
    "DGA.Two.sigmaConst_constant_iff",
    "DGA.Two.no_tail"
   ],
   "note": "fs(pi_shift=True) is the same array shifted in momentum (C12) and not repeated here"
  },
  {
   "property": "C115",
   "status": "proved",
   "theorems": [
    "DGA.Mf.cutV_nd",
    "DGA.Mf.invCutV_nd",
    "DGA.Mf.cutW_nd",
    "DGA.Mf.cutIvShift_nd",
    "DGA.Mf.cutV_axes_irrelevant",
    "DGA.Mf.alongAll_bad_axis"
   ],
   "note": ""
  },
  {
   "property": "C116",
   "status": "proved",
   "theorems": [
    "DGA.Eli.getEig_sym",
    "DGA.Eli.symmetrised_spectrum",
    "DGA.Eli.kernel_symGamma",
    "DGA.Eli.linearEliashberg_eq",
    "DGA.Eli.driver_total",
    "DGA.Eli.d_wave_stays",
    "DGA.Eli.d_wave_nodes",
    "DGA.Eli.p_wave_stays",
    "DGA.Eli.frequency_parity_stays",
    "DGA.Eli.d_wave_symmetrisation_irrelevant",
    "DGA.Eli.p_wave_default_is_annihilated"
   ],
   "note": "exact arithmetic: in floating point the annihilated p-wave start gap leaves rounding noise"
  },
  {
   "property": "C117",
   "status": "proved",
   "theorems": [
    "DGA.Pairing.buildPairing_value",
    "DGA.Pairing.Saved.symmetries",
    "DGA.Pairing.Saved.reported_eigenvalues_real",
    "DGA.Pairing.saved_d_wave",
    "DGA.Pairing.saved_leading",
    "DGA.Pairing.saved_exists",
    "DGA.Eli.eigenvalues_real"
   ],
   "note": "with a shift: eigenvalues_real covers it when the shift is real."
  },
  {
   "property": "C118",
   "status": "proved",
   "theorems": [
    "DGA.Eli.symmetrised_runs",
    "DGA.Eli.symmetrised_reported",
    "DGA.Eli.projected_decomposition",
    "DGA.Pairing.saved_eigenvalues_real",
    "DGA.Pairing.saved_reported"
   ],
   "note": ""
  },
  {
   "property": "C119",
   "status": "proved",
   "theorems": [
    "DGA.Lam.newton_quarter",
    "DGA.Lam.search_converges_within",
    "DGA.Lam.default_search_converges",
    "DGA.Lam.returned_sum_rule",
    "DGA.Lam.spch_sum_rules",
    "DGA.Lam.sp_sum_rule"
   ],
   "note": ""
  },
  {
   "property": "C120",
   "status": "proved",
   "theorems": [
    "Calc.pp_value",
    "DGA.Pairing.saved_is_ladder",
    "DGA.Pairing.components_value",
    "Calc.H_eq",
    "Calc.comp_value",
    "DGA.Pairing.regular_const",
    "DGA.Pairing.vertexLam_none"
   ],
   "note": ""
  },
  {
   "property": "C121",
   "status": "proved",
   "theorems": [
    "DGA.Cfg.accepted_iff",
    "DGA.Cfg.no_idle_process",
    "DGA.Cfg.lattice_band",
    "DGA.Cfg.limit_on_wrong_grid",
    "DGA.Cfg.square_limit",
    "DGA.Cfg.empty_section_refused",
    "DGA.Cfg.symEntry_iff",
    "DGA.Cfg.refusals"
   ],
   "note": ""
  },
  {
   "property": "C122",
   "status": "proved",
   "theorems": [
    "DGA.Two.postFilling_eq",
    "DGA.Two.postAdjustMu_eq",
    "DGA.Two.undamped_objective_constant",
    "DGA.Two.indicator_switches",
    "DGA.Two.indicator_value",
    "DGA.Two.nearest_spec",
    "DGA.Two.fermiSurface_value",
    "DGA.Two.awAt_mean",
    "DGA.Two.getGwkTb_value"
   ],
   "note": ""
  },
  {
   "property": "C123",
   "status": "proved",
   "theorems": [
    "DGA.Fp.localGchiAux_eq",
    "DGA.Fp.gchiAuxAsympt_full_range_raises",
    "DGA.Fp.gchiAuxAsympt_single",
    "DGA.Fp.ladderVertex_eq",
    "DGA.Fp.appendShell4_eq"
   ],
   "note": ""
  },
  {
   "property": "C124",
   "status": "proved",
   "theorems": [
    "DGA.Wr.run_frame",
    "DGA.Wr.runStep_frame",
    "DGA.Wr.history_keeps"
   ],
   "note": ""
  },
  {
   "property": "C125",
   "status": "proved",
   "theorems": [
    "DGA.Wr.ranks_disjoint",
    "DGA.Wr.one_value_per_file",
    "DGA.Wr.ladder_check_overwritten",
    "DGA.Wr.content_of_owner",
    "DGA.Wr.schedule_independent",
    "DGA.Wr.program_order",
    "DGA.Wr.run_succeeds",
    "DGA.Wr.deletes_only",
    "DGA.Wr.written_stays",
    "DGA.Wr.models_agree"
   ],
   "note": "the exception named in the statement is proved to happen in every run (ladder_check_overwritten)"
  },
  {
   "property": "C126",
   "status": "proved",
   "theorems": [
    "DGA.Pade.solve_spec",
    "DGA.Pade.solve_recovers",
    "DGA.Pade.discrete_spectrum_invisible",
    "DGA.Pade.aList_drops_last"
   ],
   "note": ""
  },
  {
   "property": "C127",
   "status": "proved",
   "theorems": [
    "DGA.Sym.run_value",
    "DGA.Sym.run_then_read",
    "DGA.Sym.run_box_off_centre",
    "DGA.Sym.count_test",
    "DGA.Sym.run_keeps_existing",
    "DGA.Sym.run_blocked",
    "DGA.Sym.run_needs_worm_last",
    "DGA.Sym.run_even_raises",
    "DGA.Sym.run1f_overwrites"
   ],
   "note": ""
  },
  {
   "property": "C128",
   "status": "proved",
   "theorems": [
    "DGA.Pipe.dga_run",
    "DGA.Pipe.run_is_self_energy",
    "DGA.Pipe.run_returns",
    "DGA.Pipe.run_unknown_mode",
    "DGA.Pipe.run_rank_independent",
    "DGA.Pipe.run_conj_symmetric",
    "DGA.Pipe.run_sum_rules",
    "DGA.Pipe.run_sum_rule_sp",
    "Ex2.run_spch",
    "DGA.Lam.spch_sum_rules_complex",
    "DGA.Lam.sp_sum_rule_complex",
    "DGA.Lam.Sectorial.default_converges",
    "DGA.Lam.Sectorial.default_single",
    "DGA.Lam.Sectorial.returned",
    "DGA.Lam.Sectorial.search_converges_within",
    "DGA.Lam.Physical.sectorial",
    "DGA.Lam.unstable_example"
   ],
   "note": "the momentum-diagonal arithmetic is exact; requirements on the susceptibilities (cone) are hypotheses about the physical ladder susceptibilities, met by the example run_spch"
  },
  {
   "property": "C129",
   "status": "proved",
   "theorems": [
    "DGA.Pipe.main_run",
    "DGA.Pipe.main_run_conj",
    "DGA.Pipe.worm_to_dict",
    "DGA.Pipe.worm_run",
    "DGA.Pipe.default_box_fits",
    "DGA.Pipe.sigma_inside",
    "DGA.Pipe.gLoc_ne_zero",
    "DGA.Pipe.run_is_dga",
    "Ex3.returns"
   ],
   "note": "Composition of the models of the loader, box sizes, symmetrisation, band, Green function, local part, ladder, lambda correction, SDE and saved object. Assumed: band type t_tp_tpp, a causal self-energy, no vanishing bubble, exact arithmetic; no epsilon/mu adjustment. IsDga is conditional on solvable ladders with non-vanishing physical susceptibility (as in C128). Ex3: concrete file on which the program returns."
  },
  {
   "property": "C130",
   "status": "proved",
   "theorems": [
    "DGA.Pairing.Files.eli_run",
    "DGA.Pairing.Files.eli_real",
    "DGA.Pairing.Files.eli_d_wave",
    "DGA.Pairing.Files.eli_kernel",
    "DGA.Pairing.Files.eli_vertex",
    "DGA.Pairing.Files.eli_returns",
    "DGA.Pairing.Files.run_of_sde",
    "DGA.Pairing.Files.eli_chain",
    "DGA.Pairing.pvFiles_written"
   ],
   "note": "eli_real is for runs without shift (the default of the program is a shifted second run, whose shift comes from a random complex start); for shifted runs C118 gives convergence to the largest eigenvalue. Newton and the random numbers are arbitrary."
  },
  {
   "property": "C131",
   "status": "proved",
   "theorems": [
    "DGA.Pairing.Files.eli_ranks",
    "DGA.Pairing.Files.calcFrom_ranks"
   ],
   "note": "Exact arithmetic: allreduce sums in floating point depend on the order, which is not modelled. Input as in C130."
  },
  {
   "property": "C132",
   "status": "proved",
   "theorems": [
    "DGA.Report.main_report",
    "DGA.Report.report_returns",
    "DGA.Report.uniform_is_ladder",
    "DGA.Report.potential_depends",
    "DGA.Two.gf_energies"
   ],
   "note": "columns as stated; the fourth column of energies.txt is refuted as DMFT value (potential_depends, last clause of main_report); the rounding of savetxt is not modelled"
  },
  {
   "property": "C133",
   "status": "proved",
   "theorems": [
    "DGA.Pairing.Files.opt_run",
    "DGA.Pairing.Files.opt_default",
    "DGA.Pairing.Files.opt_ranks",
    "DGA.Pairing.Files.opt_returns",
    "DGA.Pairing.Files.opt_bubble",
    "DGA.Pairing.Files.opt_vert",
    "DGA.Pairing.Files.opt_vertex"
   ],
   "note": "hypothesis: number of bosonic frequencies <= shell + asymptotic range (otherwise the slices of the Green function wrap); (f) states what is stored, including the zeros at negative transfers"
  },
  {
   "property": "C134",
   "status": "proved",
   "theorems": [
    "DGA.Pipe.lattice_of_table",
    "DGA.Pipe.saved_table",
    "DGA.Pipe.saved_square",
    "DGA.Pipe.squareRows_table"
   ],
   "note": "decimal to float rounding on reading is not modelled (C80); Ex4: concrete file"
  },
  {
   "property": "C135",
   "status": "proved",
   "theorems": [
    "DGA.Pipe.program_iff",
    "DGA.Pipe.program_lattice",
    "DGA.Pipe.program_main_run",
    "Ex4.both_return"
   ],
   "note": "configurations without optics section and with equal momentum grids for Green function and ladder; option values of the expected type"
  },
  {
   "property": "C136",
   "status": "proved",
   "theorems": [
    "DGA.Whole.all_iff",
    "DGA.Whole.all_ranks",
    "DGA.Whole.all_consistent",
    "DGA.Whole.all_bubble",
    "DGA.Whole.all_returns",
    "DGA.Whole.plan_iff",
    "DGA.Whole.program_all_iff",
    "DGA.Whole.ex_returns"
   ],
   "note": "polynomial fits, plots and continuations to real frequencies not part of the complete run; pairing vertex without Eliashberg equation and optics sections with max_ent are outside the model"
  },
  {
   "property": "C137",
   "status": "proved",
   "theorems": [
    "DGA.Shared.shared_written",
    "DGA.Shared.shared_optics",
    "DGA.Shared.shared_fq",
    "DGA.Shared.shared_pairing",
    "DGA.Shared.run_pairing",
    "DGA.Shared.run_optics",
    "DGA.Shared.run_fq",
    "DGA.Shared.run_returns",
    "DGA.Shared.files_run"
   ],
   "note": "One HDF5 file per rank modelled dataset by dataset, both channels, three kinds of slices; the loaders return what files of their own per component would give (the files of C05, C07, C110, C130, C133)."
  },
  {
   "property": "C138",
   "status": "proved",
   "theorems": [
    "DGA.Pairing.Files.fq_returns",
    "DGA.Pairing.Files.fq_independent",
    "DGA.Pairing.Files.fq_shape",
    "DGA.Pairing.Files.fq_value"
   ],
   "note": "Complete run from the files on disk to F_dens/F_magn through the shared rank files of C137; the zero entries at negative bosonic frequencies are the defect of C05 seen end to end."
  },
  {
   "property": "C139",
   "status": "proved",
   "theorems": [
    "DGA.Pade.Driver.loop_value",
    "DGA.Pade.Driver.pade_exit_iff",
    "DGA.Pade.Driver.pade_returns",
    "DGA.Pade.Driver.pade_mean_defined_iff",
    "DGA.Pade.Driver.cont_exact",
    "DGA.Pade.Driver.pade_exact",
    "DGA.Pade.Driver.cont_saturates"
   ],
   "note": "exact arithmetic; numpy least squares enters through: it returns an exact solution of the linear system if one exists"
  },
  {
   "property": "C140",
   "status": "proved",
   "theorems": [
    "DGA.Whole.one_iff",
    "DGA.Whole.one_ranks",
    "DGA.Whole.one_box",
    "DGA.Whole.one_returns",
    "DGA.Whole.program_one_iff"
   ],
   "note": "Polynomial fits, plots (except where they raise) and continuations to real frequencies not part of the run; the local quantities and ladders are shared by all parts (same deterministic calls)."
  },
  {
   "property": "C141",
   "status": "proved",
   "theorems": [
    "DGA.Whole.poly_iff",
    "DGA.Whole.poly_values",
    "DGA.Whole.poly_ranks",
    "DGA.Whole.program_poly_iff"
   ],
   "note": "The fit of one row is an arbitrary function (C66 states what get_gamma_bandshift_z returns); plots are left out; float beta; n_fit > 0, o_fit >= 0."
  },
  {
   "property": "C142",
   "status": "proved",
   "theorems": [
    "DGA.Whole.cond_iff",
    "DGA.Whole.maxEnt_values",
    "DGA.Whole.loaded_value",
    "DGA.Whole.conts_values",
    "DGA.Whole.conts_split",
    "DGA.Whole.conts_ranks",
    "DGA.Whole.maxEnt_ranks",
    "DGA.Whole.maxEnt_returns",
    "DGA.Whole.conts_returns",
    "DGA.Whole.maxEnt_even",
    "DGA.Whole.symmetric_meshes"
   ],
   "note": "of the figures drawn in between, those along the paths are added in C150 and C151 (they can make the program raise); the other plots are not modelled"
  },
  {
   "property": "C143",
   "status": "proved",
   "theorems": [
    "DGA.Optics.mesh_value",
    "DGA.Optics.shift_is_frequency_iff",
    "DGA.Optics.kinds_odd",
    "DGA.Optics.tan_mesh_value",
    "DGA.Optics.tan_overshoots",
    "DGA.Optics.mesh_even_raises",
    "DGA.Optics.kinds_even"
   ],
   "note": ""
  },
  {
   "property": "C144",
   "status": "proved",
   "theorems": [
    "DGA.Whole.program_conts_iff",
    "DGA.Whole.conts_plan_iff",
    "DGA.Whole.program_empty",
    "DGA.Whole.sub_defaults",
    "DGA.Whole.conts_even"
   ],
   "note": "of the figures drawn in between, those along the paths are added in C150 and C151 (they can make the program raise); the other plots are not modelled"
  },
  {
   "property": "C145",
   "status": "proved",
   "theorems": [
    "DGA.Whole.start_report",
    "DGA.Whole.start_report_empty",
    "DGA.Whole.memory_dga",
    "DGA.Whole.memory_dmft",
    "DGA.Whole.memory_bubbles",
    "DGA.Whole.memory_vrg",
    "DGA.Whole.memory_fcond",
    "DGA.Whole.giw_irrelevant"
   ],
   "note": "memory_dga/memory_dmft/memory_bubbles/memory_vrg/memory_fcond compare the announced numbers with the arrays the run builds"
  },
  {
   "property": "C146",
   "status": "proved",
   "theorems": [
    "DGA.KPath.fermi_crossing",
    "DGA.KPath.looked_at_once",
    "DGA.KPath.last_never",
    "DGA.KPath.crossing_fails",
    "DGA.KPath.path_crossing"
   ],
   "note": ""
  },
  {
   "property": "C147",
   "status": "proved",
   "theorems": [
    "DGA.Sym.out_stem",
    "DGA.Sym.out_same",
    "DGA.Sym.calls_keep",
    "DGA.Sym.call_elsewhere",
    "DGA.Sym.same_stem_blocks",
    "DGA.Sym.sym1b_files",
    "DGA.Sym.command_value"
   ],
   "note": "The interactive questions (ask_for_input) are not modelled for the names."
  },
  {
   "property": "C148",
   "status": "proved",
   "theorems": [
    "DGA.Two.dampFloor_spec",
    "DGA.Two.floor_least",
    "DGA.Two.post_value",
    "DGA.Two.post_causal",
    "DGA.Two.mu_lda_is_start",
    "DGA.Two.floor_vs_added",
    "DGA.Two.labels_off"
   ],
   "note": "scipy.optimize.minimize is a parameter; find_zeros (contour lines of matplotlib) is not modelled."
  },
  {
   "property": "C149",
   "status": "proved",
   "theorems": [
    "DGA.Whole.post_of_run",
    "DGA.Whole.post_of_maxEnt",
    "DGA.Whole.orZeros_causal",
    "DGA.Whole.good_of",
    "DGA.Whole.swk_flat"
   ],
   "note": "the optimiser is a parameter; that its spectra are non-negative is a hypothesis"
  },
  {
   "property": "C150",
   "status": "proved",
   "theorems": [
    "DGA.KPath.prepare_iff",
    "DGA.KPath.prepare_raises",
    "DGA.KPath.ticks_iff",
    "DGA.KPath.dispersion_iff",
    "DGA.KPath.dispersion_full",
    "DGA.KPath.dispersion_value",
    "DGA.KPath.chi_iff",
    "DGA.KPath.chi_value",
    "DGA.KPath.failed_row",
    "DGA.KPath.failed_window",
    "DGA.KPath.prepared",
    "DGA.KPath.paths_have_points"
   ],
   "note": "matplotlib calls are not modelled; only the numbers passed to them and the exceptions raised before"
  },
  {
   "property": "C151",
   "status": "proved",
   "theorems": [
    "DGA.Whole.drawn_iff",
    "DGA.Whole.drawn_named",
    "DGA.Whole.never_drawn",
    "DGA.Whole.drawn_values"
   ],
   "note": "figures other than those along the paths are not modelled; in the code a figure comes directly after its continuation"
  },
  {
   "property": "C152",
   "status": "proved",
   "theorems": [
    "DGA.Whole.plotted_iff",
    "DGA.Whole.plotted_values",
    "DGA.Whole.fermi_points",
    "DGA.Whole.never_plotted",
    "DGA.Whole.ranks_complete",
    "DGA.Whole.plotted_iff_completes"
   ],
   "note": "matplotlib enters through what it refuses (contour: two rows and columns; pcolormesh: a two-dimensional array fitting its axes); figures that refuse nothing are left out"
  }
 ]
}