{
 "claims": [
  {
   "property": "C01",
   "status": "proved",
   "theorems": [
    "FFTW.Api.C01_guru_dft",
    "FFTW.Api.C01_many_dft",
    "FFTW.Api.C01_plan_dft"
   ],
   "note": ""
  },
  {
   "property": "C02",
   "status": "proved",
   "theorems": [
    "FFTW.Api.C02_writes_only_user_arrays"
   ],
   "note": ""
  },
  {
   "property": "C03",
   "status": "proved",
   "theorems": [
    "FFTW.Api.C03_preserve_input"
   ],
   "note": ""
  },
  {
   "property": "C04",
   "status": "proved",
   "theorems": [
    "FFTW.Planner.C04_planner_returns_only_correct_plans",
    "FFTW.Planner.C04_api_returns_only_correct_plans",
    "FFTW.Registered.C04_standard_dft_solvers",
    "FFTW.Registered.C04_standard_rdft_solvers",
    "FFTW.Registered.C04_library"
   ],
   "note": ""
  },
  {
   "property": "C05",
   "status": "proved",
   "theorems": [
    "FFTW.Api.C05_guru_execute_dft",
    "FFTW.Api.C05_many_execute_dft",
    "FFTW.Api.C05_guru_split_dft"
   ],
   "note": ""
  },
  {
   "property": "C06",
   "status": "proved",
   "theorems": [
    "FFTW.Api.C06_backward_inverts",
    "FFTW.Api.C06_roundtrip"
   ],
   "note": ""
  },
  {
   "property": "C07",
   "status": "proved",
   "theorems": [
    "FFTW.Tensor.C07_compress_same_transform",
    "FFTW.Tensor.C07_compress_same_locations",
    "FFTW.Tensor.C07_compressContiguous_same_batch",
    "FFTW.Tensor.C07_batch_order_irrelevant",
    "FFTW.Tensor.C07_same_size"
   ],
   "note": ""
  },
  {
   "property": "C08",
   "status": "proved",
   "theorems": [
    "FFTW.Planner.C08_unsolvable_gives_null",
    "FFTW.Tensor.C08_inplaceLocations",
    "FFTW.Tensor.C08_dft_unsolvable",
    "FFTW.Tensor.C08_rdft_unsolvable",
    "FFTW.Tensor.C08_accepts"
   ],
   "note": ""
  },
  {
   "property": "C09",
   "status": "proved",
   "theorems": [
    "FFTW.Props.C09_first_divisor",
    "FFTW.Props.C09_first_divisor_trivial",
    "FFTW.Props.C09_first_divisor_overflows",
    "FFTW.Props.C09_is_prime",
    "FFTW.Props.C09_next_prime",
    "FFTW.Props.C09_factors_into",
    "FFTW.Props.C09_factors_into_small_primes"
   ],
   "note": ""
  },
  {
   "property": "C10",
   "status": "proved",
   "theorems": [
    "FFTW.Props.C10_safe_mulmod",
    "FFTW.Props.C10_MULMOD",
    "FFTW.Props.C10_MULMOD_fast_path_32",
    "FFTW.Props.C10_power_mod",
    "FFTW.Props.C10_power_mod_one"
   ],
   "note": ""
  },
  {
   "property": "C11",
   "status": "proved",
   "theorems": [
    "FFTW.Props.C11_find_generator",
    "FFTW.Props.C11_generator_enumerates",
    "FFTW.Props.C11_get_prime_factors"
   ],
   "note": ""
  },
  {
   "property": "C12",
   "status": "proved",
   "theorems": [
    "FFTW.Props.C12_isqrt",
    "FFTW.Props.C12_isqrt_INT_MAX",
    "FFTW.Props.C12_choose_radix_divides",
    "FFTW.Props.C12_choose_radix_pos",
    "FFTW.Props.C12_choose_radix_zero",
    "FFTW.Props.C12_choose_radix_sqrt",
    "FFTW.Props.C12_modulo",
    "FFTW.Props.C12_mpi_choose_radix"
   ],
   "note": ""
  },
  {
   "property": "C13",
   "status": "proved",
   "theorems": [
    "FFTW.Props.C13_real_cexp",
    "FFTW.Props.C13_rotate_generic"
   ],
   "note": ""
  },
  {
   "property": "C14",
   "status": "proved",
   "theorems": [
    "FFTW.Props.C14_sqrtn_table",
    "FFTW.Props.C14_rotate_sqrtn",
    "FFTW.Props.C14_table_size"
   ],
   "note": ""
  },
  {
   "property": "C15",
   "status": "proved",
   "theorems": [
    "FFTW.Twiddle.C15_tables_valid_while_in_use",
    "FFTW.Twiddle.C15_all_freed",
    "FFTW.Twiddle.C15_table_length",
    "FFTW.Twiddle.C15_cexp_exact"
   ],
   "note": ""
  },
  {
   "property": "C16",
   "status": "proved",
   "theorems": [
    "FFTW.Planner.C16_table_is_the_abstract_set",
    "FFTW.Planner.C16_insert_removes_exactly_the_subsumed"
   ],
   "note": ""
  },
  {
   "property": "C17",
   "status": "proved",
   "theorems": [
    "FFTW.Planner.C17_prime_and_never_full",
    "FFTW.Planner.C17_probe_visits_each_slot_once",
    "FFTW.Planner.C17_operations_terminate",
    "FFTW.Planner.C17_planning_keeps_tables_well_formed",
    "FFTW.Planner.C17_new_planner"
   ],
   "note": ""
  },
  {
   "property": "C18",
   "status": "proved",
   "theorems": [
    "FFTW.Planner.C18_forget_everything",
    "FFTW.Planner.C18_forget_accursed",
    "FFTW.Planner.C18_plan_leaves_no_temporary_knowledge",
    "FFTW.Planner.C18_export_after_forget"
   ],
   "note": ""
  },
  {
   "property": "C19",
   "status": "proved",
   "theorems": [
    "FFTW.Planner.C19_file_roundtrip",
    "FFTW.Planner.C19_same_answers",
    "FFTW.Planner.C19_same_facts"
   ],
   "note": ""
  },
  {
   "property": "C20",
   "status": "proved",
   "theorems": [
    "FFTW.Planner.C20_failed_file_import",
    "FFTW.Planner.C20_failed_filename_import",
    "FFTW.Planner.C20_failed_system_import",
    "FFTW.Planner.C20_fclose",
    "FFTW.Planner.C20_failed_import_changes_nothing",
    "FFTW.Planner.C20_failed_string_import_changes_nothing",
    "FFTW.Planner.C20_import_touches_only_saved_wisdom"
   ],
   "note": ""
  },
  {
   "property": "C21",
   "status": "proved",
   "theorems": [
    "FFTW.Planner.C21_signature_is_md5_of_configuration",
    "FFTW.Planner.C21_message_determines_configuration",
    "FFTW.Planner.C21_success_means_matching_header_and_known_solvers",
    "FFTW.Planner.C21_success_means_this_version",
    "FFTW.Planner.C21_unknown_solver_refused",
    "FFTW.Planner.C21_other_configuration_refused"
   ],
   "note": ""
  },
  {
   "property": "C22",
   "status": "proved",
   "theorems": [
    "FFTW.Props.C22_export_to_string",
    "FFTW.Props.C22_export_to_file"
   ],
   "note": ""
  },
  {
   "property": "C23",
   "status": "proved",
   "theorems": [
    "FFTW.Props.C23_unsigned",
    "FFTW.Props.C23_signed",
    "FFTW.Props.C23_signed_min"
   ],
   "note": ""
  },
  {
   "property": "C24",
   "status": "proved",
   "theorems": [
    "FFTW.Props.C24_md5",
    "FFTW.Props.C24_puts",
    "FFTW.Props.C24_no_garbage"
   ],
   "note": ""
  },
  {
   "property": "C25",
   "status": "proved",
   "theorems": [
    "FFTW.Props.C25_lower",
    "FFTW.Props.C25_upper",
    "FFTW.Props.C25_preserve"
   ],
   "note": ""
  },
  {
   "property": "C26",
   "status": "proved",
   "theorems": [
    "FFTW.Props.C26_range",
    "FFTW.Props.C26_monotone",
    "FFTW.Props.C26_no_limit",
    "FFTW.Props.C26_stored"
   ],
   "note": ""
  },
  {
   "property": "C27",
   "status": "proved",
   "theorems": [
    "FFTW.Refcount.C27_never_dangling",
    "FFTW.Refcount.C27_lives_while_held",
    "FFTW.Refcount.C27_released_once",
    "FFTW.Refcount.C27_release_at_last_destroy",
    "FFTW.Refcount.C27_no_leak",
    "FFTW.Refcount.C27_bound_is_sharp"
   ],
   "note": ""
  },
  {
   "property": "C28",
   "status": "proved",
   "theorems": [
    "FFTW.Planner.C28_planner_never_searches",
    "FFTW.Planner.C28_api"
   ],
   "note": ""
  },
  {
   "property": "C29",
   "status": "proved",
   "theorems": [
    "FFTW.Planner.C29_settings_restored",
    "FFTW.Planner.C29_child_request_restores",
    "FFTW.Planner.C29_solver_call_restores"
   ],
   "note": ""
  },
  {
   "property": "C30",
   "status": "proved",
   "theorems": [
    "FFTW.Props.C30_partition",
    "FFTW.Props.C30_balanced",
    "FFTW.Props.C30_overflow",
    "FFTW.Props.C30_callback"
   ],
   "note": ""
  },
  {
   "property": "C31",
   "status": "proved",
   "theorems": [
    "FFTW.Props.C31_no_fault",
    "FFTW.Props.C31_runs_exactly_once",
    "FFTW.Props.C31_every_iteration",
    "FFTW.Props.C31_finish_after_start",
    "FFTW.Props.C31_workers_return",
    "FFTW.Props.C31_no_deadlock",
    "FFTW.Props.C31_terminates",
    "FFTW.Props.C31_cleanup",
    "FFTW.Props.C31_completes"
   ],
   "note": ""
  },
  {
   "property": "C32",
   "status": "proved",
   "theorems": [
    "FFTW.Copy.C32_cpy1d",
    "FFTW.Copy.C32_cpy2d",
    "FFTW.Copy.C32_cpy2d_tiled",
    "FFTW.Copy.C32_cpy2d_tiledbuf",
    "FFTW.Copy.C32_cpy2d_pair",
    "FFTW.Copy.C32_zero1d_pair",
    "FFTW.Copy.C32_transpose",
    "FFTW.Copy.C32_transpose_involutive",
    "FFTW.Copy.C32_tile2d_partition",
    "FFTW.Copy.C32_tilesz",
    "FFTW.Copy.C32_cpy2d_tiledbuf_buffer",
    "FFTW.Copy.C32_transpose_tiledbuf_buffer",
    "FFTW.Props.C32_rank0_solver"
   ],
   "note": ""
  },
  {
   "property": "C33",
   "status": "proved",
   "theorems": [
    "FFTW.RdftS.C33_toms513",
    "FFTW.RdftS.C33_solvers",
    "FFTW.RdftS.C33_guru_transpose"
   ],
   "note": ""
  },
  {
   "property": "C34",
   "status": "proved",
   "theorems": [
    "FFTW.RdftS.C34_r2hc_is_dft",
    "FFTW.RdftS.C34_r2hc_spectrum",
    "FFTW.RdftS.C34_hc2r_is_dft",
    "FFTW.RdftS.C34_hc2r_inverts_r2hc",
    "FFTW.RdftS.C34_generic",
    "FFTW.RdftS.C34_dht_r2hc",
    "FFTW.RdftS.C34_rdft_dht",
    "FFTW.RdftS.C34_dht_rader"
   ],
   "note": ""
  },
  {
   "property": "C35",
   "status": "proved",
   "theorems": [
    "FFTW.Reodft.C35_kernel_is_documented",
    "FFTW.Reodft.C35_sound_plans_compute",
    "FFTW.Reodft.C35_redft00_pad",
    "FFTW.Reodft.C35_rodft00_pad",
    "FFTW.Reodft.C35_reodft010",
    "FFTW.Reodft.C35_reodft11_radix2",
    "FFTW.Reodft.C35_reodft11_odd",
    "FFTW.Reodft.C35_reodft00_splitradix",
    "FFTW.Reodft.C35_inplace_transposed_wrong"
   ],
   "note": ""
  },
  {
   "property": "C36",
   "status": "proved",
   "theorems": [
    "FFTW.Api.C36_inverse_nd",
    "FFTW.Api.C36_roundtrip",
    "FFTW.RdftS.C36_inverse"
   ],
   "note": ""
  },
  {
   "property": "C37",
   "status": "proved",
   "theorems": [
    "FFTW.Props.C37_partition_1d",
    "FFTW.Props.C37_default_block",
    "FFTW.Props.C37_partition"
   ],
   "note": ""
  },
  {
   "property": "C38",
   "status": "proved",
   "theorems": [
    "FFTW.Props.C38_schedule",
    "FFTW.Props.C38_sorted"
   ],
   "note": ""
  },
  {
   "property": "C39",
   "status": "proved",
   "theorems": [
    "FFTW.Props.C39_rowmajor",
    "FFTW.Props.C39_kosher",
    "FFTW.Props.C39_pad",
    "FFTW.Props.C39_pad_aligns"
   ],
   "note": ""
  },
  {
   "property": "C40",
   "status": "proved",
   "theorems": [
    "FFTW.Props.C40_buffered_solver",
    "FFTW.Props.C40_nbuf",
    "FFTW.Props.C40_every_row_once",
    "FFTW.Props.C40_rounds",
    "FFTW.Props.C40_buffer_holds_rows",
    "FFTW.Registered.C40_rdft_buffered"
   ],
   "note": ""
  },
  {
   "property": "C41",
   "status": "proved",
   "theorems": [
    "FFTW.Props.C41_our_malloc",
    "FFTW.Props.C41_malloc_fails"
   ],
   "note": ""
  },
  {
   "property": "C42",
   "status": "proved",
   "theorems": [
    "FFTW.DftS.C42_dit_identity",
    "FFTW.DftS.C42_dif_identity",
    "FFTW.DftS.C42_ct_solver",
    "FFTW.DftS.C42_twiddle_step_generic",
    "FFTW.DftS.C42_ct_generic",
    "FFTW.DftS.C42_twiddle_step_genericbuf",
    "FFTW.DftS.C42_ct_genericbuf",
    "FFTW.Props.C42_hc2c_dit_identity",
    "FFTW.Props.C42_hc2c_dif_identity",
    "FFTW.Props.C42_ct_hc2c",
    "FFTW.Props.C42_hc_dit_identity",
    "FFTW.Props.C42_hc_dif_identity",
    "FFTW.Props.C42_hc2hc",
    "FFTW.Props.C42_hc_step_generic",
    "FFTW.Props.C42_hc2hc_generic"
   ],
   "note": ""
  },
  {
   "property": "C43",
   "status": "proved",
   "theorems": [
    "FFTW.DftS.C43_rader_solver",
    "FFTW.DftS.C43_rader_computes_dft",
    "FFTW.DftS.C43_convolution",
    "FFTW.RaderTl.C43_tables_live_while_used",
    "FFTW.RaderTl.C43_table_freed_by_last_user",
    "FFTW.RaderTl.C43_no_tables_when_all_asleep"
   ],
   "note": ""
  },
  {
   "property": "C44",
   "status": "proved",
   "theorems": [
    "FFTW.DftS.C44_bluestein_solver",
    "FFTW.DftS.C44_apply_any_size",
    "FFTW.DftS.C44_sequence",
    "FFTW.DftS.C44_transform_size"
   ],
   "note": ""
  },
  {
   "property": "C45",
   "status": "proved",
   "theorems": [
    "FFTW.DftS.C45_generic_computes_dft",
    "FFTW.DftS.C45_generic_solver"
   ],
   "note": ""
  },
  {
   "property": "C46",
   "status": "proved",
   "theorems": [
    "FFTW.Planner.C46_file_reader",
    "FFTW.Props.C46_mygets",
    "FFTW.Props.C46_mygets_refines",
    "FFTW.Props.C46_tight",
    "FFTW.Planner.C46_import_terminates"
   ],
   "note": ""
  },
  {
   "property": "C47",
   "status": "proved",
   "theorems": [
    "FFTW.Props.C47_notw_codelet",
    "FFTW.Props.C47_twiddle_codelet",
    "FFTW.Props.C47_twidsq_codelet",
    "FFTW.Props.C47_notw_runs",
    "FFTW.Props.C47_r2cf_codelet",
    "FFTW.Props.C47_r2cb_codelet",
    "FFTW.Props.C47_elided_stores",
    "FFTW.Props.C47_r2cf_runs",
    "FFTW.Props.C47_r2r_codelet",
    "FFTW.Props.C47_r2r_runs",
    "FFTW.Props.C47_generator_computes_dft",
    "FFTW.Props.C47_direct",
    "FFTW.Props.C47_cooley_tukey",
    "FFTW.Props.C47_prime_factor",
    "FFTW.Props.C47_split_radix_dit",
    "FFTW.Props.C47_split_radix_dif",
    "FFTW.Props.C47_newsplit",
    "FFTW.Props.C47_rader",
    "FFTW.Props.C47_find_generator",
    "FFTW.Props.C47_threemult",
    "FFTW.Props.C47_hc2c_codelet",
    "FFTW.Props.C47_hc2hc_codelet"
   ],
   "note": ""
  },
  {
   "property": "C48",
   "status": "proved",
   "theorems": [
    "FFTW.Planner.C48_keeps_a_cheapest_plan",
    "FFTW.Planner.C48_failure_means_all_failed"
   ],
   "note": ""
  },
  {
   "property": "C49",
   "status": "proved",
   "theorems": [
    "FFTW.Props.C49_inplace_exchange",
    "FFTW.Props.C49_every_interleaving"
   ],
   "note": ""
  },
  {
   "property": "C50",
   "status": "proved",
   "theorems": [
    "FFTW.Props.C50_dft_loop",
    "FFTW.Props.C50_dft_split",
    "FFTW.Props.C50_dft_indirect",
    "FFTW.Props.C50_dft_indirect_transpose",
    "FFTW.Props.C50_dft_nop",
    "FFTW.Props.C50_rdft_loop",
    "FFTW.Props.C50_rdft_split",
    "FFTW.Props.C50_rdft_indirect",
    "FFTW.Props.C50_rdft_nop"
   ],
   "note": ""
  },
  {
   "property": "C51",
   "status": "proved",
   "theorems": [
    "FFTW.Props.C51_dft_via_real",
    "FFTW.Props.C51_combine"
   ],
   "note": ""
  },
  {
   "property": "C52",
   "status": "proved",
   "theorems": [
    "FFTW.Props.C52_direct",
    "FFTW.Props.C52_directbuf",
    "FFTW.Props.C52_ct_direct",
    "FFTW.Props.C52_ct_directbuf",
    "FFTW.Props.C52_ct_directsq",
    "FFTW.Props.C52_direct_r2c",
    "FFTW.Props.C52_directbuf_r2c",
    "FFTW.Props.C52_direct2",
    "FFTW.Props.C52_direct_r2r",
    "FFTW.Props.C52_hc2c_direct",
    "FFTW.Props.C52_hc2hc_direct"
   ],
   "note": ""
  },
  {
   "property": "C53",
   "status": "proved",
   "theorems": [
    "FFTW.Api.C53_guru_r2r",
    "FFTW.Api.C53_many_r2r",
    "FFTW.Api.C53_plan_r2r"
   ],
   "note": ""
  },
  {
   "property": "C54",
   "status": "proved",
   "theorems": [
    "FFTW.Api.C54_guru_r2c",
    "FFTW.Api.C54_guru_c2r",
    "FFTW.Api.C54_guru_split_r2c",
    "FFTW.Api.C54_guru_split_c2r",
    "FFTW.Api.C54_many_r2c",
    "FFTW.Api.C54_many_c2r",
    "FFTW.Api.C54_plan_dft_r2c",
    "FFTW.Api.C54_plan_dft_c2r",
    "FFTW.Api.C54_c2r_inverts_r2c",
    "FFTW.Api.C54_roundtrip",
    "FFTW.Registered.C54_rdft2_loop",
    "FFTW.Registered.C54_rdft2_split",
    "FFTW.Registered.C54_rdft2_rank0",
    "FFTW.Registered.C54_rdft2_nop",
    "FFTW.Registered.C54_rdft2_rdft",
    "FFTW.Registered.C54_rdft2_buffered"
   ],
   "note": ""
  },
  {
   "property": "C55",
   "status": "proved",
   "theorems": [
    "FFTW.Props.C55_blocks",
    "FFTW.Props.C55_inner",
    "FFTW.Props.C55_spawnLoop_unit",
    "FFTW.Props.C55_dft_loop",
    "FFTW.Props.C55_rdft_loop",
    "FFTW.Props.C55_rdft2_loop",
    "FFTW.Props.C55_ct",
    "FFTW.Props.C55_hc2hc",
    "FFTW.Props.C55_no_race_loop",
    "FFTW.Props.C55_any_interleaving",
    "FFTW.Props.C55_race_free_threads",
    "FFTW.Props.C55_no_race_columns",
    "FFTW.Props.C55_no_race_hc_columns",
    "FFTW.Registered.C55_threaded_solvers",
    "FFTW.Registered.C55_same_results"
   ],
   "note": ""
  },
  {
   "property": "C56",
   "status": "proved",
   "theorems": [
    "FFTW.Props.C56_transposers_sound",
    "FFTW.Props.C56_plan_many_transpose",
    "FFTW.Props.C56_library"
   ],
   "note": ""
  },
  {
   "property": "C57",
   "status": "proved",
   "theorems": [
    "FFTW.Props.C57_solvers_sound",
    "FFTW.Props.C57_distributed_dft",
    "FFTW.Props.C57_library",
    "FFTW.Props.C57_radix"
   ],
   "note": ""
  },
  {
   "property": "C58",
   "status": "proved",
   "theorems": [
    "FFTW.Props.C58_guru_dft",
    "FFTW.Props.C58_plan_many_dft",
    "FFTW.Props.C58_transposed_out",
    "FFTW.Props.C58_transposed_in",
    "FFTW.Props.C58_plan_1d",
    "FFTW.Props.C58_layouts_match",
    "FFTW.Props.C58_roundtrip",
    "FFTW.Props.C58_library"
   ],
   "note": ""
  },
  {
   "property": "C59",
   "status": "proved",
   "theorems": [
    "FFTW.Props.C59_planner_in_step",
    "FFTW.Props.C59_apiplan_in_step",
    "FFTW.Props.C59_guru_dft",
    "FFTW.Props.C59_many_transpose"
   ],
   "note": ""
  },
  {
   "property": "C60",
   "status": "proved",
   "theorems": [
    "FFTW.Mpi.MWisdom.C60_gather",
    "FFTW.Mpi.MWisdom.C60_broadcast",
    "FFTW.Mpi.MWisdom.C60_gather_then_broadcast",
    "FFTW.Mpi.MWisdom.C60_other_configuration_aborts"
   ],
   "note": ""
  },
  {
   "property": "C61",
   "status": "proved",
   "theorems": [
    "FFTW.F77.C61_many_dft",
    "FFTW.F77.C61_dft",
    "FFTW.F77.C61_dft_1d",
    "FFTW.F77.C61_dft_2d",
    "FFTW.F77.C61_dft_3d",
    "FFTW.F77.C61_dft_2d_coordinates",
    "FFTW.F77.C61_guru_dft",
    "FFTW.F77.C61_many_r2c",
    "FFTW.F77.C61_many_c2r",
    "FFTW.F77.C61_dft_r2c",
    "FFTW.F77.C61_dft_c2r",
    "FFTW.F77.C61_r2c_low_rank",
    "FFTW.F77.C61_many_r2r",
    "FFTW.F77.C61_r2r",
    "FFTW.F77.C61_r2r_low_rank",
    "FFTW.F77.C61_guru_r2r_kinds_reversed",
    "FFTW.F77.C61_guru_r2c",
    "FFTW.F77.C61_guru_c2r",
    "FFTW.F77.C61_guru_split_r2c",
    "FFTW.F77.C61_guru_split_c2r",
    "FFTW.F77.C61_guru_split_dft",
    "FFTW.F77.C61_wisdom_roundtrip",
    "FFTW.F77.C61_failed_import",
    "FFTW.F77.C61_import_ends",
    "FFTW.F77.C61_negative_is_eof"
   ],
   "note": ""
  },
  {
   "property": "C62",
   "status": "proved",
   "theorems": [
    "FFTW.Props.C62_distributed_r2r",
    "FFTW.Props.C62_library",
    "FFTW.Props.C62_guru_r2r",
    "FFTW.Props.C62_planned_guru_r2r",
    "FFTW.Props.C62_plan_many_r2r",
    "FFTW.Props.C62_transposed_out",
    "FFTW.Props.C62_transposed_in",
    "FFTW.Props.C62_roundtrip"
   ],
   "note": ""
  },
  {
   "property": "C63",
   "status": "proved",
   "theorems": [
    "FFTW.Props.C63_estimate",
    "FFTW.Props.C63_wisdom_only",
    "FFTW.Registered.C63_standard_dft_solvers",
    "FFTW.Registered.C63_standard_rdft_solvers",
    "FFTW.Registered.C63_threads_dft_loop",
    "FFTW.Registered.C63_threads_rdft_loop",
    "FFTW.Registered.C63_threads_rdft2_loop",
    "FFTW.Registered.C63_threads_ct",
    "FFTW.Registered.C63_threads_hc2hc",
    "FFTW.Registered.C63_library",
    "FFTW.Registered.C63_api"
   ],
   "note": ""
  }
 ]
}