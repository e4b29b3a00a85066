{
 "claims": [
  {
   "property": "C01",
   "status": "proved",
   "theorems": [
    "Razorback.Props.C01_tags_always_valid"
   ],
   "note": ""
  },
  {
   "property": "C02",
   "status": "proved",
   "theorems": [
    "Razorback.Props.C02_tags_refine_ordered_map",
    "Razorback.Props.C02_assignment_frame"
   ],
   "note": ""
  },
  {
   "property": "C03",
   "status": "proved",
   "theorems": [
    "Razorback.Props.C03_attribute_is_item",
    "Razorback.Props.C03_tag_hides_method"
   ],
   "note": ""
  },
  {
   "property": "C04",
   "status": "proved",
   "theorems": [
    "Razorback.Props.C04_inferred_range_minimal"
   ],
   "note": ""
  },
  {
   "property": "C05",
   "status": "proved",
   "theorems": [
    "Razorback.Props.C05_filter_exact",
    "Razorback.Props.C05_pattern_reading",
    "Razorback.Props.C05_filter_get_exact"
   ],
   "note": ""
  },
  {
   "property": "C06",
   "status": "proved",
   "theorems": [
    "Razorback.Props.C06_eq_iff",
    "Razorback.Props.C06_equivalence",
    "Razorback.Props.C06_hypothesis_reachable"
   ],
   "note": ""
  },
  {
   "property": "C07",
   "status": "proved",
   "theorems": [
    "Razorback.Props.C07_construction_iff",
    "Razorback.Props.C07_construction_fields",
    "Razorback.Props.C07_defaults",
    "Razorback.Props.C07_wellformed"
   ],
   "note": ""
  },
  {
   "property": "C08",
   "status": "proved",
   "theorems": [
    "Razorback.Props.C08_time_index_inverse",
    "Razorback.Props.C08_rounding",
    "Razorback.Props.C08_stop"
   ],
   "note": ""
  },
  {
   "property": "C09",
   "status": "proved",
   "theorems": [
    "Razorback.Props.C09_extract_t_exact",
    "Razorback.Props.C09_extract_t_disjoint",
    "Razorback.Props.C09_extract_t_strict"
   ],
   "note": ""
  },
  {
   "property": "C10",
   "status": "proved",
   "theorems": [
    "Razorback.Props.C10_extract_i_strict",
    "Razorback.Props.C10_extract_i_lenient",
    "Razorback.Props.C10_extract_i_include_last",
    "Razorback.Props.C10_extract_i_compose",
    "Razorback.Props.C10_extract_i_whole"
   ],
   "note": ""
  },
  {
   "property": "C11",
   "status": "proved",
   "theorems": [
    "Razorback.Props.C11_select_channels_together",
    "Razorback.Props.C11_select_accepts"
   ],
   "note": ""
  },
  {
   "property": "C12",
   "status": "proved",
   "theorems": [
    "Razorback.Props.C12_reachable_sets_ok",
    "Razorback.Props.C12_any_rounding"
   ],
   "note": ""
  },
  {
   "property": "C13",
   "status": "proved",
   "theorems": [
    "Razorback.Props.C13_rejects_heterogeneous",
    "Razorback.Props.C13_rejects_overlap",
    "Razorback.Props.C13_accepts_iff",
    "Razorback.Props.C13_argument_order",
    "Razorback.Props.C13_runs_sorted",
    "Razorback.Props.C13_equal_starts_depend_on_order"
   ],
   "note": ""
  },
  {
   "property": "C14",
   "status": "proved",
   "theorems": [
    "Razorback.Props.C14_join_by_tag",
    "Razorback.Props.C14_join_keeps_runs",
    "Razorback.Props.C14_inconsistent_raises",
    "Razorback.Props.C14_other_names_raise"
   ],
   "note": ""
  },
  {
   "property": "C15",
   "status": "proved",
   "theorems": [
    "Razorback.Props.C15_join_union",
    "Razorback.Props.C15_join_comm",
    "Razorback.Props.C15_join_assoc"
   ],
   "note": ""
  },
  {
   "property": "C16",
   "status": "proved",
   "theorems": [
    "Razorback.Props.C16_select_channels",
    "Razorback.Props.C16_unknown_raises",
    "Razorback.Props.C16_nothing_raises"
   ],
   "note": ""
  },
  {
   "property": "C17",
   "status": "proved",
   "theorems": [
    "Razorback.Props.C17_select_all",
    "Razorback.Props.C17_select_nested"
   ],
   "note": ""
  },
  {
   "property": "C18",
   "status": "proved",
   "theorems": [
    "Razorback.Props.C18_rejects",
    "Razorback.Props.C18_select_runs",
    "Razorback.Props.C18_select_runs_increasing",
    "Razorback.Props.C18_starts_distinct",
    "Razorback.Props.C18_repeated_run_raises"
   ],
   "note": ""
  },
  {
   "property": "C19",
   "status": "proved",
   "theorems": [
    "Razorback.Props.C19_extract_t"
   ],
   "note": ""
  },
  {
   "property": "C20",
   "status": "proved",
   "theorems": [
    "Razorback.Props.C20_exclude",
    "Razorback.Props.C20_nothing_inside",
    "Razorback.Props.C20_untagged_raises"
   ],
   "note": ""
  },
  {
   "property": "C21",
   "status": "proved",
   "theorems": [
    "Razorback.Props.C21_compose"
   ],
   "note": ""
  },
  {
   "property": "C22",
   "status": "proved",
   "theorems": [
    "Razorback.Props.C22_merge_tags",
    "Razorback.Props.C22_merge_names"
   ],
   "note": ""
  },
  {
   "property": "C23",
   "status": "proved",
   "theorems": [
    "Razorback.Props.C23_intervals"
   ],
   "note": ""
  },
  {
   "property": "C24",
   "status": "proved",
   "theorems": [
    "Razorback.Props.C24_no_misalignment"
   ],
   "note": ""
  },
  {
   "property": "C25",
   "status": "proved",
   "theorems": [
    "Razorback.Props.C25_name_conflict_raises",
    "Razorback.Props.C25_unsynchronised_raises",
    "Razorback.Props.C25_short_overlap_raises",
    "Razorback.Props.C25_empty_operand_raises",
    "Razorback.Props.C25_rates",
    "Razorback.Props.C25_succeeds"
   ],
   "note": ""
  },
  {
   "property": "C26",
   "status": "proved",
   "theorems": [
    "Razorback.Props.C26_samples",
    "Razorback.Props.C26_succeeds",
    "Razorback.Props.C26_untagged_raises"
   ],
   "note": ""
  },
  {
   "property": "C27",
   "status": "proved",
   "theorems": [
    "Razorback.Props.C27_chains",
    "Razorback.Props.C27_any_rounding",
    "Razorback.Props.C27_idempotent",
    "Razorback.Props.C27_exact_times",
    "Razorback.Props.C27_shift"
   ],
   "note": ""
  },
  {
   "property": "C28",
   "status": "proved",
   "theorems": [
    "Razorback.Props.C28_indexing",
    "Razorback.Props.C28_attribute"
   ],
   "note": ""
  },
  {
   "property": "C29",
   "status": "proved",
   "theorems": [
    "Razorback.Props.C29_assign_dict",
    "Razorback.Props.C29_assign_tags",
    "Razorback.Props.C29_assign_frame"
   ],
   "note": ""
  },
  {
   "property": "C30",
   "status": "proved",
   "theorems": [
    "Razorback.Props.C30_append_extend",
    "Razorback.Props.C30_history",
    "Razorback.Props.C30_add",
    "Razorback.Props.C30_getItem"
   ],
   "note": ""
  },
  {
   "property": "C31",
   "status": "proved",
   "theorems": [
    "Razorback.Props.C31_select_channels",
    "Razorback.Props.C31_get_hidden",
    "Razorback.Props.C31_filter",
    "Razorback.Props.C31_filter_order",
    "Razorback.Props.C31_select_order"
   ],
   "note": ""
  },
  {
   "property": "C32",
   "status": "proved",
   "theorems": [
    "Razorback.Props.C32_extract_t",
    "Razorback.Props.C32_select_runs"
   ],
   "note": ""
  },
  {
   "property": "C33",
   "status": "proved",
   "theorems": [
    "Razorback.Props.C33_pack_all_or_nothing"
   ],
   "note": ""
  },
  {
   "property": "C34",
   "status": "proved",
   "theorems": [
    "Razorback.Props.C34_pack_traced",
    "Razorback.Props.C34_samples",
    "Razorback.Props.C34_exact_times"
   ],
   "note": ""
  },
  {
   "property": "C35",
   "status": "proved",
   "theorems": [
    "Razorback.Props.C35_groups",
    "Razorback.Props.C35_merge_order"
   ],
   "note": ""
  },
  {
   "property": "C36",
   "status": "proved",
   "theorems": [
    "Razorback.Props.C36_extract_groups",
    "Razorback.Props.C36_samples",
    "Razorback.Props.C36_missing_raises"
   ],
   "note": ""
  },
  {
   "property": "C37",
   "status": "proved",
   "theorems": [
    "Razorback.Props.C37_discrete_window",
    "Razorback.Props.C37_raises_iff"
   ],
   "note": ""
  },
  {
   "property": "C38",
   "status": "proved",
   "theorems": [
    "Razorback.Props.C38_time_to_freq",
    "Razorback.Props.C38_window_data",
    "Razorback.Props.C38_succeeds_iff",
    "Razorback.Props.C38_unequal_raises"
   ],
   "note": ""
  },
  {
   "property": "C39",
   "status": "proved",
   "theorems": [
    "Razorback.Props.C39_linear",
    "Razorback.Props.C39_ratio"
   ],
   "note": ""
  },
  {
   "property": "C40",
   "status": "proved",
   "theorems": [
    "Razorback.Props.C40_pure_tone"
   ],
   "note": ""
  },
  {
   "property": "C41",
   "status": "proved",
   "theorems": [
    "Razorback.Props.C41_concatenation",
    "Razorback.Props.C41_divides",
    "Razorback.Props.C41_raises_iff",
    "Razorback.Props.C41_missing"
   ],
   "note": ""
  },
  {
   "property": "C42",
   "status": "proved",
   "theorems": [
    "Razorback.Props.C42_length",
    "Razorback.Props.C42_mean",
    "Razorback.Props.C42_interpolates",
    "Razorback.Props.C42_range"
   ],
   "note": ""
  },
  {
   "property": "C43",
   "status": "proved",
   "theorems": [
    "Razorback.Props.C43_merge",
    "Razorback.Props.C43_total",
    "Razorback.Props.C43_eliminate"
   ],
   "note": ""
  },
  {
   "property": "C44",
   "status": "proved",
   "theorems": [
    "Razorback.Props.C44_normal_equations",
    "Razorback.Props.C44_singular_raises",
    "Razorback.Props.C44_bad_weights_raise",
    "Razorback.Props.C44_minimises",
    "Razorback.Props.C44_independent",
    "Razorback.Props.C44_exact"
   ],
   "note": ""
  },
  {
   "property": "C45",
   "status": "proved",
   "theorems": [
    "Razorback.Props.C45_zero_weight",
    "Razorback.Props.C45_values_irrelevant"
   ],
   "note": ""
  },
  {
   "property": "C46",
   "status": "proved",
   "theorems": [
    "Razorback.Props.C46_converged",
    "Razorback.Props.C46_estimate",
    "Razorback.Props.C46_nonconvergence",
    "Razorback.Props.C46_raises",
    "Razorback.Props.C46_maxit",
    "Razorback.Props.C46_least_squares"
   ],
   "note": ""
  },
  {
   "property": "C47",
   "status": "proved",
   "theorems": [
    "Razorback.Props.C47_rejected",
    "Razorback.Props.C47_never_readmitted",
    "Razorback.Props.C47_inside"
   ],
   "note": ""
  },
  {
   "property": "C48",
   "status": "proved",
   "theorems": [
    "Razorback.Props.C48_chain",
    "Razorback.Props.C48_empty_raises"
   ],
   "note": ""
  },
  {
   "property": "C49",
   "status": "proved",
   "theorems": [
    "Razorback.Props.C49_rows",
    "Razorback.Props.C49_independent",
    "Razorback.Props.C49_flat",
    "Razorback.Props.C49_bad_shapes",
    "Razorback.Props.C49_no_output",
    "Razorback.Props.C49_bad_lengths",
    "Razorback.Props.C49_array_raises",
    "Razorback.Props.C49_exact"
   ],
   "note": ""
  },
  {
   "property": "C50",
   "status": "proved",
   "theorems": [
    "Razorback.Props.C50_succeeds_iff",
    "Razorback.Props.C50_value",
    "Razorback.Props.C50_infinite",
    "Razorback.Props.C50_orthogonal",
    "Razorback.Props.C50_nonneg",
    "Razorback.Props.C50_exact_fit",
    "Razorback.Props.C50_exact_fit_nan",
    "Razorback.Props.C50_scale_outputs",
    "Razorback.Props.C50_scale_inputs"
   ],
   "note": ""
  },
  {
   "property": "C51",
   "status": "proved",
   "theorems": [
    "Razorback.Props.C51_huber",
    "Razorback.Props.C51_scale_invariant",
    "Razorback.Props.C51_zero_scale"
   ],
   "note": ""
  },
  {
   "property": "C52",
   "status": "proved",
   "theorems": [
    "Razorback.Props.C52_zero",
    "Razorback.Props.C52_expexp",
    "Razorback.Props.C52_thomson"
   ],
   "note": ""
  },
  {
   "property": "C53",
   "status": "proved",
   "theorems": [
    "Razorback.Props.C53_resets",
    "Razorback.Props.C53_history",
    "Razorback.Props.C53_shared",
    "Razorback.Props.C53_out_of_order",
    "Razorback.Props.C53_in_order"
   ],
   "note": ""
  },
  {
   "property": "C54",
   "status": "proved",
   "theorems": [
    "Razorback.Props.C54_steps"
   ],
   "note": ""
  },
  {
   "property": "C55",
   "status": "proved",
   "theorems": [
    "Razorback.Props.C55_value",
    "Razorback.Props.C55_nonneg",
    "Razorback.Props.C55_equivariant",
    "Razorback.Props.C55_order_nan",
    "Razorback.Props.C55_median"
   ],
   "note": ""
  },
  {
   "property": "C56",
   "status": "proved",
   "theorems": [
    "Razorback.Props.C56_cut",
    "Razorback.Props.C56_value",
    "Razorback.Props.C56_singular"
   ],
   "note": ""
  },
  {
   "property": "C57",
   "status": "proved",
   "theorems": [
    "Razorback.Props.C57_bounds",
    "Razorback.Props.C57_filter"
   ],
   "note": ""
  },
  {
   "property": "C58",
   "status": "proved",
   "theorems": [
    "Razorback.Props.C58_union",
    "Razorback.Props.C58_none",
    "Razorback.Props.C58_raises"
   ],
   "note": ""
  },
  {
   "property": "C59",
   "status": "proved",
   "theorems": [
    "Razorback.Props.C59_each",
    "Razorback.Props.C59_independent",
    "Razorback.Props.C59_raises",
    "Razorback.Props.C59_same_shape",
    "Razorback.Props.C59_unusable"
   ],
   "note": ""
  },
  {
   "property": "C60",
   "status": "proved",
   "theorems": [
    "Razorback.Props.C60_times"
   ],
   "note": ""
  },
  {
   "property": "C61",
   "status": "proved",
   "theorems": [
    "Razorback.Props.C61_never_raises",
    "Razorback.Props.C61_silent",
    "Razorback.Props.C61_numbers",
    "Razorback.Props.C61_fourier_failure",
    "Razorback.Props.C61_real_pb",
    "Razorback.Props.C61_call_never_raises",
    "Razorback.Props.C61_mixed_raises"
   ],
   "note": ""
  },
  {
   "property": "C62",
   "status": "proved",
   "theorems": [
    "Razorback.Props.C62_local_exact",
    "Razorback.Props.C62_remote_exact",
    "Razorback.Props.C62_stages"
   ],
   "note": ""
  },
  {
   "property": "C63",
   "status": "proved",
   "theorems": [
    "Razorback.Props.C63_order",
    "Razorback.Props.C63_combinations",
    "Razorback.Props.C63_no_combination",
    "Razorback.Props.C63_process"
   ],
   "note": ""
  },
  {
   "property": "C64",
   "status": "proved",
   "theorems": [
    "Razorback.Props.C64_yields",
    "Razorback.Props.C64_reproduces",
    "Razorback.Props.C64_repeated"
   ],
   "note": ""
  },
  {
   "property": "C65",
   "status": "proved",
   "theorems": [
    "Razorback.Props.C65_unknown_field",
    "Razorback.Props.C65_levels",
    "Razorback.Props.C65_normal_form",
    "Razorback.Props.C65_same_path",
    "Razorback.Props.C65_in_order",
    "Razorback.Props.C65_double_star",
    "Razorback.Props.C65_question_mark"
   ],
   "note": ""
  },
  {
   "property": "C66",
   "status": "proved",
   "theorems": [
    "Razorback.Props.C66_least_squares",
    "Razorback.Props.C66_shapes_raise",
    "Razorback.Props.C66_constant_output"
   ],
   "note": ""
  },
  {
   "property": "C67",
   "status": "proved",
   "theorems": [
    "Razorback.Props.C67_slice",
    "Razorback.Props.C67_all",
    "Razorback.Props.C67_int",
    "Razorback.Props.C67_too_many",
    "Razorback.Props.C67_reversed_raises",
    "Razorback.Props.C67_negative_step_raises",
    "Razorback.Props.C67_two_steps",
    "Razorback.Props.C67_dimensions",
    "Razorback.Props.C67_raises"
   ],
   "note": ""
  },
  {
   "property": "C68",
   "status": "proved",
   "theorems": [
    "Razorback.Props.C68_chunks"
   ],
   "note": ""
  },
  {
   "property": "C69",
   "status": "proved",
   "theorems": [
    "Razorback.Props.C69_open",
    "Razorback.Props.C69_holds",
    "Razorback.Props.C69_short_read_raises"
   ],
   "note": ""
  },
  {
   "property": "C70",
   "status": "proved",
   "theorems": [
    "Razorback.Props.C70_layout",
    "Razorback.Props.C70_fields",
    "Razorback.Props.C70_short_raises",
    "Razorback.Props.C70_roundtrip",
    "Razorback.Props.C70_position"
   ],
   "note": ""
  },
  {
   "property": "C71",
   "status": "proved",
   "theorems": [
    "Razorback.Props.C71_sample",
    "Razorback.Props.C71_load",
    "Razorback.Props.C71_load_only",
    "Razorback.Props.C71_raises",
    "Razorback.Props.C71_long_header",
    "Razorback.Props.C71_files",
    "Razorback.Props.C71_directory",
    "Razorback.Props.C71_no_file",
    "Razorback.Props.C71_listing_order"
   ],
   "note": ""
  },
  {
   "property": "C72",
   "status": "proved",
   "theorems": [
    "Razorback.Props.C72_exists",
    "Razorback.Props.C72_local",
    "Razorback.Props.C72_packaged",
    "Razorback.Props.C72_missing",
    "Razorback.Props.C72_absolute",
    "Razorback.Props.C72_data_path"
   ],
   "note": ""
  },
  {
   "property": "C73",
   "status": "proved",
   "theorems": [
    "Razorback.Props.C73_spaces",
    "Razorback.Props.C73_iff",
    "Razorback.Props.C73_unique",
    "Razorback.Props.C73_directory",
    "Razorback.Props.C73_no_section",
    "Razorback.Props.C73_bad_table",
    "Razorback.Props.C73_unknown_version",
    "Razorback.Props.C73_too_small",
    "Razorback.Props.C73_single_row",
    "Razorback.Props.C73_version"
   ],
   "note": ""
  },
  {
   "property": "C74",
   "status": "proved",
   "theorems": [
    "Razorback.Props.C74_tabulated",
    "Razorback.Props.C74_between",
    "Razorback.Props.C74_below",
    "Razorback.Props.C74_outside",
    "Razorback.Props.C74_defined",
    "Razorback.Props.C74_unsorted"
   ],
   "note": ""
  },
  {
   "property": "C75",
   "status": "proved",
   "theorems": [
    "Razorback.Props.C75_channels",
    "Razorback.Props.C75_only",
    "Razorback.Props.C75_between",
    "Razorback.Props.C75_outside",
    "Razorback.Props.C75_missing_level",
    "Razorback.Props.C75_no_file",
    "Razorback.Props.C75_bad_file",
    "Razorback.Props.C75_single_row",
    "Razorback.Props.C75_lonely"
   ],
   "note": ""
  },
  {
   "property": "C76",
   "status": "proved",
   "theorems": [
    "Razorback.Props.C76_text",
    "Razorback.Props.C76_no_create",
    "Razorback.Props.C76_present",
    "Razorback.Props.C76_missing",
    "Razorback.Props.C76_blocked",
    "Razorback.Props.C76_never_destroys",
    "Razorback.Props.C76_ok",
    "Razorback.Props.C76_idempotent",
    "Razorback.Props.C76_after",
    "Razorback.Props.C76_taken",
    "Razorback.Props.C76_files_kept",
    "Razorback.Props.C76_list",
    "Razorback.Props.C76_list_order",
    "Razorback.Props.C76_plugin_first",
    "Razorback.Props.C76_builtin",
    "Razorback.Props.C76_listed"
   ],
   "note": ""
  },
  {
   "property": "C77",
   "status": "proved",
   "theorems": [
    "Razorback.Props.C77_sliding_window",
    "Razorback.Props.C77_old",
    "Razorback.Props.C77_old_raises"
   ],
   "note": ""
  },
  {
   "property": "C78",
   "status": "proved",
   "theorems": [
    "Razorback.Props.C78_step",
    "Razorback.Props.C78_nonneg",
    "Razorback.Props.C78_factor",
    "Razorback.Props.C78_exceeds_one",
    "Razorback.Props.C78_singular"
   ],
   "note": ""
  },
  {
   "property": "C79",
   "status": "proved",
   "theorems": [
    "Razorback.Props.C79_overlap_raises",
    "Razorback.Props.C79_pack_single",
    "Razorback.Props.C79_pack_uniform",
    "Razorback.Props.C79_samples",
    "Razorback.Props.C79_synonyms_raise"
   ],
   "note": ""
  },
  {
   "property": "C80",
   "status": "proved",
   "theorems": [
    "Razorback.Props.C80_centre_unique",
    "Razorback.Props.C80_values",
    "Razorback.Props.C80_raises",
    "Razorback.Props.C80_rejected",
    "Razorback.Props.C80_options"
   ],
   "note": ""
  },
  {
   "property": "C81",
   "status": "proved",
   "theorems": [
    "Razorback.Props.C81_same_for_all",
    "Razorback.Props.C81_other_tags",
    "Razorback.Props.C81_tag_left",
    "Razorback.Props.C81_raises"
   ],
   "note": ""
  },
  {
   "property": "C82",
   "status": "proved",
   "theorems": [
    "Razorback.Props.C82_correctly_rounded",
    "Razorback.Props.C82_sync",
    "Razorback.Props.C82_session",
    "Razorback.Props.C82_operations",
    "Razorback.Props.C82_epoch",
    "Razorback.Props.C82_clear_cut"
   ],
   "note": ""
  },
  {
   "property": "C83",
   "status": "proved",
   "theorems": [
    "Razorback.Props.C83_set",
    "Razorback.Props.C83_extract_close",
    "Razorback.Props.C83_sample_bounds",
    "Razorback.Props.C83_last_sample_lost",
    "Razorback.Props.C83_merge_raises",
    "Razorback.Props.C83_never_consecutive"
   ],
   "note": ""
  },
  {
   "property": "C84",
   "status": "proved",
   "theorems": [
    "Razorback.Props.C84_discrete_window",
    "Razorback.Props.C84_one_too_long",
    "Razorback.Props.C84_zero_shift"
   ],
   "note": ""
  },
  {
   "property": "C85",
   "status": "proved",
   "theorems": [
    "Razorback.Props.C85_sync",
    "Razorback.Props.C85_extract",
    "Razorback.Props.C85_exclude",
    "Razorback.Props.C85_merge"
   ],
   "note": ""
  },
  {
   "property": "C86",
   "status": "proved",
   "theorems": [
    "Razorback.Props.C86_alignment",
    "Razorback.Props.C86_last_sample_lost",
    "Razorback.Props.C86_merge_refused"
   ],
   "note": ""
  },
  {
   "property": "C87",
   "status": "proved",
   "theorems": [
    "Razorback.Props.C87_own_tags",
    "Razorback.Props.C87_unchanged",
    "Razorback.Props.C87_program",
    "Razorback.Props.C87_tags_object",
    "Razorback.Props.C87_inventory",
    "Razorback.Props.C87_new_object",
    "Razorback.Props.C87_new_elements",
    "Razorback.Props.C87_edit",
    "Razorback.Props.C87_assign",
    "Razorback.Props.C87_result",
    "Razorback.Props.C87_empty_index",
    "Razorback.Props.C87_inventory_shares"
   ],
   "note": ""
  },
  {
   "property": "C88",
   "status": "proved",
   "theorems": [
    "Razorback.Props.C88_names",
    "Razorback.Props.C88_pack",
    "Razorback.Props.C88_groups"
   ],
   "note": ""
  },
  {
   "property": "C89",
   "status": "proved",
   "theorems": [
    "Razorback.Props.C89_one_frequency",
    "Razorback.Props.C89_impedance",
    "Razorback.Props.C89_library",
    "Razorback.Props.C89_physical_only"
   ],
   "note": ""
  },
  {
   "property": "C90",
   "status": "proved",
   "theorems": [
    "Razorback.Props.C90_transfer_function",
    "Razorback.Props.C90_axes",
    "Razorback.Props.C90_remote_axes"
   ],
   "note": ""
  },
  {
   "property": "C91",
   "status": "proved",
   "theorems": [
    "Razorback.Props.C91_exact_from_samples"
   ],
   "note": ""
  },
  {
   "property": "C92",
   "status": "proved",
   "theorems": [
    "Razorback.Props.C92_interleaved",
    "Razorback.Props.C92_consumed",
    "Razorback.Props.C92_failed",
    "Razorback.Props.C92_transfer",
    "Razorback.Props.C92_library",
    "Razorback.Props.C92_not_concurrent"
   ],
   "note": ""
  },
  {
   "property": "C93",
   "status": "proved",
   "theorems": [
    "Razorback.Props.C93_canonical",
    "Razorback.Props.C93_repr_iff_equal",
    "Razorback.Props.C93_ambiguous",
    "Razorback.Props.C93_items_raises",
    "Razorback.Props.C93_tags_block",
    "Razorback.Props.C93_first_line",
    "Razorback.Props.C93_signalset_repr",
    "Razorback.Props.C93_percent_raises"
   ],
   "note": ""
  },
  {
   "property": "C94",
   "status": "proved",
   "theorems": [
    "Razorback.Props.C94_instruments",
    "Razorback.Props.C94_classical",
    "Razorback.Props.C94_noise",
    "Razorback.Props.C94_exact"
   ],
   "note": ""
  },
  {
   "property": "C95",
   "status": "proved",
   "theorems": [
    "Razorback.Props.C95_sync",
    "Razorback.Props.C95_set",
    "Razorback.Props.C95_inventory",
    "Razorback.Props.C95_pack",
    "Razorback.Props.C95_blind",
    "Razorback.Props.C95_unit_matters"
   ],
   "note": ""
  },
  {
   "property": "C96",
   "status": "proved",
   "theorems": [
    "Razorback.Props.C96_fourier",
    "Razorback.Props.C96_impedance",
    "Razorback.Props.C96_values",
    "Razorback.Props.C96_values_mass",
    "Razorback.Props.C96_mass"
   ],
   "note": ""
  },
  {
   "property": "C97",
   "status": "proved",
   "theorems": [
    "Razorback.Props.C97_transfer",
    "Razorback.Props.C97_library",
    "Razorback.Props.C97_impedance"
   ],
   "note": ""
  },
  {
   "property": "C98",
   "status": "proved",
   "theorems": [
    "Razorback.Props.C98_transfer",
    "Razorback.Props.C98_dates",
    "Razorback.Props.C98_dates_in_order"
   ],
   "note": ""
  },
  {
   "property": "C99",
   "status": "proved",
   "theorems": [
    "Razorback.Props.C99_retag_iff",
    "Razorback.Props.C99_retag_raises",
    "Razorback.Props.C99_join_iff",
    "Razorback.Props.C99_dict_raises"
   ],
   "note": ""
  },
  {
   "property": "C100",
   "status": "proved",
   "theorems": [
    "Razorback.Props.C100_pass",
    "Razorback.Props.C100_thomson_passes",
    "Razorback.Props.C100_scale",
    "Razorback.Props.C100_thomson",
    "Razorback.Props.C100_huber"
   ],
   "note": ""
  },
  {
   "property": "C101",
   "status": "proved",
   "theorems": [
    "Razorback.Props.C101_separate",
    "Razorback.Props.C101_library",
    "Razorback.Props.C101_shared"
   ],
   "note": ""
  },
  {
   "property": "C102",
   "status": "proved",
   "theorems": [
    "Razorback.Props.C102_select_extract",
    "Razorback.Props.C102_select_runs_channels",
    "Razorback.Props.C102_join_order",
    "Razorback.Props.C102_join_group",
    "Razorback.Props.C102_join_extract",
    "Razorback.Props.C102_join_extract_succeeds",
    "Razorback.Props.C102_merge_order",
    "Razorback.Props.C102_merge_iff",
    "Razorback.Props.C102_merge_order_succeeds",
    "Razorback.Props.C102_merge_group",
    "Razorback.Props.C102_merge_group_succeeds",
    "Razorback.Props.C102_merge_extract",
    "Razorback.Props.C102_merge_extract_succeeds",
    "Razorback.Props.C102_merge_group_counterexample"
   ],
   "note": ""
  },
  {
   "property": "C103",
   "status": "proved",
   "theorems": [
    "Razorback.Props.C103_impedance",
    "Razorback.Props.C103_prefilter_values",
    "Razorback.Props.C103_same_set",
    "Razorback.Props.C103_merge_order",
    "Razorback.Props.C103_select_channels",
    "Razorback.Props.C103_join_order",
    "Razorback.Props.C103_unnamed_matters"
   ],
   "note": ""
  },
  {
   "property": "C104",
   "status": "proved",
   "theorems": [
    "Razorback.Props.C104_scale_bounded",
    "Razorback.Props.C104_scale_zero",
    "Razorback.Props.C104_huber",
    "Razorback.Props.C104_huber_bounded",
    "Razorback.Props.C104_thomson",
    "Razorback.Props.C104_far_rejected"
   ],
   "note": ""
  },
  {
   "property": "C105",
   "status": "proved",
   "theorems": [
    "Razorback.Props.C105_local",
    "Razorback.Props.C105_extract",
    "Razorback.Props.C105_bounded",
    "Razorback.Props.C105_tones"
   ],
   "note": ""
  },
  {
   "property": "C106",
   "status": "proved",
   "theorems": [
    "Razorback.Props.C106_nonconvergence",
    "Razorback.Props.C106_unambiguous",
    "Razorback.Props.C106_log",
    "Razorback.Props.C106_fourier_unreported",
    "Razorback.Props.C106_blocks",
    "Razorback.Props.C106_progress"
   ],
   "note": ""
  },
  {
   "property": "C107",
   "status": "proved",
   "theorems": [
    "Razorback.Props.C107_unambiguous",
    "Razorback.Props.C107_name",
    "Razorback.Props.C107_nested",
    "Razorback.Props.C107_thomson",
    "Razorback.Props.C107_bi_name"
   ],
   "note": ""
  },
  {
   "property": "C108",
   "status": "proved",
   "theorems": [
    "Razorback.Props.C108_one_at_a_time",
    "Razorback.Props.C108_operands",
    "Razorback.Props.C108_meaning",
    "Razorback.Props.C108_sum"
   ],
   "note": ""
  },
  {
   "property": "C109",
   "status": "proved",
   "theorems": [
    "Razorback.Props.C109_pack_order",
    "Razorback.Props.C109_pack_named",
    "Razorback.Props.C109_impedance",
    "Razorback.Props.C109_pack_succeeds"
   ],
   "note": ""
  },
  {
   "property": "C110",
   "status": "proved",
   "theorems": [
    "Razorback.Props.C110_one_output",
    "Razorback.Props.C110_exhausted",
    "Razorback.Props.C110_resume",
    "Razorback.Props.C110_library"
   ],
   "note": ""
  },
  {
   "property": "C111",
   "status": "proved",
   "theorems": [
    "Razorback.Props.C111_extract_groups",
    "Razorback.Props.C111_mass_proc"
   ],
   "note": ""
  },
  {
   "property": "C112",
   "status": "proved",
   "theorems": [
    "Razorback.Props.C112_pack_complete",
    "Razorback.Props.C112_pack_keeps",
    "Razorback.Props.C112_pack_samples",
    "Razorback.Props.C112_pack_rates",
    "Razorback.Props.C112_pack_one",
    "Razorback.Props.C112_pack_more"
   ],
   "note": ""
  },
  {
   "property": "C113",
   "status": "proved",
   "theorems": [
    "Razorback.Props.C113_inventory",
    "Razorback.Props.C113_files"
   ],
   "note": ""
  },
  {
   "property": "C114",
   "status": "proved",
   "theorems": [
    "Razorback.Props.C114_remote",
    "Razorback.Props.C114_weighted",
    "Razorback.Props.C114_never_converges",
    "Razorback.Props.C114_transfer",
    "Razorback.Props.C114_raises",
    "Razorback.Props.C114_impedance",
    "Razorback.Props.C114_robust_fails"
   ],
   "note": ""
  },
  {
   "property": "C115",
   "status": "proved",
   "theorems": [
    "Razorback.Props.C115_recorded",
    "Razorback.Props.C115_mass_proc"
   ],
   "note": ""
  },
  {
   "property": "C116",
   "status": "proved",
   "theorems": [
    "Razorback.Props.C116_canonical",
    "Razorback.Props.C116_merge_consecutive",
    "Razorback.Props.C116_pack",
    "Razorback.Props.C116_segments",
    "Razorback.Props.C116_impedance",
    "Razorback.Props.C116_cut_loses"
   ],
   "note": ""
  },
  {
   "property": "C117",
   "status": "proved",
   "theorems": [
    "Razorback.Props.C117_windows",
    "Razorback.Props.C117_fourier",
    "Razorback.Props.C117_transform",
    "Razorback.Props.C117_transform_old",
    "Razorback.Props.C117_select_nothing",
    "Razorback.Props.C117_channels",
    "Razorback.Props.C117_runs",
    "Razorback.Props.C117_join",
    "Razorback.Props.C117_merge_empty",
    "Razorback.Props.C117_exclude_empty",
    "Razorback.Props.C117_no_outputs",
    "Razorback.Props.C117_real_prob",
    "Razorback.Props.C117_bounded_influence"
   ],
   "note": ""
  },
  {
   "property": "C118",
   "status": "proved",
   "theorems": [
    "Razorback.Props.C118_unbiased",
    "Razorback.Props.C118_best",
    "Razorback.Props.C118_orthogonal",
    "Razorback.Props.C118_attenuated",
    "Razorback.Props.C118_invalid",
    "Razorback.Props.C118_reports_more"
   ],
   "note": ""
  },
  {
   "property": "C119",
   "status": "proved",
   "theorems": [
    "Razorback.Props.C119_maxit",
    "Razorback.Props.C119_transfer",
    "Razorback.Props.C119_impedance",
    "Razorback.Props.C119_silent",
    "Razorback.Props.C119_tolerance",
    "Razorback.Props.C119_least_squares"
   ],
   "note": ""
  },
  {
   "property": "C120",
   "status": "proved",
   "theorems": [
    "Razorback.Props.C120_nonnegative",
    "Razorback.Props.C120_transfer",
    "Razorback.Props.C120_reports",
    "Razorback.Props.C120_from_the_end"
   ],
   "note": ""
  },
  {
   "property": "C121",
   "status": "proved",
   "theorems": [
    "Razorback.Props.C121_consistent",
    "Razorback.Props.C121_biased",
    "Razorback.Props.C121_attenuated",
    "Razorback.Props.C121_almost_surely",
    "Razorback.Props.C121_remote"
   ],
   "note": ""
  },
  {
   "property": "C122",
   "status": "proved",
   "theorems": [
    "Razorback.Props.C122_covariance",
    "Razorback.Props.C122_white",
    "Razorback.Props.C122_correlated",
    "Razorback.Props.C122_estimate",
    "Razorback.Props.C122_reported",
    "Razorback.Props.C122_too_small"
   ],
   "note": ""
  },
  {
   "property": "C123",
   "status": "proved",
   "theorems": [
    "Razorback.Props.C123_unbiased"
   ],
   "note": ""
  },
  {
   "property": "C124",
   "status": "proved",
   "theorems": [
    "Razorback.Props.C124_calendar",
    "Razorback.Props.C124_order",
    "Razorback.Props.C124_table",
    "Razorback.Props.C124_raises",
    "Razorback.Props.C124_unambiguous",
    "Razorback.Props.C124_sync",
    "Razorback.Props.C124_row"
   ],
   "note": ""
  },
  {
   "property": "C125",
   "status": "proved",
   "theorems": [
    "Razorback.Props.C125_fourier",
    "Razorback.Props.C125_bounded",
    "Razorback.Props.C125_error_size",
    "Razorback.Props.C125_double",
    "Razorback.Props.C125_tone",
    "Razorback.Props.C125_exact",
    "Razorback.Props.C125_sequential"
   ],
   "note": ""
  },
  {
   "property": "C126",
   "status": "proved",
   "theorems": [
    "Razorback.Props.C126_least_squares",
    "Razorback.Props.C126_exact_wlse",
    "Razorback.Props.C126_limit",
    "Razorback.Props.C126_impedance",
    "Razorback.Props.C126_exact",
    "Razorback.Props.C126_precision",
    "Razorback.Props.C126_double",
    "Razorback.Props.C126_remote",
    "Razorback.Props.C126_remote_exact",
    "Razorback.Props.C126_remote_precision"
   ],
   "note": ""
  },
  {
   "property": "C127",
   "status": "proved",
   "theorems": [
    "Razorback.Props.C127_fixed",
    "Razorback.Props.C127_thomson",
    "Razorback.Props.C127_transfer",
    "Razorback.Props.C127_huber_cycle",
    "Razorback.Props.C127_default",
    "Razorback.Props.C127_exact"
   ],
   "note": ""
  },
  {
   "property": "C128",
   "status": "proved",
   "theorems": [
    "Razorback.Props.C128_estimate",
    "Razorback.Props.C128_transfer",
    "Razorback.Props.C128_library",
    "Razorback.Props.C128_impedance",
    "Razorback.Props.C128_remote",
    "Razorback.Props.C128_user",
    "Razorback.Props.C128_user_transfer"
   ],
   "note": ""
  },
  {
   "property": "C129",
   "status": "proved",
   "theorems": [
    "Razorback.Props.C129_exact",
    "Razorback.Props.C129_exact_impedance",
    "Razorback.Props.C129_zero_coefficient",
    "Razorback.Props.C129_user",
    "Razorback.Props.C129_user_transfer",
    "Razorback.Props.C129_estimate",
    "Razorback.Props.C129_transfer",
    "Razorback.Props.C129_impedance",
    "Razorback.Props.C129_remote"
   ],
   "note": ""
  }
 ]
}
