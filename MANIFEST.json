{
 "claims": [
  {
   "property": "C01",
   "status": "proved",
   "theorems": [
    "Qlc.C01_selected_field_type_exact",
    "Qlc.C01_defect_witness"
   ],
   "note": "Exact boundary proved (iff); the witness shows the lost list level of [[X]!]."
  },
  {
   "property": "C02",
   "status": "proved",
   "theorems": [
    "Qlc.C02_input_field_type_exact",
    "Qlc.C02_defect_witness"
   ],
   "note": "Exact boundary proved (iff); the witness shows two list levels printed wrongly."
  },
  {
   "property": "C03",
   "status": "proved",
   "theorems": [
    "Qlc.C03_variable_accepted_iff",
    "Qlc.C03_variable_type_exact"
   ],
   "note": "Acceptance and printed type proved for every variable type expression."
  },
  {
   "property": "C04",
   "status": "proved",
   "theorems": [
    "Qlc.C04_schema_loads_iff_well_described"
   ],
   "note": "Iff, for every deserialized introspection document (C62 covers the JSON layer below)."
  },
  {
   "property": "C05",
   "status": "proved",
   "theorems": [
    "Qlc.C05_lookup_returns_what_the_document_says"
   ],
   "note": ""
  },
  {
   "property": "C06",
   "status": "proved",
   "theorems": [
    "Qlc.C06_scalar_spelling"
   ],
   "note": ""
  },
  {
   "property": "C07",
   "status": "proved",
   "theorems": [
    "Qlc.C07_compiles_iff_valid",
    "Qlc.C07_input_object_field_rejected"
   ],
   "note": "Proviso: Consistent schema, i.e. named types of fields and possible types exist with the kind claimed; Lemmas/Loaded derives it for loaded schemas."
  },
  {
   "property": "C08",
   "status": "proved",
   "theorems": [
    "Qlc.C08_all_invalid_selections_reported",
    "Qlc.C08_listed_iff_invalid",
    "Qlc.C08_errors_are_the_invalid_selections"
   ],
   "note": ""
  },
  {
   "property": "C09",
   "status": "proved",
   "theorems": [
    "Qlc.C09_positions_in_definition"
   ],
   "note": ""
  },
  {
   "property": "C10",
   "status": "proved",
   "theorems": [
    "Qlc.C10_generated_tree",
    "Qlc.C10_properties_are_response_keys",
    "Qlc.C10_top_level_properties"
   ],
   "note": "Provisos as in the statement: imported fragments valid, one named type per response key."
  },
  {
   "property": "C11",
   "status": "proved",
   "theorems": [
    "Qlc.C11_top_level_alternatives",
    "Qlc.C11_alternatives_are_possible_types"
   ],
   "note": ""
  },
  {
   "property": "C12",
   "status": "proved",
   "theorems": [
    "Qlc.C12_valid_fragment_contributes",
    "Qlc.C12_fragment_errors_not_reported",
    "Qlc.C12_invalid_fragment_dropped"
   ],
   "note": "The second half is a defect of the code, exhibited by a witness."
  },
  {
   "property": "C13",
   "status": "proved",
   "theorems": [
    "Qlc.C13_terminates_iff",
    "Qlc.C13_enough_fuel",
    "Qlc.C13_acyclic_fragments_terminate",
    "Qlc.C13_self_spreading_fragment_diverges"
   ],
   "note": "Termination iff the enterable selections are well-founded; the witness diverges for every fuel."
  },
  {
   "property": "C14",
   "status": "proved",
   "theorems": [
    "Qlc.C14_listed_iff",
    "Qlc.C14_warnings_are_the_never_matching",
    "Qlc.C14_no_warnings_without_type"
   ],
   "note": ""
  },
  {
   "property": "C15",
   "status": "proved",
   "theorems": [
    "Qlc.C15_deprecation_warnings_exact",
    "Qlc.C15_listed_iff",
    "Qlc.C15_deprecation_warnings_of_any_definition"
   ],
   "note": ""
  },
  {
   "property": "C16",
   "status": "proved",
   "theorems": [
    "Qlc.C16_code_generation_deterministic",
    "Qlc.C16_selection_result_deterministic",
    "Qlc.C16_diagnostics_deterministic",
    "Qlc.C16_text_deterministic",
    "Qlc.C16_narrowed_field_text_depends_on_hash",
    "Qlc.C16_file_deterministic",
    "Qlc.C16_globals_deterministic"
   ],
   "note": "Determinism under the stated proviso; a witness shows hash dependence without it."
  },
  {
   "property": "C17",
   "status": "proved",
   "theorems": [
    "Qlc.C17_first_selection_decides"
   ],
   "note": ""
  },
  {
   "property": "C18",
   "status": "proved",
   "theorems": [
    "Qlc.C18_names_declared_once",
    "Qlc.C18_underscores_collide"
   ],
   "note": "Underscore-free names; a witness shows the clash."
  },
  {
   "property": "C19",
   "status": "proved",
   "theorems": [
    "Qlc.C19_no_dangling_references"
   ],
   "note": ""
  },
  {
   "property": "C20",
   "status": "proved",
   "theorems": [
    "Qlc.C20_globals_exactly_those_used"
   ],
   "note": ""
  },
  {
   "property": "C21",
   "status": "proved",
   "theorems": [
    "Qlc.C21_properties_listed_once",
    "Qlc.C21_listed_once_iff",
    "Qlc.C21_properties_sorted",
    "Qlc.C21_narrowed_field_listed_twice"
   ],
   "note": "Iff; a witness shows the duplicate property."
  },
  {
   "property": "C22",
   "status": "proved",
   "theorems": [
    "Qlc.C22_responses_inhabit_document",
    "Qlc.C22_responses_inhabit",
    "Qlc.C22_demo"
   ],
   "note": "Provisos as in the statement. C22_demo instantiates all of them on the demo schema and document."
  },
  {
   "property": "C23",
   "status": "proved",
   "theorems": [
    "Qlc.C23_same_bodies_iff",
    "Qlc.C23_only_fields_agree",
    "Qlc.C23_which_types_are_merged",
    "Qlc.C23_merging_preserves",
    "Qlc.C23_merging_loses_nothing",
    "Qlc.C23_merging_unsound"
   ],
   "note": "Preservation under equal bodies; unsoundness witness without."
  },
  {
   "property": "C24",
   "status": "proved",
   "theorems": [
    "Qlc.C24_typename_discriminates"
   ],
   "note": ""
  },
  {
   "property": "C25",
   "status": "proved",
   "theorems": [
    "Qlc.C25_comment_closed_early_iff",
    "Qlc.C25_safe_without_double_star",
    "Qlc.C25_break_out"
   ],
   "note": "Iff on the description text; witness of a break-out."
  },
  {
   "property": "C26",
   "status": "proved",
   "theorems": [
    "Qlc.C26_doc_comment",
    "Qlc.C26_property_text",
    "Qlc.C26_markers"
   ],
   "note": ""
  },
  {
   "property": "C27",
   "status": "proved",
   "theorems": [
    "Qlc.C27_arguments_ignored",
    "Qlc.C27_files_arguments_ignored",
    "Qlc.C27_skipped_field_typed_as_present",
    "Qlc.C27_skipped_answer_not_admitted"
   ],
   "note": "Arguments and directives are erased; the consequence for @skip is exhibited."
  },
  {
   "property": "C28",
   "status": "proved",
   "theorems": [
    "Qlc.C28_default_export"
   ],
   "note": "Includes that subscriptions are compiled as queries."
  },
  {
   "property": "C29",
   "status": "proved",
   "theorems": [
    "Qlc.C29_variables_type"
   ],
   "note": ""
  },
  {
   "property": "C30",
   "status": "proved",
   "theorems": [
    "Qlc.C30_globals_text",
    "Qlc.C30_globals_file",
    "Qlc.C30_nothing_to_write"
   ],
   "note": ""
  },
  {
   "property": "C31",
   "status": "proved",
   "theorems": [
    "Qlc.C31_terminates_if_well_founded",
    "Qlc.C31_no_success_if_not_well_founded",
    "Qlc.C31_terminates_iff",
    "Qlc.C31_recursive_input_never_returns"
   ],
   "note": "Iff on well-foundedness of the reachable input objects."
  },
  {
   "property": "C32",
   "status": "proved",
   "theorems": [
    "Qlc.C32_globals_ok_iff",
    "Qlc.C32_invalid_global_is_an_error",
    "Qlc.C32_valid_globals_are_written"
   ],
   "note": ""
  },
  {
   "property": "C33",
   "status": "proved",
   "theorems": [
    "Qlc.C33_imports_are_the_leading_block",
    "Qlc.C33_later_lines_ignored"
   ],
   "note": ""
  },
  {
   "property": "C34",
   "status": "proved",
   "theorems": [
    "Qlc.C34_import_target",
    "Qlc.C34_defect_witness"
   ],
   "note": "Includes the trap with prefix `@`."
  },
  {
   "property": "C35",
   "status": "proved",
   "theorems": [
    "Qlc.C35_import_closure"
   ],
   "note": ""
  },
  {
   "property": "C36",
   "status": "proved",
   "theorems": [
    "Qlc.C36_outcome_unique",
    "Qlc.C36_terminates",
    "Qlc.C36_returns_iff",
    "Qlc.C36_cycle_never_returns",
    "Qlc.C36_cycle_witness"
   ],
   "note": "Iff on well-foundedness of import chains."
  },
  {
   "property": "C37",
   "status": "proved",
   "theorems": [
    "Qlc.C37_panics_iff_unterminated",
    "Qlc.C37_crash_needs_unterminated_import",
    "Qlc.C37_crashes_iff"
   ],
   "note": ""
  },
  {
   "property": "C38",
   "status": "proved",
   "theorems": [
    "Qlc.C38_scope_independent_of_hash_order",
    "Qlc.C38_duplicate_witness"
   ],
   "note": "Under unique fragment names; witness without."
  },
  {
   "property": "C39",
   "status": "proved",
   "theorems": [
    "Qlc.C39_scope_and_errors"
   ],
   "note": ""
  },
  {
   "property": "C40",
   "status": "proved",
   "theorems": [
    "Qlc.C40_output_path",
    "Qlc.C40_output_injective",
    "Qlc.C40_output_is_not_a_source"
   ],
   "note": ""
  },
  {
   "property": "C41",
   "status": "proved",
   "theorems": [
    "Qlc.C41_writes_only_its_output"
   ],
   "note": ""
  },
  {
   "property": "C42",
   "status": "proved",
   "theorems": [
    "Qlc.C42_messages_are_reported",
    "Qlc.C42_write_error_hides_messages"
   ],
   "note": "A write error hides the other messages: second theorem."
  },
  {
   "property": "C43",
   "status": "proved",
   "theorems": [
    "Qlc.C43_exit_zero_iff_no_error",
    "Qlc.C43_printed_output"
   ],
   "note": ""
  },
  {
   "property": "C44",
   "status": "proved",
   "theorems": [
    "Qlc.C44_warning_summary"
   ],
   "note": "The plural follows the errors: stated exactly."
  },
  {
   "property": "C45",
   "status": "proved",
   "theorems": [
    "Qlc.C45_configuration_precedence"
   ],
   "note": ""
  },
  {
   "property": "C46",
   "status": "proved",
   "theorems": [
    "Qlc.C46_custom_scalar_prefix",
    "Qlc.C46_custom_scalars_off",
    "Qlc.C46_surprising_corner"
   ],
   "note": "The corner case is exhibited."
  },
  {
   "property": "C47",
   "status": "proved",
   "theorems": [
    "Qlc.C47_caret_under_column",
    "Qlc.C47_quotes_the_reported_line"
   ],
   "note": ""
  },
  {
   "property": "C48",
   "status": "proved",
   "theorems": [
    "Qlc.C48_suggestions"
   ],
   "note": ""
  },
  {
   "property": "C49",
   "status": "proved",
   "theorems": [
    "Qlc.C49_counters_exact",
    "Qlc.C49_no_underflow"
   ],
   "note": ""
  },
  {
   "property": "C50",
   "status": "proved",
   "theorems": [
    "Qlc.C50_files_are_conserved",
    "Qlc.C50_no_file_twice"
   ],
   "note": ""
  },
  {
   "property": "C51",
   "status": "proved",
   "theorems": [
    "Qlc.C51_all_files_compiled",
    "Qlc.C51_one_thread_compiles_everything",
    "Qlc.C51_race_loses_a_file",
    "Qlc.C51_any_subdirectory_can_be_lost",
    "Qlc.C51_subdirectory_can_go_missing",
    "Qlc.C51_program_without_a_subdirectory",
    "Qlc.C51_success_without_a_subdirectory",
    "Qlc.C51_missing_demo",
    "Qlc.C51_only_race",
    "Qlc.C51_undisturbed_compiles_everything",
    "Qlc.C51_undisturbed_runs",
    "Qlc.C51_race_whole_program",
    "Qlc.C51_top_level_never_lost",
    "Qlc.C51_flat_project_complete"
   ],
   "note": "Provisos and the race as in the statement; the race is an explicit schedule, also for the whole program."
  },
  {
   "property": "C52",
   "status": "proved",
   "theorems": [
    "Qlc.C52_can_always_finish"
   ],
   "note": "Possibility of termination from every reachable state (no fairness assumed)."
  },
  {
   "property": "C53",
   "status": "proved",
   "theorems": [
    "Qlc.C53_nobody_exits_after_a_panic",
    "Qlc.C53_panic_hangs_the_program"
   ],
   "note": ""
  },
  {
   "property": "C54",
   "status": "proved",
   "theorems": [
    "Qlc.C54_zero_threads_pool",
    "Qlc.C54_zero_threads_do_nothing"
   ],
   "note": ""
  },
  {
   "property": "C55",
   "status": "proved",
   "theorems": [
    "Qlc.C55_results_independent_of_schedule",
    "Qlc.C55_results_without_early_quit"
   ],
   "note": ""
  },
  {
   "property": "C56",
   "status": "proved",
   "theorems": [
    "Qlc.C56_walk_finds_exactly_the_graphql_files",
    "Qlc.C56_names",
    "Qlc.C56_dead_ends"
   ],
   "note": ""
  },
  {
   "property": "C57",
   "status": "proved",
   "theorems": [
    "Qlc.C57_files_independent_of_schedule",
    "Qlc.C57_two_schedules",
    "Qlc.C57_whole_program"
   ],
   "note": "Proviso: nothing read is an output, outputs are distinct, globals file apart."
  },
  {
   "property": "C58",
   "status": "proved",
   "theorems": [
    "Qlc.C58_second_run_changes_nothing"
   ],
   "note": "Same provisos as C57."
  },
  {
   "property": "C59",
   "status": "proved",
   "theorems": [
    "Qlc.C59_modifier_text_parses"
   ],
   "note": ""
  },
  {
   "property": "C60",
   "status": "proved",
   "theorems": [
    "Qlc.C60_enum_members"
   ],
   "note": ""
  },
  {
   "property": "C61",
   "status": "proved",
   "theorems": [
    "Qlc.C61_non_fragment_location",
    "Qlc.C61_defect_witness"
   ],
   "note": ""
  },
  {
   "property": "C62",
   "status": "proved",
   "theorems": [
    "Qlc.C62_introspection_read_by_key",
    "Qlc.C62_other_members_do_not_matter",
    "Qlc.C62_runs_unchanged"
   ],
   "note": ""
  },
  {
   "property": "C63",
   "status": "proved",
   "theorems": [
    "Qlc.C63_config_read_by_key",
    "Qlc.C63_other_members_do_not_matter",
    "Qlc.C63_camelcased_schema_path_ignored",
    "Qlc.C63_runs_unchanged"
   ],
   "note": ""
  },
  {
   "property": "C64",
   "status": "proved",
   "theorems": [
    "Qlc.C64_other_files_never_touched",
    "Qlc.C64_outputs_old_or_prefix",
    "Qlc.C64_globals_old_or_prefix",
    "Qlc.C64_torn_contents"
   ],
   "note": "Every prefix of every trace of file operations, partial writes included. C64_torn_contents: what a reader finds after a write of the first n bytes is these bytes as UTF-8, or an error if they end inside a character."
  },
  {
   "property": "C65",
   "status": "proved",
   "theorems": [
    "Qlc.C65_rerun_after_interrupted_workers",
    "Qlc.C65_rerun_after_interrupted_globals",
    "Qlc.C65_rerun_after_any_interruptions"
   ],
   "note": "Provisos as C57."
  },
  {
   "property": "C66",
   "status": "proved",
   "theorems": [
    "Qlc.C66_interleaving_refines",
    "Qlc.C66_whole_program",
    "Qlc.C66_two_interleavings"
   ],
   "note": "Refinement of the atomic-compile pool by the fine-grained one."
  },
  {
   "property": "C67",
   "status": "proved",
   "theorems": [
    "Qlc.C67_names_follow_the_response"
   ],
   "note": ""
  },
  {
   "property": "C68",
   "status": "proved",
   "theorems": [
    "Qlc.C68_generated_iff_valid",
    "Qlc.C68_no_empty_union",
    "Qlc.C68_empty_interface_fails"
   ],
   "note": "C68_generated_iff_valid is an iff; the witness is valid GraphQL without generated file."
  },
  {
   "property": "C69",
   "status": "proved",
   "theorems": [
    "Qlc.C69_options_take_effect",
    "Qlc.C69_root_and_import_prefix"
   ],
   "note": "Provisos: consistent schema; the compile of the file succeeds."
  },
  {
   "property": "C70",
   "status": "proved",
   "theorems": [
    "Qlc.C70_globals_location",
    "Qlc.C70_globals_location_dotted",
    "Qlc.C70_globals_written",
    "Qlc.C70_defect_witness"
   ],
   "note": "Module names whose last component is empty, `.` or `..` are not covered."
  },
  {
   "property": "C71",
   "status": "proved",
   "theorems": [
    "Qlc.C71_fair_schedules_finish",
    "Qlc.C71_one_thread_compiles_everything",
    "Qlc.C71_all_files_compiled"
   ],
   "note": ""
  },
  {
   "property": "C72",
   "status": "proved",
   "theorems": [
    "Qlc.C72_bad_config_stops",
    "Qlc.C72_bad_schema_stops",
    "Qlc.C72_usable_schema_is_loaded",
    "Qlc.C72_config_file_complaint",
    "Qlc.C72_config_file_used",
    "Qlc.C72_schema_file_complaint",
    "Qlc.C72_schema_file_used"
   ],
   "note": ""
  },
  {
   "property": "C73",
   "status": "proved",
   "theorems": [
    "Qlc.C73_description_comment"
   ],
   "note": ""
  },
  {
   "property": "C74",
   "status": "proved",
   "theorems": [
    "Qlc.C74_everything_is_reported",
    "Qlc.C74_exit_status",
    "Qlc.C74_success_means_generated",
    "Qlc.C74_one_thread"
   ],
   "note": ""
  },
  {
   "property": "C75",
   "status": "proved",
   "theorems": [
    "Qlc.C75_file_is_a_module",
    "Qlc.C75_demo",
    "Qlc.C75_reserved_name_witness"
   ],
   "note": ""
  },
  {
   "property": "C76",
   "status": "proved",
   "theorems": [
    "Qlc.C76_responses_inhabit_text",
    "Qlc.C76_text_admits_exactly"
   ],
   "note": ""
  },
  {
   "property": "C77",
   "status": "proved",
   "theorems": [
    "Qlc.C77_names_in_scope",
    "Qlc.C77_names_distinct",
    "Qlc.C77_name_clash_witness"
   ],
   "note": ""
  },
  {
   "property": "C78",
   "status": "proved",
   "theorems": [
    "Qlc.C78_globals_are_a_module"
   ],
   "note": ""
  },
  {
   "property": "C79",
   "status": "proved",
   "theorems": [
    "Qlc.C79_inputs_inhabit_globals",
    "Qlc.C79_globals_admit_exactly"
   ],
   "note": ""
  },
  {
   "property": "C80",
   "status": "proved",
   "theorems": [
    "Qlc.C80_variables_inhabit_text",
    "Qlc.C80_variables_admit_exactly",
    "Qlc.C80_demo",
    "Qlc.C80_default_value_witness"
   ],
   "note": ""
  },
  {
   "property": "C81",
   "status": "proved",
   "theorems": [
    "Qlc.C81_responses_inhabit_both_texts"
   ],
   "note": ""
  },
  {
   "property": "C82",
   "status": "proved",
   "theorems": [
    "Qlc.C82_invalid_selections_as_printed",
    "Qlc.C82_misspelled_condition_has_no_place",
    "Qlc.C82_demo"
   ],
   "note": ""
  },
  {
   "property": "C83",
   "status": "proved",
   "theorems": [
    "Qlc.C83_warnings_as_printed",
    "Qlc.C83_demo"
   ],
   "note": ""
  },
  {
   "property": "C84",
   "status": "proved",
   "theorems": [
    "Qlc.C84_not_one_definition_as_printed",
    "Qlc.C84_plain_selection_set_as_printed",
    "Qlc.C84_wrong_root_type_as_printed",
    "Qlc.C84_wrong_variable_as_printed",
    "Qlc.C84_valid_definition_as_printed",
    "Qlc.C84_several_demo",
    "Qlc.C84_empty_file_witness",
    "Qlc.C84_list_of_lists_witness",
    "Qlc.C84_unknown_variable_type_witness",
    "Qlc.C84_no_possible_type_witness",
    "Qlc.C84_selection_set_demo",
    "Qlc.C84_wrong_root_demo",
    "Qlc.C84_globals_write_error_names_root",
    "Qlc.C84_read_as_text",
    "Qlc.C84_not_text"
   ],
   "note": ""
  },
  {
   "property": "C85",
   "status": "proved",
   "theorems": [
    "Qlc.C85_only_verified_tarballs_are_unpacked",
    "Qlc.C85_success_means_installed",
    "Qlc.C85_exit_status_zero",
    "Qlc.C85_unsupported_platform",
    "Qlc.C85_wrong_digest_is_refused",
    "Qlc.C85_demo",
    "Qlc.C85_broken_download_witness",
    "Qlc.C85_redirects_without_end",
    "Qlc.C85_meddling_witness",
    "Qlc.C85_success_means_tar_succeeded",
    "Qlc.C85_platform_target"
   ],
   "note": ""
  },
  {
   "property": "C86",
   "status": "proved",
   "theorems": [
    "Qlc.C86_endpoint_required",
    "Qlc.C86_success",
    "Qlc.C86_contents",
    "Qlc.C86_old_schema_lost_witness",
    "Qlc.C86_broken_download_witness",
    "Qlc.C86_demo"
   ],
   "note": ""
  },
  {
   "property": "C87",
   "status": "proved",
   "theorems": [
    "Qlc.C87_downloaded_document",
    "Qlc.C87_loads_iff_shallow",
    "Qlc.C87_never_warned_about_deprecation",
    "Qlc.C87_query_type_must_be_called_query",
    "Qlc.C87_no_warning_demo",
    "Qlc.C87_too_deep_witness",
    "Qlc.C87_other_query_type_witness"
   ],
   "note": ""
  },
  {
   "property": "C88",
   "status": "proved",
   "theorems": [
    "Qlc.C88_document_type_fits",
    "Qlc.C88_demo"
   ],
   "note": ""
  },
  {
   "property": "C89",
   "status": "proved",
   "theorems": [
    "Qlc.C89_successful_run",
    "Qlc.C89_demo"
   ],
   "note": ""
  },
  {
   "property": "C90",
   "status": "proved",
   "theorems": [
    "Qlc.C90_imported_fragments_valid"
   ],
   "note": ""
  },
  {
   "property": "C91",
   "status": "proved",
   "theorems": [
    "Qlc.C91_file_report",
    "Qlc.C91_same_report",
    "Qlc.C91_offered_names_order_witness"
   ],
   "note": ""
  },
  {
   "property": "C92",
   "status": "proved",
   "theorems": [
    "Qlc.C92_admits_only_answers",
    "Qlc.C92_admits_exactly",
    "Qlc.C92_successful_run",
    "Qlc.C92_demo",
    "Qlc.C92_narrowing_witness",
    "Qlc.C92_any_witness",
    "Qlc.C92_two_typenames_witness"
   ],
   "note": ""
  },
  {
   "property": "C93",
   "status": "proved",
   "theorems": [
    "Qlc.C93_command_line",
    "Qlc.C93_help",
    "Qlc.C93_version",
    "Qlc.C93_order_does_not_matter",
    "Qlc.C93_invocation",
    "Qlc.C93_demo"
   ],
   "note": ""
  },
  {
   "property": "C94",
   "status": "proved",
   "theorems": [
    "Qlc.C94_from_server_to_types",
    "Qlc.C94_demo"
   ],
   "note": ""
  },
  {
   "property": "C95",
   "status": "proved",
   "theorems": [
    "Qlc.C95_same_data_same_text"
   ],
   "note": ""
  },
  {
   "property": "C96",
   "status": "proved",
   "theorems": [
    "Qlc.C96_tidying_keeps_text",
    "Qlc.C96_order_of_one_key_matters"
   ],
   "note": ""
  },
  {
   "property": "C97",
   "status": "proved",
   "theorems": [
    "Qlc.C97_growth_keeps_text",
    "Qlc.C97_new_implementation_changes_text"
   ],
   "note": ""
  },
  {
   "property": "C98",
   "status": "proved",
   "theorems": [
    "Qlc.C98_regeneration",
    "Qlc.C98_same_globals",
    "Qlc.C98_demo"
   ],
   "note": ""
  },
  {
   "property": "C99",
   "status": "proved",
   "theorems": [
    "Qlc.C99_edits_are_local",
    "Qlc.C99_outputs_of_removed_documents_stay",
    "Qlc.C99_demo"
   ],
   "note": ""
  },
  {
   "property": "C100",
   "status": "proved",
   "theorems": [
    "Qlc.C100_helpers_on_queries",
    "Qlc.C100_helpers_lose_other_documents",
    "Qlc.C100_only_queries",
    "Qlc.C100_demo",
    "Qlc.C100_lost_demo"
   ],
   "note": "The second theorem is the finding: the helpers lose the types of mutations and fragments."
  },
  {
   "property": "C101",
   "status": "proved",
   "theorems": [
    "Qlc.C101_release_is_consistent",
    "Qlc.C101_only_what_was_built",
    "Qlc.C101_smooth_install_succeeds",
    "Qlc.C101_demo"
   ],
   "note": "Building, tar and SHA-256 are parameters; a collision of digests is excluded only where the statement says so."
  },
  {
   "property": "C102",
   "status": "proved",
   "theorems": [
    "Qlc.C102_workers_finish",
    "Qlc.C102_one_thread_completes",
    "Qlc.C102_demo",
    "Qlc.C102_undisturbed_completes",
    "Qlc.C102_two_threads_demo"
   ],
   "note": "Provisos as C57, plus every file returning alone; with several threads a file may still be left out (C51), so the second half is for one thread, or for several that are not disturbed while taking work."
  },
  {
   "property": "C103",
   "status": "proved",
   "theorems": [
    "Qlc.C103_file_returns_iff",
    "Qlc.C103_recursion_never_completes",
    "Qlc.C103_no_recursion_completes",
    "Qlc.C103_demo",
    "Qlc.C103_loop_demo",
    "Qlc.C103_undisturbed_completes"
   ],
   "note": "Provisos as C57; time is the fuel of the model, and one amount of it suffices for all runs."
  },
  {
   "property": "C104",
   "status": "proved",
   "theorems": [
    "Qlc.C104_each_as_if_alone",
    "Qlc.C104_together_as_one",
    "Qlc.C104_different_options_witness",
    "Qlc.C104_stopped_beside_finished_witness"
   ],
   "note": "Provisos as C57 (consistent schema, outputs distinct and not read, imported fragments with different names). Files are bytes here, and a write is at the position of the process that writes."
  },
  {
   "property": "C105",
   "status": "proved",
   "theorems": [
    "Qlc.C105_one_read_per_chain",
    "Qlc.C105_times_read",
    "Qlc.C105_exponential_witness"
   ],
   "note": "Files do not change while the document is compiled, except by its own write at the end. The witness holds for every number of levels."
  },
  {
   "property": "C106",
   "status": "proved",
   "theorems": [
    "Qlc.C106_same_components",
    "Qlc.C106_operations",
    "Qlc.C106_program_paths",
    "Qlc.C106_spelling_does_not_matter",
    "Qlc.C106_shown",
    "Qlc.C106_text_below",
    "Qlc.C106_demo"
   ],
   "note": ""
  },
  {
   "property": "C107",
   "status": "proved",
   "theorems": [
    "Qlc.C107_operation_documents",
    "Qlc.C107_fragment_documents",
    "Qlc.C107_accepted_iff_safe",
    "Qlc.C107_accepted_is_safe",
    "Qlc.C107_kinds_confused",
    "Qlc.C107_kinds_confused_witness",
    "Qlc.C107_exported_operation",
    "Qlc.C107_exported_fragment",
    "Qlc.C107_demo",
    "Qlc.C107_fragment_demo"
   ],
   "note": "TypeScript's assignability is modelled from its documented behaviour, with strictFunctionTypes; the types inside documents and their assignability are parameters."
  },
  {
   "property": "C108",
   "status": "proved",
   "theorems": [
    "Qlc.C108_one_path",
    "Qlc.C108_exported_program",
    "Qlc.C108_demo"
   ],
   "note": "Digests of different archives are taken to be different (a hypothesis on the released archives); tar, SHA-256 and the network are parameters."
  },
  {
   "property": "C109",
   "status": "proved",
   "theorems": [
    "Qlc.C109_unchanged_answers",
    "Qlc.C109_unchanged_variables",
    "Qlc.C109_unchanged_after_runs",
    "Qlc.C109_demo",
    "Qlc.C109_globals_witness"
   ],
   "note": "Under the conditions of C92 for both versions, with the same meaning of the names of scalars; the operation keeps its name. For variables both versions declare some. In the theorem on runs, both runs write the globals file or neither does."
  },
  {
   "property": "C110",
   "status": "proved",
   "theorems": [
    "Qlc.C110_accepts_graphql",
    "Qlc.C110_demo",
    "Qlc.C110_unsupported_witness",
    "Qlc.C110_no_members_witness",
    "Qlc.C110_unchecked_witness"
   ],
   "note": "GraphQL's rules about arguments, directives and mergeable fields are not part of the hypothesis, so the theorem covers more documents; the imported fragments are the other fragments of the document."
  },
  {
   "property": "C111",
   "status": "proved",
   "theorems": [
    "Qlc.C111_valid_project_succeeds",
    "Qlc.C111_valid_project_completes",
    "Qlc.C111_demo"
   ],
   "note": "The conditions on paths are those of C74 (no output is read, outputs differ, the globals file is apart); with more than one thread completion excludes the schedules of the race of C102."
  },
  {
   "property": "C112",
   "status": "proved",
   "theorems": [
    "Qlc.C112_written_from_what_was_read",
    "Qlc.C112_consistent_answers",
    "Qlc.C112_run_beside_an_editor",
    "Qlc.C112_unrelated_changes",
    "Qlc.C112_mixture_witness",
    "Qlc.C112_unrelated_demo"
   ],
   "note": "The directory tree is fixed during the run; changes are to contents (and in the first theorems to anything a read or write answers)."
  },
  {
   "property": "C113",
   "status": "proved",
   "theorems": [
    "Qlc.C113_valid",
    "Qlc.C113_loads",
    "Qlc.C113_globals",
    "Qlc.C113_same_run",
    "Qlc.C113_demo"
   ],
   "note": "As in C98, imported fragments are valid and have different names, no response key has two named types and no variable is declared twice; paths as in C74."
  },
  {
   "property": "C114",
   "status": "proved",
   "theorems": [
    "Qlc.C114_paths_apart",
    "Qlc.C114_sources_kept",
    "Qlc.C114_plain_globals",
    "Qlc.C114_demo",
    "Qlc.C114_globals_over_document_witness"
   ],
   "note": "Discharges the path conditions of C57, C74, C98, C111 and C113 for ordinary projects."
  },
  {
   "property": "C115",
   "status": "proved",
   "theorems": [
    "Qlc.C115_output_exponential",
    "Qlc.C115_without_fragments_linear"
   ],
   "note": ""
  },
  {
   "property": "C116",
   "status": "proved",
   "theorems": [
    "Qlc.C116_file",
    "Qlc.C116_rename_and_rerun",
    "Qlc.C116_users_unchanged",
    "Qlc.C116_definition",
    "Qlc.C116_demo",
    "Qlc.C116_merging_names_witness"
   ],
   "note": "Imported fragments must have different names (otherwise the result depends on hash orders already, see C16 and C39). C116_merging_names_witness shows that a renaming that merges two names can make an error disappear. The import paths stay as they are: renaming is about names, not files."
  },
  {
   "property": "C117",
   "status": "proved",
   "theorems": [
    "Qlc.C117_document",
    "Qlc.C117_reorganise_and_rerun",
    "Qlc.C117_move_and_rerun",
    "Qlc.C117_demo",
    "Qlc.C117_reorganised_demo",
    "Qlc.C117_absolute_import_witness"
   ],
   "note": "As for C16, the documents of the first project must not depend on hash orders, and for both projects nothing that is read is generated and outputs are distinct (true of ordinary projects, C114); both runs are complete. C117_absolute_import_witness shows that a project with an absolute import cannot be moved."
  },
  {
   "property": "C118",
   "status": "proved",
   "theorems": [
    "Qlc.C118_status_iff_correct",
    "Qlc.C118_status_is_stable",
    "Qlc.C118_demo"
   ],
   "note": "C118_status_iff_correct: for a completed run, exit status 0 iff ProjectCorrect (Spec/Correct.lean). C118_status_is_stable: any two completed runs agree. C118_demo: the demo project is correct and ends with 0; with a variable of an object type it is not correct, and runs end with another status."
  },
  {
   "property": "C119",
   "status": "proved",
   "theorems": [
    "Qlc.C119_fragment_data",
    "Qlc.C119_demo"
   ],
   "note": "C119_fragment_data: both claims, for the modules on the disk after the run; PartOf, ObjectAt, SpreadAt and MergesWell are in Spec/Compose.lean. C119_demo: the demo query's object under node, proper part."
  },
  {
   "property": "C120",
   "status": "proved",
   "theorems": [
    "Qlc.C120_asking_for_more",
    "Qlc.C120_demo"
   ],
   "note": "C120_asking_for_more: both claims for the parsed texts of the two versions; MoreSels and MoreFrags in Spec/Extend.lean, PartOf and MergesWell in Spec/Compose.lean. C120_demo: the demo query as second version of a shorter query."
  },
  {
   "property": "C121",
   "status": "proved",
   "theorems": [
    "Qlc.C121_promising_more",
    "Qlc.C121_demo"
   ],
   "note": "C121_promising_more: for the parsed texts of the two versions; NarrowerTy and PromisesMore in Spec/Narrow.lean. C121_demo: the demo schema with two fields made non-null and an enum value dropped."
  },
  {
   "property": "C122",
   "status": "proved",
   "theorems": [
    "Qlc.C122_asking_for_less",
    "Qlc.C122_demo"
   ],
   "note": "C122_asking_for_less: for the parsed texts of the two versions; DemandsLess, WiderVars and VariablesFit in Spec/Widen.lean. C122_demo: the demo schema and query with a new enum value, new nullable fields and variables, and fewer non-null marks."
  },
  {
   "property": "C123",
   "status": "proved",
   "theorems": [
    "Qlc.C123_hash_proof",
    "Qlc.C123_reproducible",
    "Qlc.C123_second_run",
    "Qlc.C123_properties_once",
    "Qlc.C123_demo",
    "Qlc.C123_narrowing_witness"
   ],
   "note": "The conditions are GraphQL's own validation rules (as in C110/C111) and its merging rule, stated on introspection JSON and documents; they imply the conditions of C16, C21, C58 and C91 on the loaded schema. C123_narrowing_witness shows that the condition on the schema is needed."
  },
  {
   "property": "C124",
   "status": "proved",
   "theorems": [
    "Qlc.C124_look_alikes_agree",
    "Qlc.C124_right_types",
    "Qlc.C124_demo"
   ],
   "note": "C124_look_alikes_agree shows that the rule and GraphQL's shape rule imply the condition that C23 proves to be exactly what keeps same-named generated types equal; C124_right_types carries it to the files on disk. The conditions are on documents and introspection JSON, apart from the shape rule, which is stated on the loaded schema. Programs that break the rule can be wrong: see C23_merging_unsound."
  },
  {
   "property": "C125",
   "status": "proved",
   "theorems": [
    "Qlc.C125_reads_iff",
    "Qlc.C125_one_tree",
    "Qlc.C125_file_iff",
    "Qlc.C125_not_json",
    "Qlc.C125_spelling_does_not_matter",
    "Qlc.C125_demo",
    "Qlc.C125_rejected",
    "Qlc.C125_levels"
   ],
   "note": "serde_json's reading of text is modelled after RFC 8259 and its documentation (Model/JsonText.lean); the wording of its errors is a parameter. Values that no field asks for are held to the same rules as the rest, whereas serde_json skips them without pairing surrogates or counting levels."
  },
  {
   "property": "C126",
   "status": "proved",
   "theorems": [
    "Qlc.C126_cut_short",
    "Qlc.C126_file_cut_short",
    "Qlc.C126_schema_cut_short",
    "Qlc.C126_config_cut_short",
    "Qlc.C126_broken_download",
    "Qlc.C126_demo"
   ],
   "note": "About the model of serde_json of C125 and of the download of C86."
  },
  {
   "property": "C127",
   "status": "proved",
   "theorems": [
    "Qlc.C127_reads_iff",
    "Qlc.C127_one_sequence",
    "Qlc.C127_one_document",
    "Qlc.C127_otherwise",
    "Qlc.C127_demo"
   ],
   "note": "About a model of graphql_parser::parse_query written after the GraphQL specification and the crate's documented grammar (no directives on variables), since the crate's source is not in /repo. How positions are counted, what the crate refuses besides and how it words errors are parameters. All other properties but C128, C129 and C130 hold for any parser."
  },
  {
   "property": "C128",
   "status": "proved",
   "theorems": [
    "Qlc.C128_same_definitions",
    "Qlc.C128_file",
    "Qlc.C128_relaid_and_rerun",
    "Qlc.C128_demo"
   ],
   "note": "About the model of the parser of C127. Runs are related under the conditions of C116: outputs are not read, fragment names are unique among the imports of a file, and the schema is valid."
  },
  {
   "property": "C129",
   "status": "proved",
   "theorems": [
    "Qlc.C129_first_definitions",
    "Qlc.C129_whole_or_error",
    "Qlc.C129_imports",
    "Qlc.C129_file",
    "Qlc.C129_demo"
   ],
   "note": "About the model of the parser of C127. The file-level theorem asks that every carriage return is followed by a line feed: a lone one ends a comment in GraphQL but not an import line of qlc."
  },
  {
   "property": "C130",
   "status": "proved",
   "theorems": [
    "Qlc.C130_names",
    "Qlc.C130_names_fit",
    "Qlc.C130_right_types",
    "Qlc.C130_demo"
   ],
   "note": "About the model of the parser of C127. C130_right_types is C124 with its conditions on names reduced to those that the parser does not already enforce."
  },
  {
   "property": "C131",
   "status": "proved",
   "theorems": [
    "Qlc.C131_right_types",
    "Qlc.C131_whole_way",
    "Qlc.C131_demo"
   ],
   "note": "C131_right_types is C124/C130 with exactness (C92) added and holds for any number of threads; C131_whole_way asks for one thread because with several a file can be lost (C51). The text of documents is read by the model of the parser of C127."
  },
  {
   "property": "C132",
   "status": "proved",
   "theorems": [
    "Qlc.C132_where_parts_stand",
    "Qlc.C132_caret_under_word",
    "Qlc.C132_error_marks_selection",
    "Qlc.C132_warnings_mark_selections",
    "Qlc.C132_variable_marked",
    "Qlc.C132_invalid_file",
    "Qlc.C132_valid_file",
    "Qlc.C132_second_definition",
    "Qlc.C132_demo",
    "Qlc.C132_second_demo"
   ],
   "note": "C132_where_parts_stand, C132_caret_under_word, C132_error_marks_selection, C132_warnings_mark_selections, C132_variable_marked, C132_invalid_file, C132_valid_file, C132_second_definition; examples: C132_demo, C132_second_demo. That the parser crate counts lines and columns so is a hypothesis (CountsLines); the fixtures of the repository agree with it."
  },
  {
   "property": "C133",
   "status": "proved",
   "theorems": [
    "Qlc.C133_safe_iff",
    "Qlc.C133_run_is_complete",
    "Qlc.C133_program",
    "Qlc.C133_completes",
    "Qlc.C133_whole_way",
    "Qlc.C133_two_documents",
    "Qlc.C133_demo"
   ],
   "note": "C133_run_is_complete, C133_program and C133_completes for runs, the program and fair schedules; C133_whole_way is C131 without its condition of one thread. The project must hold at least one document. C133_safe_iff is the converse, for compiles that return and a root that can be listed."
  },
  {
   "property": "C134",
   "status": "proved",
   "theorems": [
    "Qlc.C134_promising_more",
    "Qlc.C134_growth",
    "Qlc.C134_server_first",
    "Qlc.C134_generated_anew",
    "Qlc.C134_demo"
   ],
   "note": "C134_server_first: one run, answers and variables of another version of the server; C134_generated_anew: two runs, values of the new types belong to the old; C134_promising_more and C134_growth: which upgrades are safe; C134_demo: a run exists, a safe upgrade, and an unsafe one with a witness. AnswersSafe and SaferTy are in Spec/Upgrade.lean."
  },
  {
   "property": "C135",
   "status": "proved",
   "theorems": [
    "Qlc.C135_one_text",
    "Qlc.C135_message",
    "Qlc.C135_output",
    "Qlc.C135_no_color",
    "Qlc.C135_demo"
   ],
   "note": "C135_message and C135_output for the texts, C135_one_text for what is shown, C135_no_color for the program, C135_demo with the sequences of usual terminals. The crate `colored` is a parameter, assumed to satisfy Decorates (Spec/Colour.lean)."
  },
  {
   "property": "C136",
   "status": "proved",
   "theorems": [
    "Qlc.C136_distance",
    "Qlc.C136_never_panics",
    "Qlc.C136_near",
    "Qlc.C136_names_are_plain",
    "Qlc.C136_suggestions",
    "Qlc.C136_as_printed",
    "Qlc.C136_document",
    "Qlc.C136_demo",
    "Qlc.C136_printed_demo",
    "Qlc.C136_slip_demo",
    "Qlc.C136_help_demo"
   ],
   "note": "C136_distance: the distance is the least number of mistakes (Edits, Spec/Distance.lean), by alignments; C136_near and C136_suggestions for names, C136_names_are_plain, C136_as_printed for what is printed and C136_document with the modelled parser, where only the field names of the schema need to be plain; demos. The algorithm is that of strsim 0.10.0, which is not in /repo; it is modelled from its published source, with the table as a function of row and column; C136_never_panics: the same statement by statement, in one vector with checked indices and subtractions (Model/DistanceVec.lean), gives the same result. For names that are not plain ASCII the distance is that of the UTF-8 bytes (C136_distance still applies)."
  },
  {
   "property": "C137",
   "status": "proved",
   "theorems": [
    "Qlc.C137_what_a_run_leaves",
    "Qlc.C137_others_do_not_matter",
    "Qlc.C137_globals_of_generated_documents",
    "Qlc.C137_globals_file",
    "Qlc.C137_kept_output_witness",
    "Qlc.C137_demo",
    "Qlc.C137_globals_demo"
   ],
   "note": "Generable (Spec/Faults.lean) says when a file can be generated; C137_what_a_run_leaves, C137_others_do_not_matter, C137_globals_of_generated_documents, C137_globals_file; C137_kept_output_witness is the example of two runs; C137_demo and C137_globals_demo show the hypotheses met."
  },
  {
   "property": "C138",
   "status": "proved",
   "theorems": [
    "Qlc.C138_leftovers_do_not_matter",
    "Qlc.C138_clean_checkout",
    "Qlc.C138_demo"
   ],
   "note": "SameProject (Spec/History.lean); C138_leftovers_do_not_matter, C138_clean_checkout; C138_demo shows a fresh and a used directory."
  },
  {
   "property": "C139",
   "status": "proved",
   "theorems": [
    "Qlc.C139_options_in_the_file",
    "Qlc.C139_file_on_the_line",
    "Qlc.C139_limits",
    "Qlc.C139_file_exists",
    "Qlc.C139_file_demo",
    "Qlc.C139_line_demo"
   ],
   "note": "C139_options_in_the_file and C139_file_on_the_line say that two invocations, from the words on the command line to the end of the run, have the same possible outcomes. C139_file_exists shows that the file and the short command line exist for every accepted command line (at the level of JSON trees). C139_limits states what cannot be said."
  },
  {
   "property": "C140",
   "status": "proved",
   "theorems": [
    "Qlc.C140_check",
    "Qlc.C140_blind_spots",
    "Qlc.C140_demo"
   ],
   "note": "C140_check is the equivalence, C140_blind_spots what is not seen. C140_demo has one checkout that is up to date and one that is not, with a leftover of a removed document."
  },
  {
   "property": "C141",
   "status": "proved",
   "theorems": [
    "Qlc.C141_only_warnings",
    "Qlc.C141_demo"
   ],
   "note": "C141_only_warnings has no hypotheses but that the option is on and the configuration file does not ask for the warnings. C141_demo: two runs over a document with a deprecated field, one with a warning, one silent, with the same output."
  },
  {
   "property": "C142",
   "status": "proved",
   "theorems": [
    "Qlc.C142_only_style",
    "Qlc.C142_globals",
    "Qlc.C142_runs",
    "Qlc.C142_demo"
   ],
   "note": "C142_only_style: one document, no hypotheses on it (panics and non-termination agree, too); two properties of the variables type with the same name (a variable declared twice, which is not valid GraphQL) may be swapped if scalars are spelled differently. C142_runs: whole runs, with the usual hypotheses that outputs are distinct and not read and that imported fragments have distinct names; it covers the globals file, too. C142_globals: of all settings only the spelling of scalars matters for the contents of the globals file. C142_demo: two runs with all four settings changed."
  },
  {
   "property": "C143",
   "status": "proved",
   "theorems": [
    "Qlc.C143_same_data_same_files",
    "Qlc.C143_same_globals",
    "Qlc.C143_tidied_asks_same",
    "Qlc.C143_demo"
   ],
   "note": "C143_same_data_same_files and C143_same_globals are about two runs that both succeed; C118 says when a run does. C143_tidied_asks_same: the steps of C96 keep the data. C143_demo tidies the demo query, which loses its import. Documents must be hash-proof (C16, C123) in both states."
  },
  {
   "property": "C144",
   "status": "proved",
   "theorems": [
    "Qlc.C144_declarations_stay",
    "Qlc.C144_more_documents",
    "Qlc.C144_demo"
   ],
   "note": "C144_declarations_stay is about the globals file alone: more used names keep all declarations in place. C144_more_documents is about two runs that both succeed. The documents of the smaller project must be hash-proof (C16, C123). C144_demo adds a second document to the demo directory and the globals file changes."
  },
  {
   "property": "C145",
   "status": "proved",
   "theorems": [
    "Qlc.C145_outputs_of_removed_documents_stay",
    "Qlc.C145_only_declarations_go",
    "Qlc.C145_demo"
   ],
   "note": "C145_outputs_of_removed_documents_stay needs success of the first run only. C145_only_declarations_go is about two runs that both succeed; its documents must be hash-proof (C16, C123). C145_demo removes one of two documents: its output stays and imports an input object that the new globals file lacks, although both runs end with status 0."
  },
  {
   "property": "C146",
   "status": "proved",
   "theorems": [
    "Qlc.C146_order_of_variables_does_not_matter",
    "Qlc.C146_file_stays",
    "Qlc.C146_demo",
    "Qlc.C146_file_demo",
    "Qlc.C146_repeated_names_witness",
    "Qlc.C146_runs",
    "Qlc.C146_status",
    "Qlc.C146_runs_demo"
   ],
   "note": "C146_order_of_variables_does_not_matter is about definitions, C146_file_stays about a file whose imports stay, C146_runs about whole runs that end with status 0, and C146_status says that with the one run the other ends with status 0 if its outputs can be written (C146_runs_demo is an instance of both); the relation between the operations is symmetric, so refusal carries over as well. C146_demo is a query with two variables; C146_repeated_names_witness shows that the names must be different. Selections are the same on both sides; C95 and C96 are about those."
  },
  {
   "property": "C147",
   "status": "proved",
   "theorems": [
    "Qlc.C147_described_alike_declared_alike",
    "Qlc.C147_runs",
    "Qlc.C147_demo"
   ],
   "note": "C147_described_alike_declared_alike is about the text of two globals files, C147_runs about two successful runs. C147_demo: an enum gets another value, the globals file changes, and the declaration of an input object in it stays. Which types are declared is C30."
  }
 ]
}