# Properties and theorems

Generated by `tools/gen_index.py`. The letters are the axioms a theorem depends on, as `#print axioms`
prints them: P `propext`, C `Classical.choice`, Q `Quot.sound`. There are no others.

## C01 Selected fields keep the exact list/null shape of their GraphQL type

Exact boundary proved (iff); the witness shows the lost list level of [[X]!].

* `C01_selected_field_type_exact` in `Props/Types.lean`: PCQ
* `C01_defect_witness` in `Props/Types.lean`: P

## C02 Input object fields keep their GraphQL type and optionality

Exact boundary proved (iff); the witness shows two list levels printed wrongly.

* `C02_input_field_type_exact` in `Props/Types.lean`: PCQ
* `C02_defect_witness` in `Props/Types.lean`: PCQ

## C03 Operation variables keep their GraphQL type and optionality

Acceptance and printed type proved for every variable type expression.

* `C03_variable_accepted_iff` in `Props/Types.lean`: PCQ
* `C03_variable_type_exact` in `Props/Types.lean`: PCQ

## C04 A schema loads exactly when every type in it is well described

Iff, for every deserialized introspection document (C62 covers the JSON layer below).

* `C04_schema_loads_iff_well_described` in `Props/Schema.lean`: PCQ

## C05 Looking up a type after loading returns what the JSON said

* `C05_lookup_returns_what_the_document_says` in `Props/Schema.lean`: PCQ

## C06 A scalar is spelled the same way everywhere

* `C06_scalar_spelling` in `Props/Types.lean`: PCQ

## C07 Compilation accepts exactly the valid documents

Proviso: Consistent schema, i.e. named types of fields and possible types exist with the kind claimed; Lemmas/Loaded derives it for loaded schemas.

* `C07_compiles_iff_valid` in `Props/Selections.lean`: PCQ
* `C07_input_object_field_rejected` in `Props/Selections.lean`: PCQ

## C08 One run reports every invalid selection

* `C08_all_invalid_selections_reported` in `Props/Selections.lean`: PCQ
* `C08_listed_iff_invalid` in `Props/Selections.lean`: PQ
* `C08_errors_are_the_invalid_selections` in `Props/Selections.lean`: PCQ

## C09 Diagnostics point into the file being compiled

* `C09_positions_in_definition` in `Props/Positions.lean`: PCQ

## C10 Generated properties are exactly the response keys GraphQL collects

Provisos as in the statement: imported fragments valid, one named type per response key.

* `C10_generated_tree` in `Props/Tree.lean`: PCQ
* `C10_properties_are_response_keys` in `Props/Tree.lean`: PCQ
* `C10_top_level_properties` in `Props/Tree.lean`: PCQ

## C11 Generated possibilities are exactly the possible object types

* `C11_top_level_alternatives` in `Props/Tree.lean`: PCQ
* `C11_alternatives_are_possible_types` in `Props/Tree.lean`: PCQ

## C12 Fields of valid imported fragments are never silently dropped

The second half is a defect of the code, exhibited by a witness.

* `C12_valid_fragment_contributes` in `Props/Tree.lean`: PCQ
* `C12_fragment_errors_not_reported` in `Props/Tree.lean`: PCQ
* `C12_invalid_fragment_dropped` in `Props/Tree.lean`: PCQ

## C13 Compiling selections terminates exactly when fragments do not recurse

Termination iff the enterable selections are well-founded; the witness diverges for every fuel.

* `C13_terminates_iff` in `Props/Selections.lean`: PCQ
* `C13_enough_fuel` in `Props/Selections.lean`: PCQ
* `C13_acyclic_fragments_terminate` in `Props/Selections.lean`: PCQ
* `C13_self_spreading_fragment_diverges` in `Props/Selections.lean`: PCQ

## C14 Over-narrowing warnings are raised exactly for spreads that can never match

* `C14_listed_iff` in `Props/Warnings.lean`: PQ
* `C14_warnings_are_the_never_matching` in `Props/Warnings.lean`: PCQ
* `C14_no_warnings_without_type` in `Props/Warnings.lean`: PCQ

## C15 Deprecation warnings cover exactly the deprecated fields used in the file

* `C15_deprecation_warnings_exact` in `Props/Warnings.lean`: PCQ
* `C15_listed_iff` in `Props/Warnings.lean`: PQ
* `C15_deprecation_warnings_of_any_definition` in `Props/Warnings.lean`: PCQ

## C16 Output does not depend on hash iteration order

Determinism under the stated proviso; a witness shows hash dependence without it.

* `C16_code_generation_deterministic` in `Props/Determinism.lean`: PCQ
* `C16_selection_result_deterministic` in `Props/Determinism.lean`: PCQ
* `C16_diagnostics_deterministic` in `Props/Determinism.lean`: PCQ
* `C16_text_deterministic` in `Props/Determinism.lean`: PCQ
* `C16_narrowed_field_text_depends_on_hash` in `Props/Determinism.lean`: PCQ
* `C16_file_deterministic` in `Props/Files.lean`: PCQ
* `C16_globals_deterministic` in `Props/Files.lean`: PCQ

## C17 The first selection of a response key decides its documentation and nullability

* `C17_first_selection_decides` in `Props/Tree.lean`: PCQ

## C18 Every exported type name is declared once

Underscore-free names; a witness shows the clash.

* `C18_names_declared_once` in `Props/Emit.lean`: PCQ
* `C18_underscores_collide` in `Props/Emit.lean`: PCQ

## C19 Generated files have no dangling type references

* `C19_no_dangling_references` in `Props/Emit.lean`: PCQ

## C20 The globals import lists exactly the global types used

* `C20_globals_exactly_those_used` in `Props/Emit.lean`: PCQ

## C21 A property name occurs once in each generated object type

Iff; a witness shows the duplicate property.

* `C21_properties_listed_once` in `Props/Tree.lean`: PCQ
* `C21_listed_once_iff` in `Props/Tree.lean`: PCQ
* `C21_properties_sorted` in `Props/Tree.lean`: PCQ
* `C21_narrowed_field_listed_twice` in `Props/Tree.lean`: PCQ

## C22 Server responses inhabit the generated type

Provisos as in the statement. C22_demo instantiates all of them on the demo schema and document.

* `C22_responses_inhabit_document` in `Props/Alike.lean`: PCQ
* `C22_responses_inhabit` in `Props/Response.lean`: PCQ
* `C22_demo` in `Props/Response.lean`: PCQ

## C23 Merging look-alike alternatives is only safe when their bodies agree

Preservation under equal bodies; unsoundness witness without.

* `C23_same_bodies_iff` in `Props/Alike.lean`: PCQ
* `C23_only_fields_agree` in `Props/Alike.lean`: PQ
* `C23_which_types_are_merged` in `Props/Names.lean`: PQ
* `C23_merging_preserves` in `Props/Response.lean`: PCQ
* `C23_merging_loses_nothing` in `Props/Response.lean`: PCQ
* `C23_merging_unsound` in `Props/Response.lean`: PCQ

## C24 __typename discriminates correctly

* `C24_typename_discriminates` in `Props/Emit.lean`: PCQ

## C25 Schema descriptions cannot break out of the generated doc comment

Iff on the description text; witness of a break-out.

* `C25_comment_closed_early_iff` in `Props/Docs.lean`: PCQ
* `C25_safe_without_double_star` in `Props/Docs.lean`: PCQ
* `C25_break_out` in `Props/Docs.lean`: PCQ

## C26 readonly and @deprecated markers are printed exactly when asked for

* `C26_doc_comment` in `Props/Docs.lean`: PCQ
* `C26_property_text` in `Props/Emit.lean`: PCQ
* `C26_markers` in `Props/Emit.lean`: PCQ

## C27 Arguments and directives never influence the output

Arguments and directives are erased; the consequence for @skip is exhibited.

* `C27_arguments_ignored` in `Props/Erase.lean`: PCQ
* `C27_files_arguments_ignored` in `Props/Erase.lean`: PCQ
* `C27_skipped_field_typed_as_present` in `Props/Erase.lean`: PCQ
* `C27_skipped_answer_not_admitted` in `Props/Response.lean`: PCQ

## C28 The default export has the right document type

Includes that subscriptions are compiled as queries.

* `C28_default_export` in `Props/Emit.lean`: PCQ

## C29 The variables type lists every declared variable once, sorted

* `C29_variables_type` in `Props/Emit.lean`: PCQ

## C30 The globals file declares exactly the reachable global types

* `C30_globals_text` in `Props/Globals.lean`: PCQ
* `C30_globals_file` in `Props/Globals.lean`: PCQ
* `C30_nothing_to_write` in `Props/Globals.lean`: PCQ

## C31 Collecting global types terminates exactly when input objects do not recurse

Iff on well-foundedness of the reachable input objects.

* `C31_terminates_if_well_founded` in `Props/Globals.lean`: PCQ
* `C31_no_success_if_not_well_founded` in `Props/Globals.lean`: PCQ
* `C31_terminates_iff` in `Props/Globals.lean`: PCQ
* `C31_recursive_input_never_returns` in `Props/Globals.lean`: PCQ

## C32 Only enums and input objects can become globals

* `C32_globals_ok_iff` in `Props/Globals.lean`: PCQ
* `C32_invalid_global_is_an_error` in `Props/Globals.lean`: PCQ
* `C32_valid_globals_are_written` in `Props/Globals.lean`: PCQ

## C33 Imports are read exactly from the leading comment block

* `C33_imports_are_the_leading_block` in `Props/Imports.lean`: PCQ
* `C33_later_lines_ignored` in `Props/Imports.lean`: PCQ

## C34 Import paths resolve by prefix, root, or current directory

Includes the trap with prefix `@`.

* `C34_import_target` in `Props/Imports.lean`: PCQ
* `C34_defect_witness` in `Props/Imports.lean`: PCQ

## C35 The import closure is complete and nothing else is loaded

* `C35_import_closure` in `Props/Imports.lean`: PCQ

## C36 Import scanning terminates exactly when imports do not recurse

Iff on well-foundedness of import chains.

* `C36_outcome_unique` in `Props/Imports.lean`: PCQ
* `C36_terminates` in `Props/Imports.lean`: PCQ
* `C36_returns_iff` in `Props/Imports.lean`: PCQ
* `C36_cycle_never_returns` in `Props/Imports.lean`: PCQ
* `C36_cycle_witness` in `Props/Imports.lean`: PCQ

## C37 Only an unterminated import line can crash import resolution

* `C37_panics_iff_unterminated` in `Props/Imports.lean`: PCQ
* `C37_crash_needs_unterminated_import` in `Props/Imports.lean`: PCQ
* `C37_crashes_iff` in `Props/Imports.lean`: PCQ

## C38 Fragment scope is independent of hash order when names are unique

Under unique fragment names; witness without.

* `C38_scope_independent_of_hash_order` in `Props/Imports.lean`: PCQ
* `C38_duplicate_witness` in `Props/Imports.lean`: PCQ

## C39 Importing an operation is always reported

* `C39_scope_and_errors` in `Props/Imports.lean`: PCQ

## C40 Output paths are unique and never overwrite a source

* `C40_output_path` in `Props/Compile.lean`: PCQ
* `C40_output_injective` in `Props/Compile.lean`: PCQ
* `C40_output_is_not_a_source` in `Props/Compile.lean`: PCQ

## C41 A failed compile writes nothing

* `C41_writes_only_its_output` in `Props/Compile.lean`: PCQ

## C42 Diagnostics survive to the report

A write error hides the other messages: second theorem.

* `C42_messages_are_reported` in `Props/Compile.lean`: PCQ
* `C42_write_error_hides_messages` in `Props/Compile.lean`: PCQ

## C43 Exit status is 0 exactly when no error was reported

* `C43_exit_zero_iff_no_error` in `Props/Cli.lean`: PCQ
* `C43_printed_output` in `Props/Cli.lean`: PCQ

## C44 Summary counts and plurals

The plural follows the errors: stated exactly.

* `C44_warning_summary` in `Props/Cli.lean`: PCQ

## C45 Configuration precedence

* `C45_configuration_precedence` in `Props/Cli.lean`: PCQ

## C46 Custom scalar prefix

The corner case is exhibited.

* `C46_custom_scalar_prefix` in `Props/Cli.lean`: PCQ
* `C46_custom_scalars_off` in `Props/Cli.lean`: PCQ
* `C46_surprising_corner` in `Props/Cli.lean`: PCQ

## C47 The caret points at the reported column

* `C47_caret_under_column` in `Props/Cli.lean`: PCQ
* `C47_quotes_the_reported_line` in `Props/Cli.lean`: PCQ

## C48 Suggestions list exactly the near names

* `C48_suggestions` in `Props/Cli.lean`: PCQ

## C49 Worker counters never drift

* `C49_counters_exact` in `Props/Pool.lean`: PCQ
* `C49_no_underflow` in `Props/Pool.lean`: PCQ

## C50 No file is processed twice or invented

* `C50_files_are_conserved` in `Props/Pool.lean`: PCQ
* `C50_no_file_twice` in `Props/Pool.lean`: PCQ

## C51 When all workers exit, every file was compiled

Provisos and the race as in the statement; the race is an explicit schedule, also for the whole program.

* `C51_all_files_compiled` in `Props/Pool.lean`: PCQ
* `C51_one_thread_compiles_everything` in `Props/Pool.lean`: PCQ
* `C51_race_loses_a_file` in `Props/Pool.lean`: PCQ
* `C51_any_subdirectory_can_be_lost` in `Props/PoolLose.lean`: PCQ
* `C51_subdirectory_can_go_missing` in `Props/PoolMissing.lean`: PCQ
* `C51_program_without_a_subdirectory` in `Props/PoolMissing.lean`: PCQ
* `C51_success_without_a_subdirectory` in `Props/PoolMissing.lean`: PCQ
* `C51_missing_demo` in `Props/PoolMissing.lean`: PCQ
* `C51_only_race` in `Props/PoolRace.lean`: PCQ
* `C51_undisturbed_compiles_everything` in `Props/PoolRace.lean`: PCQ
* `C51_undisturbed_runs` in `Props/PoolRace.lean`: PCQ
* `C51_race_whole_program` in `Props/PoolResults.lean`: PCQ
* `C51_top_level_never_lost` in `Props/PoolTop.lean`: PCQ
* `C51_flat_project_complete` in `Props/PoolTop.lean`: PCQ

## C52 The pool can always finish

Possibility of termination from every reachable state (no fairness assumed).

* `C52_can_always_finish` in `Props/Pool.lean`: PCQ

## C53 A panicking worker hangs the program

* `C53_nobody_exits_after_a_panic` in `Props/Pool.lean`: PCQ
* `C53_panic_hangs_the_program` in `Props/Pool.lean`: PCQ

## C54 Zero threads do nothing and succeed

* `C54_zero_threads_pool` in `Props/Pool.lean`: PCQ
* `C54_zero_threads_do_nothing` in `Props/Pool.lean`: PCQ

## C55 Aggregated results do not depend on the schedule

* `C55_results_independent_of_schedule` in `Props/PoolResults.lean`: PCQ
* `C55_results_without_early_quit` in `Props/PoolResults.lean`: PCQ

## C56 Directory walk finds exactly the .graphql files

* `C56_walk_finds_exactly_the_graphql_files` in `Props/PoolResults.lean`: PCQ
* `C56_names` in `Props/PoolResults.lean`: PCQ
* `C56_dead_ends` in `Props/PoolResults.lean`: PCQ

## C57 Generated files do not depend on the schedule

Proviso: nothing read is an output, outputs are distinct, globals file apart.

* `C57_files_independent_of_schedule` in `Props/Files.lean`: PCQ
* `C57_two_schedules` in `Props/Files.lean`: PCQ
* `C57_whole_program` in `Props/Files.lean`: PCQ

## C58 Running twice changes nothing

Same provisos as C57.

* `C58_second_run_changes_nothing` in `Props/Files.lean`: PCQ

## C59 The generated object text parses back to the intended declarations

* `C59_modifier_text_parses` in `Props/Types.lean`: PCQ

## C60 Enum declarations list exactly the schema's values

* `C60_enum_members` in `Props/Globals.lean`: PCQ

## C61 The non-fragment import error quotes a line of the file it names only for direct imports

* `C61_non_fragment_location` in `Props/Imports.lean`: PCQ
* `C61_defect_witness` in `Props/ImportsWitness.lean`: PCQ

## C62 The introspection document is read by key

* `C62_introspection_read_by_key` in `Props/Json.lean`: PCQ
* `C62_other_members_do_not_matter` in `Props/Json.lean`: PCQ
* `C62_runs_unchanged` in `Props/Json.lean`: PCQ

## C63 The configuration file is read by key

* `C63_config_read_by_key` in `Props/Json.lean`: PCQ
* `C63_other_members_do_not_matter` in `Props/Json.lean`: PCQ
* `C63_camelcased_schema_path_ignored` in `Props/Json.lean`: PCQ
* `C63_runs_unchanged` in `Props/Json.lean`: PCQ

## C64 A run that is stopped at any point damages no source file

Every prefix of every trace of file operations, partial writes included. C64_torn_contents: what a reader finds after a write of the first n bytes is these bytes as UTF-8, or an error if they end inside a character.

* `C64_other_files_never_touched` in `Props/Crash.lean`: PCQ
* `C64_outputs_old_or_prefix` in `Props/Crash.lean`: PCQ
* `C64_globals_old_or_prefix` in `Props/Crash.lean`: PCQ
* `C64_torn_contents` in `Props/TornText.lean`: PCQ

## C65 Running again after an interruption repairs the outputs

Provisos as C57.

* `C65_rerun_after_interrupted_workers` in `Props/Crash.lean`: PCQ
* `C65_rerun_after_interrupted_globals` in `Props/Crash.lean`: PCQ
* `C65_rerun_after_any_interruptions` in `Props/Crash.lean`: PCQ

## C66 Interleaved file operations of the workers do not interfere

Refinement of the atomic-compile pool by the fine-grained one.

* `C66_interleaving_refines` in `Props/Crash.lean`: PCQ
* `C66_whole_program` in `Props/Crash.lean`: PCQ
* `C66_two_interleavings` in `Props/Crash.lean`: PCQ

## C67 Generated types are named after the place in the response

* `C67_names_follow_the_response` in `Props/Names.lean`: PCQ

## C68 A file is generated exactly for the valid documents whose abstract types have members

C68_generated_iff_valid is an iff; the witness is valid GraphQL without generated file.

* `C68_generated_iff_valid` in `Props/Names.lean`: PCQ
* `C68_no_empty_union` in `Props/Names.lean`: PCQ
* `C68_empty_interface_fails` in `Props/Names.lean`: PCQ

## C69 Options take effect in the generated files

Provisos: consistent schema; the compile of the file succeeds.

* `C69_options_take_effect` in `Props/Options.lean`: PCQ
* `C69_root_and_import_prefix` in `Props/Options.lean`: PCQ

## C70 The globals module is written where generated files import it from

Module names whose last component is empty, `.` or `..` are not covered.

* `C70_globals_location` in `Props/Modules.lean`: PCQ
* `C70_globals_location_dotted` in `Props/Modules.lean`: PCQ
* `C70_globals_written` in `Props/Modules.lean`: PCQ
* `C70_defect_witness` in `Props/Modules.lean`: PCQ

## C71 Under a fair scheduler the workers always finish

* `C71_fair_schedules_finish` in `Props/Fair.lean`: PCQ
* `C71_one_thread_compiles_everything` in `Props/Fair.lean`: PCQ
* `C71_all_files_compiled` in `Props/Fair.lean`: PCQ

## C72 An unusable configuration or schema stops the program

* `C72_bad_config_stops` in `Props/Program.lean`: PCQ
* `C72_bad_schema_stops` in `Props/Program.lean`: PCQ
* `C72_usable_schema_is_loaded` in `Props/Program.lean`: PCQ
* `C72_config_file_complaint` in `Props/Startup.lean`: PCQ
* `C72_config_file_used` in `Props/Startup.lean`: PCQ
* `C72_schema_file_complaint` in `Props/Startup.lean`: PCQ
* `C72_schema_file_used` in `Props/Startup.lean`: PCQ

## C73 Descriptions of fields are carried over faithfully

* `C73_description_comment` in `Props/Text.lean`: PCQ

## C74 Exit status 0 means that everything was generated

* `C74_everything_is_reported` in `Props/Program.lean`: PCQ
* `C74_exit_status` in `Props/Program.lean`: PCQ
* `C74_success_means_generated` in `Props/Program.lean`: PCQ
* `C74_one_thread` in `Props/Program.lean`: PCQ

## C75 A generated file is a TypeScript module

* `C75_file_is_a_module` in `Props/Grammar.lean`: PCQ
* `C75_demo` in `Props/Grammar.lean`: PCQ
* `C75_reserved_name_witness` in `Props/Grammar.lean`: PCQ

## C76 The text of a generated file admits what a server answers, and nothing else

* `C76_responses_inhabit_text` in `Props/Grammar.lean`: PCQ
* `C76_text_admits_exactly` in `Props/Grammar.lean`: PCQ

## C77 Names in a generated file resolve, and resolve to one thing

* `C77_names_in_scope` in `Props/Grammar.lean`: PCQ
* `C77_names_distinct` in `Props/Grammar.lean`: PCQ
* `C77_name_clash_witness` in `Props/Grammar.lean`: PCQ

## C78 The globals file is a TypeScript module

* `C78_globals_are_a_module` in `Props/Inputs.lean`: PCQ

## C79 The types of the globals file admit what a server takes as input

* `C79_inputs_inhabit_globals` in `Props/Inputs.lean`: PCQ
* `C79_globals_admit_exactly` in `Props/Inputs.lean`: PCQ

## C80 The variables type admits what a server takes for the variables

* `C80_variables_inhabit_text` in `Props/Inputs.lean`: PCQ
* `C80_variables_admit_exactly` in `Props/Inputs.lean`: PCQ
* `C80_demo` in `Props/Inputs.lean`: PCQ
* `C80_default_value_witness` in `Props/Inputs.lean`: PCQ

## C81 The file of an operation and the globals file fit together

* `C81_responses_inhabit_both_texts` in `Props/Inputs.lean`: PCQ

## C82 Every invalid selection is explained where it stands

* `C82_invalid_selections_as_printed` in `Props/Diagnostics.lean`: PCQ
* `C82_misspelled_condition_has_no_place` in `Props/Diagnostics.lean`: PCQ
* `C82_demo` in `Props/Diagnostics.lean`: PCQ

## C83 Warnings are printed for what they are about, where it stands

* `C83_warnings_as_printed` in `Props/Diagnostics.lean`: PCQ
* `C83_demo` in `Props/Diagnostics.lean`: PCQ

## C84 What is printed about a file that cannot be used

* `C84_not_one_definition_as_printed` in `Props/Diagnostics.lean`: PCQ
* `C84_plain_selection_set_as_printed` in `Props/Diagnostics.lean`: PCQ
* `C84_wrong_root_type_as_printed` in `Props/Diagnostics.lean`: PCQ
* `C84_wrong_variable_as_printed` in `Props/Diagnostics.lean`: PCQ
* `C84_valid_definition_as_printed` in `Props/Diagnostics.lean`: PCQ
* `C84_several_demo` in `Props/Diagnostics.lean`: PCQ
* `C84_empty_file_witness` in `Props/Diagnostics.lean`: PCQ
* `C84_list_of_lists_witness` in `Props/Diagnostics.lean`: PCQ
* `C84_unknown_variable_type_witness` in `Props/Diagnostics.lean`: PCQ
* `C84_no_possible_type_witness` in `Props/Diagnostics.lean`: PCQ
* `C84_selection_set_demo` in `Props/Diagnostics.lean`: PCQ
* `C84_wrong_root_demo` in `Props/Diagnostics.lean`: PCQ
* `C84_globals_write_error_names_root` in `Props/Diagnostics.lean`: PCQ
* `C84_read_as_text` in `Props/Shared.lean`: PCQ
* `C84_not_text` in `Props/Shared.lean`: PCQ

## C85 Installing the npm package runs only a verified binary

* `C85_only_verified_tarballs_are_unpacked` in `Props/Npm.lean`: PQ
* `C85_success_means_installed` in `Props/Npm.lean`: PQ
* `C85_exit_status_zero` in `Props/Npm.lean`: PCQ
* `C85_unsupported_platform` in `Props/Npm.lean`: P
* `C85_wrong_digest_is_refused` in `Props/Npm.lean`: PQ
* `C85_demo` in `Props/Npm.lean`: P
* `C85_broken_download_witness` in `Props/Npm.lean`: P
* `C85_redirects_without_end` in `Props/Npm.lean`: P
* `C85_meddling_witness` in `Props/Npm.lean`: P
* `C85_success_means_tar_succeeded` in `Props/NpmTarget.lean`: PQ
* `C85_platform_target` in `Props/NpmTarget.lean`: PCQ

## C86 Downloading a schema

* `C86_endpoint_required` in `Props/Npm.lean`: P
* `C86_success` in `Props/Npm.lean`: PCQ
* `C86_contents` in `Props/Npm.lean`: PCQ
* `C86_old_schema_lost_witness` in `Props/Npm.lean`: P
* `C86_broken_download_witness` in `Props/Npm.lean`: P
* `C86_demo` in `Props/Npm.lean`: P

## C87 A downloaded schema is the server's schema

* `C87_downloaded_document` in `Props/Npm.lean`: PCQ
* `C87_loads_iff_shallow` in `Props/Npm.lean`: PCQ
* `C87_never_warned_about_deprecation` in `Props/Npm.lean`: PCQ
* `C87_query_type_must_be_called_query` in `Props/Npm.lean`: PCQ
* `C87_no_warning_demo` in `Props/Npm.lean`: PCQ
* `C87_too_deep_witness` in `Props/Npm.lean`: PCQ
* `C87_other_query_type_witness` in `Props/Npm.lean`: PCQ

## C88 The types of the npm package fit the generated files

* `C88_document_type_fits` in `Props/Library.lean`: PCQ
* `C88_demo` in `Props/Library.lean`: PCQ

## C89 What a successful run leaves on the disk

* `C89_successful_run` in `Props/EndToEnd.lean`: PCQ
* `C89_demo` in `Props/EndToEnd.lean`: PCQ

## C90 After a successful run the imported fragments are valid

* `C90_imported_fragments_valid` in `Props/EndToEnd.lean`: PCQ

## C91 Two runs over the same files report the same

* `C91_file_report` in `Props/Report.lean`: PCQ
* `C91_same_report` in `Props/Report.lean`: PCQ
* `C91_offered_names_order_witness` in `Props/Report.lean`: PCQ

## C92 The data type admits exactly the possible responses

* `C92_admits_only_answers` in `Props/Exact.lean`: PCQ
* `C92_admits_exactly` in `Props/Exact.lean`: PCQ
* `C92_successful_run` in `Props/Exact.lean`: PCQ
* `C92_demo` in `Props/Exact.lean`: PCQ
* `C92_narrowing_witness` in `Props/Exact.lean`: PCQ
* `C92_any_witness` in `Props/Exact.lean`: PCQ
* `C92_two_typenames_witness` in `Props/Exact.lean`: PCQ

## C93 The command line

* `C93_command_line` in `Props/Args.lean`: PCQ
* `C93_help` in `Props/Args.lean`: PCQ
* `C93_version` in `Props/Args.lean`: PCQ
* `C93_order_does_not_matter` in `Props/Args.lean`: PCQ
* `C93_invocation` in `Props/Args.lean`: PCQ
* `C93_demo` in `Props/Args.lean`: PCQ

## C94 From the server to the types

* `C94_from_server_to_types` in `Props/Toolchain.lean`: PCQ
* `C94_demo` in `Props/Toolchain.lean`: PCQ

## C95 Documents that ask for the same data generate the same file

* `C95_same_data_same_text` in `Props/Same.lean`: PCQ

## C96 Tidying a document leaves the generated file as it is

* `C96_tidying_keeps_text` in `Props/Rewrite.lean`: PCQ
* `C96_order_of_one_key_matters` in `Props/Rewrite.lean`: PCQ

## C97 A schema that only grows does not change the generated files

* `C97_growth_keeps_text` in `Props/Growth.lean`: PCQ
* `C97_new_implementation_changes_text` in `Props/Growth.lean`: PCQ

## C98 Running again after the schema has grown

* `C98_regeneration` in `Props/Regenerate.lean`: PCQ
* `C98_same_globals` in `Props/Regenerate.lean`: PCQ
* `C98_demo` in `Props/Regenerate.lean`: PCQ

## C99 An edit changes only the outputs that depend on it

* `C99_edits_are_local` in `Props/Edit.lean`: PCQ
* `C99_outputs_of_removed_documents_stay` in `Props/Edit.lean`: PCQ
* `C99_demo` in `Props/Edit.lean`: PCQ

## C100 The helper types give back the types of query documents only

The second theorem is the finding: the helpers lose the types of mutations and fragments.

* `C100_helpers_on_queries` in `Props/Library.lean`: PCQ
* `C100_helpers_lose_other_documents` in `Props/Library.lean`: PCQ
* `C100_only_queries` in `Props/Library.lean`: PCQ
* `C100_demo` in `Props/Library.lean`: PCQ
* `C100_lost_demo` in `Props/Library.lean`: PCQ

## C101 What was built for a platform is what is installed on it

Building, tar and SHA-256 are parameters; a collision of digests is excluded only where the statement says so.

* `C101_release_is_consistent` in `Props/Release.lean`: PCQ
* `C101_only_what_was_built` in `Props/Release.lean`: PCQ
* `C101_smooth_install_succeeds` in `Props/Release.lean`: PCQ
* `C101_demo` in `Props/Release.lean`: PCQ

## C102 Under a fair scheduler the program ends, whatever the file operations are interleaved with

Provisos as C57, plus every file returning alone; with several threads a file may still be left out (C51), so the second half is for one thread, or for several that are not disturbed while taking work.

* `C102_workers_finish` in `Props/FineFair.lean`: PCQ
* `C102_one_thread_completes` in `Props/FineFair.lean`: PCQ
* `C102_demo` in `Props/FineFair.lean`: PCQ
* `C102_undisturbed_completes` in `Props/FineRace.lean`: PCQ
* `C102_two_threads_demo` in `Props/FineRace.lean`: PCQ

## C103 A run ends exactly on projects without recursion

Provisos as C57; time is the fuel of the model, and one amount of it suffices for all runs.

* `C103_file_returns_iff` in `Props/Ends.lean`: PCQ
* `C103_recursion_never_completes` in `Props/Ends.lean`: PCQ
* `C103_no_recursion_completes` in `Props/Ends.lean`: PCQ
* `C103_demo` in `Props/Ends.lean`: PCQ
* `C103_loop_demo` in `Props/Ends.lean`: PCQ
* `C103_undisturbed_completes` in `Props/FineRace.lean`: PCQ

## C104 Several invocations at the same time leave what one alone leaves

Provisos as C57 (consistent schema, outputs distinct and not read, imported fragments with different names). Files are bytes here, and a write is at the position of the process that writes.

* `C104_each_as_if_alone` in `Props/Shared.lean`: PCQ
* `C104_together_as_one` in `Props/Shared.lean`: PCQ
* `C104_different_options_witness` in `Props/Shared.lean`: PCQ
* `C104_stopped_beside_finished_witness` in `Props/Shared.lean`: PCQ

## C105 A document reads a file once per chain of imports, in walking order, and writes only its output

Files do not change while the document is compiled, except by its own write at the end. The witness holds for every number of levels.

* `C105_one_read_per_chain` in `Props/Accesses.lean`: PCQ
* `C105_times_read` in `Props/Accesses.lean`: PCQ
* `C105_exponential_witness` in `Props/Accesses.lean`: PCQ

## C106 How a path is spelled does not matter

* `C106_same_components` in `Props/RawPath.lean`: PCQ
* `C106_operations` in `Props/RawPath.lean`: PCQ
* `C106_program_paths` in `Props/RawPath.lean`: PCQ
* `C106_spelling_does_not_matter` in `Props/RawPath.lean`: PCQ
* `C106_shown` in `Props/RawPath.lean`: PCQ
* `C106_text_below` in `Props/RawPath.lean`: P
* `C106_demo` in `Props/RawPath.lean`: PCQ

## C107 A typed document is accepted in place of another of its kind exactly where that is safe, but kinds are not told apart

TypeScript's assignability is modelled from its documented behaviour, with strictFunctionTypes; the types inside documents and their assignability are parameters.

* `C107_operation_documents` in `Props/DocTypes.lean`: PQ
* `C107_fragment_documents` in `Props/DocTypes.lean`: PQ
* `C107_accepted_iff_safe` in `Props/DocTypes.lean`: PCQ
* `C107_accepted_is_safe` in `Props/DocTypes.lean`: PQ
* `C107_kinds_confused` in `Props/DocTypes.lean`: PCQ
* `C107_kinds_confused_witness` in `Props/DocTypes.lean`: PCQ
* `C107_exported_operation` in `Props/DocTypes.lean`: PCQ
* `C107_exported_fragment` in `Props/DocTypes.lean`: PCQ
* `C107_demo` in `Props/DocTypes.lean`: PCQ
* `C107_fragment_demo` in `Props/DocTypes.lean`: PCQ

## C108 The npm package exports the path of the program it has installed

Digests of different archives are taken to be different (a hypothesis on the released archives); tar, SHA-256 and the network are parameters.

* `C108_one_path` in `Props/NpmPath.lean`: PCQ
* `C108_exported_program` in `Props/NpmPath.lean`: PCQ
* `C108_demo` in `Props/NpmPath.lean`: PCQ

## C109 Unchanged generated files mean unchanged answers

Under the conditions of C92 for both versions, with the same meaning of the names of scalars; the operation keeps its name. For variables both versions declare some. In the theorem on runs, both runs write the globals file or neither does.

* `C109_unchanged_answers` in `Props/Unchanged.lean`: PCQ
* `C109_unchanged_variables` in `Props/Unchanged.lean`: PCQ
* `C109_unchanged_after_runs` in `Props/Unchanged.lean`: PCQ
* `C109_demo` in `Props/Unchanged.lean`: PCQ
* `C109_globals_witness` in `Props/Unchanged.lean`: PCQ

## C110 Documents that GraphQL accepts are compiled, but for a short list of constructs

GraphQL's rules about arguments, directives and mergeable fields are not part of the hypothesis, so the theorem covers more documents; the imported fragments are the other fragments of the document.

* `C110_accepts_graphql` in `Props/Graphql.lean`: PCQ
* `C110_demo` in `Props/Graphql.lean`: PCQ
* `C110_unsupported_witness` in `Props/Graphql.lean`: PCQ
* `C110_no_members_witness` in `Props/Graphql.lean`: PCQ
* `C110_unchecked_witness` in `Props/Graphql.lean`: PCQ

## C111 A project of documents that GraphQL accepts is generated completely, with exit status 0

The conditions on paths are those of C74 (no output is read, outputs differ, the globals file is apart); with more than one thread completion excludes the schedules of the race of C102.

* `C111_valid_project_succeeds` in `Props/Project.lean`: PCQ
* `C111_valid_project_completes` in `Props/Project.lean`: PCQ
* `C111_demo` in `Props/Project.lean`: PCQ

## C112 Files may be edited while the program runs

The directory tree is fixed during the run; changes are to contents (and in the first theorems to anything a read or write answers).

* `C112_written_from_what_was_read` in `Props/Editing.lean`: PCQ
* `C112_consistent_answers` in `Props/Editing.lean`: PCQ
* `C112_run_beside_an_editor` in `Props/Editing.lean`: PCQ
* `C112_unrelated_changes` in `Props/Editing.lean`: PCQ
* `C112_mixture_witness` in `Props/Editing.lean`: PCQ
* `C112_unrelated_demo` in `Props/Editing.lean`: PCQ

## C113 The order in which a server lists its schema does not matter

As in C98, imported fragments are valid and have different names, no response key has two named types and no variable is declared twice; paths as in C74.

* `C113_valid` in `Props/Reorder.lean`: PCQ
* `C113_loads` in `Props/Reorder.lean`: PCQ
* `C113_globals` in `Props/Reorder.lean`: PCQ
* `C113_same_run` in `Props/Reorder.lean`: PCQ
* `C113_demo` in `Props/Reorder.lean`: PCQ

## C114 In an ordinary project inputs and outputs never meet

Discharges the path conditions of C57, C74, C98, C111 and C113 for ordinary projects.

* `C114_paths_apart` in `Props/Ordinary.lean`: PCQ
* `C114_sources_kept` in `Props/Ordinary.lean`: PCQ
* `C114_plain_globals` in `Props/Ordinary.lean`: PCQ
* `C114_demo` in `Props/Ordinary.lean`: PCQ
* `C114_globals_over_document_witness` in `Props/Ordinary.lean`: PCQ

## C115 How many types a document can generate

* `C115_output_exponential` in `Props/Size.lean`: PCQ
* `C115_without_fragments_linear` in `Props/Size.lean`: PCQ

## C116 Renaming fragments changes nothing for their users

Imported fragments must have different names (otherwise the result depends on hash orders already, see C16 and C39). C116_merging_names_witness shows that a renaming that merges two names can make an error disappear. The import paths stay as they are: renaming is about names, not files.

* `C116_file` in `Props/Rename.lean`: PCQ
* `C116_rename_and_rerun` in `Props/Rename.lean`: PCQ
* `C116_users_unchanged` in `Props/Rename.lean`: PCQ
* `C116_definition` in `Props/Rename.lean`: PCQ
* `C116_demo` in `Props/Rename.lean`: PCQ
* `C116_merging_names_witness` in `Props/Rename.lean`: PCQ

## C117 A project generates the same files wherever its files lie

As for C16, the documents of the first project must not depend on hash orders, and for both projects nothing that is read is generated and outputs are distinct (true of ordinary projects, C114); both runs are complete. C117_absolute_import_witness shows that a project with an absolute import cannot be moved.

* `C117_document` in `Props/Move.lean`: PCQ
* `C117_reorganise_and_rerun` in `Props/Move.lean`: PCQ
* `C117_move_and_rerun` in `Props/Move.lean`: PCQ
* `C117_demo` in `Props/Move.lean`: PCQ
* `C117_reorganised_demo` in `Props/Move.lean`: PCQ
* `C117_absolute_import_witness` in `Props/Move.lean`: PCQ

## C118 The exit status is 0 exactly for correct projects

C118_status_iff_correct: for a completed run, exit status 0 iff ProjectCorrect (Spec/Correct.lean). C118_status_is_stable: any two completed runs agree. C118_demo: the demo project is correct and ends with 0; with a variable of an object type it is not correct, and runs end with another status.

* `C118_status_iff_correct` in `Props/Correct.lean`: PCQ
* `C118_status_is_stable` in `Props/Correct.lean`: PCQ
* `C118_demo` in `Props/Correct.lean`: PCQ

## C119 Data found where a document spreads a fragment belongs to the fragment's generated type

C119_fragment_data: both claims, for the modules on the disk after the run; PartOf, ObjectAt, SpreadAt and MergesWell are in Spec/Compose.lean. C119_demo: the demo query's object under node, proper part.

* `C119_fragment_data` in `Props/Compose.lean`: PCQ
* `C119_demo` in `Props/Compose.lean`: PCQ

## C120 Asking for more does not break code written against the old type

C120_asking_for_more: both claims for the parsed texts of the two versions; MoreSels and MoreFrags in Spec/Extend.lean, PartOf and MergesWell in Spec/Compose.lean. C120_demo: the demo query as second version of a shorter query.

* `C120_asking_for_more` in `Props/Extend.lean`: PCQ
* `C120_demo` in `Props/Extend.lean`: PCQ

## C121 A schema that promises more keeps old code valid

C121_promising_more: for the parsed texts of the two versions; NarrowerTy and PromisesMore in Spec/Narrow.lean. C121_demo: the demo schema with two fields made non-null and an enum value dropped.

* `C121_promising_more` in `Props/Narrow.lean`: PCQ
* `C121_demo` in `Props/Narrow.lean`: PCQ

## C122 A schema that asks for less keeps old calls valid

C122_asking_for_less: for the parsed texts of the two versions; DemandsLess, WiderVars and VariablesFit in Spec/Widen.lean. C122_demo: the demo schema and query with a new enum value, new nullable fields and variables, and fewer non-null marks.

* `C122_asking_for_less` in `Props/Widen.lean`: PCQ
* `C122_demo` in `Props/Widen.lean`: PCQ

## C123 What GraphQL accepts is generated reproducibly

The conditions are GraphQL's own validation rules (as in C110/C111) and its merging rule, stated on introspection JSON and documents; they imply the conditions of C16, C21, C58 and C91 on the loaded schema. C123_narrowing_witness shows that the condition on the schema is needed.

* `C123_hash_proof` in `Props/Reproducible.lean`: PCQ
* `C123_reproducible` in `Props/Reproducible.lean`: PCQ
* `C123_second_run` in `Props/Reproducible.lean`: PCQ
* `C123_properties_once` in `Props/Reproducible.lean`: PCQ
* `C123_demo` in `Props/Reproducible.lean`: PCQ
* `C123_narrowing_witness` in `Props/Reproducible.lean`: PCQ

## C124 A rule of thumb under which generated types are right

C124_look_alikes_agree shows that the rule and GraphQL's shape rule imply the condition that C23 proves to be exactly what keeps same-named generated types equal; C124_right_types carries it to the files on disk. The conditions are on documents and introspection JSON, apart from the shape rule, which is stated on the loaded schema. Programs that break the rule can be wrong: see C23_merging_unsound.

* `C124_look_alikes_agree` in `Props/Guideline.lean`: PCQ
* `C124_right_types` in `Props/Guideline.lean`: PCQ
* `C124_demo` in `Props/Guideline.lean`: PCQ

## C125 How the JSON files are spelled does not matter

serde_json's reading of text is modelled after RFC 8259 and its documentation (Model/JsonText.lean); the wording of its errors is a parameter. Values that no field asks for are held to the same rules as the rest, whereas serde_json skips them without pairing surrogates or counting levels.

* `C125_reads_iff` in `Props/JsonText.lean`: PCQ
* `C125_one_tree` in `Props/JsonText.lean`: PCQ
* `C125_file_iff` in `Props/JsonText.lean`: PCQ
* `C125_not_json` in `Props/JsonText.lean`: PCQ
* `C125_spelling_does_not_matter` in `Props/JsonText.lean`: PCQ
* `C125_demo` in `Props/JsonText.lean`: PCQ
* `C125_rejected` in `Props/JsonText.lean`: PCQ
* `C125_levels` in `Props/JsonText.lean`: PCQ

## C126 A schema or configuration that was cut short is never used

About the model of serde_json of C125 and of the download of C86.

* `C126_cut_short` in `Props/JsonText.lean`: PCQ
* `C126_file_cut_short` in `Props/JsonText.lean`: PCQ
* `C126_schema_cut_short` in `Props/JsonText.lean`: PCQ
* `C126_config_cut_short` in `Props/JsonText.lean`: PCQ
* `C126_broken_download` in `Props/JsonText.lean`: PCQ
* `C126_demo` in `Props/JsonText.lean`: PCQ

## C127 Documents are read by the GraphQL grammar

About a model of graphql_parser::parse_query written after the GraphQL specification and the crate's documented grammar (no directives on variables), since the crate's source is not in /repo. How positions are counted, what the crate refuses besides and how it words errors are parameters. All other properties but C128, C129 and C130 hold for any parser.

* `C127_reads_iff` in `Props/GraphqlText.lean`: PCQ
* `C127_one_sequence` in `Props/GraphqlText.lean`: PCQ
* `C127_one_document` in `Props/GraphqlText.lean`: PQ
* `C127_otherwise` in `Props/GraphqlText.lean`: PCQ
* `C127_demo` in `Props/GraphqlText.lean`: PCQ

## C128 How documents are laid out does not matter

About the model of the parser of C127. Runs are related under the conditions of C116: outputs are not read, fragment names are unique among the imports of a file, and the schema is valid.

* `C128_same_definitions` in `Props/GraphqlText.lean`: PCQ
* `C128_file` in `Props/GraphqlText.lean`: PCQ
* `C128_relaid_and_rerun` in `Props/GraphqlText.lean`: PCQ
* `C128_demo` in `Props/GraphqlText.lean`: PCQ

## C129 A document of which only the beginning is there is never taken for the whole

About the model of the parser of C127. The file-level theorem asks that every carriage return is followed by a line feed: a lone one ends a comment in GraphQL but not an import line of qlc.

* `C129_first_definitions` in `Props/CutText.lean`: PCQ
* `C129_whole_or_error` in `Props/CutText.lean`: PCQ
* `C129_imports` in `Props/CutText.lean`: PCQ
* `C129_file` in `Props/CutText.lean`: PCQ
* `C129_demo` in `Props/CutText.lean`: PCQ

## C130 Names in documents need no care, but for those of operations and fragments

About the model of the parser of C127. C130_right_types is C124 with its conditions on names reduced to those that the parser does not already enforce.

* `C130_names` in `Props/DocumentNames.lean`: PCQ
* `C130_names_fit` in `Props/DocumentNames.lean`: PCQ
* `C130_right_types` in `Props/DocumentNames.lean`: PCQ
* `C130_demo` in `Props/DocumentNames.lean`: PCQ

## C131 From the bytes on the disk to the types

C131_right_types is C124/C130 with exactness (C92) added and holds for any number of threads; C131_whole_way asks for one thread because with several a file can be lost (C51). The text of documents is read by the model of the parser of C127.

* `C131_right_types` in `Props/WholeWay.lean`: PCQ
* `C131_whole_way` in `Props/WholeWay.lean`: PCQ
* `C131_demo` in `Props/WholeWay.lean`: PCQ

## C132 Messages mark the word that they are about

C132_where_parts_stand, C132_caret_under_word, C132_error_marks_selection, C132_warnings_mark_selections, C132_variable_marked, C132_invalid_file, C132_valid_file, C132_second_definition; examples: C132_demo, C132_second_demo. That the parser crate counts lines and columns so is a hypothesis (CountsLines); the fixtures of the repository agree with it.

* `C132_where_parts_stand` in `Props/Caret.lean`: PCQ
* `C132_caret_under_word` in `Props/Caret.lean`: PCQ
* `C132_error_marks_selection` in `Props/Caret.lean`: PCQ
* `C132_warnings_mark_selections` in `Props/Caret.lean`: PCQ
* `C132_variable_marked` in `Props/Caret.lean`: PCQ
* `C132_invalid_file` in `Props/Caret.lean`: PCQ
* `C132_valid_file` in `Props/Caret.lean`: PCQ
* `C132_second_definition` in `Props/Caret.lean`: PCQ
* `C132_demo` in `Props/Caret.lean`: PCQ
* `C132_second_demo` in `Props/Caret.lean`: PCQ

## C133 A project without subdirectories is safe with any number of threads

C133_run_is_complete, C133_program and C133_completes for runs, the program and fair schedules; C133_whole_way is C131 without its condition of one thread. The project must hold at least one document. C133_safe_iff is the converse, for compiles that return and a root that can be listed.

* `C133_safe_iff` in `Props/Flat.lean`: PCQ
* `C133_run_is_complete` in `Props/Flat.lean`: PCQ
* `C133_program` in `Props/Flat.lean`: PCQ
* `C133_completes` in `Props/Flat.lean`: PCQ
* `C133_whole_way` in `Props/Flat.lean`: PCQ
* `C133_two_documents` in `Props/Flat.lean`: PCQ
* `C133_demo` in `Props/Flat.lean`: PCQ

## C134 Generated files stay right when the server is upgraded safely and nothing is generated anew

C134_server_first: one run, answers and variables of another version of the server; C134_generated_anew: two runs, values of the new types belong to the old; C134_promising_more and C134_growth: which upgrades are safe; C134_demo: a run exists, a safe upgrade, and an unsafe one with a witness. AnswersSafe and SaferTy are in Spec/Upgrade.lean.

* `C134_promising_more` in `Props/Upgrade.lean`: P
* `C134_growth` in `Props/Upgrade.lean`: P
* `C134_server_first` in `Props/Upgrade.lean`: PCQ
* `C134_generated_anew` in `Props/Upgrade.lean`: PCQ
* `C134_demo` in `Props/Upgrade.lean`: PCQ

## C135 Colours change nothing but colours

C135_message and C135_output for the texts, C135_one_text for what is shown, C135_no_color for the program, C135_demo with the sequences of usual terminals. The crate `colored` is a parameter, assumed to satisfy Decorates (Spec/Colour.lean).

* `C135_one_text` in `Props/Colour.lean`: PCQ
* `C135_message` in `Props/Colour.lean`: PCQ
* `C135_output` in `Props/Colour.lean`: PCQ
* `C135_no_color` in `Props/Colour.lean`: PCQ
* `C135_demo` in `Props/Colour.lean`: PCQ

## C136 Suggestions are exactly the names at most two typing mistakes away

C136_distance: the distance is the least number of mistakes (Edits, Spec/Distance.lean), by alignments; C136_near and C136_suggestions for names, C136_names_are_plain, C136_as_printed for what is printed and C136_document with the modelled parser, where only the field names of the schema need to be plain; demos. The algorithm is that of strsim 0.10.0, which is not in /repo; it is modelled from its published source, with the table as a function of row and column; C136_never_panics: the same statement by statement, in one vector with checked indices and subtractions (Model/DistanceVec.lean), gives the same result. For names that are not plain ASCII the distance is that of the UTF-8 bytes (C136_distance still applies).

* `C136_distance` in `Props/Distance.lean`: PCQ
* `C136_never_panics` in `Props/Distance.lean`: PCQ
* `C136_near` in `Props/Distance.lean`: PCQ
* `C136_names_are_plain` in `Props/Distance.lean`: PCQ
* `C136_suggestions` in `Props/Distance.lean`: PCQ
* `C136_as_printed` in `Props/Distance.lean`: PCQ
* `C136_document` in `Props/Distance.lean`: PCQ
* `C136_demo` in `Props/Distance.lean`: PCQ
* `C136_printed_demo` in `Props/Distance.lean`: PCQ
* `C136_slip_demo` in `Props/Distance.lean`: PCQ
* `C136_help_demo` in `Props/Distance.lean`: PCQ

## C137 A mistake in one document does not spoil the others

Generable (Spec/Faults.lean) says when a file can be generated; C137_what_a_run_leaves, C137_others_do_not_matter, C137_globals_of_generated_documents, C137_globals_file; C137_kept_output_witness is the example of two runs; C137_demo and C137_globals_demo show the hypotheses met.

* `C137_what_a_run_leaves` in `Props/Faults.lean`: PCQ
* `C137_others_do_not_matter` in `Props/Faults.lean`: PCQ
* `C137_globals_of_generated_documents` in `Props/Faults.lean`: PCQ
* `C137_globals_file` in `Props/Faults.lean`: PCQ
* `C137_kept_output_witness` in `Props/Faults.lean`: PCQ
* `C137_demo` in `Props/Faults.lean`: PCQ
* `C137_globals_demo` in `Props/Faults.lean`: PCQ

## C138 A clean checkout generates the same files as a used directory

SameProject (Spec/History.lean); C138_leftovers_do_not_matter, C138_clean_checkout; C138_demo shows a fresh and a used directory.

* `C138_leftovers_do_not_matter` in `Props/History.lean`: PCQ
* `C138_clean_checkout` in `Props/History.lean`: PCQ
* `C138_demo` in `Props/History.lean`: PCQ

## C139 Options may be given on the command line or in the configuration file

C139_options_in_the_file and C139_file_on_the_line say that two invocations, from the words on the command line to the end of the run, have the same possible outcomes. C139_file_exists shows that the file and the short command line exist for every accepted command line (at the level of JSON trees). C139_limits states what cannot be said.

* `C139_options_in_the_file` in `Props/Settings.lean`: PCQ
* `C139_file_on_the_line` in `Props/Settings.lean`: PCQ
* `C139_limits` in `Props/Settings.lean`: PCQ
* `C139_file_exists` in `Props/Settings.lean`: PCQ
* `C139_file_demo` in `Props/Settings.lean`: PCQ
* `C139_line_demo` in `Props/Settings.lean`: PCQ

## C140 Running the program tells whether checked-in outputs are up to date

C140_check is the equivalence, C140_blind_spots what is not seen. C140_demo has one checkout that is up to date and one that is not, with a leftover of a removed document.

* `C140_check` in `Props/UpToDate.lean`: PCQ
* `C140_blind_spots` in `Props/UpToDate.lean`: PCQ
* `C140_demo` in `Props/UpToDate.lean`: PCQ

## C141 Asking for deprecation warnings changes nothing but these warnings

C141_only_warnings has no hypotheses but that the option is on and the configuration file does not ask for the warnings. C141_demo: two runs over a document with a deprecated field, one with a warning, one silent, with the same output.

* `C141_only_warnings` in `Props/Quiet.lean`: PCQ
* `C141_demo` in `Props/Quiet.lean`: PCQ

## C142 Options about style change nothing but the style

C142_only_style: one document, no hypotheses on it (panics and non-termination agree, too); two properties of the variables type with the same name (a variable declared twice, which is not valid GraphQL) may be swapped if scalars are spelled differently. C142_runs: whole runs, with the usual hypotheses that outputs are distinct and not read and that imported fragments have distinct names; it covers the globals file, too. C142_globals: of all settings only the spelling of scalars matters for the contents of the globals file. C142_demo: two runs with all four settings changed.

* `C142_only_style` in `Props/Restyle.lean`: PCQ
* `C142_globals` in `Props/Restyle.lean`: PCQ
* `C142_runs` in `Props/Restyle.lean`: PCQ
* `C142_demo` in `Props/Restyle.lean`: PCQ

## C143 A project whose documents ask for the same data generates the same files

C143_same_data_same_files and C143_same_globals are about two runs that both succeed; C118 says when a run does. C143_tidied_asks_same: the steps of C96 keep the data. C143_demo tidies the demo query, which loses its import. Documents must be hash-proof (C16, C123) in both states.

* `C143_same_data_same_files` in `Props/SameProject.lean`: PCQ
* `C143_same_globals` in `Props/SameProject.lean`: PCQ
* `C143_tidied_asks_same` in `Props/SameProject.lean`: PCQ
* `C143_demo` in `Props/SameProject.lean`: PCQ

## C144 Adding documents to a project only adds declarations to the globals file

C144_declarations_stay is about the globals file alone: more used names keep all declarations in place. C144_more_documents is about two runs that both succeed. The documents of the smaller project must be hash-proof (C16, C123). C144_demo adds a second document to the demo directory and the globals file changes.

* `C144_declarations_stay` in `Props/MoreDocuments.lean`: PCQ
* `C144_more_documents` in `Props/MoreDocuments.lean`: PCQ
* `C144_demo` in `Props/MoreDocuments.lean`: PCQ

## C145 Outputs of removed documents stay, and removing documents only removes declarations from the globals file

C145_outputs_of_removed_documents_stay needs success of the first run only. C145_only_declarations_go is about two runs that both succeed; its documents must be hash-proof (C16, C123). C145_demo removes one of two documents: its output stays and imports an input object that the new globals file lacks, although both runs end with status 0.

* `C145_outputs_of_removed_documents_stay` in `Props/FewerDocuments.lean`: PCQ
* `C145_only_declarations_go` in `Props/FewerDocuments.lean`: PCQ
* `C145_demo` in `Props/FewerDocuments.lean`: PCQ

## C146 The order in which an operation declares its variables does not matter

C146_order_of_variables_does_not_matter is about definitions, C146_file_stays about a file whose imports stay, C146_runs about whole runs that end with status 0, and C146_status says that with the one run the other ends with status 0 if its outputs can be written (C146_runs_demo is an instance of both); the relation between the operations is symmetric, so refusal carries over as well. C146_demo is a query with two variables; C146_repeated_names_witness shows that the names must be different. Selections are the same on both sides; C95 and C96 are about those.

* `C146_order_of_variables_does_not_matter` in `Props/VariableOrder.lean`: PCQ
* `C146_file_stays` in `Props/VariableOrder.lean`: PCQ
* `C146_demo` in `Props/VariableOrder.lean`: PCQ
* `C146_file_demo` in `Props/VariableOrder.lean`: PCQ
* `C146_repeated_names_witness` in `Props/VariableOrder.lean`: PCQ
* `C146_runs` in `Props/VariableRuns.lean`: PCQ
* `C146_status` in `Props/VariableRuns.lean`: PCQ
* `C146_runs_demo` in `Props/VariableRuns.lean`: PCQ

## C147 What the globals file says about a type depends on nothing but the schema's description of that type

C147_described_alike_declared_alike is about the text of two globals files, C147_runs about two successful runs. C147_demo: an enum gets another value, the globals file changes, and the declaration of an input object in it stays. Which types are declared is C30.

* `C147_described_alike_declared_alike` in `Props/Declarations.lean`: PCQ
* `C147_runs` in `Props/Declarations.lean`: PCQ
* `C147_demo` in `Props/Declarations.lean`: PCQ
