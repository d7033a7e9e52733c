{
 "C01": {
  "note": "Exact boundary proved (iff); the witness shows the lost list level of [[X]!]."
 },
 "C02": {
  "note": "Exact boundary proved (iff); the witness shows two list levels printed wrongly."
 },
 "C03": {
  "note": "Acceptance and printed type proved for every variable type expression."
 },
 "C04": {
  "note": "Iff, for every deserialized introspection document (C62 covers the JSON layer below)."
 },
 "C07": {
  "note": "Proviso: Consistent schema, i.e. named types of fields and possible types exist with the kind claimed; Lemmas/Loaded derives it for loaded schemas."
 },
 "C10": {
  "note": "Provisos as in the statement: imported fragments valid, one named type per response key."
 },
 "C12": {
  "note": "The second half is a defect of the code, exhibited by a witness."
 },
 "C13": {
  "note": "Termination iff the enterable selections are well-founded; the witness diverges for every fuel."
 },
 "C16": {
  "note": "Determinism under the stated proviso; a witness shows hash dependence without it."
 },
 "C18": {
  "note": "Underscore-free names; a witness shows the clash."
 },
 "C21": {
  "note": "Iff; a witness shows the duplicate property."
 },
 "C22": {
  "note": "Provisos as in the statement. C22_demo instantiates all of them on the demo schema and document."
 },
 "C23": {
  "note": "Preservation under equal bodies; unsoundness witness without."
 },
 "C25": {
  "note": "Iff on the description text; witness of a break-out."
 },
 "C27": {
  "note": "Arguments and directives are erased; the consequence for @skip is exhibited."
 },
 "C28": {
  "note": "Includes that subscriptions are compiled as queries."
 },
 "C31": {
  "note": "Iff on well-foundedness of the reachable input objects."
 },
 "C34": {
  "note": "Includes the trap with prefix `@`."
 },
 "C36": {
  "note": "Iff on well-foundedness of import chains."
 },
 "C38": {
  "note": "Under unique fragment names; witness without."
 },
 "C42": {
  "note": "A write error hides the other messages: second theorem."
 },
 "C44": {
  "note": "The plural follows the errors: stated exactly."
 },
 "C46": {
  "note": "The corner case is exhibited."
 },
 "C51": {
  "note": "Provisos and the race as in the statement; the race is an explicit schedule, also for the whole program."
 },
 "C52": {
  "note": "Possibility of termination from every reachable state (no fairness assumed)."
 },
 "C57": {
  "note": "Proviso: nothing read is an output, outputs are distinct, globals file apart."
 },
 "C58": {
  "note": "Same provisos as C57."
 },
 "C64": {
  "note": "Every prefix of every trace of file operations, partial writes included. C64_torn_contents: what a reader finds after a write of the first n bytes is these bytes as UTF-8, or an error if they end inside a character."
 },
 "C65": {
  "note": "Provisos as C57."
 },
 "C66": {
  "note": "Refinement of the atomic-compile pool by the fine-grained one."
 },
 "C68": {
  "note": "C68_generated_iff_valid is an iff; the witness is valid GraphQL without generated file."
 },
 "C69": {
  "note": "Provisos: consistent schema; the compile of the file succeeds."
 },
 "C70": {
  "note": "Module names whose last component is empty, `.` or `..` are not covered."
 },
 "C100": {
  "note": "The second theorem is the finding: the helpers lose the types of mutations and fragments."
 },
 "C101": {
  "note": "Building, tar and SHA-256 are parameters; a collision of digests is excluded only where the statement says so."
 },
 "C102": {
  "note": "Provisos as C57, plus every file returning alone; with several threads a file may still be left out (C51), so the second half is for one thread, or for several that are not disturbed while taking work."
 },
 "C103": {
  "note": "Provisos as C57; time is the fuel of the model, and one amount of it suffices for all runs."
 },
 "C104": {
  "note": "Provisos as C57 (consistent schema, outputs distinct and not read, imported fragments with different names). Files are bytes here, and a write is at the position of the process that writes."
 },
 "C105": {
  "note": "Files do not change while the document is compiled, except by its own write at the end. The witness holds for every number of levels."
 },
 "C108": {
  "note": "Digests of different archives are taken to be different (a hypothesis on the released archives); tar, SHA-256 and the network are parameters."
 },
 "C107": {
  "note": "TypeScript's assignability is modelled from its documented behaviour, with strictFunctionTypes; the types inside documents and their assignability are parameters."
 },
 "C109": {
  "note": "Under the conditions of C92 for both versions, with the same meaning of the names of scalars; the operation keeps its name. For variables both versions declare some. In the theorem on runs, both runs write the globals file or neither does."
 },
 "C110": {
  "note": "GraphQL's rules about arguments, directives and mergeable fields are not part of the hypothesis, so the theorem covers more documents; the imported fragments are the other fragments of the document."
 },
 "C111": {
  "note": "The conditions on paths are those of C74 (no output is read, outputs differ, the globals file is apart); with more than one thread completion excludes the schedules of the race of C102."
 },
 "C112": {
  "note": "The directory tree is fixed during the run; changes are to contents (and in the first theorems to anything a read or write answers)."
 },
 "C113": {
  "note": "As in C98, imported fragments are valid and have different names, no response key has two named types and no variable is declared twice; paths as in C74."
 },
 "C114": {
  "note": "Discharges the path conditions of C57, C74, C98, C111 and C113 for ordinary projects."
 },
 "C115": {
  "note": ""
 },
 "C116": {
  "note": "Imported fragments must have different names (otherwise the result depends on hash orders already, see C16 and C39). C116_merging_names_witness shows that a renaming that merges two names can make an error disappear. The import paths stay as they are: renaming is about names, not files."
 },
 "C117": {
  "note": "As for C16, the documents of the first project must not depend on hash orders, and for both projects nothing that is read is generated and outputs are distinct (true of ordinary projects, C114); both runs are complete. C117_absolute_import_witness shows that a project with an absolute import cannot be moved."
 },
 "C118": {
  "note": "C118_status_iff_correct: for a completed run, exit status 0 iff ProjectCorrect (Spec/Correct.lean). C118_status_is_stable: any two completed runs agree. C118_demo: the demo project is correct and ends with 0; with a variable of an object type it is not correct, and runs end with another status."
 },
 "C119": {
  "note": "C119_fragment_data: both claims, for the modules on the disk after the run; PartOf, ObjectAt, SpreadAt and MergesWell are in Spec/Compose.lean. C119_demo: the demo query's object under node, proper part."
 },
 "C120": {
  "note": "C120_asking_for_more: both claims for the parsed texts of the two versions; MoreSels and MoreFrags in Spec/Extend.lean, PartOf and MergesWell in Spec/Compose.lean. C120_demo: the demo query as second version of a shorter query."
 },
 "C121": {
  "note": "C121_promising_more: for the parsed texts of the two versions; NarrowerTy and PromisesMore in Spec/Narrow.lean. C121_demo: the demo schema with two fields made non-null and an enum value dropped."
 },
 "C122": {
  "note": "C122_asking_for_less: for the parsed texts of the two versions; DemandsLess, WiderVars and VariablesFit in Spec/Widen.lean. C122_demo: the demo schema and query with a new enum value, new nullable fields and variables, and fewer non-null marks."
 },
 "C123": {
  "note": "The conditions are GraphQL's own validation rules (as in C110/C111) and its merging rule, stated on introspection JSON and documents; they imply the conditions of C16, C21, C58 and C91 on the loaded schema. C123_narrowing_witness shows that the condition on the schema is needed."
 },
 "C124": {
  "note": "C124_look_alikes_agree shows that the rule and GraphQL's shape rule imply the condition that C23 proves to be exactly what keeps same-named generated types equal; C124_right_types carries it to the files on disk. The conditions are on documents and introspection JSON, apart from the shape rule, which is stated on the loaded schema. Programs that break the rule can be wrong: see C23_merging_unsound."
 },
 "C125": {
  "note": "serde_json's reading of text is modelled after RFC 8259 and its documentation (Model/JsonText.lean); the wording of its errors is a parameter. Values that no field asks for are held to the same rules as the rest, whereas serde_json skips them without pairing surrogates or counting levels."
 },
 "C126": {
  "note": "About the model of serde_json of C125 and of the download of C86."
 },
 "C127": {
  "note": "About a model of graphql_parser::parse_query written after the GraphQL specification and the crate's documented grammar (no directives on variables), since the crate's source is not in /repo. How positions are counted, what the crate refuses besides and how it words errors are parameters. All other properties but C128, C129 and C130 hold for any parser."
 },
 "C128": {
  "note": "About the model of the parser of C127. Runs are related under the conditions of C116: outputs are not read, fragment names are unique among the imports of a file, and the schema is valid."
 },
 "C129": {
  "note": "About the model of the parser of C127. The file-level theorem asks that every carriage return is followed by a line feed: a lone one ends a comment in GraphQL but not an import line of qlc."
 },
 "C130": {
  "note": "About the model of the parser of C127. C130_right_types is C124 with its conditions on names reduced to those that the parser does not already enforce."
 },
 "C131": {
  "note": "C131_right_types is C124/C130 with exactness (C92) added and holds for any number of threads; C131_whole_way asks for one thread because with several a file can be lost (C51). The text of documents is read by the model of the parser of C127."
 },
 "C132": {
  "note": "C132_where_parts_stand, C132_caret_under_word, C132_error_marks_selection, C132_warnings_mark_selections, C132_variable_marked, C132_invalid_file, C132_valid_file, C132_second_definition; examples: C132_demo, C132_second_demo. That the parser crate counts lines and columns so is a hypothesis (CountsLines); the fixtures of the repository agree with it."
 },
 "C133": {
  "note": "C133_run_is_complete, C133_program and C133_completes for runs, the program and fair schedules; C133_whole_way is C131 without its condition of one thread. The project must hold at least one document. C133_safe_iff is the converse, for compiles that return and a root that can be listed."
 },
 "C134": {
  "note": "C134_server_first: one run, answers and variables of another version of the server; C134_generated_anew: two runs, values of the new types belong to the old; C134_promising_more and C134_growth: which upgrades are safe; C134_demo: a run exists, a safe upgrade, and an unsafe one with a witness. AnswersSafe and SaferTy are in Spec/Upgrade.lean."
 },
 "C135": {
  "note": "C135_message and C135_output for the texts, C135_one_text for what is shown, C135_no_color for the program, C135_demo with the sequences of usual terminals. The crate `colored` is a parameter, assumed to satisfy Decorates (Spec/Colour.lean)."
 },
 "C136": {
  "note": "C136_distance: the distance is the least number of mistakes (Edits, Spec/Distance.lean), by alignments; C136_near and C136_suggestions for names, C136_names_are_plain, C136_as_printed for what is printed and C136_document with the modelled parser, where only the field names of the schema need to be plain; demos. The algorithm is that of strsim 0.10.0, which is not in /repo; it is modelled from its published source, with the table as a function of row and column; C136_never_panics: the same statement by statement, in one vector with checked indices and subtractions (Model/DistanceVec.lean), gives the same result. For names that are not plain ASCII the distance is that of the UTF-8 bytes (C136_distance still applies)."
 },
 "C137": {
  "note": "Generable (Spec/Faults.lean) says when a file can be generated; C137_what_a_run_leaves, C137_others_do_not_matter, C137_globals_of_generated_documents, C137_globals_file; C137_kept_output_witness is the example of two runs; C137_demo and C137_globals_demo show the hypotheses met."
 },
 "C138": {
  "note": "SameProject (Spec/History.lean); C138_leftovers_do_not_matter, C138_clean_checkout; C138_demo shows a fresh and a used directory."
 },
 "C139": {
  "note": "C139_options_in_the_file and C139_file_on_the_line say that two invocations, from the words on the command line to the end of the run, have the same possible outcomes. C139_file_exists shows that the file and the short command line exist for every accepted command line (at the level of JSON trees). C139_limits states what cannot be said."
 },
 "C140": {
  "note": "C140_check is the equivalence, C140_blind_spots what is not seen. C140_demo has one checkout that is up to date and one that is not, with a leftover of a removed document."
 },
 "C141": {
  "note": "C141_only_warnings has no hypotheses but that the option is on and the configuration file does not ask for the warnings. C141_demo: two runs over a document with a deprecated field, one with a warning, one silent, with the same output."
 },
 "C142": {
  "note": "C142_only_style: one document, no hypotheses on it (panics and non-termination agree, too); two properties of the variables type with the same name (a variable declared twice, which is not valid GraphQL) may be swapped if scalars are spelled differently. C142_runs: whole runs, with the usual hypotheses that outputs are distinct and not read and that imported fragments have distinct names; it covers the globals file, too. C142_globals: of all settings only the spelling of scalars matters for the contents of the globals file. C142_demo: two runs with all four settings changed."
 },
 "C143": {
  "note": "C143_same_data_same_files and C143_same_globals are about two runs that both succeed; C118 says when a run does. C143_tidied_asks_same: the steps of C96 keep the data. C143_demo tidies the demo query, which loses its import. Documents must be hash-proof (C16, C123) in both states."
 },
 "C144": {
  "note": "C144_declarations_stay is about the globals file alone: more used names keep all declarations in place. C144_more_documents is about two runs that both succeed. The documents of the smaller project must be hash-proof (C16, C123). C144_demo adds a second document to the demo directory and the globals file changes."
 },
 "C145": {
  "note": "C145_outputs_of_removed_documents_stay needs success of the first run only. C145_only_declarations_go is about two runs that both succeed; its documents must be hash-proof (C16, C123). C145_demo removes one of two documents: its output stays and imports an input object that the new globals file lacks, although both runs end with status 0."
 },
 "C146": {
  "note": "C146_order_of_variables_does_not_matter is about definitions, C146_file_stays about a file whose imports stay, C146_runs about whole runs that end with status 0, and C146_status says that with the one run the other ends with status 0 if its outputs can be written (C146_runs_demo is an instance of both); the relation between the operations is symmetric, so refusal carries over as well. C146_demo is a query with two variables; C146_repeated_names_witness shows that the names must be different. Selections are the same on both sides; C95 and C96 are about those."
 },
 "C147": {
  "note": "C147_described_alike_declared_alike is about the text of two globals files, C147_runs about two successful runs. C147_demo: an enum gets another value, the globals file changes, and the declaration of an input object in it stays. Which types are declared is C30."
 }
}