{"id": "C01", "title": "Selected fields keep the exact list/null shape of their GraphQL type", "statement": "For a field whose introspection type is any nesting of LIST/NON_NULL around a named type, the TypeScript type text printed for a selection of that field, read with TypeScript's own precedence rules, admits exactly the JSON values GraphQL admits for that type - if and only if the type nowhere puts a non-null list directly inside a nullable list (`[[X]!]`); in that remaining case a list level is lost and the printed type is wrong.", "quantifier": "every well-formed GraphQL type reference of any nesting depth, every flat type name, every JSON value", "why_tests_cant": "the nesting is unbounded; the fixture suite has two nested types and neither is on the failing side", "anchors": ["src/graphql/schema/field.rs: ModifierBuilder::{actualize,listize}, TryFrom<json::FieldType> for FieldType", "src/typescript.rs: single_prop_type_def, prop_type_def"]}
{"id": "C02", "title": "Input object fields keep their GraphQL type and optionality", "statement": "In the globals file, the text printed for an input object field admits exactly the JSON values GraphQL accepts for it and carries `?` exactly when the field is nullable - if and only if the field's type has at most one list level. With two or more list levels only the innermost modifier is printed.", "quantifier": "every well-formed introspection type reference of any depth whose base is a scalar, enum or input object", "why_tests_cant": "unbounded nesting; no fixture has a nested-list input field", "anchors": ["src/typescript.rs: input_def_from_type, from_input_def_field_def"]}
{"id": "C03", "title": "Operation variables keep their GraphQL type and optionality", "statement": "A variable definition is accepted exactly when its type has at most one list level and no doubled `!` and names a built-in scalar or a type in the schema; when accepted, the printed type admits exactly the GraphQL values, and the property is optional (`?`) exactly when the variable is nullable.", "quantifier": "every variable type expression the parser can produce, every schema", "why_tests_cant": "the type expressions form an infinite family; only a handful appear in fixtures", "anchors": ["src/graphql/variable.rs: unwrap_var_def, try_build_variable_ir", "src/typescript.rs: compile_variables_type_definition, compile_variable_type_name"]}
{"id": "C04", "title": "A schema loads exactly when every type in it is well described", "statement": "Loading introspection JSON succeeds if and only if every listed type has a known kind, the lists its kind needs (fields, inputFields, possibleTypes, enumValues), and every field's type reference ends in a named type of a known kind with `ofType` present under each LIST/NON_NULL wrapper.", "quantifier": "every deserialized introspection document", "why_tests_cant": "the input space is all JSON documents; a test shows one malformed file at a time", "anchors": ["src/graphql/schema.rs: TryFrom<json::Type> for Type, Schema::try_from_reader, get_fields_for_complex", "src/graphql/schema/field.rs: TryFrom<json::FieldType>"]}
{"id": "C05", "title": "Looking up a type after loading returns what the JSON said", "statement": "After a successful load, a name resolves iff the JSON lists a type with that name; it resolves to the last such entry; an object/interface answers exactly its JSON fields plus `__typename`, a union exactly `__typename`, an input object exactly its input fields; enum values and possible types are those of the JSON in order.", "quantifier": "every deserialized introspection document and every name", "why_tests_cant": "needs all schemas, duplicates included", "anchors": ["src/graphql/schema.rs: Schema::get_type_for_name, get_fields_for_complex, TypeDefinition::get_fields_lookup"]}
{"id": "C06", "title": "A scalar is spelled the same way everywhere", "statement": "For any scalar, a selected field, an input object field and an operation variable of that scalar print the same TypeScript name: boolean/string/number for the five built-ins, and for custom scalars `any`, the name, or prefix+name according to the configuration.", "quantifier": "every scalar name and every custom-scalar configuration", "why_tests_cant": "three separate implementations must agree for every name", "anchors": ["src/typescript.rs: type_name_from_scalar, compile_custom_scalar_name, compile_variable_type_name", "src/typescript/field.rs: compile_scalar", "src/graphql/schema/field.rs: From<&str> for ScalarType"]}
{"id": "C07", "title": "Compilation accepts exactly the valid documents", "statement": "For a schema whose type references are consistent, compiling a document's selections succeeds if and only if every selection written in the file itself is valid: each field exists on its enclosing type, has sub-selections exactly when its type is composite, each inline fragment has a type condition naming an object/interface/union, each spread names an imported fragment.", "quantifier": "every schema, every document, every set of imported fragments on which compilation terminates", "why_tests_cant": "documents and schemas are unbounded trees", "anchors": ["src/graphql/ir.rs: collect_fields_from_selection_set, insert_field, ComplexTraversal::try_from, clone_for_type_spread"]}
{"id": "C08", "title": "One run reports every invalid selection", "statement": "Every invalid selection that is reachable in the compiled file without passing through another invalid selection is reported exactly once, in document order, with the matching kind of error (for an inline fragment on an unknown or input type the message names the type but carries no position; all other kinds carry the selection's own position); nothing is hidden because an earlier selection failed.", "quantifier": "every schema, document and set of imported fragments on which compilation terminates", "why_tests_cant": "error combinations are unbounded", "anchors": ["src/graphql/ir.rs: collect_fields_from_selection_set (errors vector), insert_field"]}
{"id": "C09", "title": "Diagnostics point into the file being compiled", "statement": "Every position carried by an error or a warning from compiling a document is the position of a construct written in that document, never one inside an imported fragment.", "quantifier": "every schema, document and set of imported fragments", "why_tests_cant": "depends on every path through nested foreign fragments", "anchors": ["src/graphql/ir.rs: ForeignFragmentJumpState, clone_for_type_spread, collect_fields_from_selection_set"]}
{"id": "C10", "title": "Generated properties are exactly the response keys GraphQL collects", "statement": "When a document compiles, its imported fragments are themselves valid and no response key is selected with two named types on one object type, then at every depth and for every concrete object type, the property names generated for that type are exactly the response keys that GraphQL's field collection yields for that object type (aliases, inline fragments and spreads included).", "quantifier": "every schema, document, fragment set; every depth of the result; every possible concrete type", "why_tests_cant": "needs all selection trees and all type/fragment overlaps", "anchors": ["src/graphql/ir.rs: UniqueFields::{insert,extend_from}, ComplexTraversal::{insert_terminal,insert_complex,extend_from}, clone_for_type_spread"]}
{"id": "C11", "title": "Generated possibilities are exactly the possible object types", "statement": "The alternatives generated for a composite position are exactly the object types GraphQL allows there (the type itself, the interface's implementations, or the union's members), each once and in sorted order.", "quantifier": "every schema, document and depth", "why_tests_cant": "unbounded schemas", "anchors": ["src/graphql/ir.rs: TryFrom<(&CompileContext,&str,Pos)> for ComplexTraversal, TryFrom<ComplexTraversal> for ComplexCollection"]}
{"id": "C12", "title": "Fields of valid imported fragments are never silently dropped", "statement": "If every imported fragment is valid on its own type, then spreading it contributes all of its fields for every overlapping object type. If an imported fragment is invalid, compiling the spreading file still succeeds and drops that fragment's fields without any message.", "quantifier": "every schema, document and fragment set", "why_tests_cant": "the silent path is only visible when comparing against all fragment bodies", "anchors": ["src/graphql/ir.rs: collect_fields_from_selection_set (is_local checks)"]}
{"id": "C13", "title": "Compiling selections terminates exactly when fragments do not recurse", "statement": "Compiling the selections of a document terminates if no chain of enterable selections is infinite (in particular whenever imported fragments do not spread each other cyclically); with an infinite chain, e.g. an imported fragment that spreads itself under a recursive field, compilation never returns.", "quantifier": "every schema, document and fragment set, cyclic ones included", "why_tests_cant": "non-termination cannot be observed by a finite test; acyclic depth is unbounded", "anchors": ["src/graphql/ir.rs: collect_fields_from_selection_set, insert_field"]}
{"id": "C14", "title": "Over-narrowing warnings are raised exactly for spreads that can never match", "statement": "When compilation succeeds, an over-narrowing warning for a spread or inline fragment written in the compiled file is emitted exactly when none of the object types possible at that point is possible for the fragment's type; the listed types are exactly the types possible at that point. With no foreign fragments involved this accounts for every narrowing warning.", "quantifier": "every schema, document and fragment set", "why_tests_cant": "requires all overlaps of all types at all nesting levels", "anchors": ["src/graphql/ir.rs: clone_for_type_spread, Warning::OverFragmentNarrowing"]}
{"id": "C15", "title": "Deprecation warnings cover exactly the deprecated fields used in the file", "statement": "With deprecation warnings enabled, a successful compile warns exactly once for every use of a deprecated field written in the compiled file (inline fragments included), never for fields reached through imported fragments; with them disabled it never warns about deprecation.", "quantifier": "every schema, document and fragment set", "why_tests_cant": "requires all placements of deprecated fields", "anchors": ["src/graphql/ir.rs: insert_field, Warning::DeprecatedFieldUse"]}
{"id": "C16", "title": "Output does not depend on hash iteration order", "statement": "The generated .graphql.d.ts text of a compiled document is the same for every iteration order of the hash tables involved, provided no response key is selected with two different named types on one object type; without that proviso the text can depend on hash order.", "quantifier": "every pair of hash iteration orders, every schema and document", "why_tests_cant": "iteration order is randomised per process; a test sees one order", "anchors": ["src/graphql/ir.rs: TryFrom<UniqueFields> for Vec<Field>, TryFrom<ComplexTraversal> for ComplexCollection (sort_unstable_by)", "src/typescript.rs: sort_unstable calls"]}
{"id": "C17", "title": "The first selection of a response key decides its documentation and nullability", "statement": "When a response key is selected several times with the same named type for an object type, the emitted property uses the list/null modifiers, documentation and deprecation mark of the field definition reached first in document order.", "quantifier": "every schema and document", "why_tests_cant": "all orders and nestings of repeated selections", "anchors": ["src/graphql/ir.rs: UniqueFields::insert (Entry::Occupied keeps field)"]}
{"id": "C18", "title": "Every exported type name is declared once", "statement": "If no type name and no response key contains an underscore and properties are unambiguous, all type names declared in one generated file are pairwise distinct. With underscores two different positions can be given the same name.", "quantifier": "every IR tree of any depth", "why_tests_cant": "name collisions depend on all pairs of paths in a document", "anchors": ["src/typescript.rs: type_definitions_from_complex_field_collection, type_definitions_from_complex_ir"]}
{"id": "C19", "title": "Generated files have no dangling type references", "statement": "Every type name referenced by a property in a generated file is either declared in the same file, imported on the globals import line, a TypeScript built-in, or a custom scalar name as configured.", "quantifier": "every IR tree, schema and configuration", "why_tests_cant": "needs all trees", "anchors": ["src/typescript.rs: type_definitions_from_complex_ir, compile_imports, compile_ir"]}
{"id": "C20", "title": "The globals import lists exactly the global types used", "statement": "The names imported from the globals module are, sorted and without repetition, exactly the enums selected anywhere in the document's emitted types plus the non-scalar custom types of its variables; the same set is reported to the globals file. No globals import is printed when the set is empty.", "quantifier": "every IR operation and configuration", "why_tests_cant": "needs all trees and variable lists", "anchors": ["src/typescript.rs: compile_imports, compile_ir, compile_variable_type_name"]}
{"id": "C21", "title": "A property name occurs once in each generated object type", "statement": "If on each object type every response key is selected with a single named type, each generated object type lists each property exactly once, in sorted order. Valid GraphQL that narrows a field's type in an implementation violates this: the property is emitted twice.", "quantifier": "every schema and document", "why_tests_cant": "needs all selection overlaps between interface and implementation", "anchors": ["src/graphql/ir.rs: FieldId keyed by (alias, type name); insert_field passes field_type_name as name"]}
{"id": "C22", "title": "Server responses inhabit the generated type", "statement": "For a valid schema and a document that compiles with valid imported fragments, no skip/include directives, one named type per response key, no non-null list inside a nullable list, and, wherever object types have the same response keys, the same fields under them all the way down, every response a spec-conforming GraphQL server can return for the document inhabits the generated TypeScript type.", "quantifier": "every schema, document, fragment set and every response value", "why_tests_cant": "responses are an infinite set; needs a semantics of both sides", "anchors": ["src/graphql/ir.rs", "src/typescript.rs: type_definitions_from_complex_field_collection, type_definitions_from_complex_ir, prop_type_def"]}
{"id": "C23", "title": "Merging look-alike alternatives is only safe when their bodies agree", "statement": "Object types with the same set of property names are merged into one generated alternative using one representative's property types. This preserves the admitted values when the merged types have equal bodies, which is the case if and only if in the document, wherever object types have the same response keys, they have the same fields under these keys all the way down (so always if the document uses no fragments); it is unsound for valid GraphQL in which two object types select different sub-fields under the same key.", "quantifier": "every collection of alternatives", "why_tests_cant": "all combinations of alternatives", "anchors": ["src/typescript.rs: type_definitions_from_complex_field_collection (repeated_possiblities), type_definitions_from_smoosh_complex_ir"]}
{"id": "C24", "title": "__typename discriminates correctly", "statement": "Where __typename is selected for all alternatives, the string literals admitted by the generated alternatives' __typename properties are exactly the possible object type names, and no name is admitted by two different alternatives.", "quantifier": "every collection of alternatives of any size", "why_tests_cant": "any number of alternatives and any merging pattern", "anchors": ["src/typescript.rs: type_definitions_from_complex_field_collection, type_definitions_from_smoosh_complex_ir"]}
{"id": "C25", "title": "Schema descriptions cannot break out of the generated doc comment", "statement": "The emitted doc comment contains the comment terminator `*/` only at its very end, exactly if no line of the description, after removal of `/*`, contains `*`, then `*/` one or more times, then `/`; so a description containing `**//` does break out.", "quantifier": "every description string", "why_tests_cant": "all strings", "anchors": ["src/typescript.rs: compile_documentation"]}
{"id": "C26", "title": "readonly and @deprecated markers are printed exactly when asked for", "statement": "Every property of every generated object type starts with `readonly ` iff readonly types are enabled, and a property's doc comment contains the generated `@deprecated` line iff the field is deprecated.", "quantifier": "every IR tree and configuration", "why_tests_cant": "every property in every tree", "anchors": ["src/typescript.rs: type_definitions_from_complex_ir, compile_documentation"]}
{"id": "C27", "title": "Arguments and directives never influence the output", "statement": "Changing or removing arguments and directives anywhere in a document or its fragments changes neither the generated text nor any diagnostic. As a consequence a field under @skip/@include is typed as always present although a response may omit it.", "quantifier": "every document and fragment set", "why_tests_cant": "all documents", "anchors": ["src/graphql/ir.rs: insert_field, collect_fields_from_selection_set (arguments/directives never read)"]}
{"id": "C28", "title": "The default export has the right document type", "statement": "The default export of a generated file is annotated with QueryDocumentNode/MutationDocumentNode (data type and variables type, `never` without variables) or FragmentDocumentNode (data type only) according to the definition compiled; a subscription is resolved against the Query type and annotated QueryDocumentNode.", "quantifier": "every definition that compiles", "why_tests_cant": "all definitions and names", "anchors": ["src/graphql/ir.rs: build_from_operation, From<&str> for OperationKind", "src/typescript.rs: compile_ir"]}
{"id": "C29", "title": "The variables type lists every declared variable once, sorted", "statement": "A generated file has a `<Name>Variables` type iff the operation declares at least one variable; its properties are exactly the declared variables in sorted order.", "quantifier": "every operation", "why_tests_cant": "any number of variables", "anchors": ["src/typescript.rs: compile_variables_type_definition", "src/graphql/variable.rs: try_build_variable_ir"]}
{"id": "C30", "title": "The globals file declares exactly the reachable global types", "statement": "When it is written, the globals file declares, sorted by name and once each, exactly the types reachable from the used global names by following input object fields to enums and input objects; and nothing is written when no global is used.", "quantifier": "every schema without recursive input objects, every set of used names, every hash order", "why_tests_cant": "transitive closure over arbitrary schemas", "anchors": ["src/typescript.rs: global_types_from_names, add_sub_input_objects, add_sub_input_object_field", "src/graphql.rs: compile_global_types_file"]}
{"id": "C31", "title": "Collecting global types terminates exactly when input objects do not recurse", "statement": "Collecting the globals terminates when input object references are well-founded; if an input object reaches itself through input fields (legal GraphQL) and is used, the collection never returns.", "quantifier": "every schema, every used name", "why_tests_cant": "non-termination is not observable by tests", "anchors": ["src/typescript.rs: add_sub_input_objects, add_sub_input_object_field"]}
{"id": "C32", "title": "Only enums and input objects can become globals", "statement": "Writing the globals file fails with an error, and writes nothing, if a used global name is missing from the schema or is not an enum or input object, or if a reachable input field is neither a scalar, an enum nor an input object.", "quantifier": "every schema and set of used names", "why_tests_cant": "all schemas", "anchors": ["src/typescript.rs: global_types_from_names (NotGlobalType, MissingType, InvalidFieldDef)"]}
{"id": "C33", "title": "Imports are read exactly from the leading comment block", "statement": "The import lines honoured in a file are exactly the lines starting with `#import \"` in the longest prefix of lines that are blank or start with `#`; any later import line is ignored.", "quantifier": "every file content", "why_tests_cant": "all texts", "anchors": ["src/graphql.rs: add_imported_fragments"]}
{"id": "C34", "title": "Import paths resolve by prefix, root, or current directory", "statement": "An import path that starts with the configured root prefix resolves under the root directory with the prefix removed; otherwise a path starting with `.` resolves against the importing file's directory and any other path against the root directory. An absolute text (also an absolute remainder such as `/x` of `@/x` with prefix `@`) stands for itself and leaves the root directory.", "quantifier": "every path text, configuration and importing file", "why_tests_cant": "all strings and configurations", "anchors": ["src/graphql.rs: get_file_path_of_fragment"]}
{"id": "C35", "title": "The import closure is complete and nothing else is loaded", "statement": "When import scanning terminates, the loaded files are exactly the readable files reachable from the document by import lines, and an error located at the import line is reported for each unreadable import encountered.", "quantifier": "every file system content and import graph", "why_tests_cant": "transitive closure over arbitrary graphs", "anchors": ["src/graphql.rs: add_imported_fragments"]}
{"id": "C36", "title": "Import scanning terminates exactly when imports do not recurse", "statement": "Import scanning terminates when import chains are finite and never returns when a readable file reaches itself through imports, unless an unterminated import line met on the way crashes it first.", "quantifier": "every file system content", "why_tests_cant": "non-termination is not observable by tests", "anchors": ["src/graphql.rs: add_imported_fragments"]}
{"id": "C37", "title": "Only an unterminated import line can crash import resolution", "statement": "Resolving an import line panics exactly when the line contains no second double quote after `#import \"`.", "quantifier": "every line starting with `#import \"`", "why_tests_cant": "all strings", "anchors": ["src/graphql.rs: get_file_path_of_fragment (slice bounds)"]}
{"id": "C38", "title": "Fragment scope is independent of hash order when names are unique", "statement": "If no two imported files define the same fragment name, the fragments in scope and the set of messages do not depend on hash iteration order; with a duplicate name either definition may win.", "quantifier": "every set of imported files, every pair of hash orders", "why_tests_cant": "iteration order is randomised", "anchors": ["src/graphql.rs: parse_foreign_fragments"]}
{"id": "C39", "title": "Importing an operation is always reported", "statement": "Every imported file whose single definition is an operation yields an error naming the compiled file; every imported file with a single fragment definition adds that fragment to the scope; unparseable or multi-definition imports add nothing.", "quantifier": "every set of imported files", "why_tests_cant": "all file contents", "anchors": ["src/graphql.rs: parse_foreign_fragments, parse_graphql_file"]}
{"id": "C40", "title": "Output paths are unique and never overwrite a source", "statement": "The output path of a source `x.graphql` is `x.graphql.d.ts` in the same directory; distinct sources have distinct outputs, and no output path has the `graphql` extension, so no source file is overwritten and no output is ever picked up as a source.", "quantifier": "every path", "why_tests_cant": "all pairs of paths", "anchors": ["src/graphql.rs: compile_file (with_extension)", "src/worker_pool.rs: run_dir_entry (extension check)"]}
{"id": "C41", "title": "A failed compile writes nothing", "statement": "Compiling a file performs at most one write, to its own output path, and none at all if reading, parsing, validating or generating failed; if it reports success without error the file on disk holds exactly the generated text.", "quantifier": "every file system, schema, configuration", "why_tests_cant": "all failure points", "anchors": ["src/graphql.rs: compile_file"]}
{"id": "C42", "title": "Diagnostics survive to the report", "statement": "Messages gathered while compiling a file (import errors, IR errors, warnings) all appear in its result, unless writing the output fails, in which case only the write error is reported.", "quantifier": "every file system, schema, configuration", "why_tests_cant": "all failure points", "anchors": ["src/graphql.rs: compile_file (map_err on write drops messages)"]}
{"id": "C43", "title": "Exit status is 0 exactly when no error was reported", "statement": "The process exits with 0 iff none of the messages is an error (warnings do not count), and the failure summary, when printed, states the number of error messages.", "quantifier": "every list of messages", "why_tests_cant": "any number and mix of messages", "anchors": ["src/cli.rs: print_exit_info"]}
{"id": "C44", "title": "Summary counts and plurals", "statement": "The warning summary is printed iff there is a warning and states the right count; its plural `s` follows the number of errors instead of warnings, so it is right iff (warnings>1) = (errors>1).", "quantifier": "every list of messages", "why_tests_cant": "any counts", "anchors": ["src/cli.rs: print_exit_info (plural uses error_count)"]}
{"id": "C45", "title": "Configuration precedence", "statement": "Each setting takes the command line value if given, otherwise the config file value, otherwise the default; boolean flags are the disjunction of both; a relative schema path in the config file resolves against the config file's directory; the default schema path is <root>/schema.json.", "quantifier": "every combination of arguments and config file contents", "why_tests_cant": "the product of all optional settings", "anchors": ["src/cli.rs: RuntimeConfig::from_cli, ConfigFileMatches::from_file_parse"]}
{"id": "C46", "title": "Custom scalar prefix", "statement": "A config-file customScalarPrefix takes effect exactly when the config file itself sets useCustomScalars (to anything), custom scalars are enabled by either source, and no prefix is given on the command line.", "quantifier": "every combination of the four settings involved", "why_tests_cant": "interaction of four optional settings", "anchors": ["src/cli.rs: RuntimeConfig::from_cli, bottom_type_config"]}
{"id": "C47", "title": "The caret points at the reported column", "statement": "In a rendered diagnostic with a location, the `^` stands exactly under the reported column of the quoted source line, for every line number width.", "quantifier": "every line number, column and source line", "why_tests_cant": "all widths", "anchors": ["src/cli.rs: LocationInformation::fmt_line_encoding, SourceInformation::fmt_file"]}
{"id": "C48", "title": "Suggestions list exactly the near names", "statement": "The `Did you mean` help lists exactly the candidate names at edit distance below 3 and is absent when there is none.", "quantifier": "every name, candidate list and distance function", "why_tests_cant": "all names", "anchors": ["src/cli.rs: similar_help_suggestions"]}
{"id": "C49", "title": "Worker counters never drift", "statement": "At every moment the shared waiting/quitting counters equal the number of workers whose flag is set so they never exceed the thread count and never underflow.", "quantifier": "every number of threads and every interleaving", "why_tests_cant": "all interleavings", "anchors": ["src/worker_pool.rs: Worker::{set_waiting,set_quitting}"]}
{"id": "C50", "title": "No file is processed twice or invented", "statement": "At every moment the files compiled so far together with the files still owed by queued, in-flight or unsent work are a permutation of the .graphql files of the directory tree; in particular no file is compiled twice.", "quantifier": "every directory tree, number of threads and interleaving", "why_tests_cant": "all interleavings", "anchors": ["src/worker_pool.rs: Worker::run, pop_work, Work::run_dir_entry"]}
{"id": "C51", "title": "When all workers exit, every file was compiled", "statement": "If all workers have exited then every .graphql file of the tree was compiled, provided no worker ever decided to send Quit while work was queued or in a worker's hands; with one thread this always holds; with two threads there is an interleaving in which all workers exit, a file is never compiled and no error is reported. The race is in one place only: such a decision happens exactly if a worker decides to quit between the moment another worker takes work from the channel and the moment that worker is counted as busy; if no worker takes a turn there, every file is compiled whatever the number of threads. The race never loses a file of the root directory itself, so a project without subdirectories is always compiled completely; but with more than one thread and compiles that return, any subdirectory of the root that has files can be lost as a whole, everything else being compiled. So whatever the program prints, exits with and leaves on the disk with one thread on a project, it can print, exit with and leave with two or more threads on the same project with one more subdirectory, in particular exit with status 0 having written none of that subdirectory's outputs.", "quantifier": "every directory tree, thread count and interleaving", "why_tests_cant": "a race visible only under specific interleavings", "anchors": ["src/worker_pool.rs: pop_work (Quit protocol)"]}
{"id": "C52", "title": "The pool can always finish", "statement": "From every state reachable without a panic, some continuation makes all workers exit: there is no deadlock and no livelock that cannot be left.", "quantifier": "every directory tree, thread count and reachable state", "why_tests_cant": "deadlock freedom over all interleavings", "anchors": ["src/worker_pool.rs: pop_work"]}
{"id": "C53", "title": "A panicking worker hangs the program", "statement": "If a worker panics while compiling, no worker that has not exited by then can ever exit; so unless each of them panics too, the program never terminates.", "quantifier": "every state after a panic, every interleaving", "why_tests_cant": "non-termination is not observable by tests", "anchors": ["src/worker_pool.rs: pop_work, WorkerPool::work (thread::scope)"]}
{"id": "C54", "title": "Zero threads do nothing and succeed", "statement": "With a thread count of zero no file is compiled, no output is written and the exit status is 0, whatever the directory contains.", "quantifier": "every directory tree", "why_tests_cant": "all trees", "anchors": ["src/worker_pool.rs: WorkerPool::work", "src/cli.rs: num_threads"]}
{"id": "C55", "title": "Aggregated results do not depend on the schedule", "statement": "In any run in which all workers exit with no work left, the set of global types passed on is exactly the union over all files and the reported messages are a permutation of the concatenation over all files and unreadable directories.", "quantifier": "every tree, thread count and interleaving", "why_tests_cant": "all interleavings", "anchors": ["src/worker_pool.rs: WorkAggregateResult, Worker::run, WorkerPool::work"]}
{"id": "C56", "title": "Directory walk finds exactly the .graphql files", "statement": "The files handed to the compiler are exactly the regular files with extension `graphql` reachable from the root through real directories; symbolic links and files such as `.graphql` are not picked up.", "quantifier": "every directory tree", "why_tests_cant": "all trees and names", "anchors": ["src/worker_pool.rs: run_dir_entry"]}
{"id": "C57", "title": "Generated files do not depend on the schedule", "statement": "If nothing that is read is an output or the globals file and different sources have different outputs (so in every ordinary project, C114), then whatever the number of threads and the order in which files are compiled, the files on disk at the end are the same, provided no work is lost (C51).", "quantifier": "every file system, every compile order", "why_tests_cant": "all interleavings", "anchors": ["src/worker_pool.rs", "src/graphql.rs: compile_file"]}
{"id": "C58", "title": "Running twice changes nothing", "statement": "If nothing that is read is generated, different sources have different outputs (so in every ordinary project, C114) and no text depends on hash orders (imported fragments are valid and have different names, no response key has two types, no variable is declared twice), then a second run over the result of a first run leaves every file as it is, whatever the schedules and hash orders of the two, provided no work is lost in either (C51).", "quantifier": "every file system", "why_tests_cant": "all file systems", "anchors": ["src/graphql.rs: compile_file", "src/worker_pool.rs"]}
{"id": "C59", "title": "The generated object text parses back to the intended declarations", "statement": "The property type text printed for any combination of modifiers parses, under TypeScript's grammar for unions, arrays and parentheses, to the intended type: nested modifiers never change meaning through precedence.", "quantifier": "every sequence of modifiers and every flat name", "why_tests_cant": "precedence mistakes appear only in certain nestings", "anchors": ["src/typescript.rs: single_prop_type_def, prop_type_def"]}
{"id": "C60", "title": "Enum declarations list exactly the schema's values", "statement": "A generated enum has exactly one member `V = \"V\"` per schema value, sorted.", "quantifier": "every enum", "why_tests_cant": "all value lists", "anchors": ["src/typescript.rs: enum_def_from_type"]}
{"id": "C61", "title": "The non-fragment import error quotes a line of the file it names only for direct imports", "statement": "The error for an imported document that is not a fragment names the compiled file; the line it quotes is an import line of the compiled file whenever no imported file imports that document too. For a document imported only by an imported file, the error names the compiled file but quotes a line of the other file.", "quantifier": "every file system content and import graph", "why_tests_cant": "import graphs of any shape and depth", "anchors": ["src/graphql.rs: add_imported_fragments, parse_foreign_fragments"]}
{"id": "C62", "title": "The introspection document is read by key", "statement": "The schema is read from `data.__schema.types` and the documented members of types, fields and type references; optional members may be absent or null. A document with a missing or repeated needed member, or one of the wrong type, is rejected. Any other members, and the order of members, change nothing.", "quantifier": "every JSON tree, however deep its type references", "why_tests_cant": "introspection results differ between servers in member order and extra members; the space of trees is unbounded", "anchors": ["src/graphql/schema/json.rs: Schema, Type, Field, FieldType"]}
{"id": "C63", "title": "The configuration file is read by key", "statement": "Nine optional settings are read by key, with their types checked; other members are ignored without a message. That includes `schemaPath`, the camelcased name of the `--schema-path` option: the setting is called `schemaFile`.", "quantifier": "every JSON tree", "why_tests_cant": "all trees, orders of members and extra members", "anchors": ["src/cli.rs: ConfigFileMatches"]}
{"id": "C64", "title": "A run that is stopped at any point damages no source file", "statement": "If the program is killed between any two system calls, including in the middle of writing a file, then every file that is not an output of a file of the tree and not the globals file is as before the run. If moreover nothing that is read is an output and outputs are distinct, every output is as before or holds the first bytes of what compiling its source alone writes; likewise the globals file.", "quantifier": "every file system, tree, schedule of the workers, sizes of partial writes, and point of interruption", "why_tests_cant": "a test cannot stop the program at every system call of every interleaving", "anchors": ["src/worker_pool.rs: run, run_dir_entry", "src/graphql.rs: compile_file, compile_global_types_file"]}
{"id": "C65", "title": "Running again after an interruption repairs the outputs", "statement": "Under the provisos of C58, if the program is run any number of times, each time stopped at any point, and is then run to the end, the files are those that a single undisturbed run leaves.", "quantifier": "every file system, number of interrupted runs, schedules of all runs, hash orders, points of interruption", "why_tests_cant": "all crash points and interleavings", "anchors": ["src/worker_pool.rs: run", "src/graphql.rs: compile_file, compile_global_types_file"]}
{"id": "C66", "title": "Interleaved file operations of the workers do not interfere", "statement": "When several workers read and write files at the same time, the results are those of compiling the files one after the other in some order: same messages, same files.", "quantifier": "every interleaving of single reads, opens and partial writes, every file system in which outputs are distinct and not read", "why_tests_cant": "all interleavings of system calls", "anchors": ["src/worker_pool.rs: run, run_dir_entry", "src/graphql.rs: compile_file"]}
{"id": "C67", "title": "Generated types are named after the place in the response", "statement": "The name of a generated object or union type is the name of the operation or fragment followed by the capitalised response names on the path to it; where a selection yields several alternatives, the alternative of an object type has that type's name appended, and the alternatives that select exactly the fields shared by all are given one common type.", "quantifier": "every schema and every document", "why_tests_cant": "all nestings and combinations of alternatives", "anchors": ["src/typescript.rs: type_definitions_from_complex_field_collection, compile_ir"]}
{"id": "C68", "title": "A file is generated exactly for the valid documents whose abstract types have members", "statement": "Code generation fails for a document that compiles only if a selection is made on an abstract type that no object type belongs to; otherwise a file is generated, in which no union is empty. An interface without implementors is valid GraphQL but no file is generated for a query that selects on it.", "quantifier": "every schema and every document", "why_tests_cant": "all schemas and documents", "anchors": ["src/typescript.rs: compile_ir", "src/graphql/ir.rs: Field, Complex"]}
{"id": "C69", "title": "Options take effect in the generated files", "statement": "The file written when a source is compiled is the one the settings ask for, where a setting is taken from the command line or else from the configuration file: readonly markers, custom scalars and their prefix, the module of the global types and of the document node types. Deprecation warnings are printed, one for each use of a deprecated field, exactly if they are asked for. The root directory and the import prefix decide which file an import names.", "quantifier": "every command line, configuration file, schema, file system and source file", "why_tests_cant": "options interact; all combinations with all documents", "anchors": ["src/cli.rs: RuntimeConfig, RuntimeConfig::from_cli", "src/graphql.rs: CompileConfig, compile_file", "src/typescript.rs: compile_ir"]}
{"id": "C70", "title": "The globals module is written where generated files import it from", "statement": "If the last component of the configured module name has no dot, the globals are written to the file with that name and the suffix `.ts` below the root directory, where the import prefix at the start of the name stands for the root directory. No other file is written. If the last component has a dot after its first character, the file has exactly the configured name. With a prefix that lacks the slash (`@` for `@/globals`) the file is written outside of the root directory.", "quantifier": "every module name, prefix and root directory", "why_tests_cant": "all names: dots, slashes and prefixes interact", "anchors": ["src/graphql.rs: compile_global_types_file"]}
{"id": "C71", "title": "Under a fair scheduler the workers always finish", "statement": "If no compile panics or hangs and the operating system gives every worker thread a turn again and again, all workers exit after finitely many steps, whatever the schedule. With one thread every file of the tree has then been compiled exactly once; with more, unless some worker decided to quit while work was left.", "quantifier": "every directory tree, thread count and every fair infinite schedule", "why_tests_cant": "liveness is a property of infinite executions; no finite number of test runs shows the absence of livelock", "anchors": ["src/worker_pool.rs: Worker::run, pop_work, WorkerPool::work"]}
{"id": "C72", "title": "An unusable configuration or schema stops the program", "statement": "If the command line and the configuration file cannot be combined, or the schema file cannot be read, is not JSON of the expected shape, or lists a type that lacks what its kind needs, then the program prints exactly one error that says what is wrong (the first fault in the order of the file), exits with status 1 and writes nothing. Conversely a schema file in which every type has what its kind needs is loaded.", "quantifier": "every command line, configuration file, schema file and file system", "why_tests_cant": "all ways in which an introspection document can be incomplete, alone or together", "anchors": ["src/main.rs: main", "src/graphql/schema.rs: parse_schema, Schema::try_from_reader, TryFrom", "src/cli.rs: RuntimeConfig::from_cli"]}
{"id": "C73", "title": "Descriptions of fields are carried over faithfully", "statement": "The comment above a property holds the lines of the schema's description of the field in order, trimmed, without the blank ones (one empty line if all are blank), and a deprecation mark exactly if the schema deprecates the field; no comment is printed if there is neither.", "quantifier": "every description text and deprecation", "why_tests_cant": "all texts, all kinds of white space and line ends", "anchors": ["src/graphql/schema.rs: Documentation", "src/typescript.rs: compile_documentation"]}
{"id": "C74", "title": "Exit status 0 means that everything was generated", "statement": "If nothing that is read is an output or the globals file and different sources have different outputs (so in every ordinary project, C114), then after a run in which no work is lost, the program prints exactly the messages about directories that cannot be listed, the messages that compiling each file of the tree alone gives, and at most one about the global types. Its status is 0 exactly if every directory can be listed, no file has an error, all global types used are valid and the globals file can be written. With status 0 the output file of every source holds what is generated from it, and the globals file declares the global types used. With one thread no work is ever lost.", "quantifier": "every directory tree, file system, schema, thread count, schedule and hash order", "why_tests_cant": "end-to-end claim over all trees, schedules and failures of system calls", "anchors": ["src/main.rs: main", "src/cli.rs: print_exit_info", "src/worker_pool.rs: WorkerPool::work", "src/graphql.rs: compile_file, compile_global_types_file"]}
{"id": "C75", "title": "A generated file is a TypeScript module", "statement": "If the names of the schema and of the document are names that TypeScript lets a module use, and no description closes its comment, then the text of every generated file is read by a TypeScript grammar as: imports of the document node type and of the global types, one exported type for each object or union type of the response, the type of the variables, the declaration of the document, its default export, and nothing else. The tool does not check that the name of an operation can be declared: `query delete` or `query string` compiles without an error and the file is not TypeScript.", "quantifier": "every schema, document, setting and set of imported fragments", "why_tests_cant": "all texts; a test reads a few files, and the compiler of TypeScript is not run by the tests", "anchors": ["src/typescript.rs: compile_ir, compile_documentation, compile_imports", "src/graphql/ir.rs: Operation::compile"]}
{"id": "C76", "title": "The text of a generated file admits what a server answers, and nothing else", "statement": "Read as a TypeScript module, the exported type named after the operation admits every response a conforming server may give; and under the provisos about names and merging it admits exactly the values of the alternatives of the selection.", "quantifier": "every schema, document, response value and hash order", "why_tests_cant": "all responses and all texts; composition of code generation with the meaning of TypeScript types", "anchors": ["src/typescript.rs: compile_ir, type_definitions_from_complex_field_collection, prop_type_def", "src/graphql/ir.rs: collect_fields"]}
{"id": "C77", "title": "Names in a generated file resolve, and resolve to one thing", "statement": "Every type that is mentioned in the text of a generated file is declared or imported by it, belongs to TypeScript, or is a custom scalar of the schema under the configured name. No type name is declared or imported twice, if object types and response keys have no underscores and neither an imported global nor the document node type has the name of a generated type. That last proviso is not checked: an operation called like an enum that it selects gives a file that imports and declares the same name.", "quantifier": "every schema, document, setting and set of imported fragments", "why_tests_cant": "all combinations of names", "anchors": ["src/typescript.rs: compile_ir, compile_imports"]}
{"id": "C78", "title": "The globals file is a TypeScript module", "statement": "If the names of enums, input objects and their fields are names that TypeScript lets a module use, and no description closes its comment, then the text of the globals file is read by a TypeScript grammar as one exported declaration for every global type and nothing else, sorted by name: an enum with exactly the values of the schema's enum, or an object type with one property for every input field.", "quantifier": "every schema, set of used types, setting and hash order", "why_tests_cant": "all texts; the compiler of TypeScript is not run by the tests", "anchors": ["src/typescript.rs: compile_globals, global_types_from_names, enum_def_from_type, input_def_from_type"]}
{"id": "C79", "title": "The types of the globals file admit what a server takes as input", "statement": "Read as a TypeScript module, the type exported for an enum or input object admits every value that a server takes for it, at every depth of nesting, and, if the names of the scalars admit exactly the values of the scalars, no other value. (Types with one list level; see C02.)", "quantifier": "every schema, set of used types, setting, input value and hash order", "why_tests_cant": "all schemas and all input values; composition of code generation with the meaning of TypeScript types", "anchors": ["src/typescript.rs: compile_globals, from_input_def_field_def, enum_def_from_type"]}
{"id": "C80", "title": "The variables type admits what a server takes for the variables", "statement": "Read as a TypeScript module together with the globals file it imports, the exported type of the variables of an operation admits every object of variables that a server takes, and, if the names of the scalars admit exactly the values of the scalars, no other object - except that default values are ignored: a variable of a non-null type with a default value may be left out for a server, but not for the generated type.", "quantifier": "every schema, document, setting, object of variables and hash order", "why_tests_cant": "all values of variables, and two generated files that refer to each other", "anchors": ["src/graphql/variable.rs: try_build_variable_ir, unwrap_var_def", "src/typescript.rs: compile_variables_type_definition, compile_globals"]}
{"id": "C81", "title": "The file of an operation and the globals file fit together", "statement": "Every response of a server is admitted by the exported type of the file of an operation when the enums mean what the globals file of the same run says; nothing has to be assumed about them.", "quantifier": "every schema, document, setting, response value and hash order of either file", "why_tests_cant": "all responses, and two generated files that refer to each other", "anchors": ["src/typescript.rs: compile_ir, compile_globals, compile_imports", "src/graphql.rs: compile_global_types_file"]}
{"id": "C82", "title": "Every invalid selection is explained where it stands", "statement": "If a file holds one definition with invalid selections, nothing is written and the following is printed about it, in this order and nothing else: the texts about its imports; for every invalid selection, in document order, a text that says what is wrong with it, gives the path, line and column, quotes the line, marks the column, and suggests exactly the names that are close; and the warnings. Exception: an inline fragment on a type that is not in the schema is called a program error, without path or line.", "quantifier": "every schema, document, text, set of imported fragments and hash order", "why_tests_cant": "all documents with any number of mistakes in any place; tests compare a few messages", "anchors": ["src/cli.rs: Message, Source, similar_help_suggestions", "src/graphql/ir.rs: Error, collect_fields", "src/graphql.rs: compile_file"]}
{"id": "C83", "title": "Warnings are printed for what they are about, where it stands", "statement": "If a file is compiled, exactly this is printed about it: the texts about its imports, and a warning for every fragment that can never match and, if asked for, for every use of a deprecated field, each kind in document order, naming the type or field concerned, with path, line, column, the quoted line and the marked column.", "quantifier": "every schema, document, text, set of imported fragments and hash order", "why_tests_cant": "all documents; tests compare a few messages", "anchors": ["src/cli.rs: Message, Source", "src/graphql/ir.rs: Warning", "src/graphql.rs: compile_file"]}
{"id": "C84", "title": "What is printed about a file that cannot be used", "statement": "A file that is unreadable, has a syntax error, is empty or holds several definitions gives exactly one text that says so, with the place of the second definition. Unreadable includes every file whose bytes are not the UTF-8 encoding of some text. A plain selection set, a root type without fields, the first variable that cannot be used, a failure to write, and a selected interface or union without possible types each give exactly one text besides those about imports and the warnings. Several of these texts mislead: an empty file and a type without possible types are reported without a path, the text about a variable of unknown type gives the name of the type as that of the variable, lists of non-null lists are reported as a probable bug, and a globals file that cannot be written is reported under the name of the root directory.", "quantifier": "every schema, file contents, parse result and failure of reading or writing", "why_tests_cant": "all files and all failures of the file system", "anchors": ["src/graphql.rs: compile_file, read_graphql_file, parse_graphql_file", "src/graphql/ir.rs: Error, Operation::compile", "src/graphql/variable.rs: Error"]}
{"id": "C85", "title": "Installing the npm package runs only a verified binary", "statement": "Whatever the servers answer, however often they redirect, whatever fails and wherever the script is stopped, the post-install script unpacks at most one tarball, and only one with the SHA-256 digest that package.json lists for the platform - as long as no other program changes the tarball. Exit status 0 means that qlc was unpacked and made executable, with one exception: a download that breaks off also ends with status 0 and nothing installed. Unless it is that exception, status 0 also means that tar ended with status 0. The release that is downloaded is the one for the processor and the system of the machine. Platforms without a release are refused with nothing touched; a tarball with another digest is removed.", "quantifier": "every sequence of answers, chunks, failures and completions of file operations, in every order the event loop allows", "why_tests_cant": "all interleavings of the callbacks and all faults of network and file system", "anchors": ["pkg/npm/lib/postinstall.js"]}
{"id": "C86", "title": "Downloading a schema", "statement": "Status 0 of the download script means that the server answered with status 200 and that the file holds what came of the body; the body is complete unless the connection broke, in which case part of a schema is left with status 0. At every moment the file is gone, holds what came of the new body, or is the old file as long as it has not been opened; a failing request deletes the schema that was there before. Without an endpoint nothing is touched.", "quantifier": "every sequence of answers, chunks, failures and completions of file operations", "why_tests_cant": "all interleavings and faults; a test shows one", "anchors": ["pkg/npm/lib/download.js: download"]}
{"id": "C87", "title": "A downloaded schema is the server's schema", "statement": "What a server answers to the introspection query, read by qlc, is what the server says about itself, if no type is wrapped in more than seven lists and non-nulls; it can be loaded exactly then. Exceptions: the query does not ask which fields are deprecated, so with a downloaded schema nobody is ever warned about deprecation; and the name of the query type is downloaded but not used, so that if no type is called Query no query compiles.", "quantifier": "every server that follows the introspection section of the GraphQL specification", "why_tests_cant": "all schemas, type references of any depth, and the composition of a query, a server, a JSON reader and a schema loader", "anchors": ["pkg/npm/lib/download.js: introspectionQuery", "src/graphql/schema/json.rs", "src/graphql/schema.rs"]}
{"id": "C88", "title": "The types of the npm package fit the generated files", "statement": "Read as a TypeScript module, every generated file imports the type of its default export from the configured module; the npm package exports a type of that name; the file gives it as many type arguments as it has parameters; and each argument is never, or names an object type or union of object types declared in the file, as the constraint of the parameters demands.", "quantifier": "every schema, document, setting and hash order", "why_tests_cant": "all documents; two artefacts that are written in different languages have to agree", "anchors": ["pkg/npm/lib/typed-documentnode.d.ts", "src/typescript.rs: compile_ir, compile_imports"]}
{"id": "C89", "title": "What a successful run leaves on the disk", "statement": "When a run over a directory ends with status 0, then, however its threads were scheduled: for every GraphQL file there is an output file with a TypeScript module, and the globals file is a module too or no file uses a global. Every response that a server gives to the operation belongs to the data type that the module on the disk exports, and every object of variables that a server takes belongs to its variables type, where imported names mean what the globals file on the disk says. The schema and the document must avoid the defects reported in C01, C02, C21 and C23, their names must be writable in TypeScript, and what the document imports must lie in the tree.", "quantifier": "every schema, tree, configuration, schedule, number of threads, response and object of variables", "why_tests_cant": "the composition of the whole program: parsing of arguments aside, from files to files, over all schedules and all responses", "anchors": ["src/main.rs: main", "src/graphql.rs: compile, compile_file", "src/typescript.rs", "src/typescript.rs: compile_globals"]}
{"id": "C90", "title": "After a successful run the imported fragments are valid", "statement": "A file's own compilation does not check the fragments that it imports beyond what it uses of them. When a whole run ends with status 0 and all that a file imports, directly or not, lies in the tree, every fragment in its scope is valid against the schema with the fragments of this scope.", "quantifier": "every tree, configuration, schedule, number of threads and file", "why_tests_cant": "the fragments are checked by other threads in other scopes; that these checks carry over has to hold for all trees", "anchors": ["src/main.rs: main", "src/graphql.rs: compile_file, parse_foreign_fragments", "src/graphql/ir.rs: Operation::compile"]}
{"id": "C91", "title": "Two runs over the same files report the same", "statement": "Run the program twice over the same files, with any hash orders, numbers of threads and schedules, so that no work is lost. If imported fragments are valid and have different names, no response key has two named types and no variable is declared twice, both runs leave the same files and exit with the same status. If the global types can be generated, both print the same texts, each as often, up to the order of the texts and of the names listed inside a text.", "quantifier": "every tree, file system, configuration, schema, pair of hash orders, thread counts and schedules", "why_tests_cant": "hash orders and schedules differ from run to run and cannot be enumerated", "anchors": ["src/main.rs: main", "src/worker_pool.rs: work, aggregate", "src/graphql.rs: compile_file, parse_foreign_fragments", "src/graphql/ir.rs: collect", "src/cli.rs: print_exit_info, similar_help_suggestions"]}
{"id": "C92", "title": "The data type admits exactly the possible responses", "statement": "The converse of C81: a value belongs to the generated data type only if some server, with some data, could answer the operation with it; so the type admits exactly the possible responses. After a successful run this holds of the module on the disk. It needs that implementations do not narrow the types of interface fields, that no two keys ask for __typename where object types share a printed type, and that the type of a scalar admits only the values of the scalar (not any): without each of these the type admits more, as three examples show.", "quantifier": "every schema, document, configuration and value", "why_tests_cant": "all values and all schemas; a test can show that a value is admitted, not that no others are", "anchors": ["src/typescript.rs", "src/typescript.rs: type_definitions_from_complex_ir", "src/graphql/ir.rs: Collection"]}
{"id": "C93", "title": "The command line", "statement": "The program accepts exactly the command lines made of the options in its help text, each at most once, in any order and in every usual way of writing them (long with a blank or =, short with a blank, = or nothing), with at most one directory, which may stand after --, and a scalar prefix only together with custom scalars; its arguments are then what the options say. A word that asks for help or the version after valid settings shows that and ends with status 0; everything else ends with status 2 before any file is touched. --no-color switches all colours off.", "quantifier": "every list of words", "why_tests_cant": "all command lines; the readings of a word depend on what stands before it", "anchors": ["src/cli.rs: CliArgs, RuntimeConfig::from_cli", "src/main.rs: main"]}
{"id": "C94", "title": "From the server to the types", "statement": "When a schema file holds what a server answered to the query of the download script (no type wrapped more than seven times), and the program is started with a command line that names that file and one thread and ends with status 0, then every GraphQL document of the searched tree has its output file; for a schema and document of the supported kind, the exported data type admits every response of that server, exactly these if no condition of exactness is violated, and the variables type admits exactly the objects of variables the server takes, under the settings that the command line and the configuration file mean.", "quantifier": "every server, command line, configuration file, file tree, document, response and object of variables", "why_tests_cant": "composes the download, the command line, the configuration, the schema reader, the pool, the compiler and the writer; all servers and all documents", "anchors": ["pkg/npm/lib/download.js: introspectionQuery", "src/main.rs: main", "src/cli.rs: RuntimeConfig::from_cli", "src/worker_pool.rs", "src/graphql/schema.rs"]}
{"id": "C95", "title": "Documents that ask for the same data generate the same file", "statement": "Take two definitions of the same sort and name with the same variables that both compile, possibly against different schemas, with different imported fragments and hash orders. If at every depth they ask the same object types for the same response keys, with values of the same kind and the same documentation, and the schemas agree which variable types are scalars, the generated texts and the global types used are the same.", "quantifier": "every pair of schemas, definitions, fragment scopes, settings and hash orders", "why_tests_cant": "a relation between all pairs of programs; a test compares one pair", "anchors": ["src/graphql/ir.rs: Operation::compile, Collection", "src/typescript.rs: compile_ir"]}
{"id": "C96", "title": "Tidying a document leaves the generated file as it is", "statement": "Reordering selections that have no response key in common, replacing a fragment spread by the fragment or the reverse, unwrapping or adding an inline fragment on the surrounding type, removing an inline fragment that can never apply, removing repetitions, merging neighbouring selections of one field or neighbouring inline fragments on one type, changing arguments, directives and line breaks, at any depth and in any sequence, does not change the generated text; unused imports may be removed too. Swapping two selections of the same key may change the documentation, as an example shows.", "quantifier": "every schema, document and sequence of edits", "why_tests_cant": "all documents and all sequences of edits", "anchors": ["src/graphql/ir.rs: collect_fields, Collection", "src/typescript.rs: compile_ir"]}
{"id": "C97", "title": "A schema that only grows does not change the generated files", "statement": "When a new introspection result keeps the kind of every type, every field of object types and interfaces as it was, and the object types of every interface and union, and otherwise adds types, fields, enum values and input fields, then every definition that compiled still compiles, whatever the hash order, and generates the same text. A new implementation of an interface is not such an addition: an example shows a changed file.", "quantifier": "every pair of valid introspection documents, every definition and hash order", "why_tests_cant": "all schemas and all extensions of them", "anchors": ["src/graphql/schema.rs: TryFrom", "src/graphql/ir.rs: Operation::compile", "src/typescript.rs: compile_ir"]}
{"id": "C98", "title": "Running again after the schema has grown", "statement": "Let a run end with status 0, let the schema grow as in C97, and let a second run over the same files complete, with any hash orders, numbers of threads and schedules. If imported fragments are valid and have different names, no response key has two named types and no variable is declared twice, the second run ends with status 0 too, uses the same global types and leaves every file but the globals file with the same contents; if no enum or input object changed, the globals file too.", "quantifier": "every tree, configuration, pair of schemas, hash orders, thread counts and schedules", "why_tests_cant": "two whole runs, over all schemas, trees and schedules", "anchors": ["src/main.rs: main", "src/worker_pool.rs: work, aggregate", "src/graphql.rs: compile_file, compile_global_types_file", "src/graphql/schema.rs"]}
{"id": "C99", "title": "An edit changes only the outputs that depend on it", "statement": "Let a run complete, edit, add and remove files, and let a second run complete, with any hash orders, numbers of threads and schedules. A file then has other contents than before the edit only if it was edited, is the globals file, or is the output of a document that is new or that is, or imports directly or indirectly, an edited file. Outputs of documents that are gone are not removed.", "quantifier": "every tree, set of edits, configuration, schema, hash orders, thread counts and schedules", "why_tests_cant": "all trees of imports, all edits and all schedules", "anchors": ["src/main.rs: main", "src/worker_pool.rs: work", "src/graphql.rs: compile_file, add_imported_fragments"]}
{"id": "C100", "title": "The helper types give back the types of query documents only", "statement": "For the document that a generated query or subscription file exports, DataOf of the npm package is the file's data type and VariablesOf its variables type, never if it has none. For the document of a mutation or a fragment both are Record<string, unknown>: the data and variables types are lost, because every document type fits the first branch of the helpers.", "quantifier": "every schema, configuration, hash order and definition that compiles", "why_tests_cant": "a statement about all generated types and about evaluation of conditional types, which no test of the repository runs", "anchors": ["pkg/npm/lib/typed-documentnode.d.ts: DataOf, VariablesOf", "src/typescript.rs: compile_ir"]}
{"id": "C101", "title": "What was built for a platform is what is installed on it", "statement": "For every version number and every set of binaries, the release scripts publish an npm package that has the version of the binary, lists for every platform the installer supports the digest of the archive made of that platform's binary, and looks for it at the address under which that archive is published. Whatever the servers send, nothing is unpacked but an archive with that digest; if the servers send what is published and nothing fails, the archive is unpacked and the installation succeeds.", "quantifier": "every version number, set of archives, order of the directory listing, number of redirects, partition of the body and course of the installation", "why_tests_cant": "the scripts run only at a release, on archives that do not exist before; grep patterns and sed replacements must not confuse platforms for any version", "anchors": [".circleci/bin/make-github-release.sh", ".circleci/bin/make-npm-release.sh", ".circleci/bin/get-version-from-binary.sh", ".circleci/bin/get-release-platforms.sh", "pkg/npm/package.json: checksumConfig", "pkg/npm/lib/postinstall.js: main, getTarget, checksum"]}
{"id": "C102", "title": "Under a fair scheduler the program ends, whatever the file operations are interleaved with", "statement": "If every file of the tree, compiled alone, returns without a panic, nothing that is read is an output and outputs are different files, then whatever the number of threads, however single reads, opens and partial writes of the workers are interleaved and however few bytes each partial write writes (at least one), all workers exit after finitely many system calls, provided each gets a turn again and again. With one thread, and with any number of threads if none takes a turn between another's taking work and being counted as busy, every file of the tree has then been compiled, every output is what its source alone leaves, and the main thread finishes the globals file after finitely many more system calls.", "quantifier": "every tree, file system, hash order, number of threads, infinite fair schedule of system calls and sizes of partial writes", "why_tests_cant": "a liveness property over infinite schedules; no finite set of runs settles it", "anchors": ["src/worker_pool.rs: run, work, aggregate", "src/graphql.rs: compile_file, compile_global_types_file"]}
{"id": "C103", "title": "A run ends exactly on projects without recursion", "statement": "For a consistent schema and imported fragments with different names: compiling a file returns, given enough time, exactly if it is not a readable file with one definition, or no chain of imports from it is infinite, no import line on these chains lacks its closing quote, and no chain of selection sets is infinite. If a file of the tree is not like that, no run over the tree ever completes, whatever the number of threads, the schedule and the hash order. If all files are, and no chain of input objects below a used global is infinite, then one amount of time suffices for every hash order and fair schedule: all workers exit, and the program completes with one thread, and with several if none takes a turn between another's taking work and being counted as busy.", "quantifier": "every schema, tree, file system, configuration, hash order, number of threads and fair schedule", "why_tests_cant": "termination of all runs over all projects, and its failure for all schedules", "anchors": ["src/graphql.rs: compile_file, add_imported_fragments, parse_foreign_fragments", "src/graphql/ir.rs: Operation::compile", "src/typescript.rs: add_sub_input_objects", "src/worker_pool.rs: work"]}
{"id": "C104", "title": "Several invocations at the same time leave what one alone leaves", "statement": "Let any number of invocations with the same options and the same schema be started over the same files, each with hash seeds and a number of threads of its own, and let all of them return, having compiled every file. However the steps of all their threads are interleaved, and in whatever pieces each writes its files over what the others have written, the files are in the end those that any one run alone leaves, and each invocation exits with the status of that run and prints the same texts. With different options, or if one of them is stopped, this fails: examples show a file that is half from one and half from the other, and an emptied file beside a successful invocation.", "quantifier": "every number of invocations, tree, file system, configuration, schema, hash orders, thread counts, interleavings of system calls and sizes of partial writes", "why_tests_cant": "all interleavings of the system calls of all processes, with torn and overlapping writes", "anchors": ["src/main.rs: main", "src/worker_pool.rs: work, run, aggregate", "src/graphql.rs: compile_file, compile_global_types_file"]}
{"id": "C105", "title": "A document reads a file once per chain of imports, in walking order, and writes only its output", "statement": "Compiling a document first reads the document. If it can be parsed, then for every chain of import lines that starts in it (an import line of the document, then an import line of the file that line names, and so on) the file at the end of the chain is read exactly once, in the order of a walk that follows the first import line to the end before the second; nothing else is read. After that at most one file is written, the output of the document. So a file is read as many times as chains lead to it, which can be exponential in the number of files.", "quantifier": "all documents, file systems, parsers, schemas and options for which the compilation returns; the exponential case for every depth n", "why_tests_cant": "the number of chains and their length are unbounded; a test counts the reads of a few projects", "anchors": ["src/graphql.rs: add_imported_fragments, compile_file, read_graphql_file", "src/graphql.rs: get_file_path_of_fragment"]}
{"id": "C106", "title": "How a path is spelled does not matter", "statement": "Texts of paths that differ in doubled separators, in '.' between separators, or in a separator or '/.' at the end are the same path for the program, and no others are. The operations it uses (join, parent, extension, replacing the extension), done on texts as the standard library does them, agree with the operations on components: so the file an import line names, the output of a document and the globals file do not depend on how the root directory and the file are spelled. A message shows a path that is tidy as it was written; below a directory the text of the directory is kept as written.", "quantifier": "every text of a path, every pair of texts, configuration and import line", "why_tests_cant": "all texts with any number of redundant separators and dots", "anchors": ["src/graphql.rs: get_file_path_of_fragment, add_imported_fragments, compile_file, compile_global_types_file", "src/worker_pool.rs: run_dir_entry"]}
{"id": "C107", "title": "A typed document is accepted in place of another of its kind exactly where that is safe, but kinds are not told apart", "statement": "TypeScript accepts the document type of an operation where a document of the same kind is expected exactly if the data it yields is of the expected type and the variables given there are variables it takes; if some variables are given there and not every data is expected, this is exactly when every way of answering that keeps the promise of the first type keeps that of the second. A fragment document is accepted exactly if its data is. The document a generated file exports has the file's data type and its variables type in these places. Documents of different kinds are accepted in place of each other whatever their types, so there the promise can be broken.", "quantifier": "all data and variables types, all kinds of documents, all ways of answering, all generated files", "why_tests_cant": "assignability for all types and all behaviours of a server; the generator's tests never run the TypeScript checker", "anchors": ["pkg/npm/lib/typed-documentnode.d.ts: QueryDocumentNode, MutationDocumentNode, SubscriptionDocumentNode, FragmentDocumentNode", "src/typescript.rs: compile_ir"]}
{"id": "C108", "title": "The npm package exports the path of the program it has installed", "statement": "Wherever the package is installed, the path that require('@notarize/qlc-cli') yields, the file npm links the command qlc to, the file the installer makes executable and the file tar writes the archive's member to are one and the same. If the installer exits with status 0, the program that was built and released for the machine's platform is at that path and executable; the only exception is a download that broke off, after which the path still names the empty file that is part of the package, and the exit status is 0 nevertheless.", "quantifier": "every package directory, platform, version, build, and every sequence of network, file system and tar events", "why_tests_cant": "all directories and all sequences of events, including failures at every point", "anchors": ["pkg/npm/lib/index.js", "pkg/npm/lib/postinstall.js: BIN_PATH, untar, main", "pkg/npm/package.json: bin", "pkg/npm/bin/qlc", ".circleci/bin/make-github-release.sh"]}
{"id": "C109", "title": "Unchanged generated files mean unchanged answers", "statement": "After documents, the schema or the settings have changed in any way: if regenerating leaves the file of an operation and the globals file as they were, then the possible answers to the operation are exactly what they were, and the server takes exactly the same variables. So comparing the generated files shows every change that matters to the code that uses them. The globals file has to be compared too: when an enum gets a value, it alone shows the new answers.", "quantifier": "all pairs of schemas, documents, imported fragments and settings that are fit (C89, C92), all pairs of complete successful runs, all answers and variables", "why_tests_cant": "a pair of versions is arbitrary, and the sets of answers and variables are infinite", "anchors": ["src/typescript.rs: compile_ir, compile_globals", "src/graphql.rs: compile_file, compile_global_types_file", "src/graphql/ir.rs: Operation::compile"]}
{"id": "C110", "title": "Documents that GraphQL accepts are compiled, but for a short list of constructs", "statement": "On a valid schema, an operation or fragment that keeps GraphQL's rules about types (fields exist, sub-selections exactly on composite types, fragments exist, can apply and do not spread themselves, variables have different names and input types) is compiled and a file is generated for it, whatever the options and the order of hash maps, unless it is an operation without keyword or a subscription, has an inline fragment without type condition, asks for __schema or __type, has a variable whose type is a list of lists, or the schema has an interface or union without object types. Each of these is rejected although GraphQL allows it. Some documents GraphQL forbids are compiled: variables declared twice, variables of output types, and fragments that can never apply.", "quantifier": "all valid schemas, all documents of any size and depth, all imported fragments, options and hash orders", "why_tests_cant": "all documents that keep the rules, of unbounded depth; tests contain single documents", "anchors": ["src/graphql/ir.rs: Operation::compile, collect_fields_from_selection_set, insert_field", "src/graphql/schema.rs: Schema", "src/typescript.rs: compile_ir"]}
{"id": "C111", "title": "A project of documents that GraphQL accepts is generated completely, with exit status 0", "statement": "If the directories of the project can be listed, the imports of every file are in order, every file holds one definition that GraphQL accepts together with the fragments it imports and that avoids the constructs of C110, the output files and the globals file can be written, and no input object of the schema contains itself, then every complete run exits with status 0, prints warnings only, and leaves in the output file of every document the text generated from it. And there is an amount of time after which runs do complete: with one thread under every schedule that lets it run, and with more threads when no worker is disturbed between taking work and saying so.", "quantifier": "all valid schemas, all trees of files of any size, all files the rules above allow, all orders of hash maps, numbers of threads and schedules of single file operations", "why_tests_cant": "projects, schedules and hash orders are unbounded; a test runs one project once", "anchors": ["src/cli.rs: RuntimeConfig", "src/worker_pool.rs: WorkerPool", "src/graphql.rs: compile_file, compile_global_types_file", "src/graphql/ir.rs: Operation::compile", "src/typescript.rs: compile_ir, compile_globals"]}
{"id": "C112", "title": "Files may be edited while the program runs", "statement": "Other programs may change, create and delete files between any two system calls of a run. Whatever they do, a worker only ever writes the output of a document of the tree, as its last action for that document, and the text is generated from the document and the fragments as reading them yielded at moments of this run. If all answers to a worker were those of one state of the file system, the text is the one generated from that state; otherwise it may be a mixture, and an example shows a file being written although no state of the file system would have led to one. Changes to files that are neither read nor outputs do not matter at all: workers are in the same states as without them, with the same messages and outputs.", "quantifier": "all trees, documents, numbers of threads, schedules of single system calls, and all changes other programs make, at all moments", "why_tests_cant": "the moments and contents of foreign changes are arbitrary; a test cannot place an edit between two given system calls", "anchors": ["src/graphql.rs: compile_file, add_imported_fragments, parse_foreign_fragments", "src/worker_pool.rs: Worker, Work"]}
{"id": "C113", "title": "The order in which a server lists its schema does not matter", "statement": "Two introspection documents may list the same types, fields, input fields, possible types and enum values in different orders. Then one is loaded exactly if the other is. If no name is listed twice, one is valid exactly if the other is, and if they are valid, complete runs of the program over the same files with the one and with the other, with any hash orders, numbers of threads and schedules, end both with status 0 or both with another, and leave the same contents in all files, whether or not there were errors. Provisos as for C16: no document's output depends on hash orders; nothing that is read is an output, and outputs are distinct.", "quantifier": "every pair of introspection documents that differ in order only, every tree, configuration, hash orders, thread counts and schedules", "why_tests_cant": "all permutations at every level of a schema, combined with all schedules", "anchors": ["src/graphql/schema.rs: Schema::try_from_reader, get_fields_for_complex", "src/typescript.rs: global_types_from_names, input_def_from_type, enum_def_from_type", "src/graphql/ir.rs: Operation::compile"]}
{"id": "C114", "title": "In an ordinary project inputs and outputs never meet", "statement": "Call a project ordinary if its tree is what listing the root directory shows, if imports name .graphql files, if the globals file is not named like a document or an output, and if paths that lead to one file lead to one place (no links among the touched files). Then nothing that a run reads is an output or the globals file, different documents have different outputs, and the globals file is no output; so a run, successful or not, leaves every document it reads as it was. The condition on the globals file holds whenever the name of the globals module ends in a name without a dot, as the default one does; it is needed: a globals module named like a document makes the program replace the document and report success.", "quantifier": "every working directory, file tree of any depth, file system, configuration, hash order, thread count and schedule", "why_tests_cant": "all trees and all path spellings, with .. and . anywhere in import paths", "anchors": ["src/graphql.rs: compile_file, compile_global_types_file", "src/worker_pool.rs: WorkerPool::work", "src/graphql.rs: get_file_path_of_fragment"]}
{"id": "C115", "title": "How many types a document can generate", "statement": "A document without inline fragments and spreads generates at most one type per selection written in it, and one for the document, whatever interfaces and unions it selects on. With inline fragments there is no such bound: there is a schema and for every n a query with 5n+5 selections and without spreads, accepted by GraphQL, whose generated text has at least 2^n characters.", "quantifier": "every schema, document, hash order and configuration; every n", "why_tests_cant": "the growth of the output over documents of all sizes", "anchors": ["src/typescript.rs: type_definitions_from_complex_field_collection, type_definitions_from_complex_ir", "src/graphql/ir.rs: collect_fields_from_selection_set"]}
{"id": "C116", "title": "Renaming fragments changes nothing for their users", "statement": "Rename fragments throughout a project, so that different names stay different, and operations at will. Each document then compiles as before: it fails or crashes if and only if it did before, with errors and warnings about the same things, and otherwise its generated text is the former one with the name of its own operation or fragment replaced at the beginning of the names of its types. After a run with exit status 0, renaming and running again ends with status 0, leaves the globals file as it was, and leaves the generated file of each document whose own name is unchanged exactly as it was, whichever fragments it uses were renamed.", "quantifier": "every project, schema, injective renaming, pair of hash orders, schedules and thread counts", "why_tests_cant": "relates two runs over all projects and all renamings", "anchors": ["src/graphql/ir.rs: collect_fields_from_selection_set, Operation::compile", "src/graphql.rs: compile_file, add_imported_fragments, parse_foreign_fragments", "src/typescript.rs: compile_ir"]}
{"id": "C117", "title": "A project generates the same files wherever its files lie", "statement": "Run the program with exit status 0 on a project, and run it on another project with the same schema and settings whose documents are the same: each has the same operation or fragment and imports the same fragments, through whatever import lines and from whatever files; layout, arguments and directives may differ. If the second project's imports can be read and its outputs written, the second run ends with status 0 too, the generated file of each document has exactly the same text, the same globals are used, and the globals file, if any are used, is the same. In particular a project without absolute imports can be copied to another directory: the run there ends with status 0 and generates the same files below the new root.", "quantifier": "every pair of projects with the same documents, every schema, pair of hash orders, schedules and thread counts; for moves, every pair of root directories", "why_tests_cant": "relates two runs on different file systems, over all projects, import graphs and directories", "anchors": ["src/graphql.rs: compile_file, add_imported_fragments, get_file_path_of_fragment, parse_foreign_fragments", "src/graphql/ir.rs: Operation::compile", "src/typescript.rs: compile_ir, compile_globals", "src/main.rs: main"]}
{"id": "C118", "title": "The exit status is 0 exactly for correct projects", "statement": "A run ends with exit status 0 if and only if the project is correct: all its directories can be listed; every document can be read, holds exactly one definition, and has all its imports in order (readable, and, where an imported file holds one definition, a fragment); the root type of the definition exists and is composite; everything written in the definition is valid where it stands, with the imported fragments; its variables have existing input types with at most one level of lists; and its output file can be written. So status 0 misses no mistake, a correct project is never refused, and all complete runs over a project agree about it, whatever the number of threads, the schedule and the order of hash maps. Provisos: input types of the schema are valid, every interface and union has an object type, different imported fragments have different names, the globals file can be written, and no output file is at the same time a document or another output.", "quantifier": "every valid introspection document, project, file system, number of threads, schedule, hash order and completed run", "why_tests_cant": "Both directions are claims about all projects: that no kind of mistake slips through with status 0, and that no correct project is refused. Tests can only try particular mistakes and particular correct projects.", "anchors": ["src/main.rs: main", "src/cli.rs: print_exit_info", "src/graphql.rs: compile_file, add_imported_fragments, parse_foreign_fragments, compile_global_types_file", "src/graphql/ir.rs: Operation::compile", "src/typescript.rs: compile_ir, compile_globals"]}
{"id": "C119", "title": "Data found where a document spreads a fragment belongs to the fragment's generated type", "statement": "After a run with exit status 0, let a document of the tree import a file with a fragment F and spread F at the end of a path of response keys, inside fields and fragments that every object there fits. Whatever a server answers to the document, each object found along that path (through any levels of lists) has, when the properties that F did not ask for are left out, the type that the output file of F's own document exports: a component written against the fragment's type can be handed the data of every document that spreads the fragment. If the document also meets the conditions of C92, the same is true of every value of the document's generated type, wherever it comes from. Provisos: schema and both documents as in C89, all imports of the document lie in the tree and define differently named fragments, and selections with the same response key select the same field (GraphQL's merging rule, which qlc does not check).", "quantifier": "every valid introspection document, project, file system, schedule, hash order and completed run, every document and imported fragment, every path of response keys and every possible response", "why_tests_cant": "The two types are generated from different files in separate jobs, with different fragments in scope; that they fit together is a claim about all documents, nestings and responses.", "anchors": ["src/graphql.rs: compile_file, parse_foreign_fragments", "src/graphql/ir.rs: Operation::compile, collect_fields_from_selection_set, insert_field", "src/typescript.rs: compile_ir, type_definitions_from_complex_ir"]}
{"id": "C120", "title": "Asking for more does not break code written against the old type", "statement": "Let a second version of a document, and of the fragments it spreads, ask for at least as much as the first: selections may be added anywhere and put in another order, arguments may change, nothing is taken away. Then every response to the second version has, when the added properties are left out, the type generated for the first version; and if the second version meets the conditions of C92, the same is true of every value of the type generated for the second version. So data typed by the new file can be handed to code written against the old one, even if the two files come from different runs with different globals files. Provisos: the same schema and configuration, both versions as in C89 (with the directives unchanged), imported fragments valid (C90), and in the second version selections with the same response key select the same field.", "quantifier": "every valid introspection document, every two versions of a document and of its fragments, all nestings, hash orders and values", "why_tests_cant": "It compares what is generated for two different inputs, for all documents and all ways of adding selections at all depths.", "anchors": ["src/graphql/ir.rs: Operation::compile, collect_fields_from_selection_set, insert_field", "src/typescript.rs: compile_ir, compile_globals, type_definitions_from_complex_ir"]}
{"id": "C121", "title": "A schema that promises more keeps old code valid", "statement": "Let a new version of the schema differ from the old one only in that field types have got non-null marks (at any depth) and enums have lost values. Then every value of the type generated for a document from the new version is a value of the type generated for the same document from the old version, each file read with the globals file of its own version: code written against the old type accepts whatever the new one describes. Provisos: same document, fragments and configuration; the old version as in C89 and the new one as in C92.", "quantifier": "every two valid introspection documents so related, every document and set of fragments, all nestings, hash orders and values", "why_tests_cant": "It compares the output for two different schemas, over all schemas, documents and values.", "anchors": ["src/graphql/ir.rs: Operation::compile, collect_fields_from_selection_set, get_type_ir_for_field", "src/typescript.rs: compile_ir, compile_globals, type_definitions_from_complex_ir"]}
{"id": "C122", "title": "A schema that asks for less keeps old calls valid", "statement": "Let a new version of the schema ask for less input than the old one: types of input fields may have lost non-null marks, nullable input fields may have been added, enums may have got values. Let a new version of a document keep the old variables, maybe with fewer non-null marks, and maybe add nullable ones; its name, selections and fragments may change at will. Then every value of the variables type generated from the old version, read with the old globals file, is a value of the variables type generated from the new version, read with the new globals file: calls written against the old type still type-check. Provisos as in C80 for both versions; default values are left out of account, as there.", "quantifier": "every two valid introspection documents so related, every two documents whose variables are so related, all nestings of input objects, hash orders and values", "why_tests_cant": "It compares the output for two different schemas and documents, over all schemas, documents and values.", "anchors": ["src/graphql/ir.rs: Operation::compile", "src/typescript.rs: compile_ir, compile_globals"]}
{"id": "C123", "title": "What GraphQL accepts is generated reproducibly", "statement": "In an ordinary project whose documents GraphQL accepts, its rule on merging fields included, whose documents and imported fragments use nothing unsupported, and on a schema whose object types give the fields of their interfaces types of the same name, any two complete runs exit with status 0, leave the same files behind and print the same report, whatever their numbers of threads, schedules and orders of hash maps; a run over the result of a run leaves every file as it is; and no generated object type lists a property twice. Without the condition on the schema this fails: two orders of hash maps give different texts for a document that GraphQL accepts.", "quantifier": "all valid introspection documents that keep named types, all ordinary projects of valid and supported documents, all configurations, pairs of complete runs, numbers of threads, schedules, hash orders and palettes", "why_tests_cant": "Reproducibility must hold for every pair of hash orders and schedules, and the tests run the compiler once on fixed documents.", "anchors": ["src/graphql/ir.rs: Operation::compile", "src/typescript.rs: compile_ir, compile_globals", "src/worker_pool.rs: WorkerPool::work"]}
{"id": "C124", "title": "A rule of thumb under which generated types are right", "statement": "In an ordinary project whose documents GraphQL accepts, its merging rules included, suppose that every fragment (inline or spread) whose type condition does not cover all objects of the type around it selects only scalars, enums and __typename, while other fragments and fields may nest as they like. Then every complete run exits with status 0, however scheduled, and afterwards every document has an output file whose data type admits every response a server may give and whose variables type admits all variables a server takes, the imported names meaning what the globals file on disk says.", "quantifier": "all valid introspection documents, ordinary projects that GraphQL accepts and that follow the rule, configurations, schedules, thread counts, hash orders, responses and variables", "why_tests_cant": "Whether look-alike object types share a generated name with different contents depends on every pair of object types at every position of every document; tests fix a few documents.", "anchors": ["src/graphql/ir.rs: Operation::compile", "src/typescript.rs: compile_ir, compile_globals", "src/worker_pool.rs: WorkerPool::work"]}
{"id": "C125", "title": "How the JSON files are spelled does not matter", "statement": "The schema file and the configuration file are read as a JSON tree exactly if their bytes are a JSON document for it: UTF-8, RFC 8259, white space around the parts, any escapes, no control characters in strings, surrogates in pairs, no zeros in front, nothing after the end, and at most 127 levels of nesting. A text means one tree at most; any other text is reported as malformed. Two spellings of the same settings or the same introspection result, which may differ in white space, escapes, the order of members and members that are not read, let the program do exactly the same.", "quantifier": "all byte sequences, all JSON trees, all spellings of them, and all runs of the program", "why_tests_cant": "The grammar has infinitely many spellings of every tree; tests contain a few files written by one tool.", "anchors": ["src/graphql/schema/json.rs: Schema::try_from_reader", "src/cli.rs: ConfigFileMatches::from_file_parse"]}
{"id": "C126", "title": "A schema or configuration that was cut short is never used", "statement": "If a file holds an introspection result and the schema file holds only a beginning of it, wherever it was cut, even inside a character, then every run of the program reports a malformed schema, exits with status 1 and touches no file, unless nothing but white space at the end is missing, in which case the schema is the same. The same holds for configuration files. So a download that was broken off, although the download may end with status 0 (C86), never leads to wrong types.", "quantifier": "all files that hold a schema or settings, all beginnings of them, all downloads and all runs of the program", "why_tests_cant": "A file can be cut at every byte; tests try complete files.", "anchors": ["src/graphql/schema/json.rs: Schema::try_from_reader", "src/graphql/schema.rs: parse_schema", "src/cli.rs: ConfigFileMatches::from_file_parse", "pkg/npm/bin/qlc-download-schema"]}
{"id": "C127", "title": "Documents are read by the GraphQL grammar", "statement": "A text is read as a list of definitions exactly if it is made of GraphQL tokens, with spaces, commas, line ends, byte order marks and comments between them, and these tokens form exactly these definitions by the grammar of executable documents: operations, selection sets and fragments, at least one; selections, aliases, arguments, directives and variables as in the GraphQL specification. No text has two readings, and every other text, such as one with a brace missing, an empty selection set or a type definition, is an error.", "quantifier": "all texts, all lists of definitions, all ways to count lines and columns and all further refusals", "why_tests_cant": "A grammar is about all texts; tests parse some.", "anchors": ["src/graphql.rs: parse_query", "src/graphql/ir.rs: Operation::compile", "Cargo.toml: graphql-parser"]}
{"id": "C128", "title": "How documents are laid out does not matter", "statement": "Spaces, line breaks, commas and comments other than import lines may be changed at will: texts with the same tokens hold the same definitions, but for where these stand, or are both refused. So if documents of a project are laid out in another way, with their import lines where they were, every file still compiles to the same text with the same global types or still fails with as many errors and warnings, and a project that compiled without errors still does, to the same files with the same contents, whatever the schedules and hash orders of the two runs.", "quantifier": "all pairs of texts with the same tokens, all projects, all runs before and after", "why_tests_cant": "Formatters can change every gap between tokens in every document.", "anchors": ["src/graphql.rs: parse_query", "src/graphql/ir.rs: Operation::compile", "src/main.rs"]}
{"id": "C129", "title": "A document of which only the beginning is there is never taken for the whole", "statement": "If the beginning of the text of a document is itself accepted as a document, then it holds the first definitions of the whole, each complete. So the beginning of a document with one definition, which is what qlc compiles, is either refused or holds that definition, complete, with the same tokens: only spaces, commas and comments are missing. If only the first bytes of such a document are in its file, as while an editor or a checkout is writing it, then compiling the file fails with one message, or gives the text, global types and number of messages that the whole document gives.", "quantifier": "all documents, all numbers of bytes that have been written, all schemas and file systems", "why_tests_cant": "A document can be cut after any byte.", "anchors": ["src/graphql.rs: parse_query, read_graphql_file, parse_graphql_file, compile_file"]}
{"id": "C130", "title": "Names in documents need no care, but for those of operations and fragments", "statement": "Every response key, every variable, every named operation and every fragment of a document that qlc accepts has a GraphQL name: letters, digits and underscores, not beginning with a digit. So response keys and variables can always be written as properties in TypeScript. For a project to get right types by C124, the only things to ask of the names in its documents are that no operation or fragment is called like a reserved word or a predefined type of TypeScript, and that the types generated from it are not called like types of the schema.", "quantifier": "all document texts, all projects, all complete runs", "why_tests_cant": "Names can be any characters as far as a test knows; that all of them are harmless follows from the grammar of all documents.", "anchors": ["src/graphql.rs: parse_query", "src/typescript.rs: compile_ir"]}
{"id": "C131", "title": "From the bytes on the disk to the types", "statement": "A schema file holds, in any JSON spelling, what a server answered to the query of the download script; a configuration file, if there is one, holds settings in any spelling; the documents are GraphQL texts; qlc is started with a command line that names the schema file, with one thread. If the project is sound (its schema can be written in TypeScript, its paths do not meet, its documents are valid GraphQL without the unsupported constructs and follow the rule of thumb of C124), then the program can end, whatever the order of hash maps, if it is given enough time; and whenever it ends, it ends with status 0 and has left, for every document, a module whose data type admits every answer of the server and whose variables type admits everything the server takes. Under the conditions of C92 they admit nothing else.", "quantifier": "all servers, all spellings of the schema and configuration files, all command lines, all sound projects, all schedules, hash orders and amounts of time", "why_tests_cant": "The claim spans reading two file formats, the command line, the worker pool, code generation and the meaning of the generated text, for all inputs of each; a test exercises one such path.", "anchors": ["src/main.rs: main", "src/cli.rs: RuntimeConfig::from_cli", "src/graphql/schema.rs: parse_schema", "src/worker_pool.rs: WorkerPool::work", "src/typescript.rs: compile_ir, compile_globals"]}
{"id": "C132", "title": "Messages mark the word that they are about", "statement": "If the GraphQL parser gives lines and columns (counted by newlines and characters, from 1), then every message about a part of a document quotes the line on which that part is written, and the caret below it stands exactly under the first character of the word that the part begins with: the alias or name of a field, the name after the dots of a spread, the word `on` of an inline fragment, the dollar sign of a variable, the keyword of a definition. This holds for the error about each invalid selection, for every warning, for variables that cannot be used and for a second definition; the only errors that mark nothing are those about type conditions that name no type or an input type. With an alias, the caret is under the alias although the message names the field.", "quantifier": "all texts of documents with any layout, comments, carriage returns and nesting, all schemas, all imports, all hash orders, all invalid selections and warnings", "why_tests_cant": "where a caret lands depends on every character of the file before it; a fixture shows one layout.", "anchors": ["src/cli.rs: LocationInformation", "src/graphql.rs: parse_query", "src/graphql/ir.rs"]}
{"id": "C133", "title": "A project without subdirectories is safe with any number of threads", "statement": "If the root directory holds files only, then every run in which all workers exit is complete, whatever the number of threads and the schedule: every document has been compiled, the exit status is 0 exactly if everything is fine, and for projects without recursion every fair schedule leads to the end of the program. In particular the way of C131, from the bytes of schema, configuration and documents to right types, holds for such projects with the number of threads of the command line, of the configuration file, or of the machine. Only these projects are safe: with two threads or more every run in which all workers exit has compiled every document if and only if no document lies in a subdirectory.", "quantifier": "all projects without subdirectories, numbers of threads, schedules, hash orders, schemas, configurations; for the converse all trees and compiles that return", "why_tests_cant": "the number of schedules is unbounded, and the race of C51 needs an interleaving that tests do not meet", "anchors": ["src/worker_pool.rs: WorkerPool::work", "src/worker_pool.rs: Worker::pop_work", "src/worker_pool.rs: Work::run_dir_entry", "src/main.rs: main", "src/cli.rs: from_cli"]}
{"id": "C134", "title": "Generated files stay right when the server is upgraded safely and nothing is generated anew", "statement": "Let qlc have generated the files of a sound project (C131) from one version of a schema, and let the server then move to another version without anything being generated again. If the upgrade is safe for answers (the composite types of the old version get no further object types and lose only those that are dropped altogether, fields keep their lists and may get non-null marks or narrower object types, enums get no further values; types and fields may be added and dropped freely), then every answer of the upgraded server to a document is a value of the type on the disk. If moreover the new version takes the input of the old one (C122) and the types are exact, the upgraded server takes every value of the variables type on the disk. If the files are generated anew from the new version with exact types, every value of a new type is a value of the old one. Upgrades that only promise more (C121) or only add to types other than enums (C97) are safe; an upgrade that adds an enum value is not, and there the file on the disk rejects an answer of the server.", "quantifier": "every pair of versions, every sound project, every complete run with every number of threads and every order, every file, every answer at every depth, every object of variables", "why_tests_cant": "A test compares one answer with one generated file; that no answer of any later server version escapes the old types is a statement about all schemas, upgrades, documents and answers.", "anchors": ["src/typescript.rs: compile_ir", "src/graphql/ir.rs: Operation::compile", "src/typescript.rs: compile_globals", "src/main.rs: main"]}
{"id": "C135", "title": "Colours change nothing but colours", "statement": "If painting a text only puts style sequences (ESC [ numbers m) into it, then every message, and everything printed at the end, is the uncoloured text with style sequences put in, and the exit status is the same. A coloured text comes from at most one text without escape characters, so what a terminal shows is the uncoloured text. Typing --no-color before the other words changes nothing else: for every way in which the program can end with the words alone there is one with the option that leaves the same files and exit status and prints the same texts but for style sequences, and the other way round.", "quantifier": "every message, every list of messages, every painter that only adds style sequences, every accepted command line without the option, every world, tree, schedule and hash order", "why_tests_cant": "tests run without a terminal or with one set of messages; the claim is about all messages, command lines, schedules and painters", "anchors": ["src/cli.rs: fmt_line_encoding", "src/cli.rs: fmt_file", "src/cli.rs: print_exit_info", "src/cli.rs: from_cli"]}
{"id": "C136", "title": "Suggestions are exactly the names at most two typing mistakes away", "statement": "The help printed for an unknown field lists exactly the fields of the type, and the help for an unknown fragment exactly the fragments in scope, that can be reached from the written name by at most two typing mistakes: a character too many, a character left out, a wrong character, or two neighbouring characters swapped, in any order and at any places, one mistake possibly correcting another. If no name is so near the help makes no suggestion. The distance used is the least number of such mistakes, for all texts.", "quantifier": "all pairs of texts over any alphabet, all names in plain characters and all lists of candidates, every file with invalid selections", "why_tests_cant": "tests compare a few pairs of words; that the table computes the least number over all sequences of mistakes is a claim about all texts and all sequences", "anchors": ["src/cli.rs: similar_help_suggestions", "src/graphql/ir.rs: UnknownField"]}
{"id": "C137", "title": "A mistake in one document does not spoil the others", "statement": "After a complete run, whatever its exit status: every document for which a file can be generated, and whose output can be written, has its output file with the text generated from it, and the text is the same as in any other project that has this document and what it imports, whatever the other documents are and however many of them are faulty. A document for which none can be generated keeps its old output byte for byte. The globals file, if it can be written, declares exactly what the texts generated in this run need. So the documents generated in one run fit the globals file; an output kept from an earlier run need not: an example of two runs shows a kept output importing an enum that the second run removed from the globals file, although the first run had ended with status 0.", "quantifier": "all projects, sets of faulty documents, schedules, thread counts and hash orders", "why_tests_cant": "tests cover single faults in small projects; the claim is about every combination of sound and faulty documents under every schedule", "anchors": ["src/worker_pool.rs: work", "src/graphql.rs: compile_file, compile_global_types_file"]}
{"id": "C138", "title": "A clean checkout generates the same files as a used directory", "statement": "Take two directories that hold the same documents with the same contents but different leftovers of earlier runs: other outputs, another globals file, outputs of documents that are gone, or nothing at all. Complete runs in both, with any hash orders, numbers of threads and schedules, end with the same status and, if the globals can be generated, print the same texts. Of every output and of the globals file either both runs leave the same text or neither changes it; without an error only the globals file can be left unchanged, namely if no document uses a global. So if a run ends with status 0 anywhere, a run over a fresh copy ends with status 0 and leaves the same outputs and the same globals file. Provisos: those of C58 on hash orders and on what is read and written.", "quantifier": "all projects, all leftovers, schedules, thread counts and hash orders", "why_tests_cant": "the space of earlier histories is unbounded; tests start from a few fixed directories", "anchors": ["src/main.rs: main", "src/worker_pool.rs: work", "src/graphql.rs: compile_file, compile_global_types_file"]}
{"id": "C139", "title": "Options may be given on the command line or in the configuration file", "statement": "Every option on the command line can be moved into the configuration file, and every member of the file to the command line, without any observable difference: the two invocations have exactly the same possible outcomes, that is the same output, exit code and files. For every command line that is accepted there is a JSON configuration file saying the same. The directory to compile, the name of the configuration file and the choice of colours can only be given on the command line. A path to the schema in the file is meant relative to the file. A switch that the file turns on cannot be turned off on the command line, and a prefix for custom scalars in a file without the switch for custom scalars is dropped.", "quantifier": "every accepted command line, every configuration file, every schema, every tree of source files and every schedule", "why_tests_cant": "The equivalence is about two runs for every combination of options and all schedules; a test fixes one combination.", "anchors": ["src/cli.rs: CliArgs, ConfigFileMatches, from_file_parse, RuntimeConfig, from_cli, bottom_type_config", "src/main.rs: main"]}
{"id": "C140", "title": "Running the program tells whether checked-in outputs are up to date", "statement": "Generated files are kept under version control next to the documents. A complete run over such a checkout that ends with status 0 changes no file exactly if the outputs and the globals file that were checked in are those that a run in a clean checkout of the same project generates, whatever the hash orders, numbers of threads and schedules. So running the program and looking whether anything changed is a sound and complete check. It has two blind spots: the output of a document that was removed stays, and so does the globals file when no document uses a global any more.", "quantifier": "all projects in which inputs and outputs do not meet and whose documents generate reproducibly (C123), all contents of outputs before the run, hash orders, numbers of threads and schedules", "why_tests_cant": "It compares two runs over all contents of earlier outputs and all schedules; a test compares one checkout with one run.", "anchors": ["src/main.rs: main", "src/worker_pool.rs: work", "src/graphql.rs: compile_file, compile_global_types_file"]}
{"id": "C141", "title": "Asking for deprecation warnings changes nothing but these warnings", "statement": "Whatever the program can do with --show-deprecation-warnings it can do without it, and conversely (with the same hash orders and the same schedule): the same files everywhere afterwards, the same exit status, and the same messages in the same order apart from the warnings about deprecated fields, all of which are missing without the option. This also holds of runs that fail.", "quantifier": "all command lines, configuration files that do not ask for the warnings themselves, schemas, directories, documents, file system states and errors, hash orders, numbers of threads and schedules", "why_tests_cant": "It compares two runs for every input and every schedule; a test compares one project under one schedule.", "anchors": ["src/cli.rs: show_deprecation_warnings, print_exit_info", "src/graphql/ir.rs: DeprecatedFieldUse", "src/worker_pool.rs: work", "src/graphql.rs: compile_file"]}
{"id": "C142", "title": "Options about style change nothing but the style", "statement": "Marking properties readonly, the spelling of custom scalars (any, own names, own names with a prefix) and the names of the two imported modules change nothing else. Whatever the document, compiling it under two settings that differ only in these ends in the same way: with the same messages, or with the same warnings, the same globals and the same file, printed with the markers, the scalar names and the module names that are set. If a whole run ends with status 0 then so does every run over the same directory with other styles, whatever the schedules, every document has the same output up to style in both, and the globals files declare the same types.", "quantifier": "all pairs of settings that differ only in style, documents, schemas, file system states; for whole runs all directories, hash orders, numbers of threads and schedules", "why_tests_cant": "It compares two runs for every document and every pair of settings; tests pin the output of single documents under single settings.", "anchors": ["src/typescript.rs: compile_ir, compile_custom_scalar_name, compile_imports", "src/typescript/field.rs", "src/graphql.rs: compile_file, CompileConfig", "src/cli.rs: disable_readonly_types, use_custom_scalars, custom_scalar_prefix"]}
{"id": "C143", "title": "A project whose documents ask for the same data generates the same files", "statement": "Take two states of a project over the same file tree, perhaps with two schemas, in which every document keeps its name and variables and asks for the same data (for example because documents were tidied: selections reordered, fragments written out or extracted, repetitions and unneeded imports removed). If runs over both states end with exit status 0, then every output file holds the same text after both, the same global types are used, and, if the schemas describe enums and input objects alike, the globals file is the same too, whatever the hash orders, schedules and numbers of threads.", "quantifier": "all pairs of project states and schemas whose documents ask for the same data, all directory trees, hash orders, schedules and numbers of threads", "why_tests_cant": "tests compare the outputs of a few rewritten documents in one run; the claim is about every rewriting of every project under every schedule", "anchors": ["src/graphql.rs: compile_file", "src/graphql/ir.rs: Operation", "src/typescript.rs: compile_ir, compile_globals", "src/worker_pool.rs: WorkerPool"]}
{"id": "C144", "title": "Adding documents to a project only adds declarations to the globals file", "statement": "Let all documents of one project be documents of another, with the same text and the same imported files. If runs over both end with exit status 0, then every document of the smaller project has the same output after both, every global type used in the smaller project is used in the larger one, and, if the smaller project uses a global type at all, the globals file of the larger project contains all declarations of the smaller one's, word for word and in the same order, whatever the hash orders, schedules and numbers of threads.", "quantifier": "all pairs of projects of which one contains the other, all schemas, directory trees, hash orders, schedules and numbers of threads", "why_tests_cant": "tests look at one globals file of one project; the claim compares the files of every pair of projects, one a part of the other, under every schedule", "anchors": ["src/graphql.rs: compile_file", "src/graphql.rs: compile_global_types_file", "src/typescript.rs: compile_globals", "src/worker_pool.rs: WorkerPool"]}
{"id": "C145", "title": "Outputs of removed documents stay, and removing documents only removes declarations from the globals file", "statement": "Let a run end with exit status 0, then let documents be removed (and perhaps other files edited, but no generated ones), and let the program run again. The program deletes nothing: however the second run ends, the outputs of the removed documents still hold what was generated from them, and if no document that is left uses a global type, the old globals file is still there. If the second run ends with status 0 and the documents that are left read no edited file, their outputs are as before, and if one of them uses a global type, the globals file holds a part of its former declarations, word for word and in the same order: those of the types the remaining documents reach. So an output of a removed document may import a type that the globals file no longer declares.", "quantifier": "all projects, all sets of removed documents and edits to files that are not generated, all schemas, hash orders, schedules and numbers of threads of both runs", "why_tests_cant": "tests run the program on one directory, usually a fresh one; the claim is about every history of two runs with any documents removed in between", "anchors": ["src/graphql.rs: compile_file", "src/graphql.rs: compile_global_types_file", "src/typescript.rs: compile_globals", "src/worker_pool.rs: WorkerPool"]}
{"id": "C146", "title": "The order in which an operation declares its variables does not matter", "statement": "If an operation whose variables have different names is compiled, then so is every operation that declares the same variables in another order, with other default values or other directives on the operation: the generated text is the same, the same global types are used, and the same warnings are given. Likewise, if runs over two states of a project that differ in this way only both end with exit status 0, they leave the same text in every output and the same globals file. If the run over the first state ends with exit status 0, so does the run over the second, provided that its outputs can be written. For variables of one name, which GraphQL forbids but the program accepts, the order does matter.", "quantifier": "all operations, orders of their variables, default values, fragments in scope, schemas, options and hash orders", "why_tests_cant": "tests compile one order of the variables of a few operations; the claim is about every order of every list of variables", "anchors": ["src/graphql/variable.rs: try_build_variable_ir", "src/typescript.rs: compile_variables_type_definition, compile_variable_type_name", "src/graphql/ir.rs: Operation"]}
{"id": "C147", "title": "What the globals file says about a type depends on nothing but the schema's description of that type", "statement": "Take any two runs with the same options, of whatever projects and with whatever schemas, that both end with exit status 0 and use a global type. A type that both schemas describe alike and that both globals files declare is declared in both by the same words, whatever else is in the schemas, whichever documents use it, and whatever the hash orders, schedules and numbers of threads. So when a schema changes, regenerating changes only the declarations of the types that changed.", "quantifier": "all pairs of projects, schemas, used names, hash orders, schedules and numbers of threads", "why_tests_cant": "tests compare one globals file with a stored one; the claim relates the globals files of all pairs of projects and schemas", "anchors": ["src/graphql.rs: compile_global_types_file", "src/typescript.rs: compile_globals, input_def_from_type, enum_def_from_type"]}
